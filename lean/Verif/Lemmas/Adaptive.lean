import Verif.Spec.Adaptive
import Verif.Lemmas.Temporaries
/-
Adaptive implementations do what the calls they make do.
-/
namespace SerRaw

section
variable {C : Cfg} {k : Kind}

/-- Only the first part decides what is run afterwards. -/
theorem bind_congr_at {α β : Type} {x : M Ser α} {f g : α → M Ser β} {s : Ser} (h : ∀ a s1, x s = .ok a s1 → f a s1 = g a s1) :
    (x >>= f) s = (x >>= g) s := by
  rw [bind_def, bind_def]
  cases hx : x s with
  | ok a s1 => exact h a s1 hx
  | _ => rfl

theorem bind_congr_first {α β : Type} {x y : M Ser α} {f g : α → M Ser β} {s : Ser} (e : x s = y s) (h : ∀ a s1, y s = .ok a s1 → f a s1 = g a s1) :
    (x >>= f) s = (y >>= g) s := by
  rw [bind_def, bind_def, e]
  cases hx : y s with
  | ok a s1 => exact h a s1 hx
  | _ => rfl

/-- `pos_for` returns, or its arithmetic overflows in a build that checks it. -/
theorem posFor_cases (C : Cfg) (m : PosMapping) (x : Nat) (s : Ser) :
    (∃ p, (m.posForAddr C.arch x : M Ser Nat) s = .ok p s) ∨ (C.arch.debug = true ∧ (m.posForAddr C.arch x : M Ser Nat) s = .panic .arith s) := by
  have add : ∀ a b, (∃ p, (uadd C.arch a b : M Ser Nat) s = .ok p s) ∨ (C.arch.debug = true ∧ (uadd C.arch a b : M Ser Nat) s = .panic .arith s) := by
    intro a b
    unfold uadd
    split
    · exact .inl ⟨_, rfl⟩
    · split
      · exact .inr ⟨by assumption, rfl⟩
      · exact .inl ⟨_, rfl⟩
  have sub : (∃ p, (usub C.arch x m.inputAddr : M Ser Nat) s = .ok p s) ∨
      (C.arch.debug = true ∧ (usub C.arch x m.inputAddr : M Ser Nat) s = .panic .arith s) := by
    unfold usub
    split
    · exact .inl ⟨_, rfl⟩
    · split
      · exact .inr ⟨by assumption, rfl⟩
      · exact .inl ⟨_, rfl⟩
  unfold PosMapping.posForAddr
  rcases sub with ⟨p, e⟩ | ⟨hd, e⟩
  · rw [bind_ok e]
    exact add _ _
  · exact .inr ⟨hd, by rw [bind_def, e]⟩

/-- Overflow is not checked, or nothing is asked of `pos_for`, or its arithmetic does not overflow. -/
def Answered (C : Cfg) {α : Type} (no : Prop) (o : Out Ser α) : Prop := C.arch.debug = false ∨ no ∨ ∀ s', o ≠ .panic .arith s'

theorem Answered.mono {α : Type} {no no' : Prop} {o : Out Ser α} (h : Answered C no o) (hn : no → no') : Answered C no' o := h.imp id (·.imp hn id)

theorem Answered.rest {α β : Type} {no : Prop} {x : M Ser α} {f : α → M Ser β} {s : Ser} (h : Answered C no ((x >>= f) s)) {a : α} {s1 : Ser}
    (e : x s = .ok a s1) : Answered C no (f a s1) := by
  rw [bind_ok e] at h
  exact h

theorem Answered.first {α β : Type} {no : Prop} {x : M Ser α} {f : α → M Ser β} {s : Ser} (h : Answered C no ((x >>= f) s)) :
    Answered C no (x s) := by
  refine h.imp id (·.imp id fun h s' e => h s' ?_)
  rw [bind_def, e]

theorem capturing_steps {α : Type} (sl : Slice) (ptr : Nat) (x : M Ser α) (s : Ser) :
    pushAndProcessCapturing C k sl ptr x s = (Ser.lift (Sto.pushSlice C sl.L sl.len sl.data) >>= fun pos =>
      enter C k sl ptr s.map pos >>= fun _ => x >>= fun r => leave k s.map >>= fun _ => pure (pos, r)) s := by
  cases k with
  | pureCopy => rfl
  | posTracking =>
    simp only [pushAndProcessCapturing]
    rw [bind_ok (show Ser.getMap s = .ok s.map s from rfl)]
    rfl
  | ptrOffset =>
    simp only [pushAndProcessCapturing]
    rw [bind_ok (show Ser.getMap s = .ok s.map s from rfl)]
    simp only [enter, leave, bind_assoc_M]
  | complete =>
    simp only [pushAndProcessCapturing]
    rw [bind_ok (show Ser.getMap s = .ok s.map s from rfl)]
    simp only [enter, leave, bind_assoc_M]

/-- A result that nobody looks at. -/
def void {α : Type} (x : M Ser α) : M Ser Unit := do
  let _ ← x
  pure ()

theorem void_bind {α β : Type} (x : M Ser α) (f : M Ser β) : (void x >>= fun _ => f) = (x >>= fun _ => f) := by
  unfold void
  rw [bind_assoc_M]
  rfl

theorem capturing_fst {α : Type} (sl : Slice) (ptr : Nat) (y : M Ser α) (s : Ser) :
    (pushAndProcessCapturing C k sl ptr y >>= fun r => pure r.1) s = pushAndProcessSlice C k sl ptr (void y) s := by
  rw [pushAndProcessSlice_steps, bind_def, capturing_steps, ← bind_def]
  simp only [bind_assoc_M, void]
  rfl

/-- The result is used in both ways. -/
theorem bind_congr_map {α β γ : Type} {x : M Ser α} {y : M Ser γ} {f : α → M Ser β} {h : γ → M Ser β} {g : γ → α} {s : Ser}
    (e : x s = (y >>= fun r => pure (g r)) s) (e' : ∀ r s1, y s = .ok r s1 → f (g r) s1 = h r s1) : (x >>= f) s = (y >>= h) s := by
  rw [bind_def, e, bind_def, bind_def]
  cases hy : y s with
  | ok r s1 => exact e' r s1 hy
  | _ => rfl

theorem pushProcess_congr {no : Prop} {sl : Slice} {ptr : Nat} {α : Type} {x : M Ser Unit} {y : M Ser α} {s : Ser}
    (ha : Answered C no (pushAndProcessCapturing C k sl ptr y s))
    (h : ∀ s1, startOf (pushAndProcessSlice C k sl ptr) s = some s1 → Answered C no (y s1) → x s1 = void y s1) :
    pushAndProcessSlice C k sl ptr x s = (pushAndProcessCapturing C k sl ptr y >>= fun r => pure r.1) s := by
  rw [capturing_fst]
  unfold startOf at h
  rw [pushAndProcessSlice_steps] at h
  rw [capturing_steps] at ha
  rw [pushAndProcessSlice_steps, pushAndProcessSlice_steps]
  refine bind_congr_at fun p s1 h1 => bind_congr_at fun u s2 h2 => ?_
  rw [bind_ok h1, bind_ok h2] at h
  have h3 : x s2 = void y s2 := h s2 rfl ((ha.rest h1).rest h2).first
  rw [bind_def, bind_def, h3]

theorem serializeValue_congr {no : Prop} {L : Layout} {a : Nat} {d : Nat → Cell} {x y : M Ser Unit} {s : Ser} (ha : Answered C no (serializeValue C k L a d y s))
    (h : ∀ s1, startOf (serializeValue C k L a d) s = some s1 → Answered C no (y s1) → x s1 = y s1) :
    serializeValue C k L a d x s = serializeValue C k L a d y s := by
  have track : Answered C no (PosTracking.doSerializeValue C L a d y s) →
      (∀ s1, startOf (PosTracking.doSerializeValue C L a d) s = some s1 → Answered C no (y s1) → x s1 = y s1) →
      PosTracking.doSerializeValue C L a d x s = PosTracking.doSerializeValue C L a d y s := by
    intro ha h
    unfold startOf PosTracking.doSerializeValue at h
    unfold PosTracking.doSerializeValue at ha ⊢
    refine bind_congr_at fun p s1 h1 => bind_congr_at fun u s2 h2 => ?_
    rw [bind_ok h1, bind_ok h2] at h
    have h3 : x s2 = y s2 := h s2 rfl ((ha.rest h1).rest h2).first
    rw [bind_def, bind_def, h3]
  cases k with
  | pureCopy =>
    unfold startOf serializeValue at h
    unfold serializeValue at ha ⊢
    refine bind_congr_at fun p s1 h1 => ?_
    simp only at h
    rw [bind_ok h1] at h
    have h3 : x s1 = y s1 := h s1 rfl (ha.rest h1).first
    rw [bind_def, bind_def, h3]
  | posTracking => exact track ha h
  | ptrOffset => exact track ha h
  | complete => exact track ha h

/-! ### Recorded calls -/

theorem void_after {α β : Type} (x : M Ser α) (f : α → M Ser β) : void (x >>= f) = (x >>= fun a => void (f a)) := by
  unfold void
  rw [bind_assoc_M]

theorem made_run (b : Adaptive) (s : Ser) (h : Answered C b.NoPosFor (b.run C k s)) : (b.made C k s).run C k s = void (b.run C k) s := by
  induction b generalizing s with
  | done out => rfl
  | look f ih => exact ih s s (h.mono fun h => h s)
  | lookPos f ih => exact ih _ s (h.mono fun h => h _)
  | lookFor x f ih =>
    have h : Answered C False (((s.map.posForAddr C.arch x : M Ser Nat) >>= fun p => (f p).run C k) s) := h
    show _ = void ((s.map.posForAddr C.arch x : M Ser Nat) >>= fun p => (f p).run C k) s
    rw [void_after]
    simp only [Adaptive.made]
    rcases posFor_cases C s.map x s with ⟨p, e⟩ | ⟨hd, e⟩
    · rw [e, bind_ok e]
      exact ih p s ((h.rest e).mono False.elim)
    · rcases h with h | h | h
      · rw [hd] at h; cases h
      · exact h.elim
      · exact (h s (by rw [bind_def, e])).elim
  | pushProcess L len src data ptr inner rest ih1 ih2 =>
    simp only [Adaptive.made, Adaptive.run, TCalls.run] at h ⊢
    rw [void_after]
    have e : pushAndProcessSlice C k ⟨L, len, src, data⟩ (addrFromRef k ptr)
        ((match startOf (pushAndProcessSlice C k ⟨L, len, src, data⟩ (addrFromRef k ptr)) s with
          | some s1 => inner.made C k s1
          | none => .done).run C k) s =
        (pushAndProcessCapturing C k ⟨L, len, src, data⟩ (addrFromRef k ptr) (inner.run C k) >>= fun r => pure r.1) s := by
      refine pushProcess_congr h.first fun s1 h1 ha => ?_
      rw [h1]
      exact ih1 s1 (ha.mono fun h => h.1)
    refine bind_congr_map (f := fun _ => _) e fun r s1 h1 => ?_
    rw [h1]
    exact ih2 r.1 r.2 s1 ((h.rest h1).mono fun h => h.2 r.1 r.2)
  | push L len src data ptr rest ih =>
    simp only [Adaptive.made, Adaptive.run, TCalls.run] at h ⊢
    rw [void_after]
    refine bind_congr_at fun p s1 h1 => ?_
    rw [h1]
    exact ih p s1 ((h.rest h1).mono fun h => h p)
  | pushRaw L len src data rest ih =>
    simp only [Adaptive.made, Adaptive.run, TCalls.run] at h ⊢
    rw [void_after]
    refine bind_congr_at fun p s1 h1 => ?_
    rw [h1]
    exact ih p s1 ((h.rest h1).mono fun h => h p)
  | pushRawBytes len data rest ih =>
    simp only [Adaptive.made, Adaptive.run, TCalls.run] at h ⊢
    rw [void_after]
    refine bind_congr_at fun p s1 h1 => ?_
    rw [h1]
    exact ih p s1 ((h.rest h1).mono fun h => h p)
  | overwrite addr L data rest ih =>
    simp only [Adaptive.made, Adaptive.run, TCalls.run] at h ⊢
    rw [void_after]
    refine bind_congr_at fun p s1 h1 => ?_
    rw [h1]
    exact ih s1 (h.rest h1)

theorem made_values (c : Caller) (s : Ser) (h : Answered C c.NoPosFor (c.run C k s)) : tempValues C k (c.made C k s) s = c.run C k s := by
  induction c generalizing s with
  | finish => rfl
  | value L a data body rest ih =>
    simp only [Caller.made, Caller.run, tempValues, TRoot.ser] at h ⊢
    have e : serializeValue C k L a data
        ((match startOf (serializeValue C k L a data) s with
          | some s1 => body.made C k s1
          | none => .done).run C k) s = serializeValue C k L a data (void (body.run C k)) s := by
      refine serializeValue_congr h.first fun s1 h1 ha => ?_
      rw [h1]
      exact made_run body s1 (ha.first.mono fun h => h.1)
    refine bind_congr_first e fun p s1 h1 => ?_
    rw [h1]
    exact bind_congr_first (ih p s1 ((h.rest h1).first.mono fun h => h.2 p)) fun _ _ _ => rfl

theorem made_session (c : Caller) (s : Ser) (h : Answered C c.NoPosFor (callerSession C k c s)) :
    tempSession C k (c.made C k s) s = callerSession C k c s := by
  unfold tempSession callerSession at *
  exact bind_congr_first (made_values c s h.first) fun _ _ _ => rfl

/-! ### Planned calls -/

/-- The calls push real slices. -/
def TCalls.Slices (C : Cfg) : TCalls → Prop
  | .done => True
  | .pushProcess L len src _ _ inner rest => PushOK C L len src ∧ inner.Slices C ∧ rest.Slices C
  | .push L len src _ _ rest => PushOK C L len src ∧ rest.Slices C
  | .pushRaw L len src _ rest => PushOK C L len src ∧ rest.Slices C
  | .pushRawBytes len _ rest => len ≤ C.arch.isizeMax ∧ rest.Slices C
  | .overwrite _ _ _ rest => rest.Slices C

theorem TCalls.WF.slices {c : TCalls} {x : Ctx} (h : c.WF C x) : c.Slices C := by
  induction c generalizing x with
  | done => trivial
  | pushProcess _ _ _ _ _ _ _ ih1 ih2 => exact ⟨h.1, ih1 h.2.2.2.1, ih2 h.2.2.2.2⟩
  | push _ _ _ _ _ _ ih => exact ⟨h.1, ih h.2.2.2⟩
  | pushRaw _ _ _ _ _ ih => exact ⟨h.1, ih h.2⟩
  | pushRawBytes _ _ _ ih => exact ⟨h.1, ih h.2⟩
  | overwrite _ _ _ _ ih => exact ih h.2

/-- Both do the same, and when they return, they return `v` in a state as `P` says. -/
def SameTo {α : Type} (v : α) (P : Ser → Prop) (o o' : Out Ser α) : Prop := o = o' ∧ ∀ a s', o' = .ok a s' → a = v ∧ P s'

theorem SameTo.bind {α β : Type} {x y : M Ser α} {f g : α → M Ser β} {s : Ser} {v : α} {w : β} {P Q : Ser → Prop} (h : SameTo v P (x s) (y s))
    (h' : ∀ s1, P s1 → SameTo w Q (f v s1) (g v s1)) : SameTo w Q ((x >>= f) s) ((y >>= g) s) := by
  rw [bind_def, bind_def, h.1]
  have h2 := h.2
  cases hx : y s with
  | ok a s1 =>
    obtain ⟨rfl, h3⟩ := h2 _ _ hx
    exact h' s1 h3
  | _ => exact ⟨rfl, by intro a s' h; cases h⟩

theorem SameTo.done {α : Type} {v : α} {P : Ser → Prop} {s : Ser} (h : P s) : SameTo v P ((pure v : M Ser α) s) ((pure v : M Ser α) s) :=
  ⟨rfl, fun a s' e => by cases e; exact ⟨rfl, h⟩⟩

/-- The first does what the second does; the results, when they return, are `v` and `w`, and the state is as `P` says. -/
def Follows {α β : Type} (v : α) (w : β) (P : Ser → Prop) (o : Out Ser α) : Out Ser β → Prop
  | .ok b s' => b = w ∧ P s' ∧ o = .ok v s'
  | .panic c s' => o = .panic c s'
  | .abort => o = .abort
  | .ub => o = .ub
  | .fuel => o = .fuel

theorem SameTo.follows {α : Type} {v : α} {P : Ser → Prop} {o o' : Out Ser α} (h : SameTo v P o o') : Follows v v P o o' := by
  obtain ⟨rfl, h⟩ := h
  cases o with
  | ok a s' =>
    obtain ⟨rfl, h1⟩ := h a s' rfl
    exact ⟨rfl, h1, rfl⟩
  | _ => exact rfl

theorem Follows.bind {α α' β β' : Type} {x : M Ser α} {y : M Ser α'} {f : α → M Ser β} {g : α' → M Ser β'} {s : Ser} {v : α} {v' : α'} {w : β} {w' : β'}
    {P Q : Ser → Prop} (h : Follows v v' P (x s) (y s)) (h' : ∀ s1, P s1 → Follows w w' Q (f v s1) (g v' s1)) :
    Follows w w' Q ((x >>= f) s) ((y >>= g) s) := by
  rw [bind_def, bind_def]
  cases hy : y s with
  | ok b s1 =>
    rw [hy] at h
    obtain ⟨rfl, h1, h2⟩ := h
    rw [h2]
    exact h' s1 h1
  | _ =>
    rw [hy] at h
    have h : x s = _ := h
    rw [h]
    exact rfl

theorem Follows.done {α β : Type} {v : α} {w : β} {P : Ser → Prop} {s : Ser} (h : P s) : Follows v w P ((pure v : M Ser α) s) ((pure w : M Ser β) s) :=
  ⟨rfl, h, rfl⟩

theorem Follows.void {β : Type} {x : M Ser Unit} {y : M Ser β} {s : Ser} {w : β} {P : Ser → Prop} (h : Follows () w P (x s) (y s)) :
    SameTo () P (x s) (void y s) := by
  unfold SerRaw.void
  rw [bind_def]
  cases hy : y s with
  | ok b s1 =>
    rw [hy] at h
    exact ⟨h.2.2, fun _ s' e => by cases e; exact ⟨rfl, h.2.1⟩⟩
  | _ =>
    rw [hy] at h
    exact ⟨h, nofun⟩

/-- The storage is consistent, its end is at `q`, and where positions are tracked, the value being processed is at `ia` in the input and `op` in the
output. -/
structure At (C : Cfg) (k : Kind) (ia op q : Nat) (s : Ser) : Prop where
  inv : s.sto.Inv C
  pos : s.sto.vec.pos = q
  map : k ≠ .pureCopy → s.map = ⟨ia, op⟩

theorem At.still {ia op q : Nat} {s : Ser} (h : At C k ia op q s) {x : M Ser Unit} (hx : (serStill C).Holds x) :
    SameTo () (At C k ia op q) (x s) (x s) := by
  refine ⟨rfl, fun a s' e => ⟨rfl, ?_⟩⟩
  have h1 := hx s
  rw [e] at h1
  exact ⟨h1.2.2 h.inv, h1.2.1 ▸ h.pos, fun hk => h1.1.trans (h.map hk)⟩

theorem At.push (hC : C.OK) {ia op q : Nat} {s : Ser} (h : At C k ia op q s) {L : Layout} {len src : Nat} (ho : PushOK C L len src)
    (hne : 0 < len ∨ 0 < q) (data : Nat → Cell) :
    SameTo (roundUp q L.align) (At C k ia op (roundUp (roundUp q L.align + L.size * len) C.valueAlign))
      (Ser.lift (Sto.pushSlice C L len data) s) (Ser.lift (Sto.pushSlice C L len data) s) := by
  refine ⟨rfl, fun p s1 h1 => ?_⟩
  obtain rfl := h.pos
  rcases push_cases hC ho h.inv hne data with ⟨p', t, h2, h3, -⟩ | ⟨h2, -⟩ | ⟨h2, -⟩
  · rw [h2] at h1
    cases h1
    exact ⟨h3.pos_eq, h3.inv, h3.pos_eq ▸ h3.end_eq, h.map⟩
  · rw [h2] at h1; cases h1
  · rw [h2] at h1; cases h1

theorem At.enter {ia op q : Nat} {s : Ser} (h : At C k ia op q s) (sl : Slice) (ptr : Nat) (b : PosMapping) (p : Nat) :
    SameTo () (At C k sl.addr p q) (enter C k sl ptr b p s) (enter C k sl ptr b p s) := by
  refine ⟨rfl, fun a s' e => ⟨rfl, ?_⟩⟩
  have h1 := seq_enter (C := C) (k := k) sl ptr b p s
  rw [e] at h1
  refine ⟨h1.2 h.inv, h1.1 ▸ h.pos, ?_⟩
  have tail : ∀ {x : M Ser Nat} {f : Nat → M Ser Unit} , (x >>= fun y => f y >>= fun _ => Ser.setMap ⟨sl.addr, p⟩) s = .ok a s' → s'.map = ⟨sl.addr, p⟩ := by
    intro x f e
    rw [bind_def] at e
    cases hx : x s with
    | ok y s1 =>
      rw [hx] at e
      simp only at e
      rw [bind_def] at e
      cases hy : f y s1 with
      | ok z s2 => rw [hy] at e; cases e; rfl
      | _ => rw [hy] at e; cases e
    | _ => rw [hx] at e; cases e
  cases k with
  | pureCopy => exact fun hk => (hk rfl).elim
  | posTracking => intro _; cases e; rfl
  | ptrOffset => exact fun _ => tail e
  | complete => exact fun _ => tail e

theorem At.leave {ia op ia' op' q : Nat} {s : Ser} (h : At C k ia op q s) {b : PosMapping} (hb : k ≠ .pureCopy → b = ⟨ia', op'⟩) :
    SameTo () (At C k ia' op' q) (leave k b s) (leave k b s) := by
  refine ⟨rfl, fun a s' e => ⟨rfl, ?_⟩⟩
  cases k with
  | pureCopy => cases e; exact ⟨h.inv, h.pos, fun hk => (hk rfl).elim⟩
  | posTracking => cases e; exact ⟨h.inv, h.pos, hb⟩
  | ptrOffset => cases e; exact ⟨h.inv, h.pos, hb⟩
  | complete => cases e; exact ⟨h.inv, h.pos, hb⟩

theorem end_le (hC : C.OK) (p n : Nat) {L : Layout} (hL : Pow2 L.align) : p ≤ roundUp (roundUp p L.align + n) C.valueAlign ∧
    roundUp p L.align + n ≤ roundUp (roundUp p L.align + n) C.valueAlign := by
  have h1 := le_roundUp p hL.pos
  have h2 := le_roundUp (roundUp p L.align + n) hC.facts.va.pos
  omega

theorem plan_le (hC : C.OK) (b : Adaptive) {ia op q : Nat} (hw : (b.plan C.valueAlign ia op q).1.Slices C) : q ≤ (b.plan C.valueAlign ia op q).2.1 := by
  induction b generalizing ia op q with
  | done => exact Nat.le_refl _
  | look f _ => exact Nat.le_refl _
  | lookPos f ih => exact ih _ hw
  | lookFor x f ih => exact ih _ hw
  | pushProcess L len src data ptr inner rest ih1 ih2 =>
    exact Nat.le_trans (end_le hC q (L.size * len) hw.1.pow2).1 (Nat.le_trans (ih1 hw.2.1) (ih2 _ _ hw.2.2))
  | push L len src data ptr rest ih => exact Nat.le_trans (end_le hC q (L.size * len) hw.1.pow2).1 (ih _ hw.2)
  | pushRaw L len src data rest ih => exact Nat.le_trans (end_le hC q (L.size * len) hw.1.pow2).1 (ih _ hw.2)
  | pushRawBytes len data rest ih =>
    refine Nat.le_trans ?_ (ih _ hw.2)
    have := le_roundUp (q + len) hC.facts.va.pos
    omega
  | overwrite addr L data rest ih => exact ih hw

theorem plan_run (hC : C.OK) (b : Adaptive) (hb : b.Blind) (hk : k = .pureCopy → b.NoPosFor) {s : Ser} {ia sz op q : Nat} (hs : At C k ia op q s)
    (hp : 0 < q) (hle : op + sz ≤ q) (hw : (b.plan C.valueAlign ia op q).1.Slices C) (hi : b.Inside C.valueAlign ia sz op q) :
    Follows () (b.plan C.valueAlign ia op q).2.2 (At C k ia op (b.plan C.valueAlign ia op q).2.1) ((b.plan C.valueAlign ia op q).1.run C k s) (b.run C k s) := by
  induction b generalizing s ia sz op q with
  | done out => exact Follows.done hs
  | look f _ => exact hb.elim
  | lookPos f ih =>
    have e : (Adaptive.lookPos f).run C k s = (f q).run C k s := by simp only [Adaptive.run]; rw [hs.pos]
    rw [e]
    exact ih _ (hb _) (fun h => hk h _) hs hp hle hw hi
  | lookFor x f ih =>
    have hk' : k ≠ .pureCopy := fun h => hk h
    have hq : q < C.arch.usizeMod := by
      have h1 := hs.pos
      have h2 := hs.inv.pos_le
      have h3 := hs.inv.cap_le
      have h4 := hC.facts.max_lt
      omega
    have e : (Adaptive.lookFor x f).run C k s = (f (outPos ia op x)).run C k s := by
      show ((s.map.posForAddr C.arch x : M Ser Nat) >>= fun p => (f p).run C k) s = _
      rw [hs.map hk']
      have h1 := hi.1
      have h2 := hi.2.1
      exact bind_ok (posForAddr_ok C.arch h1 (by omega) s)
    rw [e]
    exact ih _ (hb _) (fun h => (hk' h).elim) hs hp hle hw hi.2.2
  | pushProcess L len src data ptr inner rest ih1 ih2 =>
    obtain ⟨ho, w1, w2⟩ := hw
    have hp1 := end_le hC q (L.size * len) ho.pow2
    have hp2 := plan_le hC inner w1
    simp only [Adaptive.run, Adaptive.plan, TCalls.run]
    refine Follows.bind (v := roundUp q L.align)
      (v' := (roundUp q L.align, (inner.plan C.valueAlign src (roundUp q L.align) (roundUp (roundUp q L.align + L.size * len) C.valueAlign)).2.2))
      (P := At C k ia op (inner.plan C.valueAlign src (roundUp q L.align) (roundUp (roundUp q L.align + L.size * len) C.valueAlign)).2.1) ?_ fun s1 e1 =>
        ih2 _ _ (hb.2 _ _) (fun h => (hk h).2 _ _) e1 (by omega) (by omega) w2 hi.2
    rw [pushAndProcessSlice_steps, capturing_steps]
    exact (hs.push hC ho (.inr hp) data).follows.bind fun s1 e1 => (e1.enter ⟨L, len, src, data⟩ _ _ _).follows.bind fun s2 e2 =>
      (ih1 hb.1 (fun h => (hk h).1) e2 (by omega) hp1.2 w1 hi.1).bind fun s3 e3 => (e3.leave hs.map).follows.bind fun s4 e4 => Follows.done e4
  | push L len src data ptr rest ih =>
    obtain ⟨ho, w⟩ := hw
    have hp1 := end_le hC q (L.size * len) ho.pow2
    simp only [Adaptive.run, Adaptive.plan, TCalls.run]
    refine Follows.bind (v := roundUp q L.align) (v' := roundUp q L.align)
      (P := At C k ia op (roundUp (roundUp q L.align + L.size * len) C.valueAlign)) ?_ fun s1 e1 =>
        ih _ (hb _) (fun h => hk h _) e1 (by omega) (by omega) w hi
    rw [pushSlice_steps]
    exact SameTo.follows ((hs.push hC ho (.inr hp) data).bind fun s1 e1 => (e1.still (still_link _ _)).bind fun s2 e2 => SameTo.done e2)
  | pushRaw L len src data rest ih =>
    obtain ⟨ho, w⟩ := hw
    have hp1 := end_le hC q (L.size * len) ho.pow2
    simp only [Adaptive.run, Adaptive.plan, TCalls.run]
    exact Follows.bind (hs.push hC ho (.inr hp) data).follows fun s1 e1 => ih _ (hb _) (fun h => hk h _) e1 (by omega) (by omega) w hi
  | pushRawBytes len data rest ih =>
    obtain ⟨ho, w⟩ := hw
    have e := hs.push hC (bytes_ok hC (src := 0) ho) (.inr hp) data
    simp only [Nat.one_mul] at e
    rw [roundUp_eq_of_dvd (by omega) (Nat.one_dvd _)] at e
    have hp1 := le_roundUp (q + len) hC.facts.va.pos
    simp only [Adaptive.run, Adaptive.plan, TCalls.run]
    exact Follows.bind (SameTo.follows e) fun s1 e1 => ih _ (hb _) (fun h => hk h _) e1 (by omega) (by omega) w hi
  | overwrite addr L data rest ih =>
    simp only [Adaptive.run, Adaptive.plan, TCalls.run]
    exact (hs.still (serStill_overwriteWith _ _ _)).follows.bind fun s1 e1 => ih hb hk e1 hp hle hw hi

theorem plan_values (hC : C.OK) (c : Caller) (hb : c.Blind) (hk : k = .pureCopy → c.NoPosFor) {s : Ser} {q : Nat} (hs : s.sto.Inv C) (hq : s.sto.vec.pos = q)
    (hw : ∀ r ∈ c.plan C.valueAlign q, r.OK C) (hi : c.Inside C.valueAlign q) : tempValues C k (c.plan C.valueAlign q) s = c.run C k s := by
  induction c generalizing s q with
  | finish => rfl
  | value L a data body rest ih =>
    have h0 := hw _ List.mem_cons_self
    have ho := h0.1
    have hp1 := end_le hC q L.size ho.pow2
    have hp2 : L.size ≠ 0 := ho.size_ne
    have hp3 : 0 < roundUp (roundUp q L.align + L.size) C.valueAlign := Nat.lt_of_lt_of_le (by omega) hp1.2
    have h1 : At C k s.map.inputAddr s.map.outputPos q s := ⟨hs, hq, fun _ => rfl⟩
    have push := h1.push hC ho (.inl (by decide)) data
    simp only [Nat.mul_one] at push
    simp only [Caller.run, Caller.plan, tempValues, TRoot.ser]
    have e : SameTo (roundUp q L.align)
        (fun s' => s'.sto.Inv C ∧ s'.sto.vec.pos = (body.plan C.valueAlign a (roundUp q L.align) (roundUp (roundUp q L.align + L.size) C.valueAlign)).2.1)
        (serializeValue C k L a data ((body.plan C.valueAlign a (roundUp q L.align) (roundUp (roundUp q L.align + L.size) C.valueAlign)).1.run C k) s)
        (serializeValue C k L a data (void (body.run C k)) s) := by
      have run : ∀ s2, At C k a (roundUp q L.align) (roundUp (roundUp q L.align + L.size) C.valueAlign) s2 → _ := fun s2 e2 =>
        (plan_run hC body hb.1 (fun h => (hk h).1) e2 hp3 hp1.2 h0.2.slices hi.1).void
      have track : k ≠ .pureCopy → SameTo (roundUp q L.align)
          (fun s' => s'.sto.Inv C ∧ s'.sto.vec.pos = (body.plan C.valueAlign a (roundUp q L.align) (roundUp (roundUp q L.align + L.size) C.valueAlign)).2.1)
          (PosTracking.doSerializeValue C L a data ((body.plan C.valueAlign a (roundUp q L.align) (roundUp (roundUp q L.align + L.size) C.valueAlign)).1.run C k) s)
          (PosTracking.doSerializeValue C L a data (void (body.run C k)) s) := by
        intro _
        unfold PosTracking.doSerializeValue pushRaw pushRawSlice Slice.fromRef
        refine push.bind fun s1 e1 => SameTo.bind (v := ()) (P := At C k a (roundUp q L.align) (roundUp (roundUp q L.align + L.size) C.valueAlign))
          ⟨rfl, fun _ s' e => ?_⟩ fun s2 e2 => (run s2 e2).bind fun s3 e3 => SameTo.done ⟨e3.inv, e3.pos⟩
        cases e
        exact ⟨rfl, e1.inv, e1.pos, fun _ => rfl⟩
      cases k with
      | pureCopy =>
        unfold serializeValue pushRaw pushRawSlice Slice.fromRef
        exact push.bind fun s1 e1 => (run s1 ⟨e1.inv, e1.pos, fun h => (h rfl).elim⟩).bind fun s3 e3 => SameTo.done ⟨e3.inv, e3.pos⟩
      | posTracking => exact track nofun
      | ptrOffset => exact track nofun
      | complete => exact track nofun
    refine bind_congr_first e.1 fun p s1 h1 => ?_
    obtain ⟨rfl, e1, e2⟩ := e.2 _ _ h1
    exact bind_congr_first (ih _ (hb.2 _) (fun h => (hk h).2 _) e1 e2 (fun r hr => hw r (List.mem_cons_of_mem _ hr)) hi.2) fun _ _ _ => rfl

theorem plan_session (hC : C.OK) (c : Caller) (hb : c.Blind) (hk : k = .pureCopy → c.NoPosFor) {s : Ser} (hs : s.sto.Inv C)
    (hw : ∀ r ∈ c.plan C.valueAlign s.sto.vec.pos, r.OK C) (hi : c.Inside C.valueAlign s.sto.vec.pos) :
    tempSession C k (c.plan C.valueAlign s.sto.vec.pos) s = callerSession C k c s := by
  unfold tempSession callerSession
  exact bind_congr_first (plan_values hC c hb hk hs rfl hw hi) fun _ _ _ => rfl

end
end SerRaw
