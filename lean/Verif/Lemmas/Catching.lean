import Verif.Spec.Catching
import Verif.Lemmas.Adaptive
/-
Implementations that catch panics, look, panic and push temporaries: what they do is what the calls recorded do.
-/
namespace SerRaw

section
variable {C : Cfg} {k : Kind}

/-! ### Panics that the bookkeeping cannot raise -/

/-- It does not raise the panics of the storage that is full, nor those of user code. -/
def Hushed {σ α : Type} (x : M σ α) : Prop := ∀ s s', x s ≠ .panic .capacity s' ∧ x s ≠ .panic .user s'

section
variable {σ α β : Type}

theorem Hushed.bind {x : M σ α} {f : α → M σ β} (h : Hushed x) (h' : ∀ a, Hushed (f a)) : Hushed (x >>= f) := by
  intro s s'
  rw [bind_def]
  have h := h s
  cases hx : x s with
  | ok a s1 => exact h' a s1 s'
  | panic pk s1 =>
    rw [hx] at h
    constructor
    · intro e; cases e; exact (h _).1 rfl
    · intro e; cases e; exact (h _).2 rfl
  | _ => exact ⟨nofun, nofun⟩

theorem Hushed.pure (a : α) : Hushed (Pure.pure a : M σ α) := fun _ _ => ⟨nofun, nofun⟩

theorem hushed_usub (a b : Nat) : Hushed (usub C.arch a b : M σ Nat) := by
  intro s s'; unfold usub; split
  · exact ⟨nofun, nofun⟩
  · split <;> exact ⟨nofun, nofun⟩

theorem hushed_uadd (a b : Nat) : Hushed (uadd C.arch a b : M σ Nat) := by
  intro s s'; unfold uadd; split
  · exact ⟨nofun, nofun⟩
  · split <;> exact ⟨nofun, nofun⟩

theorem hushed_umul (a b : Nat) : Hushed (umul C.arch a b : M σ Nat) := by
  intro s s'; unfold umul; split
  · exact ⟨nofun, nofun⟩
  · split <;> exact ⟨nofun, nofun⟩

theorem hushed_debugAssert (b : Bool) : Hushed (M.debugAssert C.arch b : M σ Unit) := by
  intro s s'; unfold M.debugAssert; split <;> exact ⟨nofun, nofun⟩

theorem hushed_debugAssertM {x : M σ Bool} (h : Hushed x) : Hushed (M.debugAssertM C.arch x) := by
  unfold M.debugAssertM
  split
  · exact h.bind fun _ => hushed_debugAssert _
  · exact .pure _

theorem hushed_isAlignedTo (p al : Nat) : Hushed (isAlignedTo C.arch p al : M σ Bool) := by
  unfold isAlignedTo
  exact (hushed_debugAssert _).bind fun _ => (hushed_usub _ _).bind fun _ => .pure _

theorem hushed_posFor (m : PosMapping) (x : Nat) : Hushed (m.posForAddr C.arch x : M σ Nat) := (hushed_usub _ _).bind fun _ => hushed_uadd _ _

end

theorem hushed_write (p : Nat) (L : Layout) (d : Nat → Cell) : Hushed (Sto.write C p L d) := by
  unfold Sto.write Sto.writeSlice
  refine Hushed.bind (fun s s' => ⟨nofun, nofun⟩) fun _ => (hushed_debugAssert _).bind fun _ =>
    (hushed_debugAssertM ((hushed_usub _ _).bind fun _ => (hushed_umul _ _).bind fun _ => .pure _)).bind fun _ =>
    (hushed_debugAssertM (hushed_isAlignedTo _ _)).bind fun _ => ?_
  split
  · exact .pure _
  · refine Hushed.bind (fun s s' => ⟨nofun, nofun⟩) fun _ => Hushed.bind ?_ fun _ => ?_
    · intro s s'
      unfold ptrAdd
      split
      · exact ⟨nofun, nofun⟩
      · split <;> exact ⟨nofun, nofun⟩
    · intro s s'
      unfold memWrite
      split
      · exact ⟨nofun, nofun⟩
      · split
        · exact ⟨nofun, nofun⟩
        · split <;> exact ⟨nofun, nofun⟩

theorem hushed_lift {α : Type} {x : M Sto α} (h : Hushed x) : Hushed (Ser.lift x) := by
  intro s s'
  have h := h s.sto
  unfold Ser.lift
  cases hx : x s.sto with
  | panic pk t =>
    rw [hx] at h
    constructor
    · intro e; cases e; exact (h _).1 rfl
    · intro e; cases e; exact (h _).2 rfl
  | _ => exact ⟨nofun, nofun⟩

theorem hushed_overwritePtr (p q : Nat) : Hushed (overwritePtr C k p q) := by
  have hc : ∀ {α : Type} (cap : Nat) {f : M Ser α}, Hushed f → Hushed
      (do M.debugAssertM C.arch (do let x ← usub C.arch cap C.arch.ptrBytes; pure (decide (p ≤ x)))
          M.debugAssertM C.arch (isAlignedTo C.arch p C.arch.ptrBytes)
          M.debugAssert C.arch (decide (q ≤ cap))
          f) := fun cap f hf =>
    (hushed_debugAssertM ((hushed_usub _ _).bind fun _ => .pure _)).bind fun _ => (hushed_debugAssertM (hushed_isAlignedTo _ _)).bind fun _ =>
      (hushed_debugAssert _).bind fun _ => hf
  cases k with
  | pureCopy => exact .pure _
  | posTracking => exact .pure _
  | ptrOffset => exact Hushed.bind (fun s s' => ⟨nofun, nofun⟩) fun _ => hc _ (hushed_lift (hushed_write _ _ _))
  | complete =>
    refine Hushed.bind (fun s s' => ⟨nofun, nofun⟩) fun _ => hc _ ?_
    exact Hushed.bind (fun s s' => ⟨nofun, nofun⟩) fun _ => (hushed_uadd _ _).bind fun _ => (hushed_lift (hushed_write _ _ _)).bind fun _ =>
      fun s s' => ⟨nofun, nofun⟩

theorem hushed_enter (sl : Slice) (ptr : Nat) (b : PosMapping) (pos : Nat) : Hushed (enter C k sl ptr b pos) := by
  cases k with
  | pureCopy => exact .pure _
  | posTracking => exact fun s s' => ⟨nofun, nofun⟩
  | ptrOffset => exact (hushed_posFor _ _).bind fun _ => (hushed_overwritePtr _ _).bind fun _ => fun s s' => ⟨nofun, nofun⟩
  | complete => exact (hushed_posFor _ _).bind fun _ => (hushed_overwritePtr _ _).bind fun _ => fun s s' => ⟨nofun, nofun⟩

theorem hushed_link (ptr pos : Nat) : Hushed (link C k ptr pos) := by
  cases k with
  | pureCopy => exact .pure _
  | posTracking => exact .pure _
  | ptrOffset => exact Hushed.bind (fun s s' => ⟨nofun, nofun⟩) fun _ => (hushed_posFor _ _).bind fun _ => hushed_overwritePtr _ _
  | complete => exact Hushed.bind (fun s s' => ⟨nofun, nofun⟩) fun _ => (hushed_posFor _ _).bind fun _ => hushed_overwritePtr _ _

theorem hushed_overwriteWith (a : Nat) (L : Layout) (d : Nat → Cell) : Hushed (overwriteWith k (SerRaw.overwrite C k a L d)) := by
  cases k with
  | complete => exact Hushed.bind (fun s s' => ⟨nofun, nofun⟩) fun _ => (hushed_posFor _ _).bind fun _ => hushed_lift (hushed_write _ _ _)
  | _ => exact .pure _

/-! ### The simulation -/

theorem TCalls.run_app (c d : TCalls) : (c.app d).run C k = (c.run C k >>= fun _ => d.run C k) := by
  induction c with
  | done => rfl
  | pushProcess L len src data ptr inner rest _ ih => simp only [TCalls.app, TCalls.run, ih, bind_assoc_M]
  | push L len src data ptr rest ih => simp only [TCalls.app, TCalls.run, ih, bind_assoc_M]
  | pushRaw L len src data rest ih => simp only [TCalls.app, TCalls.run, ih, bind_assoc_M]
  | pushRawBytes len data rest ih => simp only [TCalls.app, TCalls.run, ih, bind_assoc_M]
  | overwrite a L data rest ih => simp only [TCalls.app, TCalls.run, ih, bind_assoc_M]

/-- A push was made: where, and up to where. -/
structure PushedTo (C : Cfg) (I : Sto → Prop) (s : Sto) (L : Layout) (len p : Nat) (t : Sto) : Prop where
  inv : I t
  pos_eq : p = roundUp s.vec.pos L.align
  end_eq : t.vec.pos = roundUp (p + L.size * len) C.valueAlign
  pos_pos : 0 < t.vec.pos

/-- `I` holds as long as a serializer is used: what is needed of the heap (`Sto.Inv C` if it is the storage's own). -/
structure Housing (C : Cfg) (k : Kind) (I : Sto → Prop) : Prop where
  push : ∀ {L : Layout} {len src : Nat} {s : Ser}, PushOK C L len src → I s.sto → 0 < len ∨ 0 < s.sto.vec.pos → ∀ data,
    (∃ p t, Ser.lift (Sto.pushSlice C L len data) s = .ok p { s with sto := t } ∧ PushedTo C I s.sto L len p t ∧
      roundUp s.sto.vec.pos L.align + L.size * len ≤ C.maxCapacity) ∨
    (Ser.lift (Sto.pushSlice C L len data) s = .panic .capacity { s with sto := s.sto.at (roundUp s.sto.vec.pos L.align) } ∧
      ¬ roundUp s.sto.vec.pos L.align + L.size * len ≤ C.maxCapacity) ∨
    Ser.lift (Sto.pushSlice C L len data) s = .abort
  none : ∀ {L : Layout} {len src : Nat} {s : Ser}, PushOK C L len src → I s.sto → 0 < s.sto.vec.pos → ∀ data,
    Sto.pushSlice C L 0 data s.sto = .ok (roundUp s.sto.vec.pos L.align) (s.sto.at (roundUp s.sto.vec.pos L.align)) ∧
      I (s.sto.at (roundUp s.sto.vec.pos L.align))
  over : ∀ {a : Nat} {L : Layout} {d : Nat → Cell} {u : Unit} {s s1 : Ser},
    overwriteWith k (SerRaw.overwrite C k a L d) s = .ok u s1 → I s.sto → I s1.sto
  link : ∀ {ptr pos : Nat} {u : Unit} {s s1 : Ser}, SerRaw.link C k ptr pos s = .ok u s1 → I s.sto → I s1.sto
  enter : ∀ {sl : Slice} {ptr : Nat} {b : PosMapping} {pos : Nat} {u : Unit} {s s1 : Ser}, SerRaw.enter C k sl ptr b pos s = .ok u s1 → I s.sto → I s1.sto

theorem PushSpec.pos_pos {s t : Sto} {L : Layout} {len src p : Nat} {data : Nat → Cell} (hC : C.OK) (ho : PushOK C L len src) (hp : PushSpec C s L len data p t)
    (hpos : 0 < len ∨ 0 < s.vec.pos) : 0 < t.vec.pos := by
  have F := hC.facts
  have he : t.vec.pos = roundUp (roundUp s.vec.pos L.align + L.size * len) C.valueAlign := by rw [hp.end_eq, hp.pos_eq]
  have hge := le_roundUp s.vec.pos ho.pow2.pos
  have hge2 := le_roundUp (roundUp s.vec.pos L.align + L.size * len) F.va.pos
  rcases hpos with h | h
  · have := Nat.mul_pos (Nat.pos_of_ne_zero ho.size_ne) h
    omega
  · omega

theorem PushSpec.pos_lt {s t : Sto} {L : Layout} {len src p : Nat} {data : Nat → Cell} (hC : C.OK) (ho : PushOK C L len src) (hp : PushSpec C s L len data p t)
    (hpos : 0 < s.vec.pos) : 0 < t.vec.pos := hp.pos_pos hC ho (.inr hpos)

theorem Housing.own (hC : C.OK) (k : Kind) : Housing C k (Sto.Inv C) where
  push ho h hne data := by
    rcases push_cases hC ho h hne data with ⟨p, t, e1, hp, hf⟩ | e1 | ⟨e1, _⟩
    · exact .inl ⟨p, t, e1, ⟨hp.inv, hp.pos_eq, hp.end_eq, hp.pos_pos hC ho hne⟩, hf⟩
    · exact .inr (.inl e1)
    · exact .inr (.inr e1)
  none ho h hpos data := by
    have F := hC.facts
    exact ⟨pushNone hC h ho.size_ne ho.pow2 ho.align_le hpos _,
      h.at (roundUp_le_cap F h.toWInv h.pos_le ho.pow2 ho.align_le) (va_dvd_roundUp F ho.pow2 h.pos_dvd)⟩
  over {a L d u s s1} e := by
    have := serStill_overwriteWith (C := C) (k := k) a L d s
    rw [e] at this
    exact this.2.2
  link {ptr pos u s s1} e := by
    have := still_link (C := C) (k := k) ptr pos s
    rw [e] at this
    exact this.2.2
  enter {sl ptr b pos u s s1} e := by
    have := seq_enter (C := C) (k := k) sl ptr b pos s
    rw [e] at this
    exact this.2

section
variable {I : Sto → Prop}

/-- The outcome `o` of an implementation that starts in `s`, given the outcome `o'` of the calls recorded. -/
def CatchSim (I : Sto → Prop) (k : Kind) (b : Catching) (s : Ser) (o : Out Ser (List Nat)) (o' : Out Ser Unit) : Prop :=
  match o' with
  | .ok _ s' => I s'.sto ∧ 0 < s'.sto.vec.pos ∧ s'.map = s.map ∧
      ((∃ out, o = .ok out s') ∨ ∃ pk m, o = .panic pk { s' with map := m } ∧ (b.Flat ∨ k = .pureCopy → m = s.map))
  | .abort => o = .abort
  | .panic pk _ => pk ≠ .capacity
  | _ => True

theorem CatchSim.after {b b' : Catching} {s s1 : Ser} {o : Out Ser (List Nat)} {o' : Out Ser Unit} (h : CatchSim I k b' s1 o o') (hm : s1.map = s.map)
    (hf : b.Flat → b'.Flat) : CatchSim I k b s o o' := by
  cases o' with
  | ok x s' =>
    obtain ⟨h1, h2, h3, h4⟩ := h
    refine ⟨h1, h2, h3.trans hm, h4.imp_right ?_⟩
    rintro ⟨pk, m, e1, e2⟩
    exact ⟨pk, m, e1, fun hx => (e2 (hx.imp_left hf)).trans hm⟩
  | _ => exact h

/-- A step that both make: it moves nothing and leaves the mapping. -/
theorem CatchSim.step {b : Catching} {s : Ser} {α : Type} {x : M Ser α} {f : α → M Ser (List Nat)} {g : α → M Ser Unit} (h : (serStill C).Holds x) (hq : Hushed x)
    (hs : ∀ a s1, x s = .ok a s1 → s1.map = s.map → s1.sto.vec = s.sto.vec →
      CatchSim I k b s (f a s1) (g a s1)) : CatchSim I k b s ((x >>= f) s) ((x >>= g) s) := by
  have h := h s
  rw [bind_def, bind_def]
  cases hx : x s with
  | ok a s1 => rw [hx] at h; exact hs a s1 hx h.1 h.2.1
  | panic pk s1 =>
    intro e
    have := (hq s s1).1
    rw [hx, show pk = .capacity from e] at this
    exact this rfl
  | abort => rfl
  | ub => trivial
  | fuel => trivial

/-- A push that does not fit. -/
theorem CatchSim.full (hI : Housing C k I) {b : Catching} {L : Layout} {len src : Nat} {data : Nat → Cell} (ho : PushOK C L len src) {s : Ser} (h : I s.sto)
    (hpos : 0 < s.sto.vec.pos) {o : Out Ser (List Nat)}
    (hr : o = .panic .capacity { s with sto := s.sto.at (roundUp s.sto.vec.pos L.align) }) :
    CatchSim I k b s o ((TCalls.pushRaw L 0 src data .done).run C k s) := by
  have e : (TCalls.pushRaw L 0 src data .done).run C k s = .ok () { s with sto := s.sto.at (roundUp s.sto.vec.pos L.align) } := by
    simp only [TCalls.run, pushRawSlice]
    rw [bind_ok (lift_ok (hI.none ho h hpos _).1)]
    rfl
  rw [e]
  refine ⟨(hI.none ho h hpos data).2, ?_, rfl, .inr ⟨.capacity, s.map, hr, fun _ => rfl⟩⟩
  exact Nat.lt_of_lt_of_le hpos (le_roundUp _ ho.pow2.pos)

theorem csim (hC : C.OK) (hI : Housing C k I) (b : Catching) (hb : b.Real C) (hR : b.Restores k) {s : Ser} (h : I s.sto) (hpos : 0 < s.sto.vec.pos) :
    CatchSim I k b s (b.run C k s) ((b.made C k s).run C k s) := by
  induction b generalizing s with
  | done out => exact ⟨h, hpos, rfl, .inl ⟨out, rfl⟩⟩
  | panic => exact ⟨h, hpos, rfl, .inr ⟨.user, s.map, rfl, fun _ => rfl⟩⟩
  | look f ih => exact (ih s (hb s) (hR s) h hpos).after rfl fun hf => hf s
  | lookPos f ih => exact (ih _ (hb _) (hR _) h hpos).after rfl fun hf => hf _
  | lookFor x f ih =>
    show CatchSim I k _ s (((s.map.posForAddr C.arch x : M Ser Nat) >>= fun p => (f p).run C k) s) _
    simp only [Catching.made]
    rcases posFor_cases C s.map x s with ⟨p, e⟩ | ⟨hd, e⟩
    · rw [e, bind_ok e]
      exact (ih p (hb p) (hR p) h hpos).after rfl fun hf => hf p
    · rw [e, bind_def, e]
      exact ⟨h, hpos, rfl, .inr ⟨.arith, s.map, rfl, fun _ => rfl⟩⟩
  | pushRaw L len src data rest ih =>
    obtain ⟨ho, hb⟩ := hb
    simp only [Catching.run, Catching.made, pushRawSlice]
    rcases hI.push ho h (.inr hpos) data with ⟨p, t, e1, ⟨hp, _, _, hp0⟩, _⟩ | ⟨e1, _⟩ | e1
    · simp only [e1]
      simp only [TCalls.run, pushRawSlice]
      rw [bind_ok e1, bind_ok e1]
      exact (ih p (hb p) (hR p) (s := { s with sto := t }) hp hp0).after rfl fun hf => hf p
    · simp only [e1]
      refine CatchSim.full hI ho h hpos ?_
      rw [bind_def, e1]
    · simp only [e1, TCalls.run, pushRawSlice]
      rw [bind_def, bind_def, e1]
      rfl
  | pushRawBytes len data rest ih =>
    obtain ⟨hl, hb⟩ := hb
    have ho : PushOK C ⟨1, 1⟩ len 0 := bytes_ok hC hl
    simp only [Catching.run, Catching.made, SerRaw.pushRawBytes, Sto.pushBytes]
    rcases hI.push ho h (.inr hpos) data with ⟨p, t, e1, ⟨hp, _, _, hp0⟩, _⟩ | ⟨e1, _⟩ | e1
    · simp only [e1]
      simp only [TCalls.run, SerRaw.pushRawBytes, Sto.pushBytes]
      rw [bind_ok e1, bind_ok e1]
      exact (ih p (hb p) (hR p) (s := { s with sto := t }) hp hp0).after rfl fun hf => hf p
    · simp only [e1]
      refine ⟨h, hpos, rfl, .inr ⟨.capacity, s.map, ?_, fun _ => rfl⟩⟩
      rw [bind_def, e1]
      have : s.sto.at (roundUp s.sto.vec.pos (Layout.mk 1 1).align) = s.sto := by
        rw [roundUp_eq_of_dvd Nat.one_pos (Nat.one_dvd _)]; rfl
      rw [this]
    · simp only [e1, TCalls.run, SerRaw.pushRawBytes, Sto.pushBytes]
      rw [bind_def, bind_def, e1]
      rfl
  | overwrite a L data rest ih =>
    simp only [Catching.run, Catching.made, TCalls.run]
    refine CatchSim.step (serStill_overwriteWith _ _ _) (hushed_overwriteWith _ _ _) fun _ s1 e hm hv => ?_
    simp only [e]
    exact (ih hb hR (s := s1) (hI.over e h) (by rw [hv]; exact hpos)).after hm id
  | push L len src data ptr rest ih =>
    obtain ⟨ho, hb⟩ := hb
    simp only [Catching.run, Catching.made]
    rcases hI.push ho h (.inr hpos) data with ⟨p, t, e1, ⟨hp, _, _, hp0⟩, _⟩ | ⟨e1, _⟩ | e1
    · have e2 : pushSlice C k ⟨L, len, src, data⟩ (addrFromRef k ptr) s = (link C k (addrFromRef k ptr) p >>= fun _ => pure p) { s with sto := t } := by
        rw [pushSlice_steps, bind_ok e1]
      have hl := still_link (C := C) (k := k) (addrFromRef k ptr) p { s with sto := t }
      have hq := fun s' => (hushed_link (C := C) (k := k) (addrFromRef k ptr) p { s with sto := t } s').1
      cases e3 : link C k (addrFromRef k ptr) p { s with sto := t } with
      | ok u s1 =>
        rw [e3] at hl
        obtain ⟨hm, hv, _⟩ := hl
        have e4 : pushSlice C k ⟨L, len, src, data⟩ (addrFromRef k ptr) s = .ok p s1 := by rw [e2, bind_ok e3]; rfl
        simp only [e4, TCalls.run]
        rw [bind_ok e4, bind_ok e4]
        exact (ih p (hb p) (hR p) (s := s1) (hI.link (s := { s with sto := t }) e3 hp) (by rw [hv]; exact hp0)).after hm fun hf => hf p
      | panic pk s1 =>
        rw [e3] at hq
        have e4 : pushSlice C k ⟨L, len, src, data⟩ (addrFromRef k ptr) s = .panic pk s1 := by rw [e2, bind_def, e3]
        have hpk : pk ≠ .capacity := fun e => hq s1 (by rw [e])
        rw [bind_def, e4]
        cases pk with
        | capacity => exact (hpk rfl).elim
        | _ => simp only [TCalls.run]; rw [bind_def, e4]; exact hpk
      | abort =>
        have e4 : pushSlice C k ⟨L, len, src, data⟩ (addrFromRef k ptr) s = .abort := by rw [e2, bind_def, e3]
        simp only [e4, TCalls.run]
        rw [bind_def, bind_def, e4]
        rfl
      | ub =>
        have e4 : pushSlice C k ⟨L, len, src, data⟩ (addrFromRef k ptr) s = .ub := by rw [e2, bind_def, e3]
        simp only [e4, TCalls.run]
        rw [bind_def, bind_def, e4]
        trivial
      | fuel =>
        have e4 : pushSlice C k ⟨L, len, src, data⟩ (addrFromRef k ptr) s = .fuel := by rw [e2, bind_def, e3]
        simp only [e4, TCalls.run]
        rw [bind_def, bind_def, e4]
        trivial
    · have e2 : pushSlice C k ⟨L, len, src, data⟩ (addrFromRef k ptr) s = .panic .capacity { s with sto := s.sto.at (roundUp s.sto.vec.pos L.align) } := by
        rw [pushSlice_steps, bind_def, e1]
      simp only [e2]
      exact CatchSim.full hI ho h hpos (by rw [bind_def, e2])
    · have e2 : pushSlice C k ⟨L, len, src, data⟩ (addrFromRef k ptr) s = .abort := by rw [pushSlice_steps, bind_def, e1]
      simp only [e2, TCalls.run]
      rw [bind_def, bind_def, e2]
      rfl
  | pushProcess L len src data ptr inner rest ih1 ih2 =>
    obtain ⟨ho, hb1, hb2⟩ := hb
    obtain ⟨hR1, hR2⟩ := hR
    simp only [Catching.run, Catching.made]
    have hcap : ∀ {α : Type} (x : M Ser α), pushAndProcessCapturing C k ⟨L, len, src, data⟩ (addrFromRef k ptr) x s =
        (Ser.lift (Sto.pushSlice C L len data) >>= fun pos => enter C k ⟨L, len, src, data⟩ (addrFromRef k ptr) s.map pos >>= fun _ => x >>= fun r =>
          leave k s.map >>= fun _ => pure (pos, r)) s := fun x => capturing_steps _ _ x s
    have hsl : ∀ x : M Ser Unit, pushAndProcessSlice C k ⟨L, len, src, data⟩ (addrFromRef k ptr) x s =
        (Ser.lift (Sto.pushSlice C L len data) >>= fun pos => enter C k ⟨L, len, src, data⟩ (addrFromRef k ptr) s.map pos >>= fun _ => x >>= fun _ =>
          leave k s.map >>= fun _ => pure pos) s := fun x => pushAndProcessSlice_steps _ _ x s
    rcases hI.push ho h (.inr hpos) data with ⟨p, t, e1, ⟨hp, _, _, hp0⟩, _⟩ | ⟨e1, _⟩ | e1
    · have hen := seq_enter (C := C) (k := k) ⟨L, len, src, data⟩ (addrFromRef k ptr) s.map p { s with sto := t }
      have hq := fun s' => hushed_enter (C := C) (k := k) ⟨L, len, src, data⟩ (addrFromRef k ptr) s.map p { s with sto := t } s'
      have hpc : ∀ s1, enter C k ⟨L, len, src, data⟩ (addrFromRef k ptr) s.map p { s with sto := t } = .ok () s1 →
          k = .pureCopy → s1.map = s.map := by
        rintro s1 h1 rfl
        cases h1
        rfl
      cases hx : enter C k ⟨L, len, src, data⟩ (addrFromRef k ptr) s.map p { s with sto := t } with
      | panic pk s1 =>
        rw [hx] at hq
        have e2 : ∀ x, pushAndProcessSlice C k ⟨L, len, src, data⟩ (addrFromRef k ptr) x s = .panic pk s1 := by
          intro x; rw [hsl, bind_ok e1, bind_def, hx]
        simp only [e2]
        cases pk with
        | capacity => exact ((hq s1).1 rfl).elim
        | user => exact ((hq s1).2 rfl).elim
        | _ => simp only [TCalls.run]; rw [bind_def (x := pushAndProcessSlice C k _ _ _), e2]; exact nofun
      | abort =>
        have e2 : ∀ x, pushAndProcessSlice C k ⟨L, len, src, data⟩ (addrFromRef k ptr) x s = .abort := by
          intro x; rw [hsl, bind_ok e1, bind_def, hx]
        simp only [e2, TCalls.run]
        rw [bind_def (x := pushAndProcessSlice C k _ _ _), e2]
        rw [bind_def, hcap, bind_ok e1, bind_def, hx]
        rfl
      | ub =>
        have e2 : ∀ x, pushAndProcessSlice C k ⟨L, len, src, data⟩ (addrFromRef k ptr) x s = .ub := by
          intro x; rw [hsl, bind_ok e1, bind_def, hx]
        simp only [e2, TCalls.run]
        rw [bind_def (x := pushAndProcessSlice C k _ _ _), e2]
        trivial
      | fuel =>
        have e2 : ∀ x, pushAndProcessSlice C k ⟨L, len, src, data⟩ (addrFromRef k ptr) x s = .fuel := by
          intro x; rw [hsl, bind_ok e1, bind_def, hx]
        simp only [e2, TCalls.run]
        rw [bind_def (x := pushAndProcessSlice C k _ _ _), e2]
        trivial
      | ok x s1 =>
        rw [hx] at hen
        obtain ⟨hv, _⟩ := hen
        have hm1 := hpc s1 hx
        have h1 := ih1 hb1 hR1 (s := s1) (hI.enter (s := { s with sto := t }) hx hp) (by rw [hv]; exact hp0)
        have e2 : pushAndProcessSlice C k ⟨L, len, src, data⟩ (addrFromRef k ptr) (M.throw .user) s = .panic .user s1 := by
          rw [hsl, bind_ok e1, bind_ok hx]; rfl
        simp only [e2, TCalls.run]
        have hleave : ∀ s2 : Ser, s2.map = s1.map → leave k s.map s2 = .ok () { s2 with map := s.map } := by
          intro s2 h2
          cases k with
          | pureCopy =>
            have : s2.map = s.map := h2.trans (hm1 rfl)
            rw [← this]; rfl
          | _ => rfl
        rw [bind_def (x := pushAndProcessSlice C k _ _ _), hsl, bind_ok e1, bind_ok hx]
        cases hy : (inner.made C k s1).run C k s1 with
        | panic pk s2 =>
          rw [hy] at h1
          rw [bind_def (x := (inner.made C k s1).run C k), hy]
          exact h1
        | ub => rw [bind_def (x := (inner.made C k s1).run C k), hy]; trivial
        | fuel => rw [bind_def (x := (inner.made C k s1).run C k), hy]; trivial
        | abort =>
          rw [hy] at h1
          have h1 : inner.run C k s1 = .abort := h1
          have e5 : pushAndProcessCapturing C k ⟨L, len, src, data⟩ (addrFromRef k ptr) (inner.run C k) s = .abort := by
            rw [hcap, bind_ok e1, bind_ok hx, bind_def, h1]
          rw [bind_def (x := (inner.made C k s1).run C k), hy, bind_def, e5]
          rfl
        | ok y s2 =>
          rw [hy] at h1
          obtain ⟨g1, g3, g4, g5⟩ := h1
          rw [bind_ok hy, bind_ok (hleave s2 g4)]
          rcases g5 with ⟨out, g5⟩ | ⟨pk, m, q1, q2⟩
          · have e5 : pushAndProcessCapturing C k ⟨L, len, src, data⟩ (addrFromRef k ptr) (inner.run C k) s = .ok (p, out) { s2 with map := s.map } := by
              rw [hcap, bind_ok e1, bind_ok hx, bind_ok g5, bind_ok (hleave s2 g4)]; rfl
            rw [bind_ok e5, e5]
            exact (ih2 p out (hb2 p out) (hR2 p out) (s := { s2 with map := s.map }) g1 g3).after rfl False.elim
          · have e5 : pushAndProcessCapturing C k ⟨L, len, src, data⟩ (addrFromRef k ptr) (inner.run C k) s = .panic pk { s2 with map := m } := by
              rw [hcap, bind_ok e1, bind_ok hx, bind_def, q1]
            rw [bind_def, e5]
            refine ⟨g1, g3, rfl, .inr ⟨pk, m, rfl, ?_⟩⟩
            rintro (hf | hf)
            · exact hf.elim
            · exact (q2 (.inr hf)).trans (hm1 hf)
    · have e2 : pushAndProcessSlice C k ⟨L, len, src, data⟩ (addrFromRef k ptr) (M.throw .user) s =
          .panic .capacity { s with sto := s.sto.at (roundUp s.sto.vec.pos L.align) } := by
        rw [hsl, bind_def, e1]
      simp only [e2]
      exact CatchSim.full hI ho h hpos (by rw [bind_def, hcap, bind_def, e1])
    · have e2 : ∀ x, pushAndProcessSlice C k ⟨L, len, src, data⟩ (addrFromRef k ptr) x s = .abort := by
        intro x; rw [hsl, bind_def, e1]
      simp only [e2, TCalls.run]
      rw [bind_def (x := pushAndProcessSlice C k _ _ _), e2]
      rw [bind_def, hcap, bind_def, e1]
      rfl
  | attempt restore inner rest ih1 ih2 =>
    obtain ⟨hb1, hb2⟩ := hb
    obtain ⟨hR0, hR1, hR2⟩ := hR
    simp only [Catching.run, Catching.made, TCalls.run_app]
    rw [bind_ok (show Ser.getMap s = .ok s.map s from rfl)]
    have h1 := ih1 hb1 hR1 h hpos
    cases hy : (inner.made C k s).run C k s with
    | panic pk s2 =>
      rw [hy] at h1
      rw [bind_def (x := (inner.made C k s).run C k), hy]
      exact h1
    | ub => rw [bind_def (x := (inner.made C k s).run C k), hy]; trivial
    | fuel => rw [bind_def (x := (inner.made C k s).run C k), hy]; trivial
    | abort =>
      rw [hy] at h1
      have h1 : inner.run C k s = .abort := h1
      rw [bind_def (x := (inner.made C k s).run C k), hy, bind_def (x := M.caught _)]
      simp only [M.caught, h1]
      rfl
    | ok y s1 =>
      rw [hy] at h1
      obtain ⟨g1, g3, g4, g5⟩ := h1
      rw [bind_ok hy]
      have key : ∃ r s2, M.caught (inner.run C k) s = .ok r s2 ∧ restored k restore s.map r s2 = s1 := by
        rcases g5 with ⟨out, g5⟩ | ⟨pk, m, q1, q2⟩
        · refine ⟨some out, s1, by simp only [M.caught, g5], ?_⟩
          unfold restored
          rw [if_neg (by simp)]
        · refine ⟨none, { s1 with map := m }, by simp only [M.caught, q1], ?_⟩
          unfold restored
          split
          · rw [← g4]
          · rename_i hn
            have hm : m = s.map := by
              rcases hR0 with hR0 | hR0 | hR0
              · have hk : k = .pureCopy := by
                  by_cases hk : k = .pureCopy
                  · exact hk
                  · exact absurd ⟨rfl, hR0, hk⟩ hn
                exact q2 (.inr hk)
              · exact q2 (.inr hR0)
              · exact q2 (.inl hR0)
            rw [hm, ← g4]
      obtain ⟨r, s2, e1, e2⟩ := key
      rw [bind_ok e1, bind_ok (show restoreMap k restore s.map r s2 = .ok () s1 by rw [← e2]; rfl)]
      simp only [e1, e2]
      exact (ih2 r (hb2 r) (hR2 r) (s := s1) g1 g3).after g4 fun hf => hf.2 r

end

/-! ### Implementations that only look at positions -/

/-- Pushing no elements aligns the position. -/
theorem TCalls.run_none {I : Sto → Prop} (hI : Housing C k I) {L : Layout} {len src : Nat} {data : Nat → Cell} (ho : PushOK C L len src) {s : Ser} (h : I s.sto)
    (hpos : 0 < s.sto.vec.pos) :
    (TCalls.pushRaw L 0 src data .done).run C k s = .ok () { s with sto := s.sto.at (roundUp s.sto.vec.pos L.align) } := by
  simp only [TCalls.run, pushRawSlice]
  rw [bind_ok (lift_ok (hI.none ho h hpos _).1)]
  rfl

/-- What an implementation does in `s` is the plan `d`. -/
def PlanIs (C : Cfg) (k : Kind) (b : Catching) (s s' : Ser) (d : TCalls × Nat × Option (List Nat)) : Prop :=
  b.made C k s = d.1 ∧ s'.sto.vec.pos = d.2.1 ∧
  match d.2.2 with
  | some out => b.run C k s = .ok out s'
  | none => ∃ pk m, b.run C k s = .panic pk { s' with map := m }

theorem planIs (hC : C.OK) {I : Sto → Prop} (hI : Housing C k I) (b : Catching) (hb : b.Real C) (hR : b.Restores k) (hB : b.Blind) {s s' : Ser} (h : I s.sto) (hpos : 0 < s.sto.vec.pos)
    (he : (b.made C k s).run C k s = .ok () s') : PlanIs C k b s s' (b.plan C.valueAlign C.maxCapacity s.sto.vec.pos) := by
  induction b generalizing s s' with
  | done out => cases he; exact ⟨rfl, rfl, rfl⟩
  | panic => cases he; exact ⟨rfl, rfl, .user, s.map, rfl⟩
  | look f ih => exact hB.elim
  | lookFor x f ih => exact hB.elim
  | lookPos f ih => exact ih _ (hb _) (hR _) (hB _) h hpos he
  | pushRaw L len src data rest ih =>
    obtain ⟨ho, hb⟩ := hb
    simp only [Catching.made, pushRawSlice] at he
    unfold PlanIs
    simp only [Catching.run, Catching.made, Catching.plan, pushRawSlice]
    rcases hI.push ho h (.inr hpos) data with ⟨p, t, e1, hp, hfit⟩ | ⟨e1, hfit⟩ | e1
    · simp only [e1] at he ⊢
      simp only [TCalls.run, pushRawSlice] at he
      rw [bind_ok e1] at he
      rw [bind_ok e1, if_pos hfit]
      obtain ⟨g1, g2, g3⟩ := ih p (hb p) (hR p) (hB p) (s := { s with sto := t }) hp.inv (hp.pos_pos) he
      have e2 : t.vec.pos = roundUp (roundUp s.sto.vec.pos L.align + L.size * len) C.valueAlign := by rw [hp.end_eq, hp.pos_eq]
      simp only [e2] at g1 g2 g3
      have e3 := hp.pos_eq
      subst e3
      exact ⟨by rw [g1], g2, g3⟩
    · simp only [e1] at he ⊢
      rw [TCalls.run_none hI ho h hpos] at he
      cases he
      rw [if_neg hfit]
      exact ⟨rfl, rfl, .capacity, s.map, by rw [bind_def, e1]⟩
    · simp only [e1, TCalls.run, pushRawSlice] at he
      rw [bind_def, e1] at he
      cases he
  | pushRawBytes len data rest ih =>
    obtain ⟨hl, hb⟩ := hb
    have ho : PushOK C ⟨1, 1⟩ len 0 := bytes_ok hC hl
    have hone : roundUp s.sto.vec.pos (Layout.mk 1 1).align = s.sto.vec.pos := roundUp_eq_of_dvd Nat.one_pos (Nat.one_dvd _)
    simp only [Catching.made, SerRaw.pushRawBytes, Sto.pushBytes] at he
    unfold PlanIs
    simp only [Catching.run, Catching.made, Catching.plan, SerRaw.pushRawBytes, Sto.pushBytes]
    rcases hI.push ho h (.inr hpos) data with ⟨p, t, e1, hp, hfit⟩ | ⟨e1, hfit⟩ | e1
    · rw [hone] at hfit
      simp only [Nat.one_mul] at hfit
      simp only [e1] at he ⊢
      simp only [TCalls.run, SerRaw.pushRawBytes, Sto.pushBytes] at he
      rw [bind_ok e1] at he
      rw [bind_ok e1, if_pos hfit]
      obtain ⟨g1, g2, g3⟩ := ih p (hb p) (hR p) (hB p) (s := { s with sto := t }) hp.inv (hp.pos_pos) he
      have e3 := hp.pos_eq
      rw [hone] at e3
      subst e3
      have e2 : t.vec.pos = roundUp (s.sto.vec.pos + len) C.valueAlign := by rw [hp.end_eq, Nat.one_mul]
      simp only [e2] at g1 g2 g3
      exact ⟨by rw [g1], g2, g3⟩
    · rw [hone] at hfit e1
      simp only [Nat.one_mul] at hfit
      simp only [e1] at he ⊢
      cases he
      rw [if_neg hfit]
      exact ⟨rfl, rfl, .capacity, s.map, by rw [bind_def, e1]; rfl⟩
    · simp only [e1, TCalls.run, SerRaw.pushRawBytes, Sto.pushBytes] at he
      rw [bind_def, e1] at he
      cases he
  | overwrite a L data rest ih =>
    simp only [Catching.made, TCalls.run] at he
    unfold PlanIs
    simp only [Catching.run, Catching.made, Catching.plan]
    have hst := serStill_overwriteWith (C := C) (k := k) (addrFromRef k a) L data s
    obtain ⟨u, s1, e, he⟩ := bind_eq_ok he
    rw [e] at hst
    simp only [e] at he ⊢
    obtain ⟨hm, hv, hi⟩ := hst
    obtain ⟨g1, g2, g3⟩ := ih hb hR hB (s := s1) (hI.over e h) (by rw [hv]; exact hpos) he
    rw [hv] at g1 g2 g3
    rw [bind_ok e]
    exact ⟨by rw [g1], g2, g3⟩
  | push L len src data ptr rest ih =>
    obtain ⟨ho, hb⟩ := hb
    simp only [Catching.made] at he
    unfold PlanIs
    simp only [Catching.run, Catching.made, Catching.plan]
    rcases hI.push ho h (.inr hpos) data with ⟨p, t, e1, hp, hfit⟩ | ⟨e1, hfit⟩ | e1
    · have e2 : pushSlice C k ⟨L, len, src, data⟩ (addrFromRef k ptr) s = (link C k (addrFromRef k ptr) p >>= fun _ => pure p) { s with sto := t } := by
        rw [pushSlice_steps, bind_ok e1]
      have hl := still_link (C := C) (k := k) (addrFromRef k ptr) p { s with sto := t }
      have hq := fun s' => (hushed_link (C := C) (k := k) (addrFromRef k ptr) p { s with sto := t } s').1
      cases e3 : link C k (addrFromRef k ptr) p { s with sto := t } with
      | ok u s1 =>
        rw [e3] at hl
        obtain ⟨hm, hv, hi⟩ := hl
        have e4 : pushSlice C k ⟨L, len, src, data⟩ (addrFromRef k ptr) s = .ok p s1 := by rw [e2, bind_ok e3]; rfl
        simp only [e4] at he ⊢
        simp only [TCalls.run] at he
        rw [bind_ok e4] at he
        rw [bind_ok e4, if_pos hfit]
        obtain ⟨g1, g2, g3⟩ := ih p (hb p) (hR p) (hB p) (s := s1) (hI.link (s := { s with sto := t }) e3 hp.inv) (by rw [hv]; exact hp.pos_pos) he
        have e2 : s1.sto.vec.pos = roundUp (roundUp s.sto.vec.pos L.align + L.size * len) C.valueAlign := by
          rw [hv]; exact hp.end_eq.trans (by rw [hp.pos_eq])
        rw [e2] at g1 g2 g3
        have e3 := hp.pos_eq
        subst e3
        exact ⟨by rw [g1], g2, g3⟩
      | panic pk s1 =>
        rw [e3] at hq
        have e4 : pushSlice C k ⟨L, len, src, data⟩ (addrFromRef k ptr) s = .panic pk s1 := by rw [e2, bind_def, e3]
        have hpk : pk ≠ .capacity := fun e => hq s1 (by rw [e])
        simp only [e4] at he
        cases pk with
        | capacity => exact (hpk rfl).elim
        | _ => simp only [TCalls.run] at he; rw [bind_def, e4] at he; cases he
      | abort =>
        have e4 : pushSlice C k ⟨L, len, src, data⟩ (addrFromRef k ptr) s = .abort := by rw [e2, bind_def, e3]
        simp only [e4, TCalls.run] at he
        rw [bind_def, e4] at he
        cases he
      | ub =>
        have e4 : pushSlice C k ⟨L, len, src, data⟩ (addrFromRef k ptr) s = .ub := by rw [e2, bind_def, e3]
        simp only [e4, TCalls.run] at he
        rw [bind_def, e4] at he
        cases he
      | fuel =>
        have e4 : pushSlice C k ⟨L, len, src, data⟩ (addrFromRef k ptr) s = .fuel := by rw [e2, bind_def, e3]
        simp only [e4, TCalls.run] at he
        rw [bind_def, e4] at he
        cases he
    · have e2 : pushSlice C k ⟨L, len, src, data⟩ (addrFromRef k ptr) s = .panic .capacity { s with sto := s.sto.at (roundUp s.sto.vec.pos L.align) } := by
        rw [pushSlice_steps, bind_def, e1]
      simp only [e2] at he ⊢
      rw [TCalls.run_none hI ho h hpos] at he
      cases he
      rw [if_neg hfit]
      exact ⟨rfl, rfl, .capacity, s.map, by rw [bind_def, e2]⟩
    · have e2 : pushSlice C k ⟨L, len, src, data⟩ (addrFromRef k ptr) s = .abort := by rw [pushSlice_steps, bind_def, e1]
      simp only [e2, TCalls.run] at he
      rw [bind_def, e2] at he
      cases he
  | pushProcess L len src data ptr inner rest ih1 ih2 =>
    obtain ⟨ho, hb1, hb2⟩ := hb
    obtain ⟨hR1, hR2⟩ := hR
    obtain ⟨hB1, hB2⟩ := hB
    simp only [Catching.made] at he
    unfold PlanIs
    simp only [Catching.run, Catching.made, Catching.plan]
    have hcap : ∀ {α : Type} (x : M Ser α), pushAndProcessCapturing C k ⟨L, len, src, data⟩ (addrFromRef k ptr) x s =
        (Ser.lift (Sto.pushSlice C L len data) >>= fun pos => enter C k ⟨L, len, src, data⟩ (addrFromRef k ptr) s.map pos >>= fun _ => x >>= fun r =>
          leave k s.map >>= fun _ => pure (pos, r)) s := fun x => capturing_steps _ _ x s
    have hsl : ∀ x : M Ser Unit, pushAndProcessSlice C k ⟨L, len, src, data⟩ (addrFromRef k ptr) x s =
        (Ser.lift (Sto.pushSlice C L len data) >>= fun pos => enter C k ⟨L, len, src, data⟩ (addrFromRef k ptr) s.map pos >>= fun _ => x >>= fun _ =>
          leave k s.map >>= fun _ => pure pos) s := fun x => pushAndProcessSlice_steps _ _ x s
    rcases hI.push ho h (.inr hpos) data with ⟨p, t, e1, hp, hfit⟩ | ⟨e1, hfit⟩ | e1
    · have hen := seq_enter (C := C) (k := k) ⟨L, len, src, data⟩ (addrFromRef k ptr) s.map p { s with sto := t }
      have hq := fun s' => hushed_enter (C := C) (k := k) ⟨L, len, src, data⟩ (addrFromRef k ptr) s.map p { s with sto := t } s'
      have hpc : ∀ s1, enter C k ⟨L, len, src, data⟩ (addrFromRef k ptr) s.map p { s with sto := t } = .ok () s1 →
          k = .pureCopy → s1.map = s.map := by
        rintro s1 h1 rfl
        cases h1
        rfl
      cases hx : enter C k ⟨L, len, src, data⟩ (addrFromRef k ptr) s.map p { s with sto := t } with
      | panic pk s1 =>
        rw [hx] at hq
        have e2 : ∀ x, pushAndProcessSlice C k ⟨L, len, src, data⟩ (addrFromRef k ptr) x s = .panic pk s1 := by
          intro x; rw [hsl, bind_ok e1, bind_def, hx]
        simp only [e2] at he
        cases pk with
        | capacity => exact ((hq s1).1 rfl).elim
        | user => exact ((hq s1).2 rfl).elim
        | _ => simp only [TCalls.run] at he; rw [bind_def (x := pushAndProcessSlice C k _ _ _), e2] at he; cases he
      | abort =>
        have e2 : ∀ x, pushAndProcessSlice C k ⟨L, len, src, data⟩ (addrFromRef k ptr) x s = .abort := by
          intro x; rw [hsl, bind_ok e1, bind_def, hx]
        simp only [e2, TCalls.run] at he
        rw [bind_def (x := pushAndProcessSlice C k _ _ _), e2] at he
        cases he
      | ub =>
        have e2 : ∀ x, pushAndProcessSlice C k ⟨L, len, src, data⟩ (addrFromRef k ptr) x s = .ub := by
          intro x; rw [hsl, bind_ok e1, bind_def, hx]
        simp only [e2, TCalls.run] at he
        rw [bind_def (x := pushAndProcessSlice C k _ _ _), e2] at he
        cases he
      | fuel =>
        have e2 : ∀ x, pushAndProcessSlice C k ⟨L, len, src, data⟩ (addrFromRef k ptr) x s = .fuel := by
          intro x; rw [hsl, bind_ok e1, bind_def, hx]
        simp only [e2, TCalls.run] at he
        rw [bind_def (x := pushAndProcessSlice C k _ _ _), e2] at he
        cases he
      | ok x s1 =>
        rw [hx] at hen
        obtain ⟨hv, hi⟩ := hen
        have hm1 := hpc s1 hx
        have hpos1 : 0 < s1.sto.vec.pos := by rw [hv]; exact hp.pos_pos
        have hend : s1.sto.vec.pos = roundUp (roundUp s.sto.vec.pos L.align + L.size * len) C.valueAlign := by
          rw [hv]; exact hp.end_eq.trans (by rw [hp.pos_eq])
        have h1 := csim (k := k) hC hI inner hb1 hR1 (s := s1) (hI.enter (s := { s with sto := t }) hx hp.inv) hpos1
        have e2 : pushAndProcessSlice C k ⟨L, len, src, data⟩ (addrFromRef k ptr) (M.throw .user) s = .panic .user s1 := by
          rw [hsl, bind_ok e1, bind_ok hx]; rfl
        simp only [e2, TCalls.run] at he
        simp only [e2]
        have hleave : ∀ s2 : Ser, s2.map = s1.map → leave k s.map s2 = .ok () { s2 with map := s.map } := by
          intro s2 h2
          cases k with
          | pureCopy =>
            have : s2.map = s.map := h2.trans (hm1 rfl)
            rw [← this]; rfl
          | _ => rfl
        rw [bind_def (x := pushAndProcessSlice C k _ _ _), hsl, bind_ok e1, bind_ok hx] at he
        cases hy : (inner.made C k s1).run C k s1 with
        | panic pk s2 => rw [bind_def (x := (inner.made C k s1).run C k), hy] at he; cases he
        | ub => rw [bind_def (x := (inner.made C k s1).run C k), hy] at he; cases he
        | fuel => rw [bind_def (x := (inner.made C k s1).run C k), hy] at he; cases he
        | abort => rw [bind_def (x := (inner.made C k s1).run C k), hy] at he; cases he
        | ok y s2 =>
          rw [hy] at h1
          obtain ⟨g1, g3, g4, _⟩ := h1
          rw [bind_ok hy, bind_ok (hleave s2 g4)] at he
          obtain ⟨f1, f2, f3⟩ := ih1 hb1 hR1 hB1 (hI.enter (s := { s with sto := t }) hx hp.inv) hpos1 hy
          rw [hend] at f1 f2 f3
          rw [if_pos hfit]
          cases hd : (inner.plan C.valueAlign C.maxCapacity (roundUp (roundUp s.sto.vec.pos L.align + L.size * len) C.valueAlign)).2.2 with
          | some out =>
            rw [hd] at f3
            have f3 : inner.run C k s1 = .ok out s2 := f3
            have e5 : pushAndProcessCapturing C k ⟨L, len, src, data⟩ (addrFromRef k ptr) (inner.run C k) s = .ok (p, out) { s2 with map := s.map } := by
              rw [hcap, bind_ok e1, bind_ok hx, bind_ok f3, bind_ok (hleave s2 g4)]; rfl
            rw [e5] at he
            obtain ⟨q1, q2, q3⟩ := ih2 p out (hb2 p out) (hR2 p out) (hB2 p out) (s := { s2 with map := s.map }) g1 g3 he
            rw [bind_ok e5, e5]
            have e3 := hp.pos_eq
            subst e3
            simp only [f2] at q1 q2 q3
            exact ⟨by simp only [q1, f1], q2, q3⟩
          | none =>
            rw [hd] at f3
            obtain ⟨pk, m, q1⟩ := f3
            have e5 : pushAndProcessCapturing C k ⟨L, len, src, data⟩ (addrFromRef k ptr) (inner.run C k) s = .panic pk { s2 with map := m } := by
              rw [hcap, bind_ok e1, bind_ok hx, bind_def, q1]
            rw [e5] at he
            cases he
            rw [e5]
            exact ⟨by simp only [f1], f2, pk, m, by rw [bind_def, e5]⟩
    · have e2 : pushAndProcessSlice C k ⟨L, len, src, data⟩ (addrFromRef k ptr) (M.throw .user) s =
          .panic .capacity { s with sto := s.sto.at (roundUp s.sto.vec.pos L.align) } := by
        rw [hsl, bind_def, e1]
      simp only [e2] at he ⊢
      rw [TCalls.run_none hI ho h hpos] at he
      cases he
      rw [if_neg hfit]
      exact ⟨rfl, rfl, .capacity, s.map, by rw [bind_def, hcap, bind_def, e1]⟩
    · have e2 : ∀ x, pushAndProcessSlice C k ⟨L, len, src, data⟩ (addrFromRef k ptr) x s = .abort := by
        intro x; rw [hsl, bind_def, e1]
      simp only [e2, TCalls.run] at he
      rw [bind_def (x := pushAndProcessSlice C k _ _ _), e2] at he
      cases he
  | attempt restore inner rest ih1 ih2 =>
    obtain ⟨hb1, hb2⟩ := hb
    have hR' := hR
    obtain ⟨hR0, hR1, hR2⟩ := hR
    obtain ⟨hB1, hB2⟩ := hB
    simp only [Catching.made, TCalls.run_app] at he
    unfold PlanIs
    simp only [Catching.run, Catching.made, Catching.plan]
    rw [bind_ok (show Ser.getMap s = .ok s.map s from rfl)]
    obtain ⟨y, s1, hy, he⟩ := bind_eq_ok he
    have h1 := csim (k := k) hC hI inner hb1 hR1 h hpos
    obtain ⟨f1, f2, f3⟩ := ih1 hb1 hR1 hB1 h hpos hy
    rw [hy] at h1
    obtain ⟨g1, g3, g4, g5⟩ := h1
    have key : ∃ s2, M.caught (inner.run C k) s = .ok (inner.plan C.valueAlign C.maxCapacity s.sto.vec.pos).2.2 s2 ∧
        restored k restore s.map (inner.plan C.valueAlign C.maxCapacity s.sto.vec.pos).2.2 s2 = s1 := by
      cases hd : (inner.plan C.valueAlign C.maxCapacity s.sto.vec.pos).2.2 with
      | some out =>
        rw [hd] at f3
        have f3 : inner.run C k s = .ok out s1 := f3
        refine ⟨s1, by simp only [M.caught, f3], ?_⟩
        unfold restored
        rw [if_neg (by simp)]
      | none =>
        rw [hd] at f3
        obtain ⟨pk, m, q1⟩ := f3
        have q2 : inner.Flat ∨ k = .pureCopy → m = s.map := by
          rcases g5 with ⟨out, g5⟩ | ⟨pk', m', g5, g6⟩
          · rw [q1] at g5; cases g5
          · rw [q1] at g5
            have : ({ s1 with map := m } : Ser) = { s1 with map := m' } := by injection g5
            have : m = m' := congrArg Ser.map this
            rw [this]; exact g6
        refine ⟨{ s1 with map := m }, by simp only [M.caught, q1], ?_⟩
        unfold restored
        split
        · rw [← g4]
        · rename_i hn
          have hm : m = s.map := by
            rcases hR0 with hR0 | hR0 | hR0
            · have hk : k = .pureCopy := by
                by_cases hk : k = .pureCopy
                · exact hk
                · exact absurd ⟨rfl, hR0, hk⟩ hn
              exact q2 (.inr hk)
            · exact q2 (.inr hR0)
            · exact q2 (.inl hR0)
          rw [hm, ← g4]
    obtain ⟨s2, e1, e2⟩ := key
    rw [bind_ok e1, bind_ok (show restoreMap k restore s.map _ s2 = .ok () s1 by rw [← e2]; rfl)]
    simp only [e1, e2] at he ⊢
    obtain ⟨q1, q2, q3⟩ := ih2 _ (hb2 _) (hR2 _) (hB2 _) (s := s1) g1 g3 he
    rw [f2] at q1 q2 q3
    exact ⟨by rw [q1, f1], q2, q3⟩

/-! ### One call -/

variable {L : Layout} {a : Nat} {data : Nat → Cell}

/-- Calls that follow the rules end, or do not fit, or the allocator fails. -/
theorem TRoot.ser_cases (hC : C.OK) {r : TRoot} (hr : r.OK C) {s : Ser} {m : Nat → Mem} (h : RelAll C k s m) :
    (∃ p s', r.ser C k s = .ok p s') ∨ (∃ s', r.ser C k s = .panic .capacity s') ∨ (r.ser C k s = .abort ∧ ¬ C.NeverFails) := by
  have hv := TRoot.virt_ser (k := k) hC hr s s ⟨rfl, rfl⟩
  have ho := TRoot.virt_ok hC hr (U := C.arch.usizeMod)
  have hs := rootScript_sat (im := (r.virt C.arch.usizeMod).im) hC k ho.1 ho.2 h
  change ((r.virt C.arch.usizeMod).ser C k s).Sat _ _ _ at hs
  cases he : r.ser C k s <;> cases he' : (r.virt C.arch.usizeMod).ser C k s <;> rw [he, he'] at hv <;> rw [he'] at hs <;> first | exact hv.elim | skip
  · exact .inl ⟨_, _, rfl⟩
  · obtain ⟨rfl, _⟩ := hv
    have := hs.panic.1
    exact .inr (.inl ⟨_, by rw [this]⟩)
  · exact .inr (.inr ⟨rfl, hs⟩)
  · exact hs.elim
  · exact hs.elim

/-- The call does what the call with the calls recorded does, or panics where the other returns. -/
theorem catching_ser_of (hC : C.OK) {I : Sto → Prop} (hI : Housing C k I) {b : Catching} (hb : b.Real C) (hR : b.Restores k) {s : Ser} (h : I s.sto)
    (hcases : (∃ p s', TRoot.ser C k ⟨L, a, data, b.callsFrom C k L a data s⟩ s = .ok p s') ∨
      (∃ s', TRoot.ser C k ⟨L, a, data, b.callsFrom C k L a data s⟩ s = .panic .capacity s') ∨
      TRoot.ser C k ⟨L, a, data, b.callsFrom C k L a data s⟩ s = .abort)
    (hr : TRoot.OK C ⟨L, a, data, b.callsFrom C k L a data s⟩) :
    serializeValue C k L a data (void (b.run C k)) s = TRoot.ser C k ⟨L, a, data, b.callsFrom C k L a data s⟩ s ∨
    ∃ p s1 pk mp, TRoot.ser C k ⟨L, a, data, b.callsFrom C k L a data s⟩ s = .ok p s1 ∧
      serializeValue C k L a data (void (b.run C k)) s = .panic pk { s1 with map := mp } := by
  have ho : PushOK C L 1 a := hr.1
  revert hcases
  unfold TRoot.ser Catching.callsFrom
  simp only [serializeValue_eq]
  unfold pushRaw pushRawSlice Slice.fromRef
  simp only
  rcases hI.push ho h (.inl Nat.one_pos) data with ⟨p, t, e1, ⟨hp, _, _, hp0⟩, _⟩ | ⟨e1, _⟩ | e1
  · have hset : ∃ s2 : Ser, s2.sto = t ∧ setRoot k ⟨a, p⟩ { s with sto := t } = .ok () s2 := by
      cases k with
      | pureCopy => exact ⟨{ s with sto := t }, rfl, rfl⟩
      | _ => exact ⟨{ s with sto := t, map := ⟨a, p⟩ }, rfl, rfl⟩
    obtain ⟨s2, q1, q2⟩ := hset
    simp only [bind_ok e1, bind_ok q2]
    rw [show ((M.throw PanicKind.user : M Ser Unit) >>= fun _ => (pure p : M Ser Nat)) s2 = .panic .user s2 from rfl]
    simp only
    have hpos : 0 < s2.sto.vec.pos := by rw [q1]; exact hp0
    have hs := csim (k := k) hC hI b hb hR (s := s2) (by rw [q1]; exact hp) hpos
    generalize (b.made C k s2).run C k = y at *
    intro hcases
    rw [bind_def (x := y)] at hcases
    simp only [void, bind_assoc_M]
    cases hy : y s2 with
    | ok u s3 =>
      rw [hy] at hs
      obtain ⟨_, _, _, ⟨out, h4⟩ | ⟨pk, mp, h4, _⟩⟩ := hs
      · left
        rw [bind_ok h4, bind_ok hy]
        rfl
      · refine .inr ⟨p, s3, pk, mp, ?_, ?_⟩
        · rw [bind_ok hy]; rfl
        · rw [bind_def, h4]
    | abort =>
      rw [hy] at hs
      have hs : _ = _ := hs
      left
      rw [bind_def, hs, bind_def, hy]
    | panic pk s3 =>
      rw [hy] at hs hcases
      have hs : pk ≠ .capacity := hs
      rcases hcases with ⟨_, _, hc⟩ | ⟨_, hc⟩ | hc <;> cases hc
      exact (hs rfl).elim
    | ub =>
      rw [hy] at hcases
      rcases hcases with ⟨_, _, hc⟩ | ⟨_, hc⟩ | hc <;> cases hc
    | fuel =>
      rw [hy] at hcases
      rcases hcases with ⟨_, _, hc⟩ | ⟨_, hc⟩ | hc <;> cases hc
  · intro _
    left
    rw [bind_def, bind_def, e1]
  · intro _
    left
    rw [bind_def, bind_def, e1]

theorem catching_ser (hC : C.OK) {b : Catching} (hb : b.Real C) (hR : b.Restores k) {s : Ser} {m : Nat → Mem} (h : RelAll C k s m)
    (hr : TRoot.OK C ⟨L, a, data, b.callsFrom C k L a data s⟩) :
    serializeValue C k L a data (void (b.run C k)) s = TRoot.ser C k ⟨L, a, data, b.callsFrom C k L a data s⟩ s ∨
    ∃ p s1 pk mp, TRoot.ser C k ⟨L, a, data, b.callsFrom C k L a data s⟩ s = .ok p s1 ∧
      serializeValue C k L a data (void (b.run C k)) s = .panic pk { s1 with map := mp } :=
  catching_ser_of hC (.own hC k) hb hR (h.1 0).inv ((TRoot.ser_cases hC hr h).imp_right fun h => h.imp_right And.left) hr

/-- One that only looks at positions: the calls recorded, the end, and the result are those of the plan. -/
theorem catching_plan_of (hC : C.OK) {I : Sto → Prop} (hI : Housing C k I) {b : Catching} (hb : b.Real C) (hR : b.Restores k) (hB : b.Blind) {s s' : Ser}
    {r : Option Nat} (h : I s.sto)
    (hcases : (∃ p s', TRoot.ser C k ⟨L, a, data, b.callsFrom C k L a data s⟩ s = .ok p s') ∨
      (∃ s', TRoot.ser C k ⟨L, a, data, b.callsFrom C k L a data s⟩ s = .panic .capacity s') ∨
      TRoot.ser C k ⟨L, a, data, b.callsFrom C k L a data s⟩ s = .abort) (hr : TRoot.OK C ⟨L, a, data, b.callsFrom C k L a data s⟩)
    (he : M.caught (serializeValue C k L a data (void (b.run C k))) s = .ok r s') :
    b.planValue C.valueAlign C.maxCapacity L s.sto.vec.pos = (b.callsFrom C k L a data s, s'.sto.vec.pos, r) := by
  have ho : PushOK C L 1 a := hr.1
  revert hcases
  revert he
  unfold TRoot.ser Catching.callsFrom Catching.planValue M.caught
  simp only [serializeValue_eq]
  unfold pushRaw pushRawSlice Slice.fromRef
  simp only
  rcases hI.push ho h (.inl Nat.one_pos) data with ⟨p, t, e1, hp, hfit⟩ | ⟨e1, hfit⟩ | e1
  · have hset : ∃ s2 : Ser, s2.sto = t ∧ setRoot k ⟨a, p⟩ { s with sto := t } = .ok () s2 := by
      cases k with
      | pureCopy => exact ⟨{ s with sto := t }, rfl, rfl⟩
      | _ => exact ⟨{ s with sto := t, map := ⟨a, p⟩ }, rfl, rfl⟩
    obtain ⟨s2, q1, q2⟩ := hset
    simp only [bind_ok e1, bind_ok q2]
    rw [show ((M.throw PanicKind.user : M Ser Unit) >>= fun _ => (pure p : M Ser Nat)) s2 = .panic .user s2 from rfl]
    simp only
    have hend : s2.sto.vec.pos = roundUp (roundUp s.sto.vec.pos L.align + L.size) C.valueAlign := by
      rw [q1, hp.end_eq, hp.pos_eq, Nat.mul_one]
    have hpos : 0 < s2.sto.vec.pos := by
      have F := hC.facts
      have hge2 := le_roundUp (roundUp s.sto.vec.pos L.align + L.size) F.va.pos
      have hz := Nat.pos_of_ne_zero ho.size_ne
      rw [hend]
      omega
    have hi2 : I s2.sto := by rw [q1]; exact hp.inv
    have hs := csim (k := k) hC hI b hb hR (s := s2) hi2 hpos
    rw [Nat.mul_one] at hfit
    rw [if_pos hfit]
    intro he hcases
    rw [bind_def (x := TCalls.run C k _)] at hcases
    simp only [void, bind_assoc_M] at he
    cases hy : (b.made C k s2).run C k s2 with
    | ok u s3 =>
      obtain ⟨f1, f2, f3⟩ := planIs hC hI b hb hR hB hi2 hpos hy
      rw [hend] at f1 f2 f3
      cases hd : (b.plan C.valueAlign C.maxCapacity (roundUp (roundUp s.sto.vec.pos L.align + L.size) C.valueAlign)).2.2 with
      | some out =>
        rw [hd] at f3
        have f3 : b.run C k s2 = .ok out s3 := f3
        rw [bind_ok f3] at he
        cases he
        rw [f1, ← f2, Option.map_some, hp.pos_eq]
      | none =>
        rw [hd] at f3
        obtain ⟨pk, m, f3⟩ := f3
        rw [bind_def, f3] at he
        cases he
        rw [f1, ← f2, Option.map_none]
    | abort =>
      rw [hy] at hs
      have hs : _ = _ := hs
      rw [bind_def, hs] at he
      cases he
    | panic pk s3 =>
      rw [hy] at hs hcases
      have hs : pk ≠ .capacity := hs
      rcases hcases with ⟨_, _, hc⟩ | ⟨_, hc⟩ | hc <;> cases hc
      exact (hs rfl).elim
    | ub =>
      rw [hy] at hcases
      rcases hcases with ⟨_, _, hc⟩ | ⟨_, hc⟩ | hc <;> cases hc
    | fuel =>
      rw [hy] at hcases
      rcases hcases with ⟨_, _, hc⟩ | ⟨_, hc⟩ | hc <;> cases hc
  · intro he _
    rw [bind_def, e1] at he
    cases he
    rw [Nat.mul_one] at hfit
    rw [if_neg hfit, bind_def, e1]
    rfl
  · intro he _
    rw [bind_def, e1] at he
    cases he

theorem catching_plan (hC : C.OK) {b : Catching} (hb : b.Real C) (hR : b.Restores k) (hB : b.Blind) {s s' : Ser} {r : Option Nat} {m : Nat → Mem}
    (h : RelAll C k s m) (hr : TRoot.OK C ⟨L, a, data, b.callsFrom C k L a data s⟩)
    (he : M.caught (serializeValue C k L a data (void (b.run C k))) s = .ok r s') :
    b.planValue C.valueAlign C.maxCapacity L s.sto.vec.pos = (b.callsFrom C k L a data s, s'.sto.vec.pos, r) :=
  catching_plan_of hC (.own hC k) hb hR hB (h.1 0).inv ((TRoot.ser_cases hC hr h).imp_right fun h => h.imp_right And.left) hr he

end
end SerRaw
