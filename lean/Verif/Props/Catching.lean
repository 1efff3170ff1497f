import Verif.Props.ProgramsLater
import Verif.Props.Attempt
/-
C85: implementations of `serialize_data` that look at the serializer, decide by what they are told, push temporaries, panic, and catch panics — their own and those of a
storage that is full — and go on, nested in any way (Model/Catching.lean). They are among the events of the histories of C83 and C84
(`XAct.catching`), so all that is proved there holds whatever they do; here is what their own calls give.
-/
namespace SerRaw

section
variable {C : Cfg} {k : Kind} {P : Prog} {t t' : Sto} {xs : List XEv} {s s' : Ser} {K : Nat → Prop} {L : Layout} {a : Nat} {data : Nat → Cell}

/-! ### One call -/

/-- C85, the calls of an implementation that catches panics: at any moment of any history, `serialize_value` does what it does on the same value with the plain calls
recorded — same result, same state, same panic —, or a panic was not caught, and then the storage and the recorded pointers are as if the
implementation had returned instead. -/
theorem C85_calls (hC : C.OK) (hP : P.WF C.arch) (hacc : P.Accepted C) (ht : XReach C P t) (h : XSess C k P t xs s) {b : Catching}
    (hl : (XAct.catching L a data b).Legal C k P xs s) :
    let r : TRoot := ⟨L, a, data, b.callsFrom C k L a data s⟩
    serializeValue C k L a data (do let _ ← b.run C k; pure ()) s = r.ser C k s ∨
    ∃ p s1 pk s2, r.ser C k s = .ok p s1 ∧ serializeValue C k L a data (do let _ ← b.run C k; pure ()) s = .panic pk s2 ∧
      s2.sto = s1.sto ∧ s2.ptrs = s1.ptrs := by
  obtain ⟨es, m, _, hinv⟩ := h.inv hC hP hacc (ht.inv hC hP hacc)
  rcases catching_ser hC hl.2.1 hl.2.2 hinv.rel hl.1 with h1 | ⟨p, s1, pk, mp, h1, h2⟩
  · exact .inl h1
  · exact .inr ⟨p, s1, pk, _, h1, h2, rfl, rfl⟩

/-- C85, best effort: if everything the implementation does is attempted, and then it returns, whatever panics and whatever does not fit the call returns the
position of the value, provided that there is room for the value itself. -/
theorem C85_returns (hC : C.OK) (hP : P.WF C.arch) (hacc : P.Accepted C) (ht : XReach C P t) (h : XSess C k P t xs s) {inner : Catching}
    {restore : Bool} {out : Option (List Nat) → List Nat}
    (hl : (XAct.catching L a data (.attempt restore inner fun r => .done (out r))).Legal C k P xs s)
    (hfit : roundUp s.sto.vec.pos L.align + L.size ≤ C.maxCapacity) :
    (∃ s1, serializeValue C k L a data (do let _ ← (Catching.attempt restore inner fun r => .done (out r)).run C k; pure ()) s =
      .ok (roundUp s.sto.vec.pos L.align) s1) ∨
    (serializeValue C k L a data (do let _ ← (Catching.attempt restore inner fun r => .done (out r)).run C k; pure ()) s = .abort ∧ ¬ C.NeverFails) := by
  obtain ⟨es, m, _, hinv⟩ := h.inv hC hP hacc (ht.inv hC hP hacc)
  have hcases := TRoot.ser_cases hC hl.1 hinv.rel
  have hser := catching_ser hC hl.2.1 hl.2.2 hinv.rel hl.1
  have ho : PushOK C L 1 a := hl.1.1
  -- the body does not panic
  have hbody : ∀ s1 pk s2, (Catching.attempt restore inner fun r => .done (out r)).run C k s1 ≠ .panic pk s2 := by
    intro s1 pk s2 e
    simp only [Catching.run] at e
    rw [bind_ok (show Ser.getMap s1 = .ok s1.map s1 from rfl), bind_def] at e
    unfold M.caught at e
    cases hi : inner.run C k s1 <;> rw [hi] at e <;> cases e
  change (serializeValue C k L a data (void _) s = _ ∨ _) at hser
  change (∃ s1, serializeValue C k L a data (void _) s = _) ∨ (serializeValue C k L a data (void _) s = _ ∧ _)
  generalize hb : (Catching.attempt restore inner fun r => Catching.done (out r)) = b at *
  have hnp : ∀ pk s1, serializeValue C k L a data (void (b.run C k)) s ≠ .panic pk s1 := by
    intro pk s1 e
    rw [serializeValue_eq] at e
    unfold pushRaw pushRawSlice Slice.fromRef at e
    simp only at e
    rcases push_cases hC ho (hinv.rel.1 0).inv (.inl Nat.one_pos) data with ⟨p, t, e1, hp, _⟩ | ⟨e1, hf⟩ | ⟨e1, hab⟩
    · obtain ⟨s2, q2⟩ : ∃ s2, setRoot k ⟨a, p⟩ { s with sto := t } = .ok () s2 := by cases k <;> exact ⟨_, rfl⟩
      rw [bind_ok e1, bind_ok q2, bind_def, void, bind_def] at e
      cases hr : b.run C k s2 with
      | panic pk s3 => exact hbody s2 pk s3 hr
      | _ => rw [hr] at e; cases e
    · exact hf (by rw [Nat.mul_one]; exact hfit)
    · rw [bind_def, e1] at e; cases e
  have hres : ∀ p s1, serializeValue C k L a data (void (b.run C k)) s = .ok p s1 → p = roundUp s.sto.vec.pos L.align := by
    intro p s1 e
    rw [serializeValue_eq] at e
    unfold pushRaw pushRawSlice Slice.fromRef at e
    simp only at e
    rcases push_cases hC ho (hinv.rel.1 0).inv (.inl Nat.one_pos) data with ⟨p, t, e1, hp, _⟩ | ⟨e1, hf⟩ | ⟨e1, hab⟩
    · rw [bind_ok e1] at e
      obtain ⟨_, _, _, e⟩ := bind_eq_ok e
      obtain ⟨_, _, _, e⟩ := bind_eq_ok e
      cases e
      exact hp.pos_eq
    · rw [bind_def, e1] at e; cases e
    · rw [bind_def, e1] at e; cases e
  rcases hser with e | ⟨p, s1, pk, mp, _, e⟩
  · rw [← e] at hcases
    rcases hcases with ⟨p, s1, e1⟩ | ⟨s1, e1⟩ | h1
    · have := hres p s1 e1
      exact .inl ⟨s1, by rw [e1, this]⟩
    · exact (hnp _ _ e1).elim
    · exact .inr h1
  · exact (hnp _ _ e).elim

/-- C85, what happens is decided by positions: for an implementation that looks at nothing but positions, the calls it amounts to, where the output ends,
and what the call returns — what fits, what panics, what is caught, which way it then goes — are those of the plan (Spec/Catching.lean), computed from where
the output ended before and the maximum capacity alone: whatever the kind of serializer, the history, the allocator and the build. -/
theorem C85_plan (hC : C.OK) (hP : P.WF C.arch) (hacc : P.Accepted C) (ht : XReach C P t) (h : XSess C k P t xs s) :
    ∀ x ∈ xs, ∀ L a data b, x.act = .catching L a data b → b.Blind →
      b.planValue C.valueAlign C.maxCapacity L x.lo = (x.calls, x.hi, x.res) := by
  induction h with
  | start => exact nofun
  | @step es s a fuel r s' h hl he ih =>
    obtain ⟨_, m, _, hinv⟩ := h.inv hC hP hacc (ht.inv hC hP hacc)
    intro x hx L a' data b ha hB
    rcases List.mem_append.1 hx with hx | hx
    · exact ih x hx L a' data b ha hB
    · obtain rfl := List.mem_singleton.1 hx
      change a = _ at ha
      subst ha
      exact catching_plan hC hl.2.1 hl.2.2 hB hinv.rel hl.1 he

/-! ### Which implementations these are -/

/-- The program as an implementation that catches nothing. -/
def Catching.ofProgram : Program → Catching
  | .done out => .done out
  | .panic => .panic
  | .look f => .look fun s => ofProgram (f s)
  | .lookPos f => .lookPos fun p => ofProgram (f p)
  | .lookFor x f => .lookFor x fun p => ofProgram (f p)
  | .pushProcess L len src data ptr inner rest => .pushProcess L len src data ptr (ofProgram inner) fun p r => ofProgram (rest p r)
  | .push L len src data ptr rest => .push L len src data ptr fun p => ofProgram (rest p)
  | .pushRaw L len src data rest => .pushRaw L len src data fun p => ofProgram (rest p)
  | .pushRawBytes len data rest => .pushRawBytes len data fun p => ofProgram (rest p)
  | .overwrite addr L data rest => .overwrite addr L data (ofProgram rest)

/-- C85: the programs of C83 are among them. -/
theorem C85_programs (C : Cfg) (k : Kind) (b : Program) : (Catching.ofProgram b).run C k = b.run C k ∧ (Catching.ofProgram b).Restores k := by
  induction b with
  | done out => exact ⟨rfl, trivial⟩
  | panic => exact ⟨rfl, trivial⟩
  | look f ih => exact ⟨funext fun s => by simp only [Catching.ofProgram, Catching.run, Program.run, (ih s).1], fun s => (ih s).2⟩
  | lookPos f ih => exact ⟨funext fun s => by simp only [Catching.ofProgram, Catching.run, Program.run, (ih _).1], fun s => (ih _).2⟩
  | lookFor x f ih => exact ⟨by simp only [Catching.ofProgram, Catching.run, Program.run, (ih _).1], fun p => (ih p).2⟩
  | pushProcess L len src data ptr inner rest ih1 ih2 =>
    exact ⟨by simp only [Catching.ofProgram, Catching.run, Program.run, ih1.1, (ih2 _ _).1], ih1.2, fun p r => (ih2 p r).2⟩
  | push L len src data ptr rest ih => exact ⟨by simp only [Catching.ofProgram, Catching.run, Program.run, (ih _).1], fun p => (ih p).2⟩
  | pushRaw L len src data rest ih => exact ⟨by simp only [Catching.ofProgram, Catching.run, Program.run, (ih _).1], fun p => (ih p).2⟩
  | pushRawBytes len data rest ih => exact ⟨by simp only [Catching.ofProgram, Catching.run, Program.run, (ih _).1], fun p => (ih p).2⟩
  | overwrite addr L data rest ih => exact ⟨by simp only [Catching.ofProgram, Catching.run, Program.run, ih.1], ih.2⟩

/-- The calls of C75 as such an implementation. -/
def Catching.ofACalls (im : Mem) : ACalls → Catching
  | .done => .done []
  | .panic => .panic
  | .pushProcess L len src ptr inner rest => .pushProcess L len src (fun i => im (src + i)) ptr (ofACalls im inner) fun _ _ => ofACalls im rest
  | .push L len src ptr rest => .push L len src (fun i => im (src + i)) ptr fun _ => ofACalls im rest
  | .pushRaw L len src rest => .pushRaw L len src (fun i => im (src + i)) fun _ => ofACalls im rest
  | .overwrite addr L data rest => .overwrite addr L data (ofACalls im rest)
  | .attempt restore inner ifOk ifPanicked => .attempt restore (ofACalls im inner) fun r => if r.isSome then ofACalls im ifOk else ofACalls im ifPanicked

theorem caught_void {α : Type} (x : M Ser α) : M.caught (void x) = (M.caught x >>= fun r => pure (r.map fun _ => ())) := by
  funext s
  simp only [M.caught, void, bind_def]
  cases x s <;> rfl

/-- C85: the implementations of C75, which catch panics but do not look at what they are told, are among them. -/
theorem C85_attempts (C : Cfg) (k : Kind) (im : Mem) (A : ACalls) :
    (do let _ ← (Catching.ofACalls im A).run C k; pure ()) = A.run C k im ∧ (A.Slices C → (Catching.ofACalls im A).Real C) ∧
    (A.flat = true → (Catching.ofACalls im A).Flat) ∧ (A.Restores k → (Catching.ofACalls im A).Restores k) := by
  show void _ = _ ∧ _
  induction A with
  | done => exact ⟨rfl, fun _ => trivial, fun _ => trivial, fun _ => trivial⟩
  | panic => exact ⟨rfl, fun _ => trivial, fun _ => trivial, fun _ => trivial⟩
  | pushProcess L len src ptr inner rest ih1 ih2 =>
    refine ⟨?_, fun h => ⟨h.1, ih1.2.1 h.2.1, fun _ _ => ih2.2.1 h.2.2⟩, by simp [ACalls.flat], fun h => ⟨ih1.2.2.2 h.1, fun _ _ => ih2.2.2.2 h.2⟩⟩
    simp only [Catching.ofACalls, Catching.run, ACalls.run]
    rw [void_after]
    funext s
    have e := capturing_fst (C := C) (k := k) ⟨L, len, src, fun i => im (src + i)⟩ (addrFromRef k ptr) ((Catching.ofACalls im inner).run C k) s
    rw [ih1.1] at e
    rw [ih2.1]
    exact (bind_congr_map (f := fun _ => _) e.symm fun r s1 _ => rfl).symm
  | push L len src ptr rest ih =>
    refine ⟨?_, fun h => ⟨h.1, fun _ => ih.2.1 h.2⟩, fun h _ => ih.2.2.1 h, fun h _ => ih.2.2.2 h⟩
    simp only [Catching.ofACalls, Catching.run, ACalls.run]
    rw [void_after, ih.1]
  | pushRaw L len src rest ih =>
    refine ⟨?_, fun h => ⟨h.1, fun _ => ih.2.1 h.2⟩, fun h _ => ih.2.2.1 h, fun h _ => ih.2.2.2 h⟩
    simp only [Catching.ofACalls, Catching.run, ACalls.run]
    rw [void_after, ih.1]
  | overwrite addr L data rest ih =>
    refine ⟨?_, ih.2.1, ih.2.2.1, ih.2.2.2⟩
    simp only [Catching.ofACalls, Catching.run, ACalls.run]
    rw [void_after, ih.1]
  | attempt restore inner ifOk ifPanicked ih1 ih2 ih3 =>
    refine ⟨?_, fun h => ⟨ih1.2.1 h.1, fun r => ?_⟩, fun h => ?_, fun h => ⟨h.1.imp_right (·.imp_right ih1.2.2.1), ih1.2.2.2 h.2.1, fun r => ?_⟩⟩
    · simp only [Catching.ofACalls, Catching.run, ACalls.run]
      rw [void_after]
      funext s
      rw [bind_ok (show Ser.getMap s = .ok s.map s from rfl), bind_ok (show Ser.getMap s = .ok s.map s from rfl), void_after, ← ih1.1, caught_void, bind_assoc_M]
      refine bind_congr_at fun r s1 _ => ?_
      rw [pure_bind_M, void_after, bind_ok (show restoreMap k restore s.map r s1 = .ok () (restored k restore s.map r s1) from rfl)]
      cases r with
      | some out =>
        simp only [Option.map_some, Option.isSome_some, if_true]
        rw [ih2.1]
        rfl
      | none =>
        simp only [Option.map_none, Option.isSome_none, Bool.false_eq_true, if_false]
        rw [ih3.1]
        unfold afterPanic restored
        by_cases hc : restore = true ∧ k ≠ .pureCopy
        · rw [if_pos ⟨rfl, hc⟩, if_pos hc]; rfl
        · rw [if_neg fun h => hc h.2, if_neg hc]; rfl
    · show Catching.Real C (if _ then _ else _)
      split
      · exact ih2.2.1 h.2.1
      · exact ih3.2.1 h.2.2
    · simp only [ACalls.flat, Bool.and_eq_true] at h
      refine ⟨ih1.2.2.1 h.1.1, fun r => ?_⟩
      show Catching.Flat (if _ then _ else _)
      split
      · exact ih2.2.2.1 h.1.2
      · exact ih3.2.2.1 h.2
    · show Catching.Restores k (if _ then _ else _)
      split
      · exact ih2.2.2.2 h.2.2.1
      · exact ih3.2.2.2 h.2.2.2

/-! ### The rules -/

/-- The pointers of the value being processed that the calls write. -/
def TCalls.points : TCalls → List Nat
  | .done => []
  | .pushProcess _ _ _ _ ptr _ rest => ptr :: rest.points
  | .push _ _ _ _ ptr rest => ptr :: rest.points
  | .pushRaw _ _ _ _ rest => rest.points
  | .pushRawBytes _ _ rest => rest.points
  | .overwrite _ _ _ rest => rest.points

theorem TCalls.touch_app (A : Arch) (c d : TCalls) : (c.app d).touch A = c.touch A ++ d.touch A := by
  induction c with
  | done => rfl
  | pushProcess L len src data ptr inner rest _ ih => simp only [TCalls.app, TCalls.touch, ih, List.cons_append]
  | push L len src data ptr rest ih => simp only [TCalls.app, TCalls.touch, ih, List.cons_append]
  | pushRaw L len src data rest ih => exact ih
  | pushRawBytes len data rest ih => exact ih
  | overwrite a L data rest ih => simp only [TCalls.app, TCalls.touch, ih, List.cons_append]

theorem TCalls.points_app (c d : TCalls) : (c.app d).points = c.points ++ d.points := by
  induction c with
  | done => rfl
  | pushProcess L len src data ptr inner rest _ ih => simp only [TCalls.app, TCalls.points, ih, List.cons_append]
  | push L len src data ptr rest ih => simp only [TCalls.app, TCalls.points, ih, List.cons_append]
  | pushRaw L len src data rest ih => exact ih
  | pushRawBytes len data rest ih => exact ih
  | overwrite a L data rest ih => exact ih

theorem TCalls.wf_app {c d : TCalls} {x : Ctx} (hc : c.WF C x) (hd : d.WF C x)
    (h : ∀ p ∈ c.points, ∀ t ∈ d.touch C.arch, DisjRange p C.arch.ptrBytes t.1 t.2) : (c.app d).WF C x := by
  induction c with
  | done => exact hd
  | pushProcess L len src data ptr inner rest _ ih =>
    obtain ⟨h1, h2, h3, h4, h5⟩ := hc
    refine ⟨h1, h2, fun t ht => ?_, h4, ih h5 fun p hp => h p (List.mem_cons_of_mem _ hp)⟩
    rw [TCalls.touch_app, List.mem_append] at ht
    exact ht.elim (h3 t) (h ptr List.mem_cons_self t)
  | push L len src data ptr rest ih =>
    obtain ⟨h1, h2, h3, h5⟩ := hc
    refine ⟨h1, h2, fun t ht => ?_, ih h5 fun p hp => h p (List.mem_cons_of_mem _ hp)⟩
    rw [TCalls.touch_app, List.mem_append] at ht
    exact ht.elim (h3 t) (h ptr List.mem_cons_self t)
  | pushRaw L len src data rest ih => exact ⟨hc.1, ih hc.2 h⟩
  | pushRawBytes len data rest ih => exact ⟨hc.1, ih hc.2 h⟩
  | overwrite a L data rest ih => exact ⟨hc.1, ih hc.2 h⟩

theorem made_may (b : Catching) (s : Ser) : (∀ t ∈ (b.made C k s).touch C.arch, b.MayTouch C.arch t) ∧ ∀ x ∈ (b.made C k s).points, b.MayPoint x := by
  induction b generalizing s with
  | done out => exact ⟨nofun, nofun⟩
  | panic => exact ⟨nofun, nofun⟩
  | look f ih => exact ⟨fun t h => ⟨s, (ih s s).1 t h⟩, fun t h => ⟨s, (ih s s).2 t h⟩⟩
  | lookPos f ih => exact ⟨fun t h => ⟨_, (ih _ s).1 t h⟩, fun t h => ⟨_, (ih _ s).2 t h⟩⟩
  | lookFor x f ih =>
    simp only [Catching.made]
    split
    · exact ⟨fun t h => ⟨_, (ih _ _).1 t h⟩, fun t h => ⟨_, (ih _ _).2 t h⟩⟩
    · exact ⟨nofun, nofun⟩
  | pushProcess L len src data ptr inner rest ih1 ih2 =>
    simp only [Catching.made]
    split
    · constructor
      · intro t h
        rcases List.mem_cons.1 h with rfl | h
        · exact .inl rfl
        · split at h
          · exact .inr ⟨_, _, (ih2 _ _ _).1 t h⟩
          · cases h
      · intro t h
        rcases List.mem_cons.1 h with rfl | h
        · exact .inl rfl
        · split at h
          · exact .inr ⟨_, _, (ih2 _ _ _).2 t h⟩
          · cases h
    · exact ⟨nofun, nofun⟩
    · constructor
      · intro t h
        rcases List.mem_cons.1 h with rfl | h
        · exact .inl rfl
        · cases h
      · intro t h
        rcases List.mem_cons.1 h with rfl | h
        · exact .inl rfl
        · cases h
  | push L len src data ptr rest ih =>
    simp only [Catching.made]
    split
    · constructor
      · intro t h
        rcases List.mem_cons.1 h with rfl | h
        · exact .inl rfl
        · exact .inr ⟨_, (ih _ _).1 t h⟩
      · intro t h
        rcases List.mem_cons.1 h with rfl | h
        · exact .inl rfl
        · exact .inr ⟨_, (ih _ _).2 t h⟩
    · exact ⟨nofun, nofun⟩
    · constructor
      · intro t h
        rcases List.mem_cons.1 h with rfl | h
        · exact .inl rfl
        · cases h
      · intro t h
        rcases List.mem_cons.1 h with rfl | h
        · exact .inl rfl
        · cases h
  | pushRaw L len src data rest ih =>
    simp only [Catching.made]
    split
    · exact ⟨fun t h => ⟨_, (ih _ _).1 t h⟩, fun t h => ⟨_, (ih _ _).2 t h⟩⟩
    · exact ⟨nofun, nofun⟩
    · exact ⟨nofun, nofun⟩
  | pushRawBytes len data rest ih =>
    simp only [Catching.made]
    split
    · exact ⟨fun t h => ⟨_, (ih _ _).1 t h⟩, fun t h => ⟨_, (ih _ _).2 t h⟩⟩
    · exact ⟨nofun, nofun⟩
    · exact ⟨nofun, nofun⟩
  | overwrite addr L data rest ih =>
    simp only [Catching.made]
    constructor
    · intro t h
      rcases List.mem_cons.1 h with rfl | h
      · exact .inl rfl
      · split at h
        · exact .inr ((ih _).1 t h)
        · cases h
    · intro t h
      simp only [TCalls.points] at h
      split at h
      · exact (ih _).2 t h
      · cases h
  | attempt restore inner rest ih1 ih2 =>
    simp only [Catching.made, TCalls.touch_app, TCalls.points_app, List.mem_append]
    constructor
    · rintro t (h | h)
      · exact .inl ((ih1 s).1 t h)
      · split at h
        · exact .inr ⟨_, (ih2 _ _).1 t h⟩
        · cases h
    · rintro t (h | h)
      · exact .inl ((ih1 s).2 t h)
      · split at h
        · exact .inr ⟨_, (ih2 _ _).2 t h⟩
        · cases h

theorem PushOK.noElements {len src : Nat} (h : PushOK C L len src) : PushOK C L 0 src :=
  ⟨h.size_ne, h.pow2, h.align_le, by rw [Nat.mul_zero]; exact Nat.zero_le _⟩

theorem catching_wf (b : Catching) (s : Ser) {c : Ctx} (h : b.Follows C c) : (b.made C k s).WF C c := by
  induction b generalizing s c with
  | done out => trivial
  | panic => trivial
  | look f ih => exact ih s s (h s)
  | lookPos f ih => exact ih _ s (h _)
  | lookFor x f ih =>
    simp only [Catching.made]
    split
    · exact ih _ _ (h _)
    · trivial
  | pushProcess L len src data ptr inner rest ih1 ih2 =>
    obtain ⟨h1, h2, h3, h4, h5⟩ := h
    simp only [Catching.made]
    split
    · refine ⟨h1, h2, ?_, ih1 _ h4, ?_⟩
      · intro t ht
        split at ht
        · exact h3 _ _ t ((made_may _ _).1 t ht)
        · cases ht
      · split
        · exact ih2 _ _ _ (h5 _ _)
        · trivial
    · exact ⟨h1.noElements, trivial⟩
    · exact ⟨h1, h2, nofun, trivial, trivial⟩
  | push L len src data ptr rest ih =>
    obtain ⟨h1, h2, h3, h4⟩ := h
    simp only [Catching.made]
    split
    · exact ⟨h1, h2, fun t ht => h3 _ t ((made_may _ _).1 t ht), ih _ _ (h4 _)⟩
    · exact ⟨h1.noElements, trivial⟩
    · exact ⟨h1, h2, nofun, trivial⟩
  | pushRaw L len src data rest ih =>
    simp only [Catching.made]
    split
    · exact ⟨h.1, ih _ _ (h.2 _)⟩
    · exact ⟨h.1.noElements, trivial⟩
    · exact ⟨h.1, trivial⟩
  | pushRawBytes len data rest ih =>
    simp only [Catching.made]
    split
    · exact ⟨h.1, ih _ _ (h.2 _)⟩
    · trivial
    · exact ⟨h.1, trivial⟩
  | overwrite addr L data rest ih =>
    simp only [Catching.made]
    refine ⟨h.1, ?_⟩
    split
    · exact ih _ h.2
    · trivial
  | attempt restore inner rest ih1 ih2 =>
    obtain ⟨h1, h2, h3⟩ := h
    simp only [Catching.made]
    refine TCalls.wf_app (ih1 s h1) ?_ ?_
    · split
      · exact ih2 _ _ (h2 _)
      · trivial
    · intro p hp t ht
      split at ht
      · exact h3 p _ t ((made_may _ _).2 p hp) ((made_may _ _).1 t ht)
      · cases ht

theorem Catching.Follows.real {b : Catching} {c : Ctx} (h : b.Follows C c) : b.Real C := by
  induction b generalizing c with
  | done out => trivial
  | panic => trivial
  | look f ih => exact fun s => ih s (h s)
  | lookPos f ih => exact fun s => ih s (h s)
  | lookFor x f ih => exact fun s => ih s (h s)
  | pushProcess L len src data ptr inner rest ih1 ih2 => exact ⟨h.1, ih1 h.2.2.2.1, fun p r => ih2 p r (h.2.2.2.2 p r)⟩
  | push L len src data ptr rest ih => exact ⟨h.1, fun p => ih p (h.2.2.2 p)⟩
  | pushRaw L len src data rest ih => exact ⟨h.1, fun p => ih p (h.2 p)⟩
  | pushRawBytes len data rest ih => exact ⟨h.1, fun p => ih p (h.2 p)⟩
  | overwrite addr L data rest ih => exact ih h.2
  | attempt restore inner rest ih1 ih2 => exact ⟨ih1 h.1, fun r => ih2 r (h.2.1 r)⟩

/-- C85, rules: an implementation that follows the rules whatever it is told and wherever it panics, and catches panics only where the serializer still knows which
value it is at, may be used in whatever state the serializer is. -/
theorem C85_follows (C : Cfg) (k : Kind) (P : Prog) {b : Catching} (hL : PushOK C L 1 a) (hb : b.Follows C ⟨a, L.size, L.align⟩) (hr : b.Restores k)
    (xs : List XEv) (s : Ser) : (XAct.catching L a data b).Legal C k P xs s := by
  refine ⟨⟨hL, ?_⟩, hb.real, hr⟩
  simp only [Catching.callsFrom]
  split
  · exact catching_wf b _ hb
  · trivial

/-! ### Histories -/

/-- C85, output: a call that gave a position put the value at the next multiple of its alignment, and its output in the final buffer is the reference
output of the calls recorded: what was attempted and did not work has left just what it had pushed, and the pointers to it. -/
theorem C85_output (hC : C.OK) (hP : P.WF C.arch) (hacc : P.Accepted C) (ht : XReach C P t) (h : XSess C k P t xs s)
    (hf : finalize C k s = .ok () s') :
    ∀ x ∈ xs, ∀ L a data b p, x.act = .catching L a data b → x.res = some p →
      p = roundUp x.lo L.align ∧
      ∃ m0, let out := TRoot.ideal C.arch C.valueAlign (k.mode s'.sto.vec.ptr) ⟨L, a, data, x.calls⟩ (m0, x.lo)
        out.2 = x.hi ∧ ∀ i, x.lo ≤ i → i < x.hi → s'.sto.bytes i = out.1 i := by
  obtain ⟨es, hsim, hend⟩ := h.ended hC hP hacc ht hf
  intro x hx L a data b p ha hp
  obtain ⟨e, he, h1⟩ := sim_mem hsim hx
  obtain ⟨hok, stop, h2⟩ := h1.catching _ _ _ _ ha
  obtain ⟨h3, h4, m0, h5, h6⟩ := Ended.user hC hP hacc hend e he _ p h2 (h1.res.trans hp)
  rw [h1.lo] at h4 h5 h6
  rw [h1.hi] at h5 h6
  rw [TRoot.image_script] at h5 h6
  have e1 := TRoot.virt_ideal hC hok (A := C.arch) (va := C.valueAlign) (md := k.mode s'.sto.vec.ptr) (st := (m0, x.lo))
  rw [rootPos, if_neg (show ¬ (TRoot.image C.arch.usizeMod stop ⟨L, a, data, x.calls⟩).L.size = 0 from hok.1.size_ne)] at h4
  refine ⟨h4, m0, ?_⟩
  rw [← e1]
  exact ⟨h5, h6⟩

/-- C85, crash points: with every kind but `CompleteSerializer`, that output is in a file that has the written part at any moment. -/
theorem C85_prefix (hC : C.OK) (hP : P.WF C.arch) (hacc : P.Accepted C) (ht : XReach C P t) (hk : k ≠ .complete) (h : XSess C k P t xs s)
    {n : Nat} {file : Mem} (hfile : ∀ i < n, file i = s.sto.bytes i) :
    ∀ x ∈ xs, ∀ L a data b p, x.act = .catching L a data b → x.res = some p →
      ∃ m0, let out := TRoot.ideal C.arch C.valueAlign (k.mode 0) ⟨L, a, data, x.calls⟩ (m0, x.lo)
        out.2 = x.hi ∧ ∀ i, x.lo ≤ i → i < x.hi → i < n → file i = out.1 i := by
  obtain ⟨es, m, hsim, h1⟩ := h.inv hC hP hacc (ht.inv hC hP hacc)
  intro x hx L a data b p ha hp
  obtain ⟨e, he, hs⟩ := sim_mem hsim hx
  obtain ⟨hok, stop, h2⟩ := hs.catching _ _ _ _ ha
  have h3 := h1.left e he p (hs.res.trans hp)
  rw [h2] at h3
  obtain ⟨_, h4⟩ := h3
  obtain ⟨m0, hc⟩ := h4.cells 0
  have hhi := (h1.bounds e he).2.2
  have h5 := h4.end_
  rw [hs.lo, hs.hi] at hc
  rw [hs.hi] at hhi h5
  rw [hs.lo] at h5
  rw [TRoot.image_script] at hc h5
  have e1 := TRoot.virt_ideal hC hok (A := C.arch) (va := C.valueAlign) (md := k.mode 0) (st := (m0, x.lo))
  have e2 : (TRoot.ideal C.arch C.valueAlign (k.mode 0) ⟨L, a, data, x.calls⟩ (m0, x.lo)).2 = x.hi := by
    rw [← e1]
    exact rootIdeal_end.trans h5.symm
  refine ⟨m0, e2, fun i h6 h7 h8 => ?_⟩
  rw [hfile i h8, h1.bytes hk (by omega) 0, hc i h6 h7]
  show _ = (TRoot.ideal C.arch C.valueAlign (k.mode 0) ⟨L, a, data, x.calls⟩ (m0, x.lo)).1 i
  rw [← e1]
  rfl

/-- C85, afterwards: that output stays, whatever is done with the storage later, except where it is overwritten. -/
theorem C85_after (hC : C.OK) (hP : P.WF C.arch) (hacc : P.Accepted C) (ht : XReach C P t) (h : XSess C k P t xs s)
    (hf : finalize C k s = .ok () s') (ha : XAfter C P K s'.sto t') :
    ∀ x ∈ xs, ∀ L a data b p, x.act = .catching L a data b → x.res = some p →
      ∃ m0, let out := TRoot.ideal C.arch C.valueAlign (k.mode s'.sto.asPtr) ⟨L, a, data, x.calls⟩ (m0, x.lo)
        out.2 = x.hi ∧ ∀ i, x.lo ≤ i → i < x.hi → K i → t'.bytes i = out.1 i := by
  obtain ⟨es, hsim, hl⟩ := h.after hC hP hacc ht hf ha
  intro x hx L a data b p ha hp
  obtain ⟨e, he, hs⟩ := sim_mem hsim hx
  obtain ⟨hok, stop, h2⟩ := hs.catching _ _ _ _ ha
  obtain ⟨m0, h5, h6⟩ := hl.user hC hP hacc e he _ p h2 (hs.res.trans hp)
  rw [hs.lo] at h5 h6
  rw [hs.hi] at h5 h6
  rw [TRoot.image_script] at h5 h6
  have e1 := TRoot.virt_ideal hC hok (A := C.arch) (va := C.valueAlign) (md := k.mode s'.sto.asPtr) (st := (m0, x.lo))
  refine ⟨m0, ?_⟩
  rw [← e1]
  exact ⟨h5, h6⟩

end

/-! ### An implementation that meets the requirements -/

/-- A value with three words. Its implementation tries to push a pair of words from a temporary at 32, to which the second word of the value points, and 41 bytes, to which
the second word of the pair points; if that panics, it pushes the position where the output ends then, from another temporary, to which the first word
of the value points. -/
def exCatching : Catching :=
  .attempt true
    (.pushProcess ⟨16, 8⟩ 1 32 (wordsCells x64 [7, 9]) 4104 (.push ⟨1, 1⟩ 41 300 (fun _ => some 1) 40 fun r => .done [r]) fun p out => .done (p :: out))
    fun r => if r.isSome then .done [] else .lookPos fun q => .push ⟨8, 8⟩ 1 32 (wordsCells x64 [q]) 4096 fun _ => .done []

theorem exCatching_blind : exCatching.Blind := by
  refine ⟨⟨fun _ => trivial, fun _ _ => trivial⟩, fun r => ?_⟩
  show Catching.Blind (if _ then _ else _)
  split
  · trivial
  · exact fun _ _ => trivial

theorem exCatching_restores (k : Kind) : exCatching.Restores k := by
  refine ⟨.inl rfl, ⟨fun _ => trivial, fun _ _ => trivial⟩, fun r => ?_⟩
  show Catching.Restores k (if _ then _ else _)
  split
  · trivial
  · exact fun _ _ => trivial

theorem exCatching_follows : exCatching.Follows cfgTight ⟨4096, 24, 8⟩ := by
  have e8 : Pow2 8 := ⟨3, rfl⟩
  have e1 : Pow2 1 := ⟨0, rfl⟩
  have p1 : PushOK cfgTight ⟨16, 8⟩ 1 32 := ⟨by decide, e8, by decide, by decide⟩
  have p2 : PushOK cfgTight ⟨1, 1⟩ 41 300 := ⟨by decide, e1, by decide, by decide⟩
  have p3 : PushOK cfgTight ⟨8, 8⟩ 1 32 := ⟨by decide, e8, by decide, by decide⟩
  have t1 : TouchOK cfgTight ⟨4096, 24, 8⟩ 4104 cfgTight.arch.ptrBytes := ⟨by decide, by decide, by decide, by decide⟩
  have t2 : TouchOK cfgTight ⟨32, 16, 8⟩ 40 cfgTight.arch.ptrBytes := ⟨by decide, by decide, by decide, by decide⟩
  have t3 : TouchOK cfgTight ⟨4096, 24, 8⟩ 4096 cfgTight.arch.ptrBytes := ⟨by decide, by decide, by decide, by decide⟩
  have hd : DisjRange 4104 cfgTight.arch.ptrBytes 4096 cfgTight.arch.ptrBytes := .inr (by decide)
  refine ⟨⟨p1, t1, nofun, ⟨p2, t2, nofun, fun _ => trivial⟩, fun _ _ => trivial⟩, fun r => ?_, ?_⟩
  · show Catching.Follows cfgTight (if _ then _ else _) _
    split
    · trivial
    · exact fun q => ⟨p3, t3, fun _ _ h => h.elim, fun _ => trivial⟩
  · rintro x r t hx ht
    change Catching.MayTouch _ (if _ then _ else _) _ at ht
    have hx : x = 4104 := hx.elim id fun ⟨_, _, h⟩ => h.elim
    subst hx
    split at ht
    · exact ht.elim
    · obtain ⟨_, rfl | ⟨_, h⟩⟩ := ht
      · exact hd
      · exact h.elim

theorem exCatching_legal (k : Kind) (xs : List XEv) (s : Ser) : (XAct.catching ⟨24, 8⟩ 4096 exLoudData exCatching).Legal cfgTight k exP xs s :=
  C85_follows cfgTight k exP ⟨by decide, ⟨3, rfl⟩, by decide, by decide⟩ exCatching_follows (exCatching_restores k) xs s

/-- In a storage of at most 176 bytes: everything fits; an enum is serialized; the 41 bytes do not fit, the panic is caught and the position pushed
instead; of the third value, which ends where the storage does, neither the pair nor the position fits, and the second panic is not caught. -/
theorem exCatchSess (k : Kind) : ∃ c1 c2 c3 s,
    c2 = (exCatching.planValue 8 176 ⟨24, 8⟩ 104).1 ∧
    XSess cfgTight k exP Sto.new
    [⟨.catching ⟨24, 8⟩ 4096 exLoudData exCatching, c1, some 0, 0, 88⟩, ⟨.plain (.typed ⟨exIm, 9, 4288⟩), .done, some 88, 88, 104⟩,
     ⟨.catching ⟨24, 8⟩ 4096 exLoudData exCatching, c2, some 104, 104, 152⟩, ⟨.catching ⟨24, 8⟩ 4096 exLoudData exCatching, c3, none, 152, 176⟩] s ∧
    s.sto.vec.ptr = 4 * 2 ^ 20 := by
  obtain ⟨s, h0, hp, hb⟩ := Out.result_ok (o := xActsRun cfgTight k exP 6
    [.catching ⟨24, 8⟩ 4096 exLoudData exCatching, .plain (.typed ⟨exIm, 9, 4288⟩), .catching ⟨24, 8⟩ 4096 exLoudData exCatching,
     .catching ⟨24, 8⟩ 4096 exLoudData exCatching]
    (Ser.fromStorage Sto.new)) (r := ([(some 0, 0, 88), (some 88, 88, 104), (some 104, 104, 152), (none, 152, 176)], 176, 4 * 2 ^ 20))
    (by cases k <;> decide +kernel)
  obtain ⟨s1, a1, b1, c1, h1⟩ := xActsRun_cons h0
  obtain ⟨s2, a2, b2, c2, h2⟩ := xActsRun_cons h1
  obtain ⟨s3, a3, b3, c3, h3⟩ := xActsRun_cons h2
  obtain ⟨s4, a4, b4, c4, h4⟩ := xActsRun_cons h3
  have r1 := (XSess.start (C := cfgTight) (k := k) (P := exP) (t := Sto.new)).step (exCatching_legal k _ _) a1
  have r2 := r1.step (a := .plain (.typed ⟨exIm, 9, 4288⟩)) ⟨⟨true, false⟩, exEnum, exInputs (⟨exIm, 9, 4288⟩, exEnum) (by simp [exRoots])⟩ a2
  have r3 := r2.step (exCatching_legal k _ _) a3
  have r4 := r3.step (exCatching_legal k _ _) a4
  cases h4
  rw [b1, b2, b3, b4, c4] at r4
  refine ⟨_, _, _, _, ?_, r4, hb⟩
  have hx := C85_plan cfgTight_ok exP_wf exP_accepted .new r4 ⟨.catching ⟨24, 8⟩ 4096 exLoudData exCatching, _, some 104, 104, 152⟩
    (List.mem_append_left _ (List.mem_append_right _ (List.mem_singleton.2 rfl))) _ _ _ _ rfl exCatching_blind
  have hx := congrArg Prod.fst hx
  exact hx.symm

/-- C85 applies: the output of the second of these calls is in the final buffer … -/
example : ∃ s s' : Ser, finalize cfgTight .complete s = .ok () s' ∧
    Denotes x64 exP ⟨true, true⟩ s'.sto.buffer 9 (4 * 2 ^ 20 + 88) exEnum ∧
    ∃ m0, ∀ i, 104 ≤ i → i < 152 → s'.sto.bytes i = (TRoot.ideal x64 8 ⟨some (4 * 2 ^ 20), true⟩
      ⟨⟨24, 8⟩, 4096, exLoudData, (exCatching.planValue 8 176 ⟨24, 8⟩ 104).1⟩ (m0, 104)).1 i := by
  obtain ⟨c1, c2, c3, s, hc, hs, hb⟩ := exCatchSess .complete
  obtain ⟨_, s', hf, hv⟩ := C83_safe cfgTight_ok exP_wf exP_accepted .new hs
  have hb' : s'.sto.vec.ptr = 4 * 2 ^ 20 := by rw [hv]; exact hb
  have n2 := (C83_complete cfgTight_ok exP_wf exP_accepted .new hs hf ⟨.plain (.typed ⟨exIm, 9, 4288⟩), .done, some 88, 88, 104⟩ (by simp) _ 88 rfl rfl
    ⟨true, false⟩ exEnum (exInputs (⟨exIm, 9, 4288⟩, exEnum) (by simp [exRoots])) (.inl (by decide))).1
  obtain ⟨_, m0, _, hu⟩ := C85_output cfgTight_ok exP_wf exP_accepted .new hs hf ⟨.catching ⟨24, 8⟩ 4096 exLoudData exCatching, c2, some 104, 104, 152⟩
    (by simp) _ _ _ _ 104 rfl rfl
  rw [hb'] at n2 hu
  rw [← hc]
  exact ⟨s, s', hf, n2, m0, hu⟩

/-- … which is: the pair at 128, to which the second word still points, its second word not overwritten; and the position 144 at 144, to which the first word
points. -/
example : let r := TRoot.ideal x64 8 ⟨some (4 * 2 ^ 20), true⟩ ⟨⟨24, 8⟩, 4096, exLoudData, (exCatching.planValue 8 176 ⟨24, 8⟩ 104).1⟩ (fun _ => none, 104)
    r.2 = 152 ∧ readWord x64 r.1 104 = some (4 * 2 ^ 20 + 144) ∧ readWord x64 r.1 112 = some (4 * 2 ^ 20 + 128) ∧
    readWord x64 r.1 128 = some 7 ∧ readWord x64 r.1 136 = some 9 ∧ readWord x64 r.1 144 = some 144 := by
  decide +kernel

/-- `C85_returns` applies, with what panics whatever happens: at first there is room for the value. -/
example (k : Kind) : (∃ s1, serializeValue cfgTight k ⟨24, 8⟩ 4096 exLoudData
    (do let _ ← (Catching.attempt true (.pushRawBytes 200 (fun _ => some 1) fun _ => .panic) fun r => .done (r.getD [])).run cfgTight k; pure ())
      (Ser.fromStorage Sto.new) = .ok 0 s1) := by
  have hl : (XAct.catching ⟨24, 8⟩ 4096 exLoudData (.attempt true (.pushRawBytes 200 (fun _ => some 1) fun _ => .panic) fun r => .done (r.getD []))).Legal
      cfgTight k exP [] (Ser.fromStorage Sto.new) :=
    C85_follows cfgTight k exP ⟨by decide, ⟨3, rfl⟩, by decide, by decide⟩
      (b := .attempt true (.pushRawBytes 200 (fun _ => some 1) fun _ => .panic) fun r => .done (r.getD []))
      ⟨⟨by decide, fun _ => trivial⟩, fun _ => trivial, fun x r t h => by obtain ⟨_, h⟩ := h; exact h.elim⟩
      ⟨.inl rfl, fun _ => trivial, fun _ => trivial⟩ _ _
  rcases C85_returns cfgTight_ok exP_wf exP_accepted .new .start hl (by decide) with h | ⟨_, h⟩
  · exact h
  · exact (h (moving_never (by decide) (by decide))).elim

end SerRaw
