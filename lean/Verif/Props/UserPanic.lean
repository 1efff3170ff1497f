import Verif.Props.UserImpl
import Verif.Props.SerEx
/-
C56: panics raised by hand-written implementations of `Serialize`, caught by the caller, who goes on with the same serializer.

`UserCall` is a value together with what its `serialize_data` does: calls to the serializer, then it returns or panics (at any point, inside
any depth of `push_and_process*` closures). `UserCall.quiet` is the same value with an implementation that makes the same calls and
returns instead of panicking.
-/
namespace SerRaw

section
variable {C : Cfg}

/-- C56, safety: whatever panics, the session ends normally (or the allocator fails). Never undefined behaviour, never a panic
in `finalize`. -/
theorem C56_safe (hC : C.OK) (k : Kind) {t : Sto} (ht : UReach C t) {rs : List UserCall} (hr : ∀ r ∈ rs, r.OK C) :
    (∃ ps s', userSessionCaught C k rs (Ser.fromStorage t) = .ok ps s' ∧ ps.length = rs.length) ∨
    (userSessionCaught C k rs (Ser.fromStorage t) = .abort ∧ ¬ C.NeverFails) := by
  have h := userSessionCaught_sat hC k hr (ht.inv hC)
  cases e : userSessionCaught C k rs (Ser.fromStorage t) with
  | ok ps s' =>
    rw [e] at h
    obtain ⟨_, s1, m', h1, _⟩ := h
    refine .inl ⟨ps, s', rfl, ?_⟩
    have h2 := h1.res
    clear h1 e
    generalize (Ser.fromStorage t).sto.vec.pos = lo at h2
    induction h2 with
    | nil => rfl
    | done _ _ _ _ ih => simp [ih fun x hx => hr x (by simp [hx])]
    | full _ _ _ ih => simp [ih fun x hx => hr x (by simp [hx])]
  | panic pk s' => rw [e] at h; exact h.elim
  | abort => rw [e] at h; exact .inr ⟨rfl, h⟩
  | ub => rw [e] at h; exact h.elim
  | fuel => rw [e] at h; exact h.elim

/-- C56. If there is room for everything that is pushed, then the output is byte for byte the reference output of the same session with
implementations that return at the point where they panicked; the calls that returned give the positions of their values. -/
theorem C56_as_if_returned (hC : C.OK) {k : Kind} {t : Sto} (ht : UReach C t) {rs : List UserCall} (hr : ∀ r ∈ rs, r.OK C)
    {ps : List (Option Nat)} {s' : Ser} (hrun : userSessionCaught C k rs (Ser.fromStorage t) = .ok ps s') :
    let qs := rs.map UserCall.quiet
    let ref := fun B => userIdeal C.arch C.valueAlign (k.mode B) qs (t.view, t.vec.pos)
    (ref 0).2 ≤ C.maxCapacity →
      s'.sto.vec.pos = (ref 0).2 ∧ (∀ i < s'.sto.vec.pos, s'.sto.bytes i = (ref s'.sto.vec.ptr).1 i) ∧
      ps = (rs.zip (userPositions C.arch C.valueAlign qs t.vec.pos)).map fun x => x.1.body.result x.2 := by
  intro qs ref hfit
  have h := userSessionCaught_sat hC k hr (ht.inv hC)
  rw [hrun] at h
  obtain ⟨hI, s1, m', h1, h2, h3⟩ := h
  have e0 : (ref 0).2 = (userIdeal C.arch C.valueAlign ⟨none, false⟩ qs (fun _ => none, t.vec.pos)).2 := userIdeal_end_indep _ rfl
  rw [e0] at hfit
  obtain ⟨f1, f2, f3⟩ := h1.fits hfit
  refine ⟨by rw [e0, h2]; exact f1, fun i hi => ?_, f3⟩
  rw [Sto.bytes, if_pos hi, load_eq_view hI.toWInv (Nat.lt_of_lt_of_le hi hI.pos_le), h3, f2]
  rfl

/-- What a caught call that returned leaves in the final output. -/
structure Intact (C : Cfg) (k : Kind) (lo : Nat) (s' : Ser) (r : UserCall) (p : Nat) : Prop where
  returned : ∃ sc, r.body = .returns sc
  at_ : ∃ q m0, lo ≤ q ∧ p = roundUp q r.L.align ∧
    let out := rootIdeal C.arch C.valueAlign (k.mode s'.sto.vec.ptr) r.L r.im r.a r.body.script (m0, q)
    out.2 ≤ s'.sto.vec.pos ∧ ∀ i < out.2, s'.sto.bytes i = out.1 i

/-- C56, with capacity panics as well: what was in the storage before is untouched; every call that gave a position returned, and
its whole output is the reference output for that value, whatever happened in the calls before and after it; and every call
that gave none either panicked by itself or did not fit. -/
theorem C56_completed (hC : C.OK) {k : Kind} {t : Sto} (ht : UReach C t) {rs : List UserCall} (hr : ∀ r ∈ rs, r.OK C)
    {ps : List (Option Nat)} {s' : Ser} (hrun : userSessionCaught C k rs (Ser.fromStorage t) = .ok ps s') :
    (∀ i < t.vec.pos, s'.sto.bytes i = t.bytes i) ∧
    (∀ (i : Nat) (r : UserCall) (p : Nat), rs[i]? = some r → ps[i]? = some (some p) → Intact C k t.vec.pos s' r p) ∧
    ∀ (i : Nat) (r : UserCall), rs[i]? = some r → ps[i]? = some none →
      (∃ st, r.body = .panics st) ∨
      C.maxCapacity < (rootIdeal C.arch C.valueAlign ⟨none, false⟩ r.L r.im r.a r.body.script (fun _ => none, s'.sto.vec.pos)).2 := by
  have hT := ht.inv hC
  have h := userSessionCaught_sat hC k hr hT
  rw [hrun] at h
  obtain ⟨hI, s1, m', h1, h2, h3⟩ := h
  have F := hC.facts
  have hb : ∀ i < s'.sto.vec.pos, s'.sto.bytes i = m' s'.sto.vec.ptr i := by
    intro i hi
    rw [Sto.bytes, if_pos hi, load_eq_view hI.toWInv (Nat.lt_of_lt_of_le hi hI.pos_le), h3]
  have hpos : t.vec.pos ≤ s'.sto.vec.pos := by rw [h2]; exact (h1.kept 0).pos
  refine ⟨fun i hi => ?_, ?_⟩
  · rw [hb i (by omega), (h1.kept _).frame i hi, Sto.bytes, if_pos hi,
      load_eq_view hT.toWInv (Nat.lt_of_lt_of_le hi hT.pos_le)]
  · have hal : ∀ r ∈ rs, ∀ x ∈ rootShapes r.L r.body.script, 0 < x.L.align := by
      intro r hrm x hx
      have ho := hr r hrm
      unfold rootShapes at hx
      split at hx
      · cases hx
      · rcases List.mem_cons.1 hx with rfl | hx
        · exact ho.1.pow2.pos
        · exact pushes_align _ ho.2 x hx
    have key : ∀ lo, t.vec.pos ≤ lo → CallsPost C k m' s'.sto.vec.pos lo rs ps → lo ≤ s'.sto.vec.pos ∧
        (∀ (i : Nat) (r : UserCall) (p : Nat), rs[i]? = some r → ps[i]? = some (some p) → Intact C k t.vec.pos s' r p) ∧
        ∀ (i : Nat) (r : UserCall), rs[i]? = some r → ps[i]? = some none →
          (∃ st, r.body = .panics st) ∨
          C.maxCapacity < (rootIdeal C.arch C.valueAlign ⟨none, false⟩ r.L r.im r.a r.body.script
            (fun _ => none, s'.sto.vec.pos)).2 := by
      intro lo hlo hres
      clear hpos h1 hrun
      induction hres with
      | nil hl => exact ⟨hl, by intro i r p h; simp at h, by intro i r h; simp at h⟩
      | @done lo r rs ps m0 he hc _ ih =>
        have hge := le_placeEnd F.va.pos (hal r (by simp)) lo
        have hi := ih (fun x hx => hr x (by simp [hx])) (fun x hx => hal x (by simp [hx])) (Nat.le_trans hlo hge)
        refine ⟨Nat.le_trans hge he, ?_, ?_⟩
        · intro i r' p h1 h2
          cases i with
          | succ i => exact hi.2.1 i r' p (by simpa using h1) (by simpa using h2)
          | zero =>
            simp only [List.getElem?_cons_zero, Option.some.injEq] at h1 h2
            subst h1
            cases hbd : r.body with
            | panics st => rw [hbd] at h2; cases h2
            | returns sc =>
              rw [hbd] at h2
              simp only [Body.result, Option.some.injEq] at h2
              have hz := (hr r (by simp)).1.size_ne
              refine ⟨⟨sc, hbd⟩, lo, m0 s'.sto.vec.ptr, hlo, by rw [← h2, rootPos, if_neg (show ¬ r.L.size = 0 from hz)], ?_⟩
              intro out
              rw [show out.2 = _ from rootIdeal_end]
              refine ⟨he, fun j hj => ?_⟩
              have hj' : j < placeEnd C.valueAlign lo (rootShapes r.L r.body.script) := hj
              rw [hb j (Nat.lt_of_lt_of_le hj' he)]
              exact hc _ j hj'
        · intro i r' h1 h2
          cases i with
          | succ i => exact hi.2.2 i r' (by simpa using h1) (by simpa using h2)
          | zero =>
            simp only [List.getElem?_cons_zero, Option.some.injEq] at h1 h2
            subst h1
            cases hbd : r.body with
            | panics st => exact .inl ⟨st, rfl⟩
            | returns sc => rw [hbd] at h2; cases h2
      | @full lo lo' r rs ps hl hf _ ih =>
        have hi := ih (fun x hx => hr x (by simp [hx])) (fun x hx => hal x (by simp [hx])) (Nat.le_trans hlo hl)
        refine ⟨Nat.le_trans hl hi.1, ?_, ?_⟩
        · intro i r' p h1 h2
          cases i with
          | succ i => exact hi.2.1 i r' p (by simpa using h1) (by simpa using h2)
          | zero => simp at h2
        · intro i r' h1 h2
          cases i with
          | succ i => exact hi.2.2 i r' (by simpa using h1) (by simpa using h2)
          | zero =>
            simp only [List.getElem?_cons_zero, Option.some.injEq] at h1
            subst h1
            refine .inr (Nat.lt_of_lt_of_le hf ?_)
            rw [rootIdeal_end]
            exact placeEnd_mono F.va.pos (hal r (by simp)) (Nat.le_trans hl hi.1)
    have hres := h1.res
    rw [← h2] at hres
    exact (key _ (Nat.le_refl _) hres).2

end

/-! ### Concrete case -/

/-- The value of `exUser` with an implementation that panics in the closure in which it processes its two elements, after it
has pushed the five bytes of the second one. -/
def exPanic : UserCall where
  im := exUser.im
  L := exUser.L
  a := exUser.a
  body := .panics (.inside ⟨16, 8⟩ 2 8192 4104 (.after (.push ⟨1, 1⟩ 5 300 (8192 + 24) .done) .here))

/-- The value of `exUser`, with the implementation that returns. -/
def exReturns : UserCall := ⟨exUser.im, exUser.L, exUser.a, .returns exUser.sc⟩

theorem exReturns_ok : exReturns.OK cfg64 := exUser_ok

theorem exPanic_ok : exPanic.OK cfg64 := by
  have e8 : Pow2 8 := ⟨3, rfl⟩
  have e1 : Pow2 1 := ⟨0, rfl⟩
  refine ⟨⟨by decide, e8, by decide, by decide⟩, ⟨by decide, e8, by decide, by decide⟩,
    ⟨by decide, by decide, by decide, by decide⟩, ?_, ⟨⟨by decide, e1, by decide, by decide⟩,
      ⟨by decide, by decide, by decide, by decide⟩, ?_, trivial⟩, trivial⟩
  · intro t ht; simp [Script.touch] at ht
  · intro t ht; simp [Stop.script, Script.app, Script.touch] at ht

/-- The panic is caught, the next value is put after what the first one left, and both the elements of the first (whose pointers were recorded
before the panic) and the second value have right pointers in the final buffer. -/
theorem exUserCaught (k : Kind) : ∃ s', userSessionCaught cfg64 k [exPanic, exReturns, exPanic] (Ser.fromStorage Sto.new) =
    .ok [none, some 64, none] s' ∧ s'.sto.vec.pos = 208 ∧ s'.sto.vec.ptr = 4 * 2 ^ 20 :=
  Out.result_ok (o := userSessionCaught cfg64 k [exPanic, exReturns, exPanic] (Ser.fromStorage Sto.new))
    (r := ([none, some 64, none], 208, 4 * 2 ^ 20)) (by cases k <;> decide +kernel)

/-- C56 applies: pointers written before the first panic (at position 8, to the elements at 24; at 48, to the bytes at 56) and
those of the value that returned (at 72, to 88) are addresses in the final buffer. -/
example : ∃ s' : Ser, userSessionCaught cfg64 .complete [exPanic, exReturns, exPanic] (Ser.fromStorage Sto.new) = .ok [none, some 64, none] s' ∧
    (∀ i < 208, s'.sto.bytes i = (userIdeal x64 8 ⟨some (4 * 2 ^ 20), true⟩ [exPanic.quiet, exReturns.quiet, exPanic.quiet] (Sto.new.view, 0)).1 i) ∧
    let m := (userIdeal x64 8 ⟨some (4 * 2 ^ 20), true⟩ [exPanic.quiet, exReturns.quiet, exPanic.quiet] (Sto.new.view, 0)).1
    readWord x64 m 8 = some (4 * 2 ^ 20 + 24) ∧ readWord x64 m 48 = some (4 * 2 ^ 20 + 56) ∧ readWord x64 m 72 = some (4 * 2 ^ 20 + 88) ∧
    readWord x64 m 152 = some (4 * 2 ^ 20 + 168) := by
  obtain ⟨s', h1, h2, h3⟩ := exUserCaught .complete
  replace h2 : s'.sto.vec.pos = 208 := h2
  have h4 := C56_as_if_returned cfg64_ok .new (by
    intro r hr; simp only [List.mem_cons, List.not_mem_nil, or_false] at hr
    rcases hr with rfl | rfl | rfl
    · exact exPanic_ok
    · exact exReturns_ok
    · exact exPanic_ok) h1 (by decide +kernel)
  rw [h2, h3] at h4
  exact ⟨s', h1, h4.2.1, by decide +kernel, by decide +kernel, by decide +kernel, by decide +kernel⟩

end SerRaw
