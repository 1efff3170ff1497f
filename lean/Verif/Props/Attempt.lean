import Verif.Lemmas.Attempt
import Verif.Props.UserPanic
import Verif.Props.SafeCalls
/-
C75: hand-written implementations of `Serialize` that catch panics inside `serialize_data` and go on.

`ACall` is a value together with what its `serialize_data` does: calls to the serializer, panics, and `catch_unwind` around other such
calls, nested in any way. `ACalls.trace` (Spec/Attempt.lean) says which plain calls that amounts to: a push that does not fit
panics, a panic ends the calls up to the next `catch_unwind`, and nothing that was done is undone. The caller catches the
panics of `serialize_value` too.
-/
namespace SerRaw

section
variable {C : Cfg}

/-- C75, safety: whatever panics, and wherever it is caught, the session ends normally (or the allocator fails). Never undefined
behaviour, never a panic in `finalize`. -/
theorem C75_safe (hC : C.OK) (k : Kind) {t : Sto} (ht : UReach C t) {rs : List ACall} (hr : ∀ r ∈ rs, r.OK C k) :
    (∃ ps s', attemptSession C k rs (Ser.fromStorage t) = .ok ps s' ∧ s'.sto.Inv C) ∨
    (attemptSession C k rs (Ser.fromStorage t) = .abort ∧ ¬ C.NeverFails) := by
  have h := attemptSession_sat hC k hr (ht.inv hC)
  cases e : attemptSession C k rs (Ser.fromStorage t) with
  | ok ps s' => rw [e] at h; exact .inl ⟨ps, s', rfl, h.1⟩
  | panic pk s' => rw [e] at h; exact h.elim
  | abort => rw [e] at h; exact .inr ⟨rfl, h⟩
  | ub => rw [e] at h; exact h.elim
  | fuel => rw [e] at h; exact h.elim

/-- C75, output: which calls return and what, where the output ends and every byte of it, whatever did not fit. -/
theorem C75_output (hC : C.OK) {k : Kind} {t : Sto} (ht : UReach C t) {rs : List ACall} (hr : ∀ r ∈ rs, r.OK C k)
    {ps : List (Option Nat)} {s' : Ser} (hrun : attemptSession C k rs (Ser.fromStorage t) = .ok ps s') :
    let ref := attemptIdeal C.arch C.valueAlign C.maxCapacity (k.mode s'.sto.vec.ptr) rs (t.view, t.vec.pos)
    ps = attemptResults C.valueAlign C.maxCapacity rs t.vec.pos ∧ s'.sto.vec.pos = ref.2 ∧
    ∀ i < s'.sto.vec.pos, s'.sto.bytes i = ref.1 i := by
  have h := attemptSession_sat hC k hr (ht.inv hC)
  rw [hrun] at h
  obtain ⟨h1, h2, h3, h4⟩ := h
  refine ⟨h2, h3 _ _, fun i hi => ?_⟩
  rw [Sto.bytes, if_pos hi, load_eq_view h1.toWInv (Nat.lt_of_lt_of_le hi h1.pos_le), h4]

theorem ACall.ideal_frame (hC : C.OK) {md : Mode} {r : ACall} (hr : r.OK C k) {st : Mem × Nat} {i : Nat} (hi : i < st.2) :
    (r.ideal C.arch C.valueAlign C.maxCapacity md st).1 i = st.1 i ∧
      st.2 ≤ (r.ideal C.arch C.valueAlign C.maxCapacity md st).2 := by
  have hva := hC.facts.va.pos
  have hge := le_roundUp st.2 hr.value.pow2.pos
  unfold ACall.ideal
  split
  · have hw := hr.wf (roundUp (roundUp st.2 r.L.align + r.L.size) C.valueAlign)
    have hge2 := le_roundUp (roundUp st.2 r.L.align + r.L.size) hva
    unfold rootIdeal
    rw [if_neg hr.value.size_ne]
    refine ⟨(ideal_below hva _ hw _ _ (_, _) (by simp only; omega) (by omega)).trans ?_, ?_⟩
    · have h1 : i < roundUp st.2 r.L.align := by omega
      simp only
      exact blit_out (m := st.1) (n := r.L.size) (.inl h1)
    · exact Nat.le_trans (by omega) (ideal_mono hva _ hw _ _ (_, _))
  · exact ⟨rfl, hge⟩

/-- C75, frame: what was in the storage before is untouched, and the output does not shrink. -/
theorem C75_before (hC : C.OK) {k : Kind} {t : Sto} (ht : UReach C t) {rs : List ACall} (hr : ∀ r ∈ rs, r.OK C k)
    {ps : List (Option Nat)} {s' : Ser} (hrun : attemptSession C k rs (Ser.fromStorage t) = .ok ps s') :
    ∀ i < t.vec.pos, i < s'.sto.vec.pos ∧ s'.sto.bytes i = t.bytes i := by
  have hT := ht.inv hC
  intro i hi
  obtain ⟨-, h2, h3⟩ := C75_output hC ht hr hrun
  have key : ∀ {md : Mode} {st : Mem × Nat}, i < st.2 → (attemptIdeal C.arch C.valueAlign C.maxCapacity md rs st).1 i = st.1 i ∧
      i < (attemptIdeal C.arch C.valueAlign C.maxCapacity md rs st).2 := by
    clear hrun h2 h3
    induction rs with
    | nil => exact fun h => ⟨rfl, h⟩
    | cons r rs ih =>
      intro md st hst
      obtain ⟨g1, g2⟩ := ACall.ideal_frame hC (md := md) (hr r List.mem_cons_self) hst
      obtain ⟨g3, g4⟩ := ih (fun x hx => hr x (List.mem_cons_of_mem _ hx)) (md := md) (Nat.lt_of_lt_of_le hst g2)
      exact ⟨g3.trans g1, g4⟩
  obtain ⟨h4, h5⟩ := key (md := k.mode s'.sto.vec.ptr) (st := (t.view, t.vec.pos)) hi
  have h6 : i < s'.sto.vec.pos := by rw [h2]; exact h5
  refine ⟨h6, ?_⟩
  rw [h3 i h6, h4, Sto.bytes, if_pos hi, load_eq_view hT.toWInv (Nat.lt_of_lt_of_le hi hT.pos_le)]

/-- The reference for implementations that neither panic nor catch and have room is the plain reference: their trace is their calls. -/
theorem C75_plain {va cap : Nat} (hva : 0 < va) (sc : Script) {c : Ctx} (hw : sc.WF C c) {p : Nat} (hfit : placeEnd va p sc.shapes ≤ cap) :
    (ACalls.ofScript sc).trace va cap p = ⟨sc, placeEnd va p sc.shapes, true⟩ := by
  induction sc generalizing p c with
  | done => rfl
  | pushProcess L len src ptr inner rest ih1 ih2 =>
    obtain ⟨ho, _, _, h1, h2⟩ := hw
    simp only [Script.shapes, Script.pushes, List.map_cons, List.map_append, placeEnd, placeEnd_append, Shape.bytes] at hfit ⊢
    have g2 := le_placeEnd hva (pushes_align rest h2)
      (placeEnd va (roundUp (roundUp p L.align + L.size * len) va) (inner.pushes.map (·.1)))
    have g1 := le_placeEnd hva (pushes_align inner h1) (roundUp (roundUp p L.align + L.size * len) va)
    have g0 := le_roundUp (roundUp p L.align + L.size * len) hva
    simp only [Script.shapes] at g1 g2
    simp only [ACalls.ofScript, ACalls.trace]
    rw [if_pos (by omega), ih1 h1 (by simp only [Script.shapes]; omega)]
    simp only [if_true]
    rw [ih2 h2 (by simpa only [Script.shapes] using hfit)]
    simp only [Script.shapes]
  | push L len src ptr rest ih =>
    obtain ⟨ho, _, _, h2⟩ := hw
    simp only [Script.shapes, Script.pushes, List.map_cons, placeEnd, Shape.bytes] at hfit ⊢
    have g2 := le_placeEnd hva (pushes_align rest h2) (roundUp (roundUp p L.align + L.size * len) va)
    have g0 := le_roundUp (roundUp p L.align + L.size * len) hva
    simp only [Script.shapes] at g2
    simp only [ACalls.ofScript, ACalls.trace]
    rw [if_pos (by omega), ih h2 (by simpa only [Script.shapes] using hfit)]
    simp only [Script.shapes]
  | pushRaw L len src rest ih =>
    obtain ⟨ho, h2⟩ := hw
    simp only [Script.shapes, Script.pushes, List.map_cons, placeEnd, Shape.bytes] at hfit ⊢
    have g2 := le_placeEnd hva (pushes_align rest h2) (roundUp (roundUp p L.align + L.size * len) va)
    have g0 := le_roundUp (roundUp p L.align + L.size * len) hva
    simp only [Script.shapes] at g2
    simp only [ACalls.ofScript, ACalls.trace]
    rw [if_pos (by omega), ih h2 (by simpa only [Script.shapes] using hfit)]
    simp only [Script.shapes]
  | overwrite a L data rest ih =>
    simp only [ACalls.ofScript, ACalls.trace]
    rw [ih hw.2 hfit]
    rfl

end

/-- `exUser` with room for everything. -/
example : (ACalls.ofScript exUser.sc).trace 8 (2 ^ 30) 24 = ⟨exUser.sc, placeEnd 8 24 exUser.sc.shapes, true⟩ :=
  C75_plain (by decide) _ exUser_ok.2 (by decide +kernel)

/-! ### Concrete case -/

/-- A storage of at most 176 bytes. -/
def cfgTight : Cfg := mkCfg x64 16 16 8 176
theorem cfgTight_ok : cfgTight.OK := ⟨⟨Or.inr rfl⟩, by decide, moving_ok ⟨Or.inr rfl⟩⟩

/-- A value with two pointers. Its implementation tries to push two elements through the second pointer and the 41 bytes that the last
element points to; if that panics, it pushes five bytes through the first pointer. -/
def exAttempt : ACall where
  im := exUser.im
  L := ⟨24, 8⟩
  a := 4096
  calls := .attempt true (.pushProcess ⟨16, 8⟩ 2 8192 4104 (.push ⟨1, 1⟩ 41 300 (8192 + 24) .done) .done) .done
    (.push ⟨1, 1⟩ 5 500 4096 .done)

theorem exAttempt_ok (k : Kind) : exAttempt.OK cfgTight k := by
  have e8 : Pow2 8 := ⟨3, rfl⟩
  have e1 : Pow2 1 := ⟨0, rfl⟩
  have p1 : PushOK cfgTight ⟨16, 8⟩ 2 8192 := ⟨by decide, e8, by decide, by decide⟩
  have p2 : PushOK cfgTight ⟨1, 1⟩ 41 300 := ⟨by decide, e1, by decide, by decide⟩
  have p3 : PushOK cfgTight ⟨1, 1⟩ 5 500 := ⟨by decide, e1, by decide, by decide⟩
  have q1 : PushOK cfgTight ⟨16, 8⟩ 0 8192 := ⟨by decide, e8, by decide, by decide⟩
  have q2 : PushOK cfgTight ⟨1, 1⟩ 0 300 := ⟨by decide, e1, by decide, by decide⟩
  have q3 : PushOK cfgTight ⟨1, 1⟩ 0 500 := ⟨by decide, e1, by decide, by decide⟩
  have t1 : TouchOK cfgTight ⟨4096, 24, 8⟩ 4104 cfgTight.arch.ptrBytes := ⟨by decide, by decide, by decide, by decide⟩
  have t2 : TouchOK cfgTight ⟨8192, 32, 8⟩ (8192 + 24) cfgTight.arch.ptrBytes := ⟨by decide, by decide, by decide, by decide⟩
  have t3 : TouchOK cfgTight ⟨4096, 24, 8⟩ 4096 cfgTight.arch.ptrBytes := ⟨by decide, by decide, by decide, by decide⟩
  have hd : DisjRange 4104 cfgTight.arch.ptrBytes 4096 cfgTight.arch.ptrBytes := .inr (by decide)
  refine ⟨⟨by decide, e8, by decide, by decide⟩, ⟨⟨p1, ⟨p2, trivial⟩, trivial⟩, trivial, p3, trivial⟩,
    ⟨.inl rfl, ⟨trivial, trivial⟩, trivial, trivial⟩, fun p => ?_⟩
  have f1 : ∀ {P : Prop}, P → PushOK cfgTight ⟨16, 8⟩ 2 8192 ∧ TouchOK cfgTight ⟨4096, 24, 8⟩ 4104 cfgTight.arch.ptrBytes ∧ P := fun h => ⟨p1, t1, h⟩
  simp only [exAttempt, ACalls.trace, Trace.full]
  split
  · split
    · exact ⟨p1, t1, by simp [Script.app, Script.touch], ⟨p2, t2, by simp [Script.touch], trivial⟩, trivial⟩
    · simp only [Bool.false_eq_true, if_false]
      split
      · exact ⟨p1, t1, by simpa [Script.app, Script.touch] using hd, ⟨q2, trivial⟩, p3, t3, by simp [Script.touch], trivial⟩
      · exact ⟨p1, t1, by simp [Script.app, Script.touch], ⟨q2, trivial⟩, q3, trivial⟩
  · simp only [Bool.false_eq_true, if_false]
    split
    · exact ⟨q1, p3, t3, by simp [Script.touch], trivial⟩
    · exact ⟨q1, q3, trivial⟩

/-- The first value gets everything; for the second the 41 bytes do not fit and it falls back to the five bytes; for the third the value
itself does not fit. -/
theorem exAttemptRun (k : Kind) : ∃ s', attemptSession cfgTight k [exAttempt, exAttempt, exAttempt] (Ser.fromStorage Sto.new) =
    .ok [some 0, some 104, none] s' ∧ s'.sto.vec.pos = 168 ∧ s'.sto.vec.ptr = 4 * 2 ^ 20 :=
  Out.result_ok (o := attemptSession cfgTight k [exAttempt, exAttempt, exAttempt] (Ser.fromStorage Sto.new))
    (r := ([some 0, some 104, none], 168, 4 * 2 ^ 20)) (by cases k <;> decide +kernel)

/-- C75 applies: in the second value, the pointer to the elements (at 112, to 128) was written before the panic and the fallback pointer
(at 104, to 160) after it; both are addresses in the final buffer. -/
example : ∃ s' : Ser, attemptSession cfgTight .complete [exAttempt, exAttempt, exAttempt] (Ser.fromStorage Sto.new) = .ok [some 0, some 104, none] s' ∧
    (∀ i < 168, s'.sto.bytes i =
      (attemptIdeal x64 8 176 ⟨some (4 * 2 ^ 20), true⟩ [exAttempt, exAttempt, exAttempt] (Sto.new.view, 0)).1 i) ∧
    let m := (attemptIdeal x64 8 176 ⟨some (4 * 2 ^ 20), true⟩ [exAttempt, exAttempt, exAttempt] (Sto.new.view, 0)).1
    readWord x64 m 8 = some (4 * 2 ^ 20 + 24) ∧ readWord x64 m 48 = some (4 * 2 ^ 20 + 56) ∧
    readWord x64 m 104 = some (4 * 2 ^ 20 + 160) ∧ readWord x64 m 112 = some (4 * 2 ^ 20 + 128) := by
  obtain ⟨s', h1, h2, h3⟩ := exAttemptRun .complete
  replace h2 : s'.sto.vec.pos = 168 := h2
  have h4 := C75_output cfgTight_ok .new (by
    intro r hr
    have : r = exAttempt := by simpa using hr
    subst this
    exact exAttempt_ok .complete) h1
  rw [h2, h3] at h4
  exact ⟨s', h1, h4.2.2, by decide +kernel, by decide +kernel, by decide +kernel, by decide +kernel⟩

/-! ### The mapping has to be put back -/

/-- The same implementation as far as the rules go, but it does not put the position mapping back after the panic: the value's second pointer
leads to one element of 8 bytes, at `src`, in whose processing the implementation panics; it then pushes five bytes through the first
pointer. -/
def exUnrestored (src : Nat) : ACall where
  im := exUser.im
  L := ⟨24, 8⟩
  a := 4096
  calls := .attempt false (.pushProcess ⟨8, 8⟩ 1 src 4104 .panic .done) .done (.push ⟨1, 1⟩ 5 500 4096 .done)

/-- Its calls follow the rules: it meets everything C75 asks for, except that it does not put the mapping back. -/
theorem exUnrestored_wf : (exUnrestored 8192).calls.Slices cfg64r ∧
    ∀ p, ((exUnrestored 8192).calls.trace cfg64r.valueAlign cfg64r.maxCapacity p).sc.WF cfg64r ⟨4096, 24, 8⟩ := by
  have e8 : Pow2 8 := ⟨3, rfl⟩
  have e1 : Pow2 1 := ⟨0, rfl⟩
  have p1 : PushOK cfg64r ⟨8, 8⟩ 1 8192 := ⟨by decide, e8, by decide, by decide⟩
  have p3 : PushOK cfg64r ⟨1, 1⟩ 5 500 := ⟨by decide, e1, by decide, by decide⟩
  have q1 : PushOK cfg64r ⟨8, 8⟩ 0 8192 := ⟨by decide, e8, by decide, by decide⟩
  have q3 : PushOK cfg64r ⟨1, 1⟩ 0 500 := ⟨by decide, e1, by decide, by decide⟩
  have t1 : TouchOK cfg64r ⟨4096, 24, 8⟩ 4104 cfg64r.arch.ptrBytes := ⟨by decide, by decide, by decide, by decide⟩
  have t3 : TouchOK cfg64r ⟨4096, 24, 8⟩ 4096 cfg64r.arch.ptrBytes := ⟨by decide, by decide, by decide, by decide⟩
  have hd : DisjRange 4104 cfg64r.arch.ptrBytes 4096 cfg64r.arch.ptrBytes := .inr (by decide)
  refine ⟨⟨⟨p1, trivial, trivial⟩, trivial, p3, trivial⟩, fun p => ?_⟩
  simp only [exUnrestored, ACalls.trace, Trace.full]
  split
  · simp only [Bool.false_eq_true, if_false]
    split
    · exact ⟨p1, t1, by simpa [Script.app, Script.touch] using hd, trivial, p3, t3, by simp [Script.touch], trivial⟩
    · exact ⟨p1, t1, by simp [Script.app, Script.touch], trivial, q3, trivial⟩
  · simp only [Bool.false_eq_true, if_false]
    split
    · exact ⟨q1, p3, t3, by simp [Script.touch], trivial⟩
    · exact ⟨q1, q3, trivial⟩

/-- C75, the condition is needed: after a panic caught inside `serialize_data` the serializer still maps addresses as in the closure that
panicked, so a push through a pointer of the value itself writes out of bounds (release build). A generic implementation cannot prevent it:
`set_pos_mapping` is not in the `Serializer` trait. -/
theorem C75_unrestored_ub : attemptSession cfg64r .ptrOffset [exUnrestored 8192] (Ser.fromStorage Sto.new) = .ub ∧
    attemptSession cfg64r .complete [exUnrestored 8192] (Ser.fromStorage Sto.new) = .ub :=
  ⟨Out.eq_ub (by decide +kernel), Out.eq_ub (by decide +kernel)⟩

/-- A finished session: the results and the word at position 0. -/
def Out.firstWord (o : Out Ser (List (Option Nat))) : Option (List (Option Nat) × Option Nat) :=
  match o with
  | .ok ps s => some (ps, readWord x64 s.sto.bytes 0)
  | _ => none

theorem Out.firstWord_ok {o : Out Ser (List (Option Nat))} {ps : List (Option Nat)} {w : Option Nat} (h : o.firstWord = some (ps, w)) :
    ∃ s, o = .ok ps s ∧ readWord x64 s.sto.bytes 0 = w := by
  cases o with
  | ok a s => cases h; exact ⟨s, rfl, rfl⟩
  | _ => cases h

/-- The same in a debug build, with the element at 4080: nothing panics and nothing is reported, but the value's first pointer (position 0) is still
the pointer of the input, where the reference has the position 32 of the five bytes. -/
theorem C75_unrestored_lost : ∃ s', attemptSession cfg64 .ptrOffset [exUnrestored 4080] (Ser.fromStorage Sto.new) = .ok [some 0] s' ∧
    readWord x64 s'.sto.bytes 0 = readWord x64 exUser.im 4096 ∧
    readWord x64 (attemptIdeal x64 8 (2 ^ 30) ⟨some 0, false⟩ [exUnrestored 4080] (Sto.new.view, 0)).1 0 = some 32 ∧
    readWord x64 exUser.im 4096 ≠ some 32 := by
  obtain ⟨s', h1, h2⟩ := Out.firstWord_ok (o := attemptSession cfg64 .ptrOffset [exUnrestored 4080] (Ser.fromStorage Sto.new))
    (ps := [some 0]) (w := readWord x64 exUser.im 4096) (by decide +kernel)
  exact ⟨s', h1, h2, by decide +kernel, by decide +kernel⟩

end SerRaw
