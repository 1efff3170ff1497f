import Verif.Props.Content
import Verif.Props.AgreeEx
/-
Concrete sessions meeting the hypotheses of C57: the four values of Props/SerEx.lean.
-/
namespace SerRaw

/-- The letters of "hello" are in the output of every serializer, from position 128 on, and the length of the vector at 24. -/
example (k : Kind) : ∃ s' : Ser, s'.sto.vec.pos = 200 ∧ s'.sto.bytes 128 = some 104 ∧ s'.sto.bytes 132 = some 111 ∧ s'.sto.bytes 24 = some 2 := by
  obtain ⟨s', r, hp, _⟩ := exRun_new k
  have h := C57_content cfg64_ok exP_wf exP_accepted .new exInputs r 0 ⟨exIm, 1, 4096⟩ exNode 0 rfl rfl
  exact ⟨s', hp, h (128, 104) (by decide +kernel), h (132, 111) (by decide +kernel), h (24, 2) (by decide +kernel)⟩

/-- `CompleteSerializer`: the vector of capacity 4 has capacity 2 in the output, the empty one of capacity 3 is canonical. -/
example : ∃ s' : Ser, s'.sto.vec.pos = 200 ∧ s'.sto.bytes 8 = some 2 ∧ s'.sto.bytes 48 = some 0 ∧ s'.sto.bytes 56 = some 8 := by
  obtain ⟨s', r, hp, _⟩ := exRun_new .complete
  have h := C57_complete cfg64_ok exP_wf exP_accepted .new rfl exInputs r 0 ⟨exIm, 1, 4096⟩ exNode 0 rfl rfl
  exact ⟨s', hp, h (8, 2) (by decide +kernel), h (48, 0) (by decide +kernel), h (56, 8) (by decide +kernel)⟩

/-- `C57_reproducible` applies to a storage that grows and one with capacity, at different addresses. -/
example : ∃ s1 s2 : Ser, s1.sto.vec.ptr ≠ s2.sto.vec.ptr ∧ s1.sto.vec.pos = s2.sto.vec.pos ∧ s1.sto.bytes 130 = s2.sto.bytes 130 ∧
    ∃ w1 w2, readWord x64 s1.sto.bytes 0 = some w1 ∧ readWord x64 s2.sto.bytes 0 = some w2 ∧ w1 - s1.sto.vec.ptr = w2 - s2.sto.vec.ptr := by
  obtain ⟨s1, r1, _, e1⟩ := exRun_new .complete
  obtain ⟨t2, s2, h2, hp, r2, _, e2⟩ := exRun_other .complete
  obtain ⟨_, hpos, h⟩ := C57_reproducible cfg64_ok cfgOther_ok rfl rfl exP_wf exP_accepted exP_accepted_other .new h2 hp.symm exInputs exInputs rfl r1 r2
  obtain ⟨a, _, _, d⟩ := h 0 1 exNode 0 rfl rfl
  exact ⟨s1, s2, by rw [e1, e2]; decide, hpos, a (130, 108) (by decide +kernel), d rfl (0, 40) (by decide +kernel)⟩

end SerRaw
