import Verif.Props.Streaming
import Verif.Props.ProgramsLater
/-
Concrete cases that meet the hypotheses of the theorems of C80, C81, C83 and C84 which have none beside them: the session of `exSess` (a header, a node, a
panicking and a returning hand-written implementation, an enum) and the one of `exProgSess` (a program, a node, the program again, which panics, an enum), for the
kind of serializer each theorem is about.
-/
namespace SerRaw

theorem exNodeIn : Denotes cfg64.arch exP ⟨true, false⟩ exIm 1 4096 exNode := exInputs (⟨exIm, 1, 4096⟩, exNode) (by simp [exRoots])

/-- The first 200 bytes, and nothing else. -/
def first200 (m : Mem) : Mem := fun i => if i < 200 then m i else none

theorem first200_part (m : Mem) : (first200 m).PartOf m := by
  intro i
  unfold first200
  split <;> simp

theorem first200_same (m : Mem) : ∀ i < 200, first200 m i = m i := fun _ h => if_pos h

/-! ### C80, C81 -/

/-- C80_stays: after the buffer has moved and another serializer was at work, the bytes from 8 on are those of the finished session. -/
example (k k' : Kind) : ∃ (s' : Ser) (u : Sto), 304 ≤ s'.sto.vec.pos ∧ u.vec.pos = 440 ∧ u.asPtr ≠ s'.sto.asPtr ∧ ∀ i < 304, 8 ≤ i → u.bytes i = s'.sto.bytes i := by
  obtain ⟨s, s', u, hs, hf, ha, hp, hne⟩ := exAfter k k'
  obtain ⟨_, f, hf', hv⟩ := C59_safe cfg64_ok exP_wf exP_accepted .new hs
  rw [hf] at hf'
  cases hf'
  have hb := (C59_order cfg64_ok exP_wf exP_accepted .new hs).1 ⟨.typed ⟨exIm, 9, 4288⟩, some 288, 288, 304⟩ (by simp [exEvs])
  have hb' : 304 ≤ s'.sto.vec.pos := by rw [hv]; exact hb.2.2
  obtain ⟨_, h⟩ := C80_stays cfg64_ok exP_wf exP_accepted (.finished .new hs hf) ha
  exact ⟨s', u, hb', hp, hne, fun i hi h8 => h i (by omega) h8⟩

/-- C80_user: the output of the hand-written implementation that returned. -/
example (k k' : Kind) : ∃ (s' : Ser) (u : Sto) (m0 : Mem), u.vec.pos = 440 ∧
    let out := rootIdeal x64 8 (k.mode s'.sto.asPtr) exReturns.L exReturns.im exReturns.a exReturns.body.script (m0, 208)
    out.2 = 288 ∧ ∀ i, 208 ≤ i → i < 288 → u.bytes i = out.1 i := by
  obtain ⟨s, s', u, hs, hf, ha, hp, _⟩ := exAfter k k'
  obtain ⟨m0, h1, h2⟩ := C80_user cfg64_ok exP_wf exP_accepted .new hs hf ha ⟨.user exReturns, some 208, 208, 288⟩ (by simp [exEvs]) exReturns 208 rfl rfl
  exact ⟨s', u, m0, hp, h1, fun i h3 h4 => h2 i h3 h4 (by show 8 ≤ i; omega)⟩

/-- C81_final: nothing that was written changes when it is finished. -/
example : ∃ s f : Ser, s.sto.vec.pos = 304 ∧ finalize cfg64 .ptrOffset s = .ok () f ∧ f.sto.bytes = s.sto.bytes := by
  obtain ⟨s, hs, hp, _⟩ := exSess .ptrOffset
  obtain ⟨_, f, hf, _⟩ := C59_safe cfg64_ok exP_wf exP_accepted .new hs
  exact ⟨s, f, hp, hf, C81_final cfg64_ok exP_wf exP_accepted .new (by decide) hs hf⟩

/-- C81_lost_offset: from the first 200 bytes alone, the node can be read, and nothing else in its place. -/
example : ∃ s : Ser, s.sto.vec.pos = 304 ∧ ∀ w, Denotes x64 exP ⟨true, false⟩ (first200 s.sto.bytes) 1 8 w ↔ w = exNode := by
  obtain ⟨s, hs, hp, _⟩ := exSess .ptrOffset
  refine ⟨s, hp, fun w => ⟨?_, ?_⟩⟩
  · exact C81_lost_offset cfg64_ok exP_wf exP_accepted .new hs (first200_part _) ⟨.typed ⟨exIm, 1, 4096⟩, some 8, 8, 144⟩ (by simp [exEvs]) _ 8 rfl rfl ⟨true, false⟩
      exNode exNodeIn w
  · rintro rfl
    exact C81_prefix_offset cfg64_ok exP_wf exP_accepted .new hs (first200_same _) ⟨.typed ⟨exIm, 1, 4096⟩, some 8, 8, 144⟩ (by simp [exEvs])
      (show 144 ≤ 200 by decide) _ 8 rfl rfl ⟨true, false⟩ exNode exNodeIn

/-- C81_lost_in_order: the same in order. -/
example : ∃ s : Ser, s.sto.vec.pos = 304 ∧ ∀ d w q, seqRoots x64 exP 8 (first200 s.sto.bytes) d [1] 8 = some ([w], q) → w = exNode ∧ q = 144 := by
  obtain ⟨s, hs, hp, _⟩ := exSess .pureCopy
  exact ⟨s, hp, C81_lost_in_order cfg64_ok exP_wf exP_accepted .new (.inl rfl) hs (first200_part _) ⟨.typed ⟨exIm, 1, 4096⟩, some 8, 8, 144⟩ (by simp [exEvs]) _ 8
    rfl rfl ⟨true, false⟩ exNode exNodeIn⟩

/-! ### C83, C84 -/

/-- The event of the node. -/
abbrev exNodeEv : XEv := ⟨.plain (.typed ⟨exIm, 1, 4096⟩), .done, some 56, 56, 192⟩

/-- C83_offset, C84_final, C84_lost_offset, C84_prefix_program. -/
example : ∃ s f : Ser, s.sto.vec.pos = 248 ∧ finalize cfg64 .ptrOffset s = .ok () f ∧ Denotes x64 exP ⟨true, false⟩ f.sto.bytes 1 56 exNode ∧
    f.sto.bytes = s.sto.bytes ∧ (∀ w, Denotes x64 exP ⟨true, false⟩ (first200 s.sto.bytes) 1 56 w ↔ w = exNode) ∧
    ∃ (c : TCalls) (m0 : Mem), let out := TRoot.ideal x64 8 ⟨some 0, false⟩ ⟨⟨16, 8⟩, 4096, exLoudData, c⟩ (m0, 0)
      out.2 = 56 ∧ ∀ i < 56, first200 s.sto.bytes i = out.1 i := by
  obtain ⟨c1, c2, s, _, hs, hp, _⟩ := exProgSess .ptrOffset
  obtain ⟨_, f, hf, _⟩ := C83_safe cfg64_ok exP_wf exP_accepted .new hs
  refine ⟨s, f, hp, hf, ?_, C84_final cfg64_ok exP_wf exP_accepted .new (by decide) hs hf, fun w => ⟨?_, ?_⟩, ?_⟩
  · exact C83_offset cfg64_ok exP_wf exP_accepted .new hs hf exNodeEv (by simp) _ 56 rfl rfl ⟨true, false⟩ exNode exNodeIn
  · exact C84_lost_offset cfg64_ok exP_wf exP_accepted .new hs (first200_part _) exNodeEv (by simp) _ 56 rfl rfl ⟨true, false⟩ exNode exNodeIn w
  · rintro rfl
    exact C84_prefix_offset cfg64_ok exP_wf exP_accepted .new hs (first200_same _) exNodeEv (by simp) (show 192 ≤ 200 by decide) _ 56 rfl rfl ⟨true, false⟩ exNode exNodeIn
  · obtain ⟨m0, h1, h2⟩ := C84_prefix_program cfg64_ok exP_wf exP_accepted .new (by decide) hs (first200_same _) _ List.mem_cons_self _ _ _ _ 0 rfl rfl
    exact ⟨c1, m0, h1, fun i hi => h2 i (Nat.zero_le _) hi (by omega)⟩

/-- C83_in_order, C84_prefix_in_order, C84_lost_in_order. -/
example (k : Kind) (hk : k = .pureCopy ∨ k = .posTracking) : ∃ s f : Ser, s.sto.vec.pos = 248 ∧ finalize cfg64 k s = .ok () f ∧
    (∃ n, seqRoots x64 exP 8 f.sto.bytes n [1] 56 = some ([exNode], 192)) ∧
    (∃ n, seqRoots x64 exP 8 (first200 s.sto.bytes) n [1] 56 = some ([exNode], 192)) ∧
    ∀ d w q, seqRoots x64 exP 8 (first200 s.sto.bytes) d [1] 56 = some ([w], q) → w = exNode ∧ q = 192 := by
  obtain ⟨c1, c2, s, _, hs, hp, _⟩ := exProgSess k
  obtain ⟨_, f, hf, _⟩ := C83_safe cfg64_ok exP_wf exP_accepted .new hs
  exact ⟨s, f, hp, hf, C83_in_order cfg64_ok exP_wf exP_accepted .new hk hs hf exNodeEv (by simp) _ 56 rfl rfl ⟨true, false⟩ exNode exNodeIn,
    C84_prefix_in_order cfg64_ok exP_wf exP_accepted .new hk hs (first200_same _) exNodeEv (by simp) (show 192 ≤ 200 by decide) _ 56 rfl rfl ⟨true, false⟩ exNode exNodeIn,
    C84_lost_in_order cfg64_ok exP_wf exP_accepted .new hk hs (first200_part _) exNodeEv (by simp) _ 56 rfl rfl ⟨true, false⟩ exNode exNodeIn⟩

/-- C84_complete: what lies between the outputs of the calls on values is not changed by `finalize`; here, the output of the program that panicked is a value
too. C84_lost_complete: what can be read from part of the buffer is the node. -/
example : ∃ s f : Ser, s.sto.vec.pos = 248 ∧ finalize cfg64 .complete s = .ok () f ∧ (∀ i, 248 ≤ i → f.sto.bytes i = s.sto.bytes i) ∧
    ∀ part : Mem, part.PartOf f.sto.buffer → ∀ w, Denotes x64 exP ⟨true, true⟩ part 1 (f.sto.asPtr + 56) w → w = exNode := by
  obtain ⟨c1, c2, s, _, hs, hp, _⟩ := exProgSess .complete
  obtain ⟨_, f, hf, _⟩ := C83_safe cfg64_ok exP_wf exP_accepted .new hs
  refine ⟨s, f, hp, hf, fun i hi => (C84_complete cfg64_ok exP_wf exP_accepted .new hs hf).1 i fun x hx _ => .inr ?_, fun part hpart => ?_⟩
  · have := ((C83_order cfg64_ok exP_wf exP_accepted .new hs).1 x hx).2.2
    omega
  · exact C84_lost_complete cfg64_ok exP_wf exP_accepted .new hs hf hpart exNodeEv (by simp) _ 56 rfl rfl ⟨true, false⟩ exNode exNodeIn (.inl (by decide))

/-- C84_after, C84_after_in_order, C84_after_program: after another serializer was at work on the storage. -/
example (k k' : Kind) (hk : k = .pureCopy ∨ k = .posTracking) : ∃ (s' : Ser) (u : Sto), (∀ i < 248, u.bytes i = s'.sto.bytes i) ∧
    (∃ n, seqRoots x64 exP 8 u.bytes n [1] 56 = some ([exNode], 192)) ∧
    ∃ (c : TCalls) (m0 : Mem), let out := TRoot.ideal x64 8 (k.mode s'.sto.asPtr) ⟨⟨16, 8⟩, 4096, exLoudData, c⟩ (m0, 0)
      out.2 = 56 ∧ ∀ i < 56, u.bytes i = out.1 i := by
  obtain ⟨c1, c2, s, s', u, hs, hf, ha, _⟩ := exXAfter k k'
  obtain ⟨_, f, hf', hv⟩ := C83_safe cfg64_ok exP_wf exP_accepted .new hs
  rw [hf] at hf'
  cases hf'
  have hb := (C83_order cfg64_ok exP_wf exP_accepted .new hs).1 ⟨.plain (.typed ⟨exIm, 9, 4288⟩), .done, some 232, 232, 248⟩ (by simp)
  have hb' : 248 ≤ s'.sto.vec.pos := by rw [hv]; exact hb.2.2
  obtain ⟨m0, h1, h2⟩ := C84_after_program cfg64_ok exP_wf exP_accepted .new hs hf ha _ List.mem_cons_self _ _ _ _ 0 rfl rfl
  exact ⟨s', u, fun i hi => (C84_after cfg64_ok exP_wf exP_accepted (.finished .new hs hf) ha).2 i (by omega) trivial,
    C84_after_in_order cfg64_ok exP_wf exP_accepted .new hk hs hf ha exNodeEv (by simp) (fun _ _ _ => trivial) _ 56 rfl rfl ⟨true, false⟩ exNode exNodeIn,
    c1, m0, h1, fun i hi => h2 i (Nat.zero_le _) hi trivial⟩

/-- C84_after_complete (nothing was done in between) and C84_after_repair (another serializer was at work). -/
example (k' : Kind) : ∃ (s' : Ser) (u : Sto), Denotes x64 exP ⟨true, true⟩ s'.sto.buffer 1 (s'.sto.asPtr + 56) exNode ∧
    Denotes x64 exP ⟨true, true⟩ (rebase x64 s'.sto.asPtr u.asPtr (exNode.pointersAt x64 exP 8 1 56) u.buffer) 1 (u.asPtr + 56) exNode := by
  obtain ⟨c1, c2, s, s', u, hs, hf, ha, _⟩ := exXAfter .complete k'
  exact ⟨s', u, C84_after_complete cfg64_ok exP_wf exP_accepted .new hs hf (K := fun _ => True) .now rfl exNodeEv (by simp) (fun _ _ _ => trivial) _ 56 rfl rfl
      ⟨true, false⟩ exNode exNodeIn (.inl (by decide)),
    (C84_after_repair cfg64_ok exP_wf exP_accepted .new hs hf ha exNodeEv (by simp) (fun _ _ _ => trivial) _ 56 rfl rfl ⟨true, false⟩ exNode exNodeIn (.inl (by decide))).1⟩

/-- C83_before: a second session leaves what the first one wrote. -/
example (k k' : Kind) : ∃ (s' s2 f : Ser) (xs : List XEv), 248 ≤ s'.sto.vec.pos ∧ xs.length = 1 ∧ XSess cfg64 k' exP s'.sto xs s2 ∧ finalize cfg64 k' s2 = .ok () f ∧ ∀ i < 248, f.sto.bytes i = s'.sto.bytes i := by
  obtain ⟨c1, c2, s, s', u, hs, hf, _, xs, s2, hlen, hw, h2, _⟩ := exXAfter k k'
  obtain ⟨_, f, hf', hv⟩ := C83_safe cfg64_ok exP_wf exP_accepted .new hs
  rw [hf] at hf'
  cases hf'
  have hb := (C83_order cfg64_ok exP_wf exP_accepted .new hs).1 ⟨.plain (.typed ⟨exIm, 9, 4288⟩), .done, some 232, 232, 248⟩ (by simp)
  have hb' : 248 ≤ s'.sto.vec.pos := by rw [hv]; exact hb.2.2
  have hr : XReach cfg64 exP s'.sto := .finished .new hs hf
  obtain ⟨_, f, hf2, _⟩ := C83_safe cfg64_ok exP_wf exP_accepted hr h2
  exact ⟨s', s2, f, xs, hb', hlen, h2, hf2, fun i hi => (C83_before cfg64_ok exP_wf exP_accepted hr h2 hf2).2 i (by omega) fun x hx => hw x hx i⟩

end SerRaw
