import Verif.Props.SharedLater
import Verif.Props.InstLater
/-
Concrete cases that meet the hypotheses of the theorems of C90 which have none beside them: on the heap of the example of C88, the other storage is given to a
serializer of any kind, which serializes with a program, a node and with a hand-written implementation, and to whose storage 16 bytes are then pushed.
-/
namespace SerRaw

def exInst1 (k : Kind) : Option SharedP := exSharedP6.bind fun H => H.doFrom 1 k
def exInst2 (k : Kind) : Option SharedP := (exInst1 k).bind fun H => H.doAct 1 (2 ^ 21) (.program ⟨16, 8⟩ 4096 exLoudData exLoud)
def exInst3 (k : Kind) : Option SharedP := (exInst2 k).bind fun H => H.doAct 1 (2 ^ 22) (.plain (.typed ⟨exIm, 1, 4096⟩))
def exInst4 (k : Kind) : Option SharedP := (exInst3 k).bind fun H => H.doAct 1 (2 ^ 23) (.plain (.user exReturns))
def exInst5 (k : Kind) : Option SharedP := (exInst4 k).bind fun H => H.doAct 1 (2 ^ 25) (.plain (.sto (.pushSlice ⟨8, 8⟩ 2 fun _ => some 7)))

theorem exInst1_free (k : Kind) : (exInst1 k).all (·.bare.freeAt 1 (2 ^ 21)) = true := by cases k <;> decide +kernel
theorem exInst2_free (k : Kind) : (exInst2 k).all (·.bare.freeAt 1 (2 ^ 22)) = true := by cases k <;> decide +kernel
theorem exInst3_free (k : Kind) : (exInst3 k).all (·.bare.freeAt 1 (2 ^ 23)) = true := by cases k <;> decide +kernel
theorem exInst4_free (k : Kind) : (exInst4 k).all (·.bare.freeAt 1 (2 ^ 25)) = true := by cases k <;> decide +kernel
theorem exInst5_log (k : Kind) : (exInst5 k).map (fun H => (H.log 1).map fun l => (l.1, l.2.map fun x => (x.res, x.lo, x.hi))) =
    some (some (k, [(some 48, 48, 104), (some 104, 104, 240), (some 240, 240, 320), (some 320, 320, 336)])) := by cases k <;> decide +kernel
theorem exInst5_vec (k : Kind) : (exInst5 k).map (fun H => (H.owners 1).vec) = some ⟨2 ^ 23, 512, 336⟩ := by cases k <;> decide +kernel

/-- The program runs. -/
theorem exInst (k : Kind) : ∃ H v m p x1 x2 x3 x4, SharedPReach (fun _ => cfg64) exP H ∧ H.owners 1 = .serializer k v m p [x1, x2, x3, x4] ∧ v = ⟨2 ^ 23, 512, 336⟩ ∧
    (x1.act = .program ⟨16, 8⟩ 4096 exLoudData exLoud ∧ x1.res = some 48 ∧ x1.lo = 48 ∧ x1.hi = 104) ∧
    (x2.act = .plain (.typed ⟨exIm, 1, 4096⟩) ∧ x2.res = some 104 ∧ x2.lo = 104 ∧ x2.hi = 240) ∧
    (x3.act = .plain (.user exReturns) ∧ x3.res = some 240 ∧ x3.lo = 240 ∧ x3.hi = 320) ∧
    x4.act = .plain (.sto (.pushSlice ⟨8, 8⟩ 2 fun _ => some 7)) ∧ x4.res = some 320 ∧ x4.lo = 320 ∧ x4.hi = 336 := by
  have e8 : Layout.OK ⟨8, 8⟩ := ⟨⟨3, rfl⟩, by decide⟩
  have hv : Valid cfg64.arch exP ⟨exIm, 1, 4096⟩ := ⟨⟨true, false⟩, exNode, exNodeIn⟩
  have f1 := exInst1_free k
  have f2 := exInst2_free k
  have f3 := exInst3_free k
  have f4 := exInst4_free k
  obtain ⟨H5, e5, g5⟩ := Option.map_eq_some_iff.1 (exInst5_vec k)
  have e5' := e5
  obtain ⟨H4, e4, d5⟩ := Option.bind_eq_some_iff.1 e5
  obtain ⟨H3, e3, d4⟩ := Option.bind_eq_some_iff.1 e4
  obtain ⟨H2, e2, d3⟩ := Option.bind_eq_some_iff.1 e3
  obtain ⟨H1, e1, d2⟩ := Option.bind_eq_some_iff.1 e2
  obtain ⟨H0, e0, d1⟩ := Option.bind_eq_some_iff.1 e1
  obtain ⟨H0', e0', hr, _⟩ := exSharedP_reach
  rw [e0] at e0'
  cases e0'
  rw [e1] at f1
  rw [e2] at f2
  rw [e3] at f3
  rw [e4] at f4
  have s1 : SharedP.Step (fun _ => cfg64) exP (some 1) H0 H1 ∧ H1.log 1 = some (k, []) := by
    unfold SharedP.doFrom at d1
    split at d1
    · rename_i v hw
      cases d1
      refine ⟨.from hw, ?_⟩
      unfold SharedP.log
      rw [put_owner]
    · cases d1
  have r2 := (hr.step s1.1).step (SharedP.doAct_step d2 f1 fun _ _ _ _ _ _ => exLoud_legal_any _ _ _ _)
  have r3 := r2.step (SharedP.doAct_step d3 f2 fun _ _ _ _ _ _ => hv)
  have r4 := r3.step (SharedP.doAct_step d4 f3 fun _ _ _ _ _ _ => by
    have h := act_legal_alloc (C := cfg64) (P := exP) (a := .user exReturns) (es := []) (s := Ser.fromStorage Sto.new) (o := answerAt (2 ^ 23)) exReturns_ok rfl
    exact h)
  have r5 := r4.step (SharedP.doAct_step d5 f4 fun _ _ _ _ _ _ => ⟨⟨e8, fun _ => rfl, by decide, .inr (.inl (by decide))⟩, by nofun, by nofun⟩)
  obtain ⟨k2, xs2, x2, l2, l2', a2⟩ := SharedP.doAct_log d2
  obtain ⟨k3, xs3, x3, l3, l3', a3⟩ := SharedP.doAct_log d3
  obtain ⟨k4, xs4, x4, l4, l4', a4⟩ := SharedP.doAct_log d4
  obtain ⟨k5, xs5, x5, l5, l5', a5⟩ := SharedP.doAct_log d5
  rw [s1.2] at l2
  cases l2
  rw [l2'] at l3
  cases l3
  rw [l3'] at l4
  cases l4
  rw [l4'] at l5
  cases l5
  have g := exInst5_log k
  rw [e5', Option.map_some, Option.some.injEq, l5'] at g
  simp only [Option.map_some, Prod.mk.injEq, Option.some.injEq, List.nil_append, List.cons_append, List.map_cons, List.map_nil, List.cons.injEq, true_and, and_true] at g
  obtain ⟨v, m, p, hw⟩ : ∃ v m p, H5.owners 1 = .serializer k v m p [x2, x3, x4, x5] := by
    unfold SharedP.log at l5'
    split at l5'
    · rename_i k v m p xs hw
      cases l5'
      exact ⟨v, m, p, hw⟩
    · cases l5'
  rw [hw] at g5
  obtain ⟨⟨b1, b2, b3⟩, ⟨b4, b5, b6⟩, ⟨b7, b8, b9⟩, b10, b11, b12⟩ := g
  exact ⟨H5, v, m, p, x2, x3, x4, x5, r5, hw, g5, ⟨a2, b1, b2, b3⟩, ⟨a3, b4, b5, b6⟩, ⟨a4, b7, b8, b9⟩, a5, b10, b11, b12⟩


/-- C90_user, C90_direct, for any kind: after `finalize`, the output of the hand-written implementation, and the bytes that were pushed. -/
example (k : Kind) : ∃ (H : SharedP) (s : Ser) (m0 : Mem), SharedPReach (fun _ => cfg64) exP (H.put 1 (.storage s.sto.vec) s.sto.w.live) ∧
    (let out := rootIdeal x64 8 (k.mode s.sto.vec.ptr) exReturns.L exReturns.im exReturns.a exReturns.body.script (m0, 240)
     out.2 = 320 ∧ ∀ j, 240 ≤ j → j < 320 → s.sto.bytes j = out.1 j) ∧ ∀ j < 16, s.sto.bytes (320 + j) = some 7 := by
  obtain ⟨H, v, m, p, x1, x2, x3, x4, hr, hw, _, _, _, ⟨a3, r3, lo3, hi3⟩, a4, r4, lo4, hi4⟩ := exInst k
  obtain ⟨s, hf, _⟩ := (C88_safe (fun _ => cfg64_ok) (fun _ => exP_wf) (fun _ => exP_accepted) hr 1).2.2.2.2 _ _ _ _ _ hw
  obtain ⟨m0, h1, h2⟩ := C90_user (fun _ => cfg64_ok) (fun _ => exP_wf) (fun _ => exP_accepted) (K := fun _ => True) hr hw hf .now x3 (by simp) exReturns 240 a3 r3
  have h3 := C90_direct (fun _ => cfg64_ok) (fun _ => exP_wf) (fun _ => exP_accepted) (K := fun _ => True) (xs1 := [x1, x2, x3]) (xs2 := []) hr hw hf .now _ _ _ 320 a4
    (by decide) r4
  rw [put_owner] at h2 h3
  rw [lo3, hi3] at h2
  rw [lo3, hi3] at h1
  exact ⟨H, s, m0, hr.step (.finalize hw hf), ⟨h1, fun j h4 h5 => h2 j h4 h5 trivial⟩, fun j hj => h3 j hj trivial (by simp)⟩

/-- C90_in_order, C90_prefix_in_order, C90_lost_in_order. -/
example (k : Kind) (hk : k = .pureCopy ∨ k = .posTracking) : ∃ (H : SharedP) (s : Ser), SharedPReach (fun _ => cfg64) exP (H.put 1 (.storage s.sto.vec) s.sto.w.live) ∧
    (∃ n, seqRoots x64 exP 8 s.sto.bytes n [1] 104 = some ([exNode], 240)) ∧
    (∀ file : Mem, (∀ i < 250, file i = (H.sto (H.owners 1).vec).bytes i) → ∃ n, seqRoots x64 exP 8 file n [1] 104 = some ([exNode], 240)) ∧
    ∀ d w q, seqRoots x64 exP 8 (first200 (H.sto (H.owners 1).vec).bytes) d [1] 104 = some ([w], q) → w = exNode ∧ q = 240 := by
  obtain ⟨H, v, m, p, x1, x2, x3, x4, hr, hw, _, _, ⟨a2, r2, lo2, hi2⟩, _⟩ := exInst k
  obtain ⟨s, hf, _⟩ := (C88_safe (fun _ => cfg64_ok) (fun _ => exP_wf) (fun _ => exP_accepted) hr 1).2.2.2.2 _ _ _ _ _ hw
  have h1 := C90_in_order (fun _ => cfg64_ok) (fun _ => exP_wf) (fun _ => exP_accepted) (K := fun _ => True) hr hk hw hf .now x2 (by simp) (fun _ _ _ => trivial) _ 104 a2 r2
    ⟨true, false⟩ exNode exNodeIn
  rw [put_owner, lo2, hi2] at h1
  refine ⟨H, s, hr.step (.finalize hw hf), h1, fun file hfile => ?_, fun d w q h => ?_⟩
  · rw [hw] at hfile
    have h2 := C90_prefix_in_order (fun _ => cfg64_ok) (fun _ => exP_wf) (fun _ => exP_accepted) hr hk hw hfile x2 (by simp) (by rw [hi2]; decide) _ 104 a2 r2
      ⟨true, false⟩ exNode exNodeIn
    rw [lo2, hi2] at h2
    exact h2
  · rw [hw] at h
    have h3 := C90_lost_in_order (fun _ => cfg64_ok) (fun _ => exP_wf) (fun _ => exP_accepted) hr hk hw (first200_part _) x2 (by simp) _ 104 a2 r2
      ⟨true, false⟩ exNode exNodeIn d w q (by rw [lo2]; exact h)
    rw [hi2] at h3
    exact h3

/-- C90_lost_offset, C90_prefix_program. -/
example : ∃ (H : SharedP) (x : XEv), SharedPReach (fun _ => cfg64) exP H ∧ (H.owners 1).vec = ⟨2 ^ 23, 512, 336⟩ ∧
    (∀ part : Mem, part.PartOf (H.sto (H.owners 1).vec).bytes → ∀ w, Denotes x64 exP ⟨true, false⟩ part 1 104 w → w = exNode) ∧
    ∃ m0, let out := TRoot.ideal x64 8 ⟨some 0, false⟩ ⟨⟨16, 8⟩, 4096, exLoudData, x.calls⟩ (m0, 48)
      out.2 = 104 ∧ ∀ j, 48 ≤ j → j < 104 → first200 (H.sto (H.owners 1).vec).bytes j = out.1 j := by
  obtain ⟨H, v, m, p, x1, x2, x3, x4, hr, hw, hv, ⟨a1, r1, lo1, hi1⟩, ⟨a2, r2, lo2, hi2⟩, _⟩ := exInst .ptrOffset
  obtain ⟨m0, h1, h2⟩ := C90_prefix_program (fun _ => cfg64_ok) (fun _ => exP_wf) (fun _ => exP_accepted) hr (by decide) hw (first200_same _) x1 (by simp) _ _ _ 48
    (.inl ⟨_, a1⟩) r1
  rw [lo1, hi1] at h1 h2
  refine ⟨H, x1, hr, by rw [hw]; exact hv, ?_⟩
  rw [hw]
  refine ⟨fun part hpart w h => ?_, m0, h1, fun j h3 h4 => h2 j h3 h4 (by omega)⟩
  exact C90_lost_offset (fun _ => cfg64_ok) (fun _ => exP_wf) (fun _ => exP_accepted) hr hw hpart x2 (by simp) _ 104 a2 r2 ⟨true, false⟩ exNode exNodeIn w h

/-- C90_repair: the node in the finished output. -/
example : ∃ (H : SharedP) (s : Ser), SharedPReach (fun _ => cfg64) exP (H.put 1 (.storage s.sto.vec) s.sto.w.live) ∧
    Denotes x64 exP ⟨true, true⟩ (rebase x64 s.sto.vec.ptr s.sto.vec.ptr (exNode.pointersAt x64 exP 8 1 104) s.sto.buffer) 1 (s.sto.vec.ptr + 104) exNode := by
  obtain ⟨H, v, m, p, x1, x2, x3, x4, hr, hw, _, _, ⟨a2, r2, lo2, hi2⟩, _⟩ := exInst .complete
  obtain ⟨s, hf, _⟩ := (C88_safe (fun _ => cfg64_ok) (fun _ => exP_wf) (fun _ => exP_accepted) hr 1).2.2.2.2 _ _ _ _ _ hw
  have h1 := (C90_repair (fun _ => cfg64_ok) (fun _ => exP_wf) (fun _ => exP_accepted) (K := fun _ => True) hr hw hf .now x2 (by simp) (fun _ _ _ => trivial) _ 104 a2 r2
    ⟨true, false⟩ exNode exNodeIn (.inl (by decide))).1
  rw [put_owner] at h1
  exact ⟨H, s, hr.step (.finalize hw hf), h1⟩

end SerRaw
