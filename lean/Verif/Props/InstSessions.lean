import Verif.Props.InstShared
import Verif.Props.Relocate
import Verif.Props.Size
import Verif.Props.AgreeEx
/-
Further concrete cases: the session of `exRoots` (a node, a zero-sized value, a big integer and an enum) meets the hypotheses of the theorems about sessions
which have no case beside them, and the shared heap of `exInst` those of C88.
-/
namespace SerRaw

/-- C30_verbatim: the bytes of the node, copied as they are. -/
example (k : Kind) (hk : k = .pureCopy ∨ k = .posTracking) : ∃ s' : Ser, s'.sto.vec.pos = 200 ∧
    ∀ j < (exP.layout 1).size, s'.sto.bytes j = exIm (4096 + j) := by
  obtain ⟨s', r, hpos, _⟩ := exRun_new k
  have h := (C30_verbatim cfg64_ok exP_wf exP_accepted .new hk exInputs r 0 _ _ _ rfl rfl (by decide)).1
  exact ⟨s', hpos, fun j hj => by have := h j hj; rw [Nat.zero_add] at this; exact this⟩

/-- C31_same_layout: two kinds. -/
example (k1 k2 : Kind) : ∃ s1 s2 : Ser, session cfg64 k1 exP 6 (exRoots.map Prod.fst) (Ser.fromStorage Sto.new) = .ok [0, 0, 136, 184] s1 ∧
    session cfg64 k2 exP 6 (exRoots.map Prod.fst) (Ser.fromStorage Sto.new) = .ok [0, 0, 136, 184] s2 ∧ s1.sto.vec.pos = s2.sto.vec.pos := by
  obtain ⟨s1, r1, _⟩ := exRun_new k1
  obtain ⟨s2, r2, _⟩ := exRun_new k2
  exact ⟨s1, s2, r1, r2, (C31_same_layout cfg64_ok cfg64_ok rfl rfl exP_wf exP_accepted exP_accepted .new .new rfl exInputs r1 r2).2⟩

/-- C33_safe. -/
example (k : Kind) (fuel : Nat) : session cfg64 k exP fuel (exRoots.map Prod.fst) (Ser.fromStorage Sto.new) ≠ .ub :=
  ((C33_safe cfg64_ok exP_wf exP_accepted .new k (rs := exRoots.map Prod.fst) (by
    intro r hr
    obtain ⟨x, hx, rfl⟩ := List.mem_map.1 hr
    exact ⟨⟨true, false⟩, x.2, exInputs x hx⟩)).1 fuel).1

/-- C36_position_readable: the enum can be read through the storage at its position. -/
example (k : Kind) : ∃ (s' : Ser) (cells : Nat → Cell), s'.sto.vec.pos = 200 ∧ Sto.read cfg64 184 (exP.layout 9) s'.sto = .ok cells s'.sto ∧
    ∀ j < (exP.layout 9).size, cells j = s'.sto.bytes (184 + j) := by
  obtain ⟨s', r, hpos, _⟩ := exRun_new k
  obtain ⟨_, _, cells, h1, h2⟩ := C36_position_readable cfg64_ok exP_wf exP_accepted .new exInputs r 3 _ _ _ rfl rfl (by decide)
  exact ⟨s', cells, hpos, h1, h2⟩

/-- C51_offset: the words of the node that lead to its allocations. -/
example : ∃ s' : Ser, s'.sto.vec.pos = 200 ∧ ∀ x ∈ exNode.pointersAt x64 exP 8 1 0, readWord x64 s'.sto.bytes x.1 = some x.2 := by
  obtain ⟨s', r, hpos, _⟩ := exRun_new .ptrOffset
  exact ⟨s', hpos, fun x hx => (C51_offset cfg64_ok exP_wf exP_accepted .new exInputs r 0 _ _ _ rfl rfl x hx).2.2⟩

/-- C79_apart: the pointer words share no byte. -/
example : (pointersOf x64 exP 8 ((exRoots.map fun y => (y.1.t, y.2)).zip [0, 0, 136, 184])).Pairwise (fun x y => x.1 + 8 ≤ y.1 ∨ y.1 + 8 ≤ x.1) := by
  obtain ⟨s', r, _⟩ := exRun_new .complete
  exact C79_apart cfg64_ok exP_wf exP_accepted .new exInputs r

/-- C54_stays, C54_complete_at: another session has moved the buffer; mapped where the buffer was, its bytes are the node. -/
example (k' : Kind) : ∃ (s' : Ser) (u : Sto), u.vec.pos = 336 ∧ (∀ i < s'.sto.vec.pos, u.bytes i = s'.sto.bytes i) ∧
    Denotes x64 exP ⟨true, true⟩ (fun a => u.bytes (a - s'.sto.vec.ptr)) 1 s'.sto.vec.ptr exNode := by
  obtain ⟨s', h, _, u, hu, hp, _⟩ := exLater .complete k'
  obtain ⟨n, js, _, _, hpo⟩ := session_post cfg64_ok exP_wf exP_accepted (Reach.inv cfg64_ok exP_wf exP_accepted .new) exInputs h
  refine ⟨s', u, hp, (C54_stays cfg64_ok exP_wf exP_accepted (.session .new (k := .complete) (rs := exRoots.map Prod.fst) ?_ h) hu).1,
    C54_complete_at cfg64_ok exP_wf exP_accepted .new exInputs h hu (fun i _ => by rw [Nat.add_sub_cancel_left]) 0 _ _ _ rfl rfl (.inl (by decide))⟩
  intro r hr
  obtain ⟨x, hx, rfl⟩ := List.mem_map.1 hr
  exact ⟨⟨true, false⟩, x.2, exInputs x hx⟩

/-- C88_owned: the two buffers share no byte. C88_keeps, C88_untouched: the other serializer is as it was when this one has finished. -/
example (k : Kind) : ∃ (H H' : SharedP), SharedP.Step (fun _ => cfg64) exP (some 1) H H' ∧ H.live.Pairwise Block.Apart ∧ (H.owners 1).vec = ⟨2 ^ 23, 512, 336⟩ ∧
    H'.owners 0 = H.owners 0 ∧ (H'.sto (H'.owners 0).vec).bytes = (H.sto (H.owners 0).vec).bytes ∧
    ∀ b, (b ∈ H'.live ∧ ¬ (H'.owners 1).Owns b) ↔ (b ∈ H.live ∧ ¬ (H.owners 1).Owns b) := by
  obtain ⟨H, v, m, p, x1, x2, x3, x4, hr, hw, hv, _⟩ := exInst k
  obtain ⟨s, hf, _⟩ := (C88_safe (fun _ => cfg64_ok) (fun _ => exP_wf) (fun _ => exP_accepted) hr 1).2.2.2.2 _ _ _ _ _ hw
  have hs : SharedP.Step (fun _ => cfg64) exP (some 1) H (H.put 1 (.storage s.sto.vec) s.sto.w.live) := .finalize hw hf
  have h1 := C88_keeps (fun _ => cfg64_ok) (fun _ => exP_wf) (fun _ => exP_accepted) hr (i := 0) (by decide) hs
  exact ⟨H, _, hs, (C88_owned (fun _ => cfg64_ok) (fun _ => exP_wf) (fun _ => exP_accepted) hr).1, by rw [hw]; exact hv, h1.1, h1.2.2,
    (C88_untouched (fun _ => cfg64_ok) (fun _ => exP_wf) (fun _ => exP_accepted) hr hs).2⟩

end SerRaw
