import Verif.Props.Caught
/-
C50: `ptr(pos)` / `mut_ptr(pos)`, and how long pointers into a storage stay valid.

Vocabulary: `Reach C P t` (Model/Reach.lean): some sequence of storage operations and serializer sessions, some of them panicking,
leads to the storage `t`. `Sto.asPtr` is `as_ptr()`, `Sto.ptrAt C p` is `ptr(p)` and `mut_ptr(p)`.
-/
namespace SerRaw

section
variable {C : Cfg} {P : Prog}

/-- C50. On a storage that has allocated, `ptr(p)` with `p ≤ capacity()` does not panic (in either build) and computes an in-bounds
pointer: `as_ptr() + p`, without overflow; it changes nothing. A position aligned for a type (of alignment at most
`STORAGE_ALIGNMENT`) gives an aligned pointer. -/
theorem C50_ptr (hC : C.OK) (hP : P.WF C.arch) (hacc : P.Accepted C) {t : Sto} (h : Reach C P t) (hc : 0 < t.vec.capacity) {p : Nat}
    (hp : p ≤ t.vec.capacity) :
    Sto.ptrAt C p t = .ok (t.asPtr + p) t ∧ t.asPtr ≠ 0 ∧ t.asPtr + p < C.arch.usizeMod ∧
    ∀ L : Layout, L.OK → L.align ≤ C.storageAlign → (L.align ∣ t.asPtr + p ↔ L.align ∣ p) := by
  have F := hC.facts
  rcases (h.inv hC hP hacc).mem with ⟨h0, _⟩ | ⟨_, h1, h2, h3, d, hl⟩
  · omega
  refine ⟨?_, h1, by simp only [Sto.asPtr]; omega, fun L hL hle => ?_⟩
  · unfold Sto.ptrAt
    rw [bind_ok (show Sto.getCapacity t = .ok t.vec.capacity t from rfl), bind_ok (debugAssert_true _ (decide_eq_true hc) t),
      bind_ok (debugAssert_true _ (decide_eq_true hp) t), bind_ok (show Sto.getPtr t = .ok t.vec.ptr t from rfl)]
    unfold ptrAdd
    split
    · rename_i h0; rw [h0]; rfl
    · rw [if_pos (by rw [hl]; simp [Block.contains]; omega)]; rfl
  · exact Nat.dvd_add_right (Nat.dvd_trans (hL.pow2.dvd_of_le F.sa hle) h2)

/-- C50, the bytes behind the pointer. For a position below `pos()` the byte at `ptr(p)` is byte `p` of the storage's contents. -/
theorem C50_ptr_reads (hC : C.OK) (hP : P.WF C.arch) (hacc : P.Accepted C) {t : Sto} (h : Reach C P t) {p : Nat} (hp : p < t.vec.pos) :
    ∃ a, Sto.ptrAt C p t = .ok a t ∧ t.w.load a = t.bytes p := by
  have := (h.inv hC hP hacc).pos_le
  exact ⟨_, (C50_ptr hC hP hacc h (by omega) (by omega)).1, by unfold Sto.bytes; rw [if_pos hp]; rfl⟩

/-- C50, stability under storage operations. An operation (returning or panicking) that leaves `capacity()` unchanged has not moved
the buffer: pointers obtained before are still the pointers `ptr` gives now. -/
theorem C50_stable (hC : C.OK) (hP : P.WF C.arch) (hacc : P.Accepted C) {t t' : Sto} (h : Reach C P t) {op : SOp} (hl : op.Legal C t)
    (hr : (∃ p, op.run C t = .ok p t') ∨ ∃ k, op.run C t = .panic k t') (hcap : t'.vec.capacity = t.vec.capacity) :
    t'.asPtr = t.asPtr := by
  have hst : StepSpec C op t t' := by
    have := step_sat hC (h.inv hC hP hacc) hl
    rcases hr with ⟨p, hr⟩ | ⟨k, hr⟩ <;> rw [hr] at this <;> exact this
  exact hst.ptr hcap

/-- C50, stability under serializer sessions. -/
theorem C50_session_stable (hC : C.OK) (hP : P.WF C.arch) (hacc : P.Accepted C) {t : Sto} (h : Reach C P t) {k : Kind} {rs : List Root}
    (hv : ∀ r ∈ rs, Valid C.arch P r) {fuel : Nat} {s' : Ser}
    (hr : (∃ ps, session C k P fuel rs (Ser.fromStorage t) = .ok ps s') ∨ ∃ pk, session C k P fuel rs (Ser.fromStorage t) = .panic pk s')
    (hcap : s'.sto.vec.capacity = t.vec.capacity) : s'.sto.asPtr = t.asPtr := by
  have hI : s'.sto.Inv C := by
    rcases hr with ⟨ps, hr⟩ | ⟨pk, hr⟩
    · exact (Reach.session h hv hr).inv hC hP hacc
    · exact (Reach.sessionPanic h hv hr).inv hC hP hacc
  have := hI.pos_le
  exact (C47_no_realloc hC hP hacc h hv hr (by omega)).2.1

end

/-! ### Concrete cases -/

/-- Without an allocation the call is rejected in debug builds. -/
example : ∃ s, Sto.ptrAt cfg64 0 Sto.new = .panic .debugAssert s := ⟨_, rfl⟩

/-- C50 applies: after the example session, `ptr(136)` is the address of the enum, and its first byte is the byte of the output. -/
example : ∃ t s' a, Reach cfg64 exP t ∧ Reach cfg64 exP s'.sto ∧
    session cfg64 .complete exP 6 (exRoots.map Prod.fst) (Ser.fromStorage t) = .ok [8, 0, 144, 192] s' ∧
    Sto.ptrAt cfg64 144 s'.sto = .ok a s'.sto ∧ s'.sto.w.load a = s'.sto.bytes 144 := by
  obtain ⟨t, s', h0, _, hr, hp, _⟩ := exRun .complete
  have h1 : Reach cfg64 exP s'.sto :=
    .session h0 (by intro r hr; obtain ⟨x, hx, rfl⟩ := List.mem_map.1 hr; exact ⟨_, _, exInputs x hx⟩) hr
  obtain ⟨a, h2, h3⟩ := C50_ptr_reads cfg64_ok exP_wf exP_accepted h1 (p := 144) (by rw [hp]; decide)
  exact ⟨t, s', a, h0, h1, hr, h2, h3⟩

/-- A push that fits leaves the buffer where it is. -/
example : ∃ t t' p, Reach cfg64 exP t ∧ Sto.pushSlice cfg64 ⟨4, 4⟩ 3 (fun _ => some 7) t = .ok p t' ∧ t'.vec.pos = 16 ∧ t'.asPtr = t.asPtr := by
  obtain ⟨t, ht, hc⟩ : ∃ t, Sto.withCapacity cfg64 64 Sto.new = .ok () t ∧ t.vec.capacity = 64 := ⟨_, rfl, rfl⟩
  have h0 : Reach cfg64 exP t := .withCapacity (by decide) ht
  obtain ⟨t', p, h1, h2, h3⟩ : ∃ t' p, Sto.pushSlice cfg64 ⟨4, 4⟩ 3 (fun _ => some 7) t = .ok p t' ∧ t'.vec.pos = 16 ∧ t'.vec.capacity = 64 := by
    cases ht; exact ⟨_, _, rfl, rfl, rfl⟩
  exact ⟨t, t', p, h0, h1, h2, C50_stable cfg64_ok exP_wf exP_accepted h0 (op := .pushSlice ⟨4, 4⟩ 3 fun _ => some 7)
    ⟨⟨⟨2, rfl⟩, by decide⟩, by decide, by decide, Or.inr (Or.inl (by decide))⟩ (Or.inl ⟨_, h1⟩) (by rw [h3, hc])⟩

end SerRaw
