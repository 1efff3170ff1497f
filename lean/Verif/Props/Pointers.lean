import Verif.Props.Size
/-
C51: where the pointers of an output are and what they hold is a function of the abstract values.

`Val.pointersAt` (Spec/Size.lean) lists the pointer words of a value from its type and abstract value, without memory.
-/
namespace SerRaw

section
variable {C : Cfg} {P : Prog} {fl : Flags}

theorem slots_word (hC : C.OK) {k : Kind} {B : Nat} (hP : P.WF C.arch) (hacc : P.Accepted C) {t0 : Sto} (h0 : Reach C P t0)
    {rs : List (Root × Val)} (hv : Inputs C.arch P fl rs) {fuel : Nat} {ps : List Nat} {s' : Ser}
    (hrun : session C k P fuel (rs.map (·.1)) (Ser.fromStorage t0) = .ok ps s') (hB : (k.mode s'.sto.vec.ptr).ptrBase = some B)
    (hle : B ≤ s'.sto.vec.ptr) :
    ∀ (i : Nat) (r : Root) (v : Val) (p : Nat), rs[i]? = some (r, v) → ps[i]? = some p →
      ∀ x ∈ v.pointersAt C.arch P C.valueAlign r.t p, x.1 + C.arch.ptrBytes ≤ s'.sto.vec.pos ∧ x.2 < s'.sto.vec.pos ∧
        readWord C.arch s'.sto.bytes x.1 = some (B + x.2) := by
  have hW := hC.arch.ptr_pos
  have F := hC.facts
  obtain ⟨n, js, hm, hj, hp⟩ := session_post hC hP hacc (h0.inv hC hP hacc) hv hrun
  intro i r v p hr hpi x hx
  obtain ⟨y, hy, rfl, rfl, rfl⟩ := jobsAt_get hm hp.ps hr hpi
  have hym : y.1 ∈ js := (jobsAt_mem_le F.va.pos hW hP hacc hj y hy).1
  rw [← rootSlots_val (hj _ hym)] at hx
  obtain ⟨⟨h1, h2⟩, h3⟩ := jobs_slots (md := k.mode s'.sto.vec.ptr) (m := t0.view) F.va.pos hW hP hacc hB hj x
    (List.mem_flatMap.2 ⟨y, hy, hx⟩)
  have hpos : s'.sto.vec.pos = placeEnd C.valueAlign t0.vec.pos (jobsShapes P js) := hp.pos
  simp only [Ser.fromStorage] at h1 h2 h3
  have b := ptr_end_lt hC hp.inv
  refine ⟨by omega, by omega, readWord_some_iff.2 ⟨by omega, fun j hj' => ?_⟩⟩
  rw [hp.bytes (by omega)]
  exact h3 j hj'

/-- C51, `CompleteSerializer`. In the finished output every pointer word of every value, at the position computed from the abstract
value, holds `as_ptr()` plus the computed position of the data it owns. -/
theorem C51_complete (hC : C.OK) (hP : P.WF C.arch) (hacc : P.Accepted C) {t0 : Sto} (h0 : Reach C P t0)
    {rs : List (Root × Val)} (hv : Inputs C.arch P fl rs) {fuel : Nat} {ps : List Nat} {s' : Ser}
    (hrun : session C .complete P fuel (rs.map (·.1)) (Ser.fromStorage t0) = .ok ps s') :
    ∀ (i : Nat) (r : Root) (v : Val) (p : Nat), rs[i]? = some (r, v) → ps[i]? = some p →
      ∀ x ∈ v.pointersAt C.arch P C.valueAlign r.t p, x.1 + C.arch.ptrBytes ≤ s'.sto.vec.pos ∧ x.2 < s'.sto.vec.pos ∧
        readWord C.arch s'.sto.bytes x.1 = some (s'.sto.vec.ptr + x.2) :=
  slots_word hC hP hacc h0 hv hrun rfl (Nat.le_refl _)

/-- C51, `PtrOffsetSerializer`: the words hold the positions themselves. -/
theorem C51_offset (hC : C.OK) (hP : P.WF C.arch) (hacc : P.Accepted C) {t0 : Sto} (h0 : Reach C P t0)
    {rs : List (Root × Val)} (hv : Inputs C.arch P fl rs) {fuel : Nat} {ps : List Nat} {s' : Ser}
    (hrun : session C .ptrOffset P fuel (rs.map (·.1)) (Ser.fromStorage t0) = .ok ps s') :
    ∀ (i : Nat) (r : Root) (v : Val) (p : Nat), rs[i]? = some (r, v) → ps[i]? = some p →
      ∀ x ∈ v.pointersAt C.arch P C.valueAlign r.t p, x.1 + C.arch.ptrBytes ≤ s'.sto.vec.pos ∧ x.2 < s'.sto.vec.pos ∧
        readWord C.arch s'.sto.bytes x.1 = some x.2 := by
  intro i r v p hr hp x hx
  have := slots_word (B := 0) hC hP hacc h0 hv hrun rfl (Nat.zero_le _) i r v p hr hp x hx
  rwa [Nat.zero_add] at this

end

/-- The pointer words of the four example values, computed from the values alone, at the positions the session reported. -/
example : ∃ s', session cfg64 .complete exP 6 (exRoots.map Prod.fst) (Ser.fromStorage Sto.new) = .ok [0, 0, 136, 184] s' ∧
    ∀ (i : Nat) (r : Root) (v : Val) (p : Nat), exRoots[i]? = some (r, v) → [0, 0, 136, 184][i]? = some p →
      ∀ x ∈ v.pointersAt cfg64.arch exP 8 r.t p, readWord cfg64.arch s'.sto.bytes x.1 = some (s'.sto.vec.ptr + x.2) := by
  obtain ⟨s', r, _, _⟩ := exRun_new .complete
  exact ⟨s', r, fun i r' v p h1 h2 x hx => (C51_complete cfg64_ok exP_wf exP_accepted .new exInputs r i r' v p h1 h2 x hx).2.2⟩

end SerRaw
