import Verif.Lemmas.Agree
import Verif.Props.Serialize
/-
C31: the outputs of two sessions on the same values compared — different kinds of serializer, different storages (capacity,
growth, allocator, const parameters other than `VALUE_ALIGNMENT`).
-/
namespace SerRaw

section
variable {P : Prog} {fl : Flags}

/-- C31, layout. Two sessions of any kinds on the same values, into storages with the same `VALUE_ALIGNMENT` and the same
`pos()` (whatever their capacities, contents, other const parameters and allocators), return the same positions and end at the
same `pos()`. -/
theorem C31_same_layout {C1 C2 : Cfg} (hC1 : C1.OK) (hC2 : C2.OK) (hA : C1.arch = C2.arch) (hva : C1.valueAlign = C2.valueAlign)
    (hP : P.WF C1.arch) (hacc1 : P.Accepted C1) (hacc2 : P.Accepted C2) {k1 k2 : Kind} {t1 t2 : Sto}
    (h1 : Reach C1 P t1) (h2 : Reach C2 P t2) (hpos : t1.vec.pos = t2.vec.pos)
    {rs : List (Root × Val)} (hv : Inputs C1.arch P fl rs) {f1 f2 : Nat} {ps1 ps2 : List Nat} {s1 s2 : Ser}
    (r1 : session C1 k1 P f1 (rs.map (·.1)) (Ser.fromStorage t1) = .ok ps1 s1)
    (r2 : session C2 k2 P f2 (rs.map (·.1)) (Ser.fromStorage t2) = .ok ps2 s2) :
    ps1 = ps2 ∧ s1.sto.vec.pos = s2.sto.vec.pos := by
  obtain ⟨n, js, hm, hj, p1, p2⟩ := session_post_two hC1 hC2 hA hP hacc1 hacc2 (h1.inv hC1 hP hacc1) (h2.inv hC2 (hA ▸ hP) hacc2) hv r1 r2
  constructor
  · rw [p1.ps, p2.ps, hva]; simp only [Ser.fromStorage]; rw [hpos]
  · rw [p1.pos, p2.pos, hva]; simp only [Ser.fromStorage]; rw [hpos]

/-- Which kinds produce the same bytes whatever the buffer's address. -/
def Kind.sameBytes : Kind → Kind → Prop
  | .pureCopy, .pureCopy | .pureCopy, .posTracking | .posTracking, .pureCopy | .posTracking, .posTracking => True
  | .ptrOffset, .ptrOffset => True
  | _, _ => False

/-- C31, bytes. Two sessions as above, both of copying kinds (`PureCopy`, position-tracking) or both `PtrOffset`: every byte of
every block of the output (the values and the allocations they own; `bs` are the blocks, see Spec/Output.lean) is the same.
Only the alignment gaps between blocks, which the serializers never write, may differ. -/
theorem C31_same_bytes {C1 C2 : Cfg} (hC1 : C1.OK) (hC2 : C2.OK) (hA : C1.arch = C2.arch) (hva : C1.valueAlign = C2.valueAlign)
    (hP : P.WF C1.arch) (hacc1 : P.Accepted C1) (hacc2 : P.Accepted C2) {k1 k2 : Kind} (hk : k1.sameBytes k2) {t1 t2 : Sto}
    (h1 : Reach C1 P t1) (h2 : Reach C2 P t2) (hpos : t1.vec.pos = t2.vec.pos)
    {rs : List (Root × Val)} (hv : Inputs C1.arch P fl rs) {f1 f2 : Nat} {ps1 ps2 : List Nat} {s1 s2 : Ser}
    (r1 : session C1 k1 P f1 (rs.map (·.1)) (Ser.fromStorage t1) = .ok ps1 s1)
    (r2 : session C2 k2 P f2 (rs.map (·.1)) (Ser.fromStorage t2) = .ok ps2 s2)
    {bs : List (List Shape)} (hl : bs.length = rs.length)
    (hb : ∀ (i : Nat) (x : Root × Val) (xs : List Shape), rs[i]? = some x → bs[i]? = some xs → Blocks C1.arch P x.1.im x.1.t x.1.a xs) :
    ∀ i, InBlock C1.valueAlign t1.vec.pos bs.flatten i → i < s1.sto.vec.pos ∧ s1.sto.bytes i = s2.sto.bytes i := by
  have hW := hC1.arch.ptr_pos
  have F := hC1.facts
  have hsame := (C31_same_layout hC1 hC2 hA hva hP hacc1 hacc2 h1 h2 hpos hv r1 r2).2
  obtain ⟨n, js, hm, hj, p1, p2⟩ := session_post_two hC1 hC2 hA hP hacc1 hacc2 (h1.inv hC1 hP hacc1) (h2.inv hC2 (hA ▸ hP) hacc2) hv r1 r2
  rw [jobs_blocks hW hP hj hm hl hb]
  intro i hi
  have hlt : i < s1.sto.vec.pos := by
    obtain ⟨z, hz, _, hz2⟩ := hi
    have := (place_bounds F.va.pos (jobs_align hW hP hacc1 hj) _ z hz).2.2
    rw [p1.pos]; simp only [Ser.fromStorage]; omega
  refine ⟨hlt, ?_⟩
  rw [p1.bytes hlt, p2.bytes (by omega), ← hA, ← hva]
  simp only [Ser.fromStorage]
  rw [← hpos]
  have hmode : k1.mode s1.sto.vec.ptr = k2.mode s2.sto.vec.ptr := by
    cases k1 <;> cases k2 <;> first | rfl | exact hk.elim
  rw [hmode]
  exact jobsIdeal_agree rfl js _ (Or.inr hi) (Or.inl rfl)

/-- C31, `Complete`. Two `CompleteSerializer` sessions as above: every byte of every block is the same in both outputs, or
belongs to a pointer word — at the same position `q` in both, pointing to the same position `t` relative to the respective
buffer address. So the outputs differ only by the address of the buffer. -/
theorem C31_complete {C1 C2 : Cfg} (hC1 : C1.OK) (hC2 : C2.OK) (hA : C1.arch = C2.arch) (hva : C1.valueAlign = C2.valueAlign)
    (hP : P.WF C1.arch) (hacc1 : P.Accepted C1) (hacc2 : P.Accepted C2) {t1 t2 : Sto}
    (h1 : Reach C1 P t1) (h2 : Reach C2 P t2) (hpos : t1.vec.pos = t2.vec.pos)
    {rs : List (Root × Val)} (hv : Inputs C1.arch P fl rs) {f1 f2 : Nat} {ps1 ps2 : List Nat} {s1 s2 : Ser}
    (r1 : session C1 .complete P f1 (rs.map (·.1)) (Ser.fromStorage t1) = .ok ps1 s1)
    (r2 : session C2 .complete P f2 (rs.map (·.1)) (Ser.fromStorage t2) = .ok ps2 s2)
    {bs : List (List Shape)} (hl : bs.length = rs.length)
    (hb : ∀ (i : Nat) (x : Root × Val) (xs : List Shape), rs[i]? = some x → bs[i]? = some xs → Blocks C1.arch P x.1.im x.1.t x.1.a xs) :
    ∀ i, InBlock C1.valueAlign t1.vec.pos bs.flatten i → i < s1.sto.vec.pos ∧ (s1.sto.bytes i = s2.sto.bytes i ∨
      ∃ q t, q ≤ i ∧ i < q + C1.arch.ptrBytes ∧ q + C1.arch.ptrBytes ≤ s1.sto.vec.pos ∧ t < s1.sto.vec.pos ∧
        readWord C1.arch s1.sto.bytes q = some (s1.sto.vec.ptr + t) ∧ readWord C1.arch s2.sto.bytes q = some (s2.sto.vec.ptr + t)) := by
  have hW := hC1.arch.ptr_pos
  have F := hC1.facts
  have hsame := (C31_same_layout hC1 hC2 hA hva hP hacc1 hacc2 h1 h2 hpos hv r1 r2).2
  obtain ⟨n, js, hm, hj, p1, p2⟩ := session_post_two hC1 hC2 hA hP hacc1 hacc2 (h1.inv hC1 hP hacc1) (h2.inv hC2 (hA ▸ hP) hacc2) hv r1 r2
  rw [jobs_blocks hW hP hj hm hl hb]
  intro i hi
  have hend : s1.sto.vec.pos = placeEnd C1.valueAlign t1.vec.pos (jobsShapes P js) := p1.pos
  have hlt : i < s1.sto.vec.pos := by
    obtain ⟨z, hz, _, hz2⟩ := hi
    have := (place_bounds F.va.pos (jobs_align hW hP hacc1 hj) _ z hz).2.2
    omega
  refine ⟨hlt, ?_⟩
  by_cases hout : OutsideSlots C1.arch (jobsSlots P C1.valueAlign t1.vec.pos js) i
  · left
    rw [p1.bytes hlt, p2.bytes (by omega), ← hA, ← hva]
    simp only [Ser.fromStorage]
    rw [← hpos]
    exact jobsIdeal_agree (md1 := Kind.mode s1.sto.vec.ptr .complete) (md2 := Kind.mode s2.sto.vec.ptr .complete) rfl js _ (Or.inr hi) (Or.inr hout)
  · right
    unfold OutsideSlots at hout
    obtain ⟨s, hs, hn⟩ : ∃ s ∈ jobsSlots P C1.valueAlign t1.vec.pos js, ¬ (i < s.1 ∨ s.1 + C1.arch.ptrBytes ≤ i) :=
      Classical.byContradiction fun h => hout fun s hs => Classical.byContradiction fun h' => h ⟨s, hs, h'⟩
    have hw := jobs_slots (md := Kind.mode s1.sto.vec.ptr .complete) (m := t1.view) F.va.pos hW hP hacc1 rfl hj s hs
    have hw2 := jobs_slots (md := Kind.mode s2.sto.vec.ptr .complete) (m := t2.view) F.va.pos hW hP hacc1 rfl hj s hs
    have b1 := ptr_end_lt hC1 p1.inv
    have b2 := ptr_end_lt hC2 p2.inv
    rw [← hA] at b2
    refine ⟨s.1, s.2, by omega, by omega, by omega, by omega, ?_, ?_⟩
    · refine readWord_some_iff.2 ⟨by omega, fun j hj' => ?_⟩
      rw [p1.bytes (by omega)]
      exact hw.2 j hj'
    · refine readWord_some_iff.2 ⟨by omega, fun j hj' => ?_⟩
      rw [p2.bytes (by omega), ← hA, ← hva]
      simp only [Ser.fromStorage]
      rw [← hpos]
      exact hw2.2 j hj'

end
end SerRaw
