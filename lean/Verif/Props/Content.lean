import Verif.Lemmas.Content
import Verif.Props.Pointers
/-
C57: the data bytes of an output are a function of the abstract values.

`Val.contentAt` (Spec/Content.lean) lists the positions that hold data of a value and the bytes there, from its type and abstract
value, without memory. Together with `Val.pointersAt` (C51) it covers the output except padding, enum discriminants (covered by the
round trips C24, C27, C29), and, for serializers that do not correct them, spare capacities and pointers that do not own memory.
-/
namespace SerRaw

section
variable {C : Cfg} {P : Prog} {fl : Flags}

theorem bytes_of_buffer {s : Sto} {x : Nat} {b : UInt8} (h : s.buffer (s.vec.ptr + x) = some b) : s.bytes x = some b := by
  unfold Sto.buffer at h
  unfold Sto.bytes
  split at h
  · rw [if_pos (by omega)]; exact h
  · cases h

theorem buffer_word {A : Arch} {s : Sto} {x w : Nat} (h : readWord A s.bytes x = some w) : readWord A s.buffer (s.vec.ptr + x) = some w := by
  rw [readWord_some_iff] at h ⊢
  refine ⟨h.1, fun i hi => ?_⟩
  rw [← h.2 i hi]
  have h2 := h.2 i hi
  unfold Sto.bytes at h2 ⊢
  unfold Sto.buffer
  split at h2
  · rename_i hlt
    rw [if_pos hlt, if_pos (by omega), Nat.add_assoc]
  · unfold wordCells at h2
    rw [List.getElem?_eq_getElem (by rw [encWord_length]; exact hi)] at h2
    cases h2

theorem complete_content (hC : C.OK) (hP : P.WF C.arch) (hacc : P.Accepted C) {t0 : Sto} (h0 : Reach C P t0)
    {rs : List (Root × Val)} (hv : Inputs C.arch P fl rs) {fuel : Nat} {ps : List Nat} {s' : Ser}
    (hrun : session C .complete P fuel (rs.map (·.1)) (Ser.fromStorage t0) = .ok ps s') {caps : Bool} (hcap : caps = true → fl.canon = true) :
    ∀ (i : Nat) (r : Root) (v : Val) (p : Nat), rs[i]? = some (r, v) → ps[i]? = some p →
      ∀ y ∈ v.contentAt C.arch P C.valueAlign caps r.t p, s'.sto.bytes y.1 = some y.2 := by
  intro i r v p hr hp y hy
  unfold Val.contentAt at hy
  split at hy
  · cases hy
  · rename_i hz
    obtain ⟨n, hd⟩ := (C34_complete hC hP hacc h0 hv hrun).2 i r v p hr hp (Or.inl hz)
    refine bytes_of_buffer (decode_content (fl := ⟨fl.canon, true⟩) (fun h => ⟨hcap h, rfl⟩) n _ _ _ _ hd ?_ y hy)
    intro x hx
    refine buffer_word (C51_complete hC hP hacc h0 hv hrun i r v p hr hp x ?_).2.2
    unfold Val.pointersAt; rwa [if_neg hz]

/-- C57. After a session with any serializer, every data byte of every value is at its computed position. -/
theorem C57_content (hC : C.OK) (hP : P.WF C.arch) (hacc : P.Accepted C) {t0 : Sto} (h0 : Reach C P t0) {k : Kind}
    {rs : List (Root × Val)} (hv : Inputs C.arch P fl rs) {fuel : Nat} {ps : List Nat} {s' : Ser}
    (hrun : session C k P fuel (rs.map (·.1)) (Ser.fromStorage t0) = .ok ps s') :
    ∀ (i : Nat) (r : Root) (v : Val) (p : Nat), rs[i]? = some (r, v) → ps[i]? = some p →
      ∀ y ∈ v.contentAt C.arch P C.valueAlign false r.t p, s'.sto.bytes y.1 = some y.2 := by
  have plain : k.mode s'.sto.vec.ptr = Mode.plain → ∀ (i : Nat) (r : Root) (v : Val) (p : Nat), rs[i]? = some (r, v) → ps[i]? = some p →
      ∀ y ∈ v.contentAt C.arch P C.valueAlign false r.t p, s'.sto.bytes y.1 = some y.2 := by
    intro hmode i r v p hr hpi y hy
    have hW := hC.arch.ptr_pos
    obtain ⟨n, js, hm, hj, hp⟩ := session_post hC hP hacc (h0.inv hC hP hacc) hv hrun
    unfold Val.contentAt at hy
    split at hy
    · cases hy
    · rename_i hz
      obtain ⟨x, hx, rfl, rfl, rfl⟩ := jobsAt_get hm hp.ps hr hpi
      have := jobs_seq (m := t0.view) (dm := s'.sto.bytes) hC.facts.va.pos hW hP hacc hj (by
        intro i _ hi
        rw [hp.bytes (by rw [hp.pos]; exact hi), hmode]) x hx
      have := (decodeSeq_content n _ _ _ _ _ this).2 y (by simpa only [bodyAt, if_neg hz] using hy)
      rwa [Nat.zero_add] at this
  cases k with
  | pureCopy => exact plain rfl
  | posTracking => exact plain rfl
  | complete => exact complete_content hC hP hacc h0 hv hrun (by simp)
  | ptrOffset =>
    intro i r v p hr hp y hy
    unfold Val.contentAt at hy
    split at hy
    · cases hy
    · rename_i hz
      obtain ⟨n, hd⟩ := (C27_offset_roundtrip hC hP hacc h0 hv hrun).2 i r v p hr hp
      have := decode_content (D := 0) (caps := false) (by simp) n _ _ _ _ (by rw [Nat.zero_add]; exact hd) (fun x hx => by
        rw [Nat.zero_add, Nat.zero_add]
        exact (C51_offset hC hP hacc h0 hv hrun i r v p hr hp x (by unfold Val.pointersAt; rwa [if_neg hz])).2.2) y hy
      rwa [Nat.zero_add] at this

/-- C57, `CompleteSerializer`. As above and also the capacities (equal to the lengths) and the pointers of empty vectors and strings
(the canonical dangling pointer), if the input follows std in giving vectors of capacity 0 that pointer. -/
theorem C57_complete (hC : C.OK) (hP : P.WF C.arch) (hacc : P.Accepted C) {t0 : Sto} (h0 : Reach C P t0) (hcan : fl.canon = true)
    {rs : List (Root × Val)} (hv : Inputs C.arch P fl rs) {fuel : Nat} {ps : List Nat} {s' : Ser}
    (hrun : session C .complete P fuel (rs.map (·.1)) (Ser.fromStorage t0) = .ok ps s') :
    ∀ (i : Nat) (r : Root) (v : Val) (p : Nat), rs[i]? = some (r, v) → ps[i]? = some p →
      ∀ y ∈ v.contentAt C.arch P C.valueAlign true r.t p, s'.sto.bytes y.1 = some y.2 :=
  complete_content hC hP hacc h0 hv hrun fun _ => hcan

/-- C57, reproducible output. Two sessions with serializers of the same kind, on inputs in different memories which denote the same
values of the same types, into storages with the same `VALUE_ALIGNMENT` and `pos()`: the same positions are returned, both outputs
have the same size and the same data bytes; with `PtrOffsetSerializer`s the pointer words are the same too, with
`CompleteSerializer`s they are once the buffer addresses are subtracted. -/
theorem C57_reproducible {C1 C2 : Cfg} (hC1 : C1.OK) (hC2 : C2.OK) (hA : C1.arch = C2.arch) (hva : C1.valueAlign = C2.valueAlign)
    (hP : P.WF C1.arch) (hacc1 : P.Accepted C1) (hacc2 : P.Accepted C2) {fl1 fl2 : Flags} {k : Kind} {t1 t2 : Sto}
    (h1 : Reach C1 P t1) (h2 : Reach C2 P t2) (hpos : t1.vec.pos = t2.vec.pos)
    {rs1 rs2 : List (Root × Val)} (hv1 : Inputs C1.arch P fl1 rs1) (hv2 : Inputs C2.arch P fl2 rs2)
    (hsame : rs1.map (fun x => (x.1.t, x.2)) = rs2.map (fun x => (x.1.t, x.2))) {f1 f2 : Nat} {ps1 ps2 : List Nat} {s1 s2 : Ser}
    (r1 : session C1 k P f1 (rs1.map (·.1)) (Ser.fromStorage t1) = .ok ps1 s1)
    (r2 : session C2 k P f2 (rs2.map (·.1)) (Ser.fromStorage t2) = .ok ps2 s2) :
    ps1 = ps2 ∧ s1.sto.vec.pos = s2.sto.vec.pos ∧
    ∀ (i : Nat) (t : TyId) (v : Val) (p : Nat), (rs1.map fun x => (x.1.t, x.2))[i]? = some (t, v) → ps1[i]? = some p →
      (∀ y ∈ v.contentAt C1.arch P C1.valueAlign false t p, s1.sto.bytes y.1 = s2.sto.bytes y.1) ∧
      (k = .complete → fl1.canon = true → fl2.canon = true →
        ∀ y ∈ v.contentAt C1.arch P C1.valueAlign true t p, s1.sto.bytes y.1 = s2.sto.bytes y.1) ∧
      (k = .ptrOffset → ∀ x ∈ v.pointersAt C1.arch P C1.valueAlign t p, readWord C1.arch s1.sto.bytes x.1 = readWord C1.arch s2.sto.bytes x.1) ∧
      (k = .complete → ∀ x ∈ v.pointersAt C1.arch P C1.valueAlign t p, ∃ w1 w2, readWord C1.arch s1.sto.bytes x.1 = some w1 ∧
        readWord C1.arch s2.sto.bytes x.1 = some w2 ∧ w1 - s1.sto.vec.ptr = w2 - s2.sto.vec.ptr) := by
  obtain ⟨e1, e2⟩ := C49_value_only hC1 hC2 hva hP (hA ▸ hP) hacc1 hacc2 h1 h2 hpos hv1 hv2 hsame r1 r2
  refine ⟨e1, e2, ?_⟩
  intro i t v p hi hp
  have hi2 := hi
  rw [hsame] at hi2
  rw [List.getElem?_map, Option.map_eq_some_iff] at hi hi2
  obtain ⟨⟨a1, b1⟩, g1, h⟩ := hi
  simp only [Prod.mk.injEq] at h
  obtain ⟨rfl, rfl⟩ := h
  obtain ⟨⟨a2, b2⟩, g2, h⟩ := hi2
  simp only [Prod.mk.injEq] at h
  obtain ⟨et, rfl⟩ := h
  have hp2 := hp
  rw [e1] at hp2
  refine ⟨fun y hy => ?_, ?_, ?_, ?_⟩
  · rw [C57_content hC1 hP hacc1 h1 hv1 r1 i _ _ _ g1 hp y hy,
      C57_content hC2 (hA ▸ hP) hacc2 h2 hv2 r2 i _ _ _ g2 hp2 y (by rw [← hA, ← hva, et]; exact hy)]
  · rintro rfl c1 c2 y hy
    rw [C57_complete hC1 hP hacc1 h1 c1 hv1 r1 i _ _ _ g1 hp y hy,
      C57_complete hC2 (hA ▸ hP) hacc2 h2 c2 hv2 r2 i _ _ _ g2 hp2 y (by rw [← hA, ← hva, et]; exact hy)]
  · rintro rfl x hx
    rw [(C51_offset hC1 hP hacc1 h1 hv1 r1 i _ _ _ g1 hp x hx).2.2, hA,
      (C51_offset hC2 (hA ▸ hP) hacc2 h2 hv2 r2 i _ _ _ g2 hp2 x (by rw [← hA, ← hva, et]; exact hx)).2.2]
  · rintro rfl x hx
    refine ⟨_, s2.sto.vec.ptr + x.2, (C51_complete hC1 hP hacc1 h1 hv1 r1 i _ _ _ g1 hp x hx).2.2, ?_, ?_⟩
    · rw [hA]; exact (C51_complete hC2 (hA ▸ hP) hacc2 h2 hv2 r2 i _ _ _ g2 hp2 x (by rw [← hA, ← hva, et]; exact hx)).2.2
    · omega

end

end SerRaw
