import Verif.Lemmas.Size
import Verif.Props.AgreeEx
import Verif.Props.Caught
/-
C49: how much room a value takes and where its parts go depends on the abstract value only.

`Val.blocks`, `valuePositions`, `valuesEnd` (Spec/Size.lean) are computed from types and abstract values, without memory.
-/
namespace SerRaw

section
variable {C : Cfg} {P : Prog} {fl : Flags}

/-- The blocks of a value in memory are those of the value it denotes. -/
theorem C49_blocks (hA : C.arch.Valid) (hP : P.WF C.arch) {m : Mem} {t : TyId} {a : Nat} {v : Val}
    (h : Denotes C.arch P fl m t a v) : Blocks C.arch P m t a (v.blocks P t) := by
  have hW := hA.ptr_pos
  obtain ⟨n, hd⟩ := h
  obtain ⟨sc, hs, _⟩ := serData_eq (C := C) hW .pureCopy hP hd
  obtain ⟨as, h1, _⟩ := script_own n _ _ _ hs
  exact ⟨n, as, h1, by rw [blocksOf, Val.blocks, owned_allocs n _ _ _ _ hd h1]⟩

/-- C49. After a session the returned positions and `pos()` are those computed from the abstract values and their types:
not from their addresses, the spare capacity of vectors, padding, or whatever else is in the memory they were read from. -/
theorem C49_size (hC : C.OK) (hP : P.WF C.arch) (hacc : P.Accepted C) {t0 : Sto} (h0 : Reach C P t0) {k : Kind}
    {rs : List (Root × Val)} (hv : Inputs C.arch P fl rs) {fuel : Nat} {ps : List Nat} {s' : Ser}
    (hrun : session C k P fuel (rs.map (·.1)) (Ser.fromStorage t0) = .ok ps s') :
    ps = valuePositions P C.valueAlign t0.vec.pos (rs.map fun x => (x.1.t, x.2)) ∧
    s'.sto.vec.pos = valuesEnd P C.valueAlign t0.vec.pos (rs.map fun x => (x.1.t, x.2)) := by
  have hW := hC.arch.ptr_pos
  obtain ⟨n, js, hm, hj, hp⟩ := session_post hC hP hacc (h0.inv hC hP hacc) hv hrun
  subst hm
  have e : (js.map (fun j => (j.r, j.v))).map (fun x => (x.1.t, x.2)) = js.map fun j => (j.r.t, j.v) := by rw [List.map_map]; rfl
  rw [e]
  exact ⟨by rw [hp.ps, jobs_valPos hW hP hj]; rfl, by rw [hp.pos, jobs_valEnd hW hP hj]; rfl⟩

/-- C49, two runs. Inputs in different memories which denote the same values of the same types are laid out identically, by
serializers of any kinds, into storages with the same `VALUE_ALIGNMENT` and `pos()`. -/
theorem C49_value_only {C1 C2 : Cfg} (hC1 : C1.OK) (hC2 : C2.OK) (hva : C1.valueAlign = C2.valueAlign)
    (hP1 : P.WF C1.arch) (hP2 : P.WF C2.arch) (hacc1 : P.Accepted C1) (hacc2 : P.Accepted C2) {fl1 fl2 : Flags} {k1 k2 : Kind} {t1 t2 : Sto}
    (h1 : Reach C1 P t1) (h2 : Reach C2 P t2) (hpos : t1.vec.pos = t2.vec.pos)
    {rs1 rs2 : List (Root × Val)} (hv1 : Inputs C1.arch P fl1 rs1) (hv2 : Inputs C2.arch P fl2 rs2)
    (hsame : rs1.map (fun x => (x.1.t, x.2)) = rs2.map (fun x => (x.1.t, x.2))) {f1 f2 : Nat} {ps1 ps2 : List Nat} {s1 s2 : Ser}
    (r1 : session C1 k1 P f1 (rs1.map (·.1)) (Ser.fromStorage t1) = .ok ps1 s1)
    (r2 : session C2 k2 P f2 (rs2.map (·.1)) (Ser.fromStorage t2) = .ok ps2 s2) :
    ps1 = ps2 ∧ s1.sto.vec.pos = s2.sto.vec.pos := by
  obtain ⟨a1, b1⟩ := C49_size hC1 hP1 hacc1 h1 hv1 r1
  obtain ⟨a2, b2⟩ := C49_size hC2 hP2 hacc2 h2 hv2 r2
  exact ⟨by rw [a1, a2, hva, hpos, hsame], by rw [b1, b2, hva, hpos, hsame]⟩

/-- C49, pre-sizing. `with_capacity(c)` with `c` at least the computed size (and at most `MAX_CAPACITY`) is enough: a session of
any kind into the new storage returns, ends at the computed size and does not call the allocator again (stated for an allocator
that does not fail). (`N` bounds the depth of the values.) -/
theorem C49_presize (hC : C.OK) (hnf : C.NeverFails) (hP : P.WF C.arch) (hacc : P.Accepted C) (k : Kind)
    {rs : List (Root × Val)} (hv : Inputs C.arch P fl rs) {c : Nat} (hc : valuesEnd P C.valueAlign 0 (rs.map fun x => (x.1.t, x.2)) ≤ c)
    (hcu : c < C.arch.usizeMod) {t0 : Sto} (h0 : Sto.withCapacity C c Sto.new = .ok () t0) :
    ∃ N, ∀ fuel, N ≤ fuel → ∃ ps s', session C k P fuel (rs.map (·.1)) (Ser.fromStorage t0) = .ok ps s' ∧
      s'.sto.vec.pos = valuesEnd P C.valueAlign 0 (rs.map fun x => (x.1.t, x.2)) ∧
      s'.sto.vec.capacity = t0.vec.capacity ∧ s'.sto.vec.ptr = t0.vec.ptr ∧ s'.sto.w.calls = t0.w.calls := by
  have hW := hC.arch.ptr_pos
  have hI : t0.Inv C := (Reach.withCapacity (P := P) hcu h0).inv hC hP hacc
  obtain ⟨hm, hcap⟩ : c ≤ C.maxCapacity ∧ t0.vec.pos = 0 ∧ c ≤ t0.vec.capacity := by
    obtain ⟨g1, g2⟩ := C11_with_capacity hC c
    by_cases hlt : C.maxCapacity < c
    · rw [g1 hlt] at h0; cases h0
    · refine ⟨by omega, ?_⟩
      rcases g2 (by omega) with ⟨s, e, h⟩ | ⟨e, _⟩
      · rw [e] at h0; cases h0; exact ⟨h.1, h.2.1⟩
      · rw [e] at h0; cases h0
  obtain ⟨N, hN⟩ := session_cases hC hP hacc k hI hv
  refine ⟨N, fun fuel hf => ?_⟩
  obtain ⟨js, h1, h2, h3⟩ := hN fuel hf
  have e : placeEnd C.valueAlign t0.vec.pos (jobsShapes P js) = valuesEnd P C.valueAlign 0 (rs.map fun x => (x.1.t, x.2)) := by
    rw [hcap.1, jobs_valEnd hW hP h2, valuesEnd, ← h1, List.map_map]; rfl
  cases hr : session C k P fuel (rs.map (·.1)) (Ser.fromStorage t0) with
  | ok ps s' =>
    rw [hr] at h3
    have hp : s'.sto.vec.pos = placeEnd C.valueAlign t0.vec.pos (jobsShapes P js) := h3.pos
    exact ⟨ps, s', rfl, by rw [hp, e], h3.stay.fit (show s'.sto.vec.pos ≤ t0.vec.capacity by rw [hp, e]; omega)⟩
  | panic pk s' =>
    rw [hr] at h3
    obtain ⟨_, _, hlt⟩ := h3.panic
    omega
  | abort => rw [hr] at h3; exact absurd hnf h3
  | ub => rw [hr] at h3; exact h3.elim
  | fuel => rw [hr] at h3; exact h3.elim

/-- C49, overhead. The output grows by at least the bytes of the blocks, and by at most those plus, per block, the padding needed
to align it (less than its alignment) and to restore `VALUE_ALIGNMENT` after it. -/
theorem C49_overhead (hC : C.OK) (hP : P.WF C.arch) (hacc : P.Accepted C) {t0 : Sto} (h0 : Reach C P t0) {k : Kind}
    {rs : List (Root × Val)} (hv : Inputs C.arch P fl rs) {fuel : Nat} {ps : List Nat} {s' : Ser}
    (hrun : session C k P fuel (rs.map (·.1)) (Ser.fromStorage t0) = .ok ps s') :
    let xs := rs.flatMap fun x => x.2.blocks P x.1.t
    t0.vec.pos + (xs.map fun x => x.bytes).sum ≤ s'.sto.vec.pos ∧
    s'.sto.vec.pos ≤ t0.vec.pos + (xs.map fun x => x.bytes + (x.L.align - 1) + (C.valueAlign - 1)).sum := by
  have hW := hC.arch.ptr_pos
  have F := hC.facts
  obtain ⟨n, js, hm, hj, hp⟩ := session_post hC hP hacc (h0.inv hC hP hacc) hv hrun
  have e : rs.flatMap (fun x => x.2.blocks P x.1.t) = jobsShapes P js := by
    rw [jobs_valEnd hW hP hj, ← hm, List.flatMap_map, List.flatMap_map]
  intro xs
  have hal := jobs_align hW hP hacc hj
  have hpos : s'.sto.vec.pos = placeEnd C.valueAlign t0.vec.pos (jobsShapes P js) := hp.pos
  rw [hpos, show xs = jobsShapes P js from e]
  generalize t0.vec.pos = p
  clear hp hpos hrun e xs
  revert hal
  generalize jobsShapes P js = ys
  intro hal
  induction ys generalizing p with
  | nil => simp [placeEnd]
  | cons y ys ih =>
    have ha : 0 < y.L.align := hal y (by simp)
    obtain ⟨i1, i2⟩ := ih (roundUp (roundUp p y.L.align + y.bytes) C.valueAlign) fun z hz => hal z (by simp [hz])
    have a1 := le_roundUp p ha
    have a2 := le_roundUp (roundUp p y.L.align + y.bytes) F.va.pos
    have b1 := roundUp_lt p ha
    have b2 := roundUp_lt (roundUp p y.L.align + y.bytes) F.va.pos
    simp only [placeEnd, List.map_cons, List.sum_cons]
    omega

end
/-! ### Concrete cases -/

/-- The computed positions and size of the four example values, starting at position 0. -/
theorem exSize : valuePositions exP 8 0 (exRoots.map fun x => (x.1.t, x.2)) = [0, 0, 136, 184] ∧
    valuesEnd exP 8 0 (exRoots.map fun x => (x.1.t, x.2)) = 200 := by constructor <;> rfl

/-- C49 applies to a session that grows its storage as it goes, and agrees with the result of running it. -/
example : ∃ s', session cfg64 .complete exP 6 (exRoots.map Prod.fst) (Ser.fromStorage Sto.new) = .ok [0, 0, 136, 184] s' ∧
    s'.sto.vec.pos = valuesEnd exP 8 0 (exRoots.map fun x => (x.1.t, x.2)) := by
  obtain ⟨s', r, _, _⟩ := exRun_new .complete
  exact ⟨s', r, (C49_size cfg64_ok exP_wf exP_accepted .new exInputs r).2⟩

/-- Pre-sizing for exactly the computed 200 bytes (the capacity is rounded up to a multiple of `MAX_VALUE_ALIGNMENT`). -/
example : ∃ t0, Sto.withCapacity cfg64 200 Sto.new = .ok () t0 ∧ t0.w.calls = 1 ∧ ∃ N, ∀ fuel, N ≤ fuel →
    ∃ ps s', session cfg64 .complete exP fuel (exRoots.map Prod.fst) (Ser.fromStorage t0) = .ok ps s' ∧ s'.sto.vec.pos = 200 ∧ s'.sto.w.calls = 1 := by
  obtain ⟨t0, h1, h2⟩ : ∃ t0, Sto.withCapacity cfg64 200 Sto.new = .ok () t0 ∧ t0.w.calls = 1 := ⟨_, rfl, rfl⟩
  obtain ⟨N, hN⟩ := C49_presize cfg64_ok cfg64_never exP_wf exP_accepted .complete exInputs (c := 200) (by rw [show cfg64.valueAlign = 8 from rfl, exSize.2]) (by decide) h1
  refine ⟨t0, h1, h2, N, fun fuel hf => ?_⟩
  obtain ⟨ps, s', hr, hp, _, _, hc⟩ := hN fuel hf
  rw [show cfg64.valueAlign = 8 from rfl, exSize.2] at hp
  exact ⟨ps, s', hr, hp, by rw [hc, h2]⟩

end SerRaw
