import Verif.Lemmas.Relocate
import Verif.Props.AgreeEx
import Verif.Props.Durable
/-
C79: a finished output can be moved.
-/
namespace SerRaw

section
variable {C : Cfg} {P : Prog} {fl : Flags}

theorem mem_pointersOf {A : Arch} {va : Nat} {x : Nat × Nat} (l : List ((TyId × Val) × Nat)) :
    x ∈ pointersOf A P va l ↔ ∃ y ∈ l, x ∈ y.1.2.pointersAt A P va y.1.1 y.2 := by
  induction l with
  | nil => simp [pointersOf]
  | cons y l ih =>
    obtain ⟨⟨t, v⟩, p⟩ := y
    simp [pointersOf, ih]

theorem mem_pointersOf_zip {A : Arch} {va : Nat} {x : Nat × Nat} {rs : List (Root × Val)} {ps : List Nat} :
    x ∈ pointersOf A P va ((rs.map fun y => (y.1.t, y.2)).zip ps) ↔
      ∃ (i : Nat) (r : Root) (v : Val) (p : Nat), rs[i]? = some (r, v) ∧ ps[i]? = some p ∧ x ∈ v.pointersAt A P va r.t p := by
  rw [mem_pointersOf]
  constructor
  · rintro ⟨⟨⟨t, v⟩, p⟩, hy, hx⟩
    obtain ⟨i, hi⟩ := List.mem_iff_getElem?.1 hy
    rw [List.getElem?_zip_eq_some, List.getElem?_map, Option.map_eq_some_iff] at hi
    obtain ⟨⟨⟨r, v'⟩, h1, h2⟩, h3⟩ := hi
    simp only [Prod.mk.injEq] at h2
    obtain ⟨rfl, rfl⟩ := h2
    exact ⟨i, r, v', p, h1, h3, hx⟩
  · rintro ⟨i, r, v, p, h1, h2, hx⟩
    refine ⟨((r.t, v), p), List.mem_iff_getElem?.2 ⟨i, ?_⟩, hx⟩
    rw [List.getElem?_zip_eq_some, List.getElem?_map, h1]
    exact ⟨rfl, h2⟩

/-- C79, every kind of serializer. Put the output of a session anywhere in memory (at an address aligned for the values), filling in
the pointer words for the new address: then every value is there, at the new address plus its position. The positions of the pointer
words and what they have to point to are computed from the abstract values alone. -/
theorem C79_filled (hC : C.OK) (hP : P.WF C.arch) (hacc : P.Accepted C) {k : Kind} {t0 : Sto} (h0 : Reach C P t0)
    {rs : List (Root × Val)} (hv : Inputs C.arch P fl rs) {fuel : Nat} {ps : List Nat} {s' : Ser}
    (hrun : session C k P fuel (rs.map (·.1)) (Ser.fromStorage t0) = .ok ps s')
    {B : Nat} (hB : C.maxValueAlign ∣ B) (hend : B + s'.sto.vec.pos < C.arch.usizeMod) {dm : Mem}
    (hm : FilledAt C.arch s'.sto.bytes dm t0.vec.pos s'.sto.vec.pos B
      (pointersOf C.arch P C.valueAlign ((rs.map fun y => (y.1.t, y.2)).zip ps))) :
    ∀ (i : Nat) (r : Root) (v : Val) (p : Nat), rs[i]? = some (r, v) → ps[i]? = some p →
      ((P.layout r.t).size ≠ 0 ∨ (P.layout r.t).align ∣ B) →
      Denotes C.arch P ⟨fl.canon, (k.mode B).fixup⟩ dm r.t (B + p) v := by
  have hW := hC.arch.ptr_pos
  have F := hC.facts
  obtain ⟨n, js, hjs, hj, hp⟩ := session_post hC hP hacc (h0.inv hC hP hacc) hv hrun
  have hpos : s'.sto.vec.pos = placeEnd C.valueAlign t0.vec.pos (jobsShapes P js) := hp.pos
  have hfix : ∀ D, (k.mode D).fixup = (k.mode B).fixup := by intro D; cases k <;> rfl
  -- the listed words are the slots
  have hslots : ∀ x, x ∈ pointersOf C.arch P C.valueAlign ((rs.map fun y => (y.1.t, y.2)).zip ps) ↔ x ∈ jobsSlots P C.valueAlign t0.vec.pos js := by
    intro x
    rw [pointersOf_inputs hjs hj hp.ps]
    rfl
  intro i r v p hr hpi hz
  obtain ⟨x, hx, rfl, rfl, rfl⟩ := jobsAt_get hjs hp.ps hr hpi
  refine ⟨n, (jobs_read (md := ⟨some B, (k.mode B).fixup⟩) (D := B) (m := t0.view) F.va.pos hW hP hacc rfl hj (hpos ▸ hend) ?_ x hx
    (fun h => hz.resolve_left (by omega)) (fun h u hu => ?_)).1⟩
  · intro i h1 h2
    replace h2 : i < s'.sto.vec.pos := hpos.symm ▸ h2
    replace h1 : t0.vec.pos ≤ i := h1
    by_cases hout : OutsideSlots C.arch (jobsSlots P C.valueAlign t0.vec.pos js) i
    · rw [hm.same i h1 h2 fun x hx => hout x ((hslots x).1 hx), hp.bytes h2]
      exact jobsIdeal_agree (md1 := k.mode s'.sto.vec.ptr) (md2 := ⟨some B, (k.mode B).fixup⟩) (hfix _) js _ (Or.inl rfl) (Or.inr hout)
    · unfold OutsideSlots at hout
      obtain ⟨s, hs, hn⟩ : ∃ s ∈ jobsSlots P C.valueAlign t0.vec.pos js, ¬ (i < s.1 ∨ s.1 + C.arch.ptrBytes ≤ i) :=
        Classical.byContradiction fun h => hout fun s hs => Classical.byContradiction fun h' => h ⟨s, hs, h'⟩
      have hw := (jobs_slots (md := ⟨some B, (k.mode B).fixup⟩) (m := t0.view) F.va.pos hW hP hacc rfl hj s hs).2 (i - s.1) (by omega)
      have hr := (readWord_some_iff.1 (hm.word s ((hslots s).2 hs))).2 (i - s.1) (by omega)
      rw [show s.1 + (i - s.1) = i by omega] at hw
      rw [show B + s.1 + (i - s.1) = B + i by omega] at hr
      exact hr.trans hw.symm
  · exact Nat.dvd_trans (Pow2.dvd_of_le (hP u).1 F.mva ((accepts_iff).1 (hacc u hu))) hB

/-- C79, `CompleteSerializer`. Copy the output of a session anywhere in memory (at an address aligned for the values), adding to each
pointer the difference between the new and the old address of the output: then every value is there, at the new address plus its
position. -/
theorem C79_complete (hC : C.OK) (hP : P.WF C.arch) (hacc : P.Accepted C) {t0 : Sto} (h0 : Reach C P t0)
    {rs : List (Root × Val)} (hv : Inputs C.arch P fl rs) {fuel : Nat} {ps : List Nat} {s' : Ser}
    (hrun : session C .complete P fuel (rs.map (·.1)) (Ser.fromStorage t0) = .ok ps s')
    {B : Nat} (hB : C.maxValueAlign ∣ B) (hend : B + s'.sto.vec.pos < C.arch.usizeMod) {dm : Mem}
    (hm : MovedTo C.arch s'.sto.bytes dm t0.vec.pos s'.sto.vec.pos s'.sto.vec.ptr B
      (pointersOf C.arch P C.valueAlign ((rs.map fun y => (y.1.t, y.2)).zip ps))) :
    ∀ (i : Nat) (r : Root) (v : Val) (p : Nat), rs[i]? = some (r, v) → ps[i]? = some p →
      ((P.layout r.t).size ≠ 0 ∨ (P.layout r.t).align ∣ B) →
      Denotes C.arch P ⟨fl.canon, true⟩ dm r.t (B + p) v := by
  refine C79_filled hC hP hacc h0 hv hrun hB hend ⟨fun x hx => ?_, hm.same⟩
  obtain ⟨i, r, v, p, h1, h2, h3⟩ := mem_pointersOf_zip.1 hx
  have := hm.word x hx _ (C51_complete hC hP hacc h0 hv hrun i r v p h1 h2 x h3).2.2
  rw [this, show s'.sto.vec.ptr + x.2 - s'.sto.vec.ptr + B = B + x.2 by omega]

/-- C79, `PtrOffsetSerializer`. Load the output of a session anywhere in memory (at an address aligned for the values), adding that
address to each offset: then every value is there, at the address plus its position. -/
theorem C79_offset (hC : C.OK) (hP : P.WF C.arch) (hacc : P.Accepted C) {t0 : Sto} (h0 : Reach C P t0)
    {rs : List (Root × Val)} (hv : Inputs C.arch P fl rs) {fuel : Nat} {ps : List Nat} {s' : Ser}
    (hrun : session C .ptrOffset P fuel (rs.map (·.1)) (Ser.fromStorage t0) = .ok ps s')
    {B : Nat} (hB : C.maxValueAlign ∣ B) (hend : B + s'.sto.vec.pos < C.arch.usizeMod) {dm : Mem}
    (hm : MovedTo C.arch s'.sto.bytes dm t0.vec.pos s'.sto.vec.pos 0 B
      (pointersOf C.arch P C.valueAlign ((rs.map fun y => (y.1.t, y.2)).zip ps))) :
    ∀ (i : Nat) (r : Root) (v : Val) (p : Nat), rs[i]? = some (r, v) → ps[i]? = some p →
      ((P.layout r.t).size ≠ 0 ∨ (P.layout r.t).align ∣ B) →
      Denotes C.arch P ⟨fl.canon, false⟩ dm r.t (B + p) v := by
  refine C79_filled hC hP hacc h0 hv hrun hB hend ⟨fun x hx => ?_, hm.same⟩
  obtain ⟨i, r, v, p, h1, h2, h3⟩ := mem_pointersOf_zip.1 hx
  have := hm.word x hx _ (C51_offset hC hP hacc h0 hv hrun i r v p h1 h2 x h3).2.2
  rw [this, show x.2 - 0 + B = B + x.2 by omega]

/-- C79. The pointer words of an output have no byte in common, so a program that adjusts them one after the other, in place, adjusts
each once. -/
theorem C79_apart (hC : C.OK) (hP : P.WF C.arch) (hacc : P.Accepted C) {k : Kind} {t0 : Sto} (h0 : Reach C P t0)
    {rs : List (Root × Val)} (hv : Inputs C.arch P fl rs) {fuel : Nat} {ps : List Nat} {s' : Ser}
    (hrun : session C k P fuel (rs.map (·.1)) (Ser.fromStorage t0) = .ok ps s') :
    (pointersOf C.arch P C.valueAlign ((rs.map fun y => (y.1.t, y.2)).zip ps)).Pairwise
      (fun x y => x.1 + C.arch.ptrBytes ≤ y.1 ∨ y.1 + C.arch.ptrBytes ≤ x.1) := by
  obtain ⟨n, js, hjs, hj, hp⟩ := session_post hC hP hacc (h0.inv hC hP hacc) hv hrun
  rw [pointersOf_inputs hjs hj hp.ps]
  exact jobsSlots_apart hC.facts.va.pos hC.arch.ptr_pos hP hacc js hj _

/-- C79, as a program. Copy the output of a `CompleteSerializer` session to `B` and run `rebase`: every value is there, and no byte
outside the copy has changed. -/
theorem C79_rebase (hC : C.OK) (hP : P.WF C.arch) (hacc : P.Accepted C) {t0 : Sto} (h0 : Reach C P t0)
    {rs : List (Root × Val)} (hv : Inputs C.arch P fl rs) {fuel : Nat} {ps : List Nat} {s' : Ser}
    (hrun : session C .complete P fuel (rs.map (·.1)) (Ser.fromStorage t0) = .ok ps s')
    {B : Nat} (hB : C.maxValueAlign ∣ B) (hend : B + s'.sto.vec.pos < C.arch.usizeMod) {dm : Mem}
    (hm : ∀ i < s'.sto.vec.pos, dm (B + i) = s'.sto.bytes i) :
    (∀ (i : Nat) (r : Root) (v : Val) (p : Nat), rs[i]? = some (r, v) → ps[i]? = some p →
      ((P.layout r.t).size ≠ 0 ∨ (P.layout r.t).align ∣ B) →
      Denotes C.arch P ⟨fl.canon, true⟩ (rebase C.arch s'.sto.vec.ptr B
        (pointersOf C.arch P C.valueAlign ((rs.map fun y => (y.1.t, y.2)).zip ps)) dm) r.t (B + p) v) ∧
    ∀ a, (a < B ∨ B + s'.sto.vec.pos ≤ a) → rebase C.arch s'.sto.vec.ptr B
      (pointersOf C.arch P C.valueAlign ((rs.map fun y => (y.1.t, y.2)).zip ps)) dm a = dm a := by
  have hap := C79_apart hC hP hacc h0 hv hrun
  have hin : ∀ x ∈ pointersOf C.arch P C.valueAlign ((rs.map fun y => (y.1.t, y.2)).zip ps),
      x.1 + C.arch.ptrBytes ≤ s'.sto.vec.pos ∧ x.2 < s'.sto.vec.pos ∧ readWord C.arch s'.sto.bytes x.1 = some (s'.sto.vec.ptr + x.2) := by
    intro x hx
    obtain ⟨i, r, v, p, h1, h2, h3⟩ := mem_pointersOf_zip.1 hx
    exact C51_complete hC hP hacc h0 hv hrun i r v p h1 h2 x h3
  obtain ⟨h1, h2⟩ := rebase_moved (lo := t0.vec.pos) hap hin hend hm
  exact ⟨C79_complete hC hP hacc h0 hv hrun hB hend h1, h2⟩

/-- C79, loading. Copy the output of a `PtrOffsetSerializer` session to `B` (reading it from a file, say) and run `rebase`: every value is
there, and no byte outside the copy has changed. -/
theorem C79_load (hC : C.OK) (hP : P.WF C.arch) (hacc : P.Accepted C) {t0 : Sto} (h0 : Reach C P t0)
    {rs : List (Root × Val)} (hv : Inputs C.arch P fl rs) {fuel : Nat} {ps : List Nat} {s' : Ser}
    (hrun : session C .ptrOffset P fuel (rs.map (·.1)) (Ser.fromStorage t0) = .ok ps s')
    {B : Nat} (hB : C.maxValueAlign ∣ B) (hend : B + s'.sto.vec.pos < C.arch.usizeMod) {dm : Mem}
    (hm : ∀ i < s'.sto.vec.pos, dm (B + i) = s'.sto.bytes i) :
    (∀ (i : Nat) (r : Root) (v : Val) (p : Nat), rs[i]? = some (r, v) → ps[i]? = some p →
      ((P.layout r.t).size ≠ 0 ∨ (P.layout r.t).align ∣ B) →
      Denotes C.arch P ⟨fl.canon, false⟩ (rebase C.arch 0 B
        (pointersOf C.arch P C.valueAlign ((rs.map fun y => (y.1.t, y.2)).zip ps)) dm) r.t (B + p) v) ∧
    ∀ a, (a < B ∨ B + s'.sto.vec.pos ≤ a) → rebase C.arch 0 B
      (pointersOf C.arch P C.valueAlign ((rs.map fun y => (y.1.t, y.2)).zip ps)) dm a = dm a := by
  have hap := C79_apart hC hP hacc h0 hv hrun
  have hin : ∀ x ∈ pointersOf C.arch P C.valueAlign ((rs.map fun y => (y.1.t, y.2)).zip ps),
      x.1 + C.arch.ptrBytes ≤ s'.sto.vec.pos ∧ x.2 < s'.sto.vec.pos ∧ readWord C.arch s'.sto.bytes x.1 = some (0 + x.2) := by
    intro x hx
    obtain ⟨i, r, v, p, h1, h2, h3⟩ := mem_pointersOf_zip.1 hx
    rw [Nat.zero_add]; exact C51_offset hC hP hacc h0 hv hrun i r v p h1 h2 x h3
  obtain ⟨h1, h2⟩ := rebase_moved (lo := t0.vec.pos) hap hin hend hm
  exact ⟨C79_offset hC hP hacc h0 hv hrun hB hend h1, h2⟩

/-- C79, repairing a storage that moved (finding F17, `C54_moved_stale`). Whatever was done to the storage after a `CompleteSerializer`
session (pushes, `reserve`, `shrink_to_fit`, further sessions): adjusting the pointers of that session in place, from the address the
buffer had when it finished to the one it has now, makes all its values readable again where they are. -/
theorem C79_repair (hC : C.OK) (hP : P.WF C.arch) (hacc : P.Accepted C) {t0 : Sto} (h0 : Reach C P t0)
    {rs : List (Root × Val)} (hv : Inputs C.arch P fl rs) {fuel : Nat} {ps : List Nat} {s' : Ser}
    (hrun : session C .complete P fuel (rs.map (·.1)) (Ser.fromStorage t0) = .ok ps s') {t' : Sto} (hl : Later C P s'.sto t')
    (hcap : 0 < t'.vec.capacity) :
    ∀ (i : Nat) (r : Root) (v : Val) (p : Nat), rs[i]? = some (r, v) → ps[i]? = some p →
      ((P.layout r.t).size ≠ 0 ∨ (P.layout r.t).align ∣ t'.asPtr) →
      Denotes C.arch P ⟨fl.canon, true⟩ (rebase C.arch s'.sto.asPtr t'.asPtr
        (pointersOf C.arch P C.valueAlign ((rs.map fun y => (y.1.t, y.2)).zip ps)) t'.buffer) r.t (t'.asPtr + p) v := by
  obtain ⟨n, js, hjs, hj, hp⟩ := session_post hC hP hacc (h0.inv hC hP hacc) hv hrun
  have hh := hl.holds hC hP hacc hp.inv
  have hend := ptr_end_lt hC hh.inv
  have hle := hh.pos
  refine (C79_rebase hC hP hacc h0 hv hrun (B := t'.asPtr) ?_ (Nat.lt_of_le_of_lt (Nat.add_le_add_left hle _) hend) (dm := t'.buffer) ?_).1
  · rcases hh.inv.mem with ⟨hc0, _, _⟩ | ⟨_, _, hd, _, _⟩
    · omega
    · exact Nat.dvd_trans hC.facts.mva_dvd_sa hd
  · intro i hi
    rw [← hh.bytes hp.inv hi]
    have : i < t'.vec.pos := by omega
    unfold Sto.buffer Sto.bytes Sto.asPtr
    rw [if_pos this, if_pos (by omega)]

end

/-- The example values, serialized, moved by the program to address `4096`, and read there. -/
example : ∃ (s' : Ser), session cfg64 .complete exP 6 (exRoots.map Prod.fst) (Ser.fromStorage Sto.new) = .ok [0, 0, 136, 184] s' ∧
    ∀ dm : Mem, (∀ i < s'.sto.vec.pos, dm (4096 + i) = s'.sto.bytes i) →
    ∀ (i : Nat) (r : Root) (v : Val) (p : Nat), exRoots[i]? = some (r, v) → [0, 0, 136, 184][i]? = some p →
      (exP.layout r.t).size ≠ 0 →
      Denotes cfg64.arch exP ⟨true, true⟩ (rebase cfg64.arch s'.sto.vec.ptr 4096
        (pointersOf cfg64.arch exP 8 ((exRoots.map fun y => (y.1.t, y.2)).zip [0, 0, 136, 184])) dm) r.t (4096 + p) v := by
  obtain ⟨s', r, hpos, _⟩ := exRun_new .complete
  refine ⟨s', r, fun dm hm i r' v p h1 h2 hz => ?_⟩
  exact (C79_rebase cfg64_ok exP_wf exP_accepted .new exInputs r (B := 4096) (by decide) (by rw [hpos]; decide) hm).1 i r' v p h1 h2 (Or.inl hz)

/-- The same values written by a `PtrOffsetSerializer` and loaded at address `8192`. -/
example : ∃ (s' : Ser), session cfg64 .ptrOffset exP 6 (exRoots.map Prod.fst) (Ser.fromStorage Sto.new) = .ok [0, 0, 136, 184] s' ∧
    ∀ dm : Mem, (∀ i < s'.sto.vec.pos, dm (8192 + i) = s'.sto.bytes i) →
    ∀ (i : Nat) (r : Root) (v : Val) (p : Nat), exRoots[i]? = some (r, v) → [0, 0, 136, 184][i]? = some p →
      (exP.layout r.t).size ≠ 0 →
      Denotes cfg64.arch exP ⟨true, false⟩ (rebase cfg64.arch 0 8192
        (pointersOf cfg64.arch exP 8 ((exRoots.map fun y => (y.1.t, y.2)).zip [0, 0, 136, 184])) dm) r.t (8192 + p) v := by
  obtain ⟨s', r, hpos, _⟩ := exRun_new .ptrOffset
  refine ⟨s', r, fun dm hm i r' v p h1 h2 hz => ?_⟩
  exact (C79_load cfg64_ok exP_wf exP_accepted .new exInputs r (B := 8192) (by decide) (by rw [hpos]; decide) hm).1 i r' v p h1 h2 (Or.inl hz)

/-- A storage that a second session moved: the first output is repaired. -/
example : ∃ (s' : Ser) (u : Sto), u.asPtr ≠ s'.sto.asPtr ∧ Denotes x64 exP ⟨true, true⟩ (rebase x64 s'.sto.asPtr u.asPtr
    (pointersOf x64 exP 8 ((exRoots.map fun y => (y.1.t, y.2)).zip [0, 0, 136, 184])) u.buffer) 1 (u.asPtr + 0) exNode := by
  obtain ⟨s', h, _, u, hu, hp, hne⟩ := exLater .complete .ptrOffset
  obtain ⟨n, js, _, _, hpo⟩ := session_post cfg64_ok exP_wf exP_accepted (Reach.inv cfg64_ok exP_wf exP_accepted .new) exInputs h
  have hle := (hu.holds cfg64_ok exP_wf exP_accepted hpo.inv).inv.pos_le
  exact ⟨s', u, hne, C79_repair cfg64_ok exP_wf exP_accepted .new exInputs h hu (by omega) 0 _ _ _ rfl rfl (Or.inl (by decide))⟩

/-- The list of pointer words of the example is not empty. -/
example : (pointersOf cfg64.arch exP 8 ((exRoots.map fun y => (y.1.t, y.2)).zip [0, 0, 136, 184])).length ≠ 0 := by decide +kernel

end SerRaw
