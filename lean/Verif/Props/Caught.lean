import Verif.Lemmas.Caught
import Verif.Props.SerEx
/-
C47: no reallocation when the output fits. C48: a serializer whose panics are caught.

Vocabulary as in Props/Serialize.lean; `sessionCaught` (Model/Caught.lean) is a session each of whose `serialize_value` calls is
wrapped in `catch_unwind`.
-/
namespace SerRaw

section
variable {C : Cfg} {P : Prog} {fl : Flags}

/-! ### C47 -/

/-- C47. If what a session leaves in the storage (whether it returned or panicked) fits the capacity the storage had at the
start, then the buffer was never moved or resized: same capacity, same `as_ptr()`, and not a single call to the allocator. -/
theorem C47_no_realloc (hC : C.OK) (hP : P.WF C.arch) (hacc : P.Accepted C) {t0 : Sto} (h0 : Reach C P t0) {k : Kind}
    {rs : List Root} (hv : ∀ r ∈ rs, Valid C.arch P r) {fuel : Nat} {s' : Ser}
    (hrun : (∃ ps, session C k P fuel rs (Ser.fromStorage t0) = .ok ps s') ∨
      ∃ pk, session C k P fuel rs (Ser.fromStorage t0) = .panic pk s')
    (hfit : s'.sto.vec.pos ≤ t0.vec.capacity) :
    s'.sto.vec.capacity = t0.vec.capacity ∧ s'.sto.vec.ptr = t0.vec.ptr ∧ s'.sto.w.calls = t0.w.calls := by
  obtain ⟨xs, rfl, hx⟩ := valid_inputs hv
  have hI := h0.inv hC hP hacc
  rcases hrun with ⟨ps, hr⟩ | ⟨pk, hr⟩
  · obtain ⟨n, js, _, _, hp⟩ := session_post hC hP hacc hI hx hr
    exact hp.stay.fit hfit
  · obtain ⟨n, js, _, _, hp⟩ := session_out hC hP hacc hI hx (by rw [hr]; simp)
    rw [hr] at hp
    obtain ⟨_, m', _, hk⟩ := hp
    exact (hk 0).stay.fit hfit

/-- C47, stated with the size of the values: if the blocks of the values end within the capacity, the session does not touch the
allocator (that it returns is C32). -/
theorem C47_presized (hC : C.OK) (hP : P.WF C.arch) (hacc : P.Accepted C) {t0 : Sto} (h0 : Reach C P t0) (k : Kind)
    {rs : List (Root × Val)} (hv : Inputs C.arch P fl rs) {bs : List (List Shape)} (hl : bs.length = rs.length)
    (hb : ∀ (i : Nat) (x : Root × Val) (xs : List Shape), rs[i]? = some x → bs[i]? = some xs → Blocks C.arch P x.1.im x.1.t x.1.a xs)
    (hfit : placeEnd C.valueAlign t0.vec.pos bs.flatten ≤ t0.vec.capacity) {fuel : Nat} {ps : List Nat} {s' : Ser}
    (hrun : session C k P fuel (rs.map (·.1)) (Ser.fromStorage t0) = .ok ps s') :
    s'.sto.vec.capacity = t0.vec.capacity ∧ s'.sto.vec.ptr = t0.vec.ptr ∧ s'.sto.w.calls = t0.w.calls := by
  have hI := h0.inv hC hP hacc
  obtain ⟨n, js, h1, h2, hp⟩ := session_post hC hP hacc hI hv hrun
  refine hp.stay.fit ?_
  rw [hp.pos, ← jobs_blocks hC.arch.ptr_pos hP h2 h1 hl hb]
  exact hfit

/-! ### C48 -/

/-- C48. A session whose panics are caught never breaks a safety contract, does not panic in `finalize`, and aborts only if the
allocator failed. -/
theorem C48_caught_safe (hC : C.OK) (hP : P.WF C.arch) (hacc : P.Accepted C) {t0 : Sto} (h0 : Reach C P t0) (k : Kind)
    {rs : List Root} (hv : ∀ r ∈ rs, Valid C.arch P r) :
    (∀ fuel, sessionCaught C k P fuel rs (Ser.fromStorage t0) ≠ .ub ∧
      (∀ pk s', sessionCaught C k P fuel rs (Ser.fromStorage t0) ≠ .panic pk s') ∧
      (sessionCaught C k P fuel rs (Ser.fromStorage t0) = .abort → ¬ C.NeverFails)) ∧
    ∃ N, ∀ fuel, N ≤ fuel → sessionCaught C k P fuel rs (Ser.fromStorage t0) ≠ .fuel := by
  obtain ⟨xs, rfl, hx⟩ := valid_inputs hv
  have hI := h0.inv hC hP hacc
  constructor
  · intro fuel
    by_cases hne : sessionCaught C k P fuel (xs.map (·.1)) (Ser.fromStorage t0) = .fuel
    · rw [hne]; simp
    · obtain ⟨n, js, _, _, h⟩ := sessionCaught_out hC hP hacc hI hx hne
      cases hr : sessionCaught C k P fuel (xs.map (·.1)) (Ser.fromStorage t0) with
      | ok ps s' => simp
      | panic pk s' => rw [hr] at h; exact h.elim
      | abort => rw [hr] at h; exact ⟨by simp, by simp, fun _ => h⟩
      | ub => rw [hr] at h; exact h.elim
      | fuel => exact absurd hr hne
  · obtain ⟨N, hN⟩ := sessionCaught_cases hC hP hacc k hI hx
    refine ⟨N, fun fuel hf he => ?_⟩
    obtain ⟨js, _, _, h⟩ := hN fuel hf
    rw [he] at h
    exact h.elim

theorem CaughtEnd.cells {k : Kind} {js : List Job} {s s' : Ser} {m m' : Nat → Mem} {ps : List (Option Nat)} (h : CaughtEnd C k P js s m ps s' m')
    {i : Nat} (hi : i < s'.sto.vec.pos) :
    s'.sto.buffer (s'.sto.vec.ptr + i) = m' s'.sto.vec.ptr i ∧ s'.sto.bytes i = m' s'.sto.vec.ptr i := by
  have := h.inv.pos_le
  have e : s'.sto.w.load (s'.sto.vec.ptr + i) = m' s'.sto.vec.ptr i := by
    rw [← h.view]; exact load_eq_view h.inv.toWInv (by omega)
  unfold Sto.buffer Sto.bytes
  rw [if_pos (by omega), if_pos hi]
  exact ⟨e, e⟩

/-- What is known about one completed call of a caught session. -/
theorem caught_get (hC : C.OK) (hP : P.WF C.arch) (hacc : P.Accepted C) {t0 : Sto} (h0 : Reach C P t0) {k : Kind}
    {rs : List (Root × Val)} (hv : Inputs C.arch P fl rs) {fuel : Nat} {ps : List (Option Nat)} {s' : Ser}
    (hrun : sessionCaught C k P fuel (rs.map (·.1)) (Ser.fromStorage t0) = .ok ps s') :
    ∃ n m' js, js.map (fun j : Job => (j.r, j.v)) = rs ∧ (∀ j ∈ js, j.OK C P fl n) ∧
      CaughtEnd C k P js (Ser.fromStorage t0) (fun _ => t0.view) ps s' m' ∧
      ∀ (i : Nat) (r : Root) (v : Val) (p : Nat), rs[i]? = some (r, v) → ps[i]? = some (some p) →
        ∃ j ∈ js, ∃ q, j.r = r ∧ j.v = v ∧ Placed1 C k P m' t0.vec.pos s'.sto.vec.pos s'.sto.vec.capacity j q p := by
  have hW := hC.arch.ptr_pos
  obtain ⟨n, js, hm, hj, h⟩ := sessionCaught_out hC hP hacc (h0.inv hC hP hacc) hv (by rw [hrun]; simp)
  rw [hrun] at h
  obtain ⟨m', h⟩ := h
  refine ⟨n, m', js, hm, hj, h, ?_⟩
  intro i r v p hr hp
  subst hm
  rw [List.getElem?_map, Option.map_eq_some_iff] at hr
  obtain ⟨j, h1, h2⟩ := hr
  injection h2 with e1 e2
  obtain ⟨q, hq⟩ := h.res.mono hC.facts.va.pos (Nat.le_refl _) i j p h1 hp (fun j hjm => (hj j hjm).align hW hP hacc)
  exact ⟨j, List.mem_of_getElem? h1, q, e1, e2, hq⟩

/-- C48, `CompleteSerializer`. However many `serialize_value` calls panicked and were caught, each value whose call returned a
position is found at that position of the buffer after `finalize`, wherever the buffer moved to in between. -/
theorem C48_caught_complete (hC : C.OK) (hP : P.WF C.arch) (hacc : P.Accepted C) {t0 : Sto} (h0 : Reach C P t0)
    {rs : List (Root × Val)} (hv : Inputs C.arch P fl rs) {fuel : Nat} {ps : List (Option Nat)} {s' : Ser}
    (hrun : sessionCaught C .complete P fuel (rs.map (·.1)) (Ser.fromStorage t0) = .ok ps s') :
    ps.length = rs.length ∧ ∀ (i : Nat) (r : Root) (v : Val) (p : Nat), rs[i]? = some (r, v) → ps[i]? = some (some p) →
      ((P.layout r.t).size ≠ 0 ∨ (P.layout r.t).align ∣ s'.sto.vec.ptr) →
      Denotes C.arch P ⟨fl.canon, true⟩ s'.sto.buffer r.t (s'.sto.vec.ptr + p) v := by
  have hW := hC.arch.ptr_pos
  obtain ⟨n, m', js, hm, hj, h, hget⟩ := caught_get hC hP hacc h0 hv hrun
  refine ⟨by rw [h.res.length, ← hm, List.length_map], ?_⟩
  intro i r v p hr hp hz
  obtain ⟨j, hjm, q, rfl, rfl, hq⟩ := hget i r v p hr hp
  obtain ⟨m0, hcells⟩ := hq.cells s'.sto.vec.ptr
  have hend := ptr_end_lt hC h.inv
  have hhi := hq.hi
  rw [hq.at_]
  refine ⟨n, (root_read (md := Kind.mode s'.sto.vec.ptr .complete) (D := s'.sto.vec.ptr) (m := m0) (p := q) hC.facts.va.pos hW hP hacc rfl (hj j hjm)
    (fun h0 => hz.resolve_left (by omega)) (fun hnz u hu => align_dvd_ptr hC hP hacc h.inv (hq.nz hnz) hu) (by omega) ?_).1⟩
  intro i _ hi
  rw [(h.cells (by omega)).1, hcells i hi]

/-- C48, `PtrOffsetSerializer`. -/
theorem C48_caught_offset (hC : C.OK) (hP : P.WF C.arch) (hacc : P.Accepted C) {t0 : Sto} (h0 : Reach C P t0)
    {rs : List (Root × Val)} (hv : Inputs C.arch P fl rs) {fuel : Nat} {ps : List (Option Nat)} {s' : Ser}
    (hrun : sessionCaught C .ptrOffset P fuel (rs.map (·.1)) (Ser.fromStorage t0) = .ok ps s') :
    ps.length = rs.length ∧ ∀ (i : Nat) (r : Root) (v : Val) (p : Nat), rs[i]? = some (r, v) → ps[i]? = some (some p) →
      Denotes C.arch P ⟨fl.canon, false⟩ s'.sto.bytes r.t p v := by
  have hW := hC.arch.ptr_pos
  obtain ⟨n, m', js, hm, hj, h, hget⟩ := caught_get hC hP hacc h0 hv hrun
  refine ⟨by rw [h.res.length, ← hm, List.length_map], ?_⟩
  intro i r v p hr hp
  obtain ⟨j, hjm, q, rfl, rfl, hq⟩ := hget i r v p hr hp
  obtain ⟨m0, hcells⟩ := hq.cells s'.sto.vec.ptr
  have hend := ptr_end_lt hC h.inv
  have hhi := hq.hi
  have := (root_read (md := Kind.mode s'.sto.vec.ptr .ptrOffset) (D := 0) (m := m0) (p := q) (dm := s'.sto.bytes) hC.facts.va.pos hW hP hacc rfl (hj j hjm)
    (fun _ => Nat.dvd_zero _) (fun _ _ _ => Nat.dvd_zero _) (by omega)
    (fun i _ hi => by rw [Nat.zero_add, (h.cells (by omega)).2, hcells i hi])).1
  rw [Nat.zero_add] at this
  rw [hq.at_]
  exact ⟨n, this⟩

/-- C48, `PureCopySerializer` and position-tracking serializers: a completed value and the allocations it owns are in the output
byte for byte, from its position on. -/
theorem C48_caught_verbatim (hC : C.OK) (hP : P.WF C.arch) (hacc : P.Accepted C) {t0 : Sto} (h0 : Reach C P t0) {k : Kind}
    (hk : k = .pureCopy ∨ k = .posTracking) {rs : List (Root × Val)} (hv : Inputs C.arch P fl rs) {fuel : Nat} {ps : List (Option Nat)} {s' : Ser}
    (hrun : sessionCaught C k P fuel (rs.map (·.1)) (Ser.fromStorage t0) = .ok ps s') :
    ∀ (i : Nat) (r : Root) (v : Val) (p : Nat), rs[i]? = some (r, v) → ps[i]? = some (some p) → (P.layout r.t).size ≠ 0 →
      (∀ j < (P.layout r.t).size, s'.sto.bytes (p + j) = r.im (r.a + j)) ∧
      ∃ n as, owned C.arch P r.im n r.t r.a = some as ∧
        ∀ z ∈ as.zip (place C.valueAlign (roundUp (p + (P.layout r.t).size) C.valueAlign) (as.map Own.shape)),
          z.2 + z.1.shape.bytes ≤ s'.sto.vec.pos ∧
          ∀ j < z.1.shape.bytes, s'.sto.bytes (z.2 + j) = r.im (z.1.ptr + j) := by
  have hW := hC.arch.ptr_pos
  have F := hC.facts
  obtain ⟨n, m', js, hm, hj, h, hget⟩ := caught_get hC hP hacc h0 hv hrun
  intro i r v p hr hp hz
  obtain ⟨j, hjm, q, rfl, rfl, hq⟩ := hget i r v p hr hp
  obtain ⟨m0, hcells⟩ := hq.cells s'.sto.vec.ptr
  have hmode : k.mode s'.sto.vec.ptr = Mode.plain := by rcases hk with rfl | rfl <;> rfl
  rw [hmode] at hcells
  have hhi := hq.hi
  have hx : (j, q) ∈ jobsAt P C.valueAlign q [j] := by simp [jobsAt]
  have hj1 : ∀ x ∈ [j], x.OK C P fl n := by
    intro x hx; obtain rfl := List.mem_singleton.1 hx; exact hj _ hjm
  obtain ⟨v1, v2⟩ := jobs_verbatim (m := m0) F.va.pos hW hP hacc hj1 (j, q) hx
  simp only [jobsIdeal] at v1 v2
  have hwf := (script_wf hW hP hacc n _ _ _ _ _ (hj _ hjm).1 (hj _ hjm).2 (placed_root (decode_guard (hj _ hjm).1).1)).1
  have hroot : jobPos P (j, q) + (P.layout j.r.t).size ≤ placeEnd C.valueAlign q (j.shapes P) := by
    have h1 := le_roundUp (jobPos P (j, q) + (P.layout j.r.t).size) F.va.pos
    have h2 := le_placeEnd F.va.pos (pushes_align j.sc hwf) (bodyAt P C.valueAlign (j, q))
    rw [bodyAt_end (x := (j, q)) hW hP (hj _ hjm)] at h2
    unfold bodyAt at h2
    rw [if_neg hz] at h2
    simp only at h2
    omega
  rw [hq.at_]
  constructor
  · intro i hi
    rw [(h.cells (by omega)).2, hcells _ (by omega)]
    exact v1 i hi
  · obtain ⟨as, ho, hkey, _⟩ := (hj _ hjm).blocks hW hP
    refine ⟨n, as, ho, ?_⟩
    have hsh : as.map Own.shape = j.sc.shapes := by unfold Script.shapes; rw [← hkey, List.map_map]; rfl
    have hbody : roundUp (jobPos P (j, q) + (P.layout j.r.t).size) C.valueAlign = bodyAt P C.valueAlign (j, q) := by simp [bodyAt, hz]
    rw [hsh, hbody]
    intro z hzm
    have hz1 : (z.1.key, z.2) ∈ j.sc.pushes.zip (place C.valueAlign (bodyAt P C.valueAlign (j, q)) j.sc.shapes) := by
      rw [← hkey, List.zip_map_left]; exact List.mem_map.2 ⟨z, hzm, rfl⟩
    have hb2 := (place_bounds F.va.pos (pushes_align j.sc hwf) _ _ (mem_zip_shapes hz1)).2.2
    rw [bodyAt_end (x := (j, q)) hW hP (hj _ hjm)] at hb2
    simp only [Own.key] at hb2
    refine ⟨by omega, ?_⟩
    intro i hi
    rw [(h.cells (by omega)).2, hcells _ (by omega)]
    exact v2 _ hz1 i hi

/-- C48, every kind: what the storage held before is unchanged, and a call panics only if its value did not fit — its blocks,
placed at the end the output finally has, exceed `MAX_CAPACITY`. -/
theorem C48_caught_frame (hC : C.OK) (hP : P.WF C.arch) (hacc : P.Accepted C) {t0 : Sto} (h0 : Reach C P t0) {k : Kind}
    {rs : List (Root × Val)} (hv : Inputs C.arch P fl rs) {fuel : Nat} {ps : List (Option Nat)} {s' : Ser}
    (hrun : sessionCaught C k P fuel (rs.map (·.1)) (Ser.fromStorage t0) = .ok ps s') :
    (∀ i < t0.vec.pos, s'.sto.bytes i = t0.bytes i) ∧ t0.vec.pos ≤ s'.sto.vec.pos ∧
    ∀ (i : Nat) (x : Root × Val) (xs : List Shape), rs[i]? = some x → ps[i]? = some none → Blocks C.arch P x.1.im x.1.t x.1.a xs →
      C.maxCapacity < placeEnd C.valueAlign s'.sto.vec.pos xs := by
  have hW := hC.arch.ptr_pos
  have hI := h0.inv hC hP hacc
  obtain ⟨n, m', js, hm, hj, h, hget⟩ := caught_get hC hP hacc h0 hv hrun
  have hpos : t0.vec.pos ≤ s'.sto.vec.pos := h.pos
  refine ⟨fun i hi => ?_, hpos, fun i x xs hr hp hb => ?_⟩
  · have := hI.pos_le
    rw [(h.cells (by omega)).2, h.frame i hi]
    unfold Sto.bytes
    rw [if_pos hi, load_eq_view hI.toWInv (by omega)]
  · subst hm
    rw [List.getElem?_map, Option.map_eq_some_iff] at hr
    obtain ⟨j, h1, rfl⟩ := hr
    have h2 := h.res.misfit hC.facts.va.pos i j h1 hp (fun j hjm => (hj j hjm).align hW hP hacc)
    obtain ⟨as, h3, _, h4⟩ := (hj j (List.mem_of_getElem? h1)).blocks hW hP
    rw [hb.unique ⟨n, as, h3, rfl⟩, h4]
    exact h2

end

/-! ### A concrete case -/

/-- An enum, the node, and one of its strings. -/
def exCaughtRoots : List (Root × Val) :=
  [(⟨exIm, 9, 4288⟩, exEnum), (⟨exIm, 1, 4096⟩, exNode), (⟨exIm, 6, 4176⟩, .str [104, 101, 108, 108, 111])]

theorem exCaughtInputs : Inputs x64 exP ⟨true, false⟩ exCaughtRoots := by
  intro x hx
  simp only [exCaughtRoots, List.mem_cons, List.not_mem_nil, or_false] at hx
  rcases hx with rfl | rfl | rfl
  · exact ⟨6, rfl⟩
  · exact ⟨6, rfl⟩
  · exact ⟨6, rfl⟩

/-- In a storage of at most 128 bytes the node does not fit after the enum: its call panics after its root and the boxed node were
copied and a pointer to it was recorded. The string that follows fits again; the buffer has moved twice. -/
theorem exCaught (k : Kind) : ∃ s', sessionCaught cfgTiny k exP 6 (exCaughtRoots.map (·.1)) (Ser.fromStorage Sto.new) =
    .ok [some 0, none, some 96] s' ∧ s'.sto.vec.pos = 128 ∧ s'.sto.vec.ptr = 3 * 2 ^ 20 := by
  exact Out.result_ok (o := sessionCaught cfgTiny k exP 6 (exCaughtRoots.map (·.1)) (Ser.fromStorage Sto.new))
    (r := ([some 0, none, some 96], 128, 3 * 2 ^ 20)) (by cases k <;> decide +kernel)

/-- C48 applies. -/
example : ∃ s' : Ser, Denotes x64 exP ⟨true, true⟩ s'.sto.buffer 9 (3 * 2 ^ 20) exEnum ∧
    Denotes x64 exP ⟨true, true⟩ s'.sto.buffer 6 (3 * 2 ^ 20 + 96) (.str [104, 101, 108, 108, 111]) := by
  obtain ⟨s', hr, _, hp⟩ := exCaught .complete
  have h := (C48_caught_complete cfgTiny_ok exP_wf exP_accepted_tiny .new exCaughtInputs hr).2
  exact ⟨s', hp ▸ h 0 _ _ 0 rfl rfl (Or.inl (by decide)), hp ▸ h 2 _ _ 96 rfl rfl (Or.inl (by decide))⟩

example : ∃ s' : Ser, Denotes x64 exP ⟨true, false⟩ s'.sto.bytes 6 96 (.str [104, 101, 108, 108, 111]) := by
  obtain ⟨s', hr, _, hp⟩ := exCaught .ptrOffset
  exact ⟨s', (C48_caught_offset cfgTiny_ok exP_wf exP_accepted_tiny .new exCaughtInputs hr).2 2 _ _ 96 rfl rfl⟩

/-- C47 applies: in a storage of 256 bytes the four example values (208 bytes from position 8) cause no allocator call. -/
example : ∃ t0 s', Reach cfg64 exP t0 ∧ t0.vec.capacity = 256 ∧ t0.w.calls = 1 ∧
    session cfg64 .complete exP 6 (exRoots.map Prod.fst) (Ser.fromStorage t0) = .ok [0, 0, 136, 184] s' ∧ s'.sto.vec.pos = 200 ∧
    s'.sto.vec.capacity = 256 ∧ s'.sto.vec.ptr = t0.vec.ptr ∧ s'.sto.w.calls = 1 := by
  have hc : ∃ t0, Sto.withCapacity cfg64 256 Sto.new = .ok () t0 ∧ t0.vec.capacity = 256 ∧ t0.w.calls = 1 := ⟨_, rfl, rfl, rfl⟩
  obtain ⟨t0, h1, h2, h3⟩ := hc
  have h0 : Reach cfg64 exP t0 := .withCapacity (by decide) h1
  have h : ((do let _ ← Ser.lift (Sto.withCapacity cfg64 256)
                session cfg64 .complete exP 6 (exRoots.map Prod.fst)) (Ser.fromStorage Sto.new)).result = some ([0, 0, 136, 184], 200, 2 ^ 20) := by
    decide +kernel
  have e : Ser.lift (Sto.withCapacity cfg64 256) (Ser.fromStorage Sto.new) = .ok () (Ser.fromStorage t0) := by
    simp only [Ser.lift, Ser.fromStorage, h1]
  rw [bind_ok e] at h
  obtain ⟨s', hr, hp, _⟩ := Out.result_ok h
  replace hp : s'.sto.vec.pos = 200 := hp
  have hfit : s'.sto.vec.pos ≤ t0.vec.capacity := by rw [hp, h2]; exact (by decide : 200 ≤ 256)
  have := C47_no_realloc cfg64_ok exP_wf exP_accepted h0 (k := .complete) (rs := exRoots.map Prod.fst)
    (by intro r hr; obtain ⟨x, hx, rfl⟩ := List.mem_map.1 hr; exact ⟨_, _, exInputs x hx⟩) (Or.inl ⟨_, hr⟩) hfit
  exact ⟨t0, s', h0, h2, h3, hr, hp, by rw [this.1, h2], this.2.1, by rw [this.2.2, h3]⟩

end SerRaw
