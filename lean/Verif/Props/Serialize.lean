import Verif.Lemmas.Caught
/-
C24–C30, C34–C37: what the output of a serializer means.

`Reach C P t0` (Model/Reach.lean): any storage a program can have. `session C k P fuel rs` (Model/Session.lean): a serializer of kind
`k` made `from_storage(t0)`, `serialize_value` on each of `rs`, then `finalize`; `serTop` is `serialize`. `Inputs`/`Denotes`
(Spec/Decode.lean): the input memory holds a valid value. `Sto.buffer`, `Sto.bytes` (Spec/Output.lean): what the consumer may look at.
-/
namespace SerRaw

section
variable {C : Cfg} {P : Prog} {fl : Flags}

/-! ### `serialize` is a session with one value -/

theorem session_one {k : Kind} {fuel : Nat} (r : Root) (s : Ser) :
    session C k P fuel [r] s =
      match serTop C k P r.im fuel r.t r.a s with
      | .ok p s' => .ok [p] s' | .panic pk s' => .panic pk s' | .abort => .abort | .ub => .ub | .fuel => .fuel := by
  unfold session serTop serialize
  simp only [serValues, serValue, bind_def]
  cases serializeValue C k (P.layout r.t) r.a (inputAt r.im r.a) (serData C k P r.im fuel r.t r.a) s with
  | ok p s1 =>
    simp only [pure_run]
    cases finalize C k s1 <;> rfl
  | _ => rfl

theorem serTop_ok {k : Kind} {fuel : Nat} {im : Mem} {t a : Nat} {v : Val} {s s' : Ser} {p : Nat} (h : serTop C k P im fuel t a s = .ok p s') :
    session C k P fuel ([((⟨im, t, a⟩ : Root), v)].map (·.1)) s = .ok [p] s' := by
  rw [List.map_cons, List.map_nil, session_one]; simp only [h]

theorem one_input {im : Mem} {t a : Nat} {v : Val} (h : Denotes C.arch P fl im t a v) : Inputs C.arch P fl [(⟨im, t, a⟩, v)] := by
  intro x hx
  obtain rfl := List.mem_singleton.1 hx
  exact h

/-! ### Alignment of the buffer -/

theorem align_dvd_ptr (hC : C.OK) (hP : P.WF C.arch) (hacc : P.Accepted C) {s : Sto} (h : s.Inv C) (hc : 0 < s.vec.capacity) {u : TyId}
    (hz : (P.layout u).size ≠ 0) : (P.layout u).align ∣ s.vec.ptr := by
  have F := hC.facts
  rcases h.mem with ⟨h0, _, _⟩ | ⟨_, _, hd, _, _⟩
  · omega
  · have h1 := hacc u hz
    rw [accepts_iff] at h1
    have hp : Pow2 (P.layout u).align := (hP u).1
    exact Nat.dvd_trans (hp.dvd_of_le F.sa (Nat.le_trans h1 F.mva_le)) hd

theorem ptr_end_lt (hC : C.OK) {s : Sto} (h : s.Inv C) : s.vec.ptr + s.vec.pos < C.arch.usizeMod := by
  have hp := h.pos_le
  rcases h.mem with ⟨h0, h1, _⟩ | ⟨_, _, _, h1, _⟩
  · have h2 : 1 < C.arch.usizeMod := Nat.one_lt_two_pow (by unfold Arch.usizeBits; have := hC.arch.ptr_pos; omega)
    omega
  · omega

/-! ### C24–C26, C34: `CompleteSerializer` -/

/-- C34 (C24 for any number of values). After serializing any list of valid values into any reachable storage with a
`CompleteSerializer`, each is found at `as_ptr() + p` where `p` is the position its `serialize_value` returned: reading
there as its type, following only pointers stored in the buffer and looking only at the buffer, gives the value.
In the value read, every `Vec`/`String` has capacity equal to its length (`tight`), and those of capacity 0 have the
canonical pointer if those of the input did (`canon`). -/
theorem C34_complete (hC : C.OK) (hP : P.WF C.arch) (hacc : P.Accepted C) {t0 : Sto} (h0 : Reach C P t0)
    {rs : List (Root × Val)} (hv : Inputs C.arch P fl rs) {fuel : Nat} {ps : List Nat} {s' : Ser}
    (hrun : session C .complete P fuel (rs.map (·.1)) (Ser.fromStorage t0) = .ok ps s') :
    ps.length = rs.length ∧ ∀ (i : Nat) (r : Root) (v : Val) (p : Nat), rs[i]? = some (r, v) → ps[i]? = some p →
      ((P.layout r.t).size ≠ 0 ∨ (P.layout r.t).align ∣ s'.sto.vec.ptr) →
      Denotes C.arch P ⟨fl.canon, true⟩ s'.sto.buffer r.t (s'.sto.vec.ptr + p) v := by
  have hW := hC.arch.ptr_pos
  obtain ⟨n, js, hm, hj, hp⟩ := session_post hC hP hacc (h0.inv hC hP hacc) hv hrun
  refine ⟨jobs_length hm hp.ps, ?_⟩
  intro i r v p hr hpi hz
  obtain ⟨x, hx, rfl, rfl, rfl⟩ := jobsAt_get hm hp.ps hr hpi
  have hend := ptr_end_lt hC hp.inv
  rw [hp.pos] at hend
  refine ⟨n, (jobs_read (md := Kind.mode s'.sto.vec.ptr .complete) (D := s'.sto.vec.ptr) hC.facts.va.pos hW hP hacc rfl hj hend
    (fun i _ hi => hp.buffer (by rw [hp.pos]; exact hi)) x hx ?_ ?_).1⟩
  · intro h; exact hz.resolve_left (by omega)
  · intro h u hu
    exact align_dvd_ptr hC hP hacc hp.inv (hp.nz _ (jobsAt_mem_le hC.facts.va.pos hW hP hacc hj x hx).1 h) hu

/-- C24. `serialize` with a `CompleteSerializer`: the returned position holds the value. -/
theorem C24_complete_roundtrip (hC : C.OK) (hP : P.WF C.arch) (hacc : P.Accepted C) {t0 : Sto} (h0 : Reach C P t0)
    {im : Mem} {t a : Nat} {v : Val} (hv : Denotes C.arch P fl im t a v) {fuel p : Nat} {s' : Ser}
    (hrun : serTop C .complete P im fuel t a (Ser.fromStorage t0) = .ok p s')
    (hz : (P.layout t).size ≠ 0 ∨ (P.layout t).align ∣ s'.sto.vec.ptr) :
    Denotes C.arch P ⟨fl.canon, true⟩ s'.sto.buffer t (s'.sto.vec.ptr + p) v :=
  (C34_complete hC hP hacc h0 (one_input hv) (serTop_ok hrun)).2 0 ⟨im, t, a⟩ v p rfl rfl hz

/-- The allocations a value owns lie in `[lo, hi)`, aligned for their elements, one after another without overlap; each is
pointed to by a word in `[lo, hi)`, which lies before it. -/
structure OwnedWithin (A : Arch) (m : Mem) (lo hi : Nat) (as : List Own) : Prop where
  inside : ∀ x ∈ as, lo ≤ x.ptr ∧ x.ptr + x.shape.bytes ≤ hi
  aligned : ∀ x ∈ as, x.L.align ∣ x.ptr
  slots : ∀ x ∈ as, lo ≤ x.slot ∧ readWord A m x.slot = some x.ptr
  forward : ∀ x ∈ as, x.slot + A.ptrBytes ≤ x.ptr
  disjoint : as.Pairwise fun x y => x.ptr + x.shape.bytes ≤ y.ptr
  nonempty : ∀ x ∈ as, 0 < x.shape.bytes
  nonnull : ∀ x ∈ as, x.ptr ≠ 0

theorem ownedWithin_of {va D ia op q : Nat} (hva : 0 < va) {n : Nat} (hW : 0 < C.arch.ptrBytes) (hP : P.WF C.arch) (hacc : P.Accepted C)
    {j : Job} (hj : j.OK C P fl n) {m : Mem} {lo hi : Nat} (hm : ∀ i, i < lo → m i = none) {t a : Nat}
    {as : List Own} (ho : owned C.arch P m n t a = some as) (hout : OwnOut C.arch va D ia op q j.sc as)
    (hDal : ∀ x ∈ as, x.L.align ∣ D) (hlo : lo ≤ D + q) (hhi : D + placeEnd va q j.sc.shapes ≤ hi) : OwnedWithin C.arch m lo hi as := by
  have hwf := (script_wf hW hP hacc n _ _ _ _ _ hj.1 hj.2 (placed_root (decode_guard hj.1).1)).1
  have hal := pushes_align j.sc hwf
  have hz : (as.zip (place va q j.sc.shapes)).map (fun z => (z.1.shape, z.2)) = j.sc.shapes.zip (place va q j.sc.shapes) := by
    rw [← hout.shapes]; simp [List.zip_map_left]
  have hlen : as.length = (place va q j.sc.shapes).length := by
    rw [place_length, ← hout.shapes, List.length_map]
  -- each owned allocation is at its place
  have hmem : ∀ x ∈ as, ∃ y, x.ptr = D + y ∧ (x.shape, y) ∈ j.sc.shapes.zip (place va q j.sc.shapes) := by
    intro x hx
    obtain ⟨i, hi, rfl⟩ := List.mem_iff_getElem.1 hx
    have hi' : i < (place va q j.sc.shapes).length := by omega
    refine ⟨(place va q j.sc.shapes)[i], ?_, ?_⟩
    · have := congrArg (·[i]?) hout.ptrs
      simp only [List.getElem?_map, List.getElem?_eq_getElem hi, List.getElem?_eq_getElem hi', Option.map_some, Option.some.injEq] at this
      exact this
    · rw [← hz]
      refine List.mem_map.2 ⟨(as[i], (place va q j.sc.shapes)[i]), ?_, rfl⟩
      exact List.mem_iff_getElem.2 ⟨i, by simp [hi, hi'], by simp⟩
  have hslot := owned_slot ho
  refine ⟨?_, ?_, ?_, hout.fwd, ?_, ?_, ?_⟩
  · intro x hx
    obtain ⟨y, e, hy⟩ := hmem x hx
    obtain ⟨h1, _, h3⟩ := place_bounds hva hal q _ hy
    simp only at h1 h3
    omega
  · intro x hx
    obtain ⟨y, e, hy⟩ := hmem x hx
    have h2 := (place_bounds hva hal q _ hy).2.1
    rw [e]; exact Nat.dvd_add (hDal x hx) h2
  · intro x hx
    refine ⟨?_, hslot x hx⟩
    apply Nat.le_of_not_lt
    intro hlt
    have := (readWord_some_iff.1 (hslot x hx)).2 0 hW
    rw [Nat.add_zero, hm _ hlt] at this
    have hh : wordCells C.arch x.ptr 0 ≠ none := by
      unfold wordCells
      rw [ne_eq, List.getElem?_eq_none_iff, encWord_length]; omega
    exact hh this.symm
  · have hpw := place_pairwise hva hal q
    rw [← hz, List.pairwise_map] at hpw
    rw [List.pairwise_iff_getElem]
    intro i j' hi hj' hij
    rw [List.pairwise_iff_getElem] at hpw
    have h1 := hpw i j' (by simp [hi]; omega) (by simp [hj']; omega) hij
    simp only [List.getElem_zip] at h1
    have e : ∀ k (hk : k < as.length), (as[k]).ptr = D + (place va q j.sc.shapes)[k]'(by omega) := by
      intro k hk
      have := congrArg (·[k]?) hout.ptrs
      simp only [List.getElem?_map, List.getElem?_eq_getElem hk, List.getElem?_eq_getElem (show k < (place va q j.sc.shapes).length by omega), Option.map_some, Option.some.injEq] at this
      exact this
    rw [e i hi, e j' hj']; omega
  · intro x hx
    have h1 : x.shape ∈ j.sc.shapes := by rw [← hout.shapes]; exact List.mem_map.2 ⟨x, hx, rfl⟩
    exact script_pos _ _ _ hj.2 _ h1
  · intro x hx
    have := hout.fwd x hx; omega


theorem pushes_align_le (sc : Script) {c : Ctx} (h : sc.WF C c) : ∀ x ∈ sc.shapes, Pow2 x.L.align ∧ x.L.align ≤ C.maxValueAlign := by
  induction sc generalizing c with
  | done => simp [Script.shapes, Script.pushes]
  | pushProcess L len src ptr inner rest ih1 ih2 =>
    obtain ⟨ho, _, _, h1, h2⟩ := h
    intro x hx
    simp only [Script.shapes, Script.pushes, List.map_cons, List.map_append, List.mem_cons, List.mem_append] at hx
    rcases hx with rfl | hx | hx
    · exact ⟨ho.pow2, ho.align_le⟩
    · exact ih1 h1 x hx
    · exact ih2 h2 x hx
  | push L len src ptr rest ih =>
    intro x hx
    simp only [Script.shapes, Script.pushes, List.map_cons, List.mem_cons] at hx
    rcases hx with rfl | hx
    · exact ⟨h.1.pow2, h.1.align_le⟩
    · exact ih h.2.2.2 x hx
  | pushRaw L len src rest ih =>
    intro x hx
    simp only [Script.shapes, Script.pushes, List.map_cons, List.mem_cons] at hx
    rcases hx with rfl | hx
    · exact ⟨h.1.pow2, h.1.align_le⟩
    · exact ih h.2 x hx
  | overwrite a L data rest ih => exact ih h.2

theorem bodyAt_end {va n : Nat} (hW : 0 < C.arch.ptrBytes) (hP : P.WF C.arch) {x : Job × Nat} (hj : x.1.OK C P fl n) :
    placeEnd va (bodyAt P va x) x.1.sc.shapes = placeEnd va x.2 (x.1.shapes P) := by
  by_cases hz : (P.layout x.1.r.t).size = 0
  · simp [bodyAt, Job.shapes, rootShapes, hz, script_zst hW hP hz hj.2, Script.shapes, Script.pushes]
  · simp [bodyAt, Job.shapes, rootShapes, hz, placeEnd, Shape.bytes, jobPos, rootPos]

/-- C25. The value read back from a `CompleteSerializer`'s output owns only memory inside the buffer: every allocation it
owns lies inside `[as_ptr(), as_ptr() + pos())`, is aligned for its elements and overlaps no other, and so do the words that
point to them. (That no other memory is read is the meaning of `Sto.buffer` in `C34_complete`.) -/
theorem C25_self_contained (hC : C.OK) (hP : P.WF C.arch) (hacc : P.Accepted C) {t0 : Sto} (h0 : Reach C P t0)
    {rs : List (Root × Val)} (hv : Inputs C.arch P fl rs) {fuel : Nat} {ps : List Nat} {s' : Ser}
    (hrun : session C .complete P fuel (rs.map (·.1)) (Ser.fromStorage t0) = .ok ps s') :
    ∀ (i : Nat) (r : Root) (v : Val) (p : Nat), rs[i]? = some (r, v) → ps[i]? = some p →
      ((P.layout r.t).size ≠ 0 ∨ (P.layout r.t).align ∣ s'.sto.vec.ptr) →
      ∃ n as, owned C.arch P s'.sto.buffer n r.t (s'.sto.vec.ptr + p) = some as ∧
        OwnedWithin C.arch s'.sto.buffer s'.sto.vec.ptr (s'.sto.vec.ptr + s'.sto.vec.pos) as := by
  have hW := hC.arch.ptr_pos
  have F := hC.facts
  obtain ⟨n, js, hm, hj, hp⟩ := session_post hC hP hacc (h0.inv hC hP hacc) hv hrun
  intro i r v p hr hpi hz
  obtain ⟨x, hx, rfl, rfl, rfl⟩ := jobsAt_get hm hp.ps hr hpi
  have hend := ptr_end_lt hC hp.inv
  rw [hp.pos] at hend
  obtain ⟨hxm, _, hle⟩ := jobsAt_mem_le F.va.pos hW hP hacc hj x hx
  obtain ⟨_, as, ho, hout⟩ := jobs_read (md := Kind.mode s'.sto.vec.ptr .complete) (D := s'.sto.vec.ptr) F.va.pos hW hP hacc rfl hj hend
    (fun i _ hi => hp.buffer (by rw [hp.pos]; exact hi)) x hx (fun h => hz.resolve_left (by omega))
    (fun h u hu => align_dvd_ptr hC hP hacc hp.inv (hp.nz _ hxm h) hu)
  refine ⟨n, as, ho, ownedWithin_of F.va.pos hW hP hacc (hj _ hxm) ?_ ho hout ?_ (by omega) ?_⟩
  · intro i hi; unfold Sto.buffer; rw [if_neg (by omega)]
  · intro o hom
    have hwf := (script_wf hW hP hacc n _ _ _ _ _ (hj _ hxm).1 (hj _ hxm).2 (placed_root (decode_guard (hj _ hxm).1).1)).1
    have hsh : o.shape ∈ x.1.sc.shapes := by rw [← hout.shapes]; exact List.mem_map.2 ⟨o, hom, rfl⟩
    obtain ⟨h1, h2⟩ := pushes_align_le x.1.sc hwf _ hsh
    have hnz : (P.layout x.1.r.t).size ≠ 0 := by
      intro hz
      rw [script_zst hW hP hz (hj _ hxm).2] at hsh
      simp [Script.shapes, Script.pushes] at hsh
    have hc := hp.nz _ hxm hnz
    rcases hp.inv.mem with ⟨hc0, _, _⟩ | ⟨_, _, hd, _, _⟩
    · omega
    · exact Nat.dvd_trans (h1.dvd_of_le F.sa (Nat.le_trans h2 F.mva_le)) hd
  · rw [bodyAt_end hW hP (hj _ hxm), hp.pos]
    exact Nat.add_le_add_left hle _

/-- C26. If the input's capacity-0 vectors have the canonical dangling pointer (std guarantees it), then in the value read
back every `Vec`/`String` of non-zero-sized elements has `capacity == len`, and the canonical pointer if empty
(see `C26_header` for what the flags say about one header). -/
theorem C26_shrunk (hC : C.OK) (hP : P.WF C.arch) (hacc : P.Accepted C) {t0 : Sto} (h0 : Reach C P t0)
    {rs : List (Root × Val)} (hv : Inputs C.arch P ⟨true, false⟩ rs) {fuel : Nat} {ps : List Nat} {s' : Ser}
    (hrun : session C .complete P fuel (rs.map (·.1)) (Ser.fromStorage t0) = .ok ps s') :
    ∀ (i : Nat) (r : Root) (v : Val) (p : Nat), rs[i]? = some (r, v) → ps[i]? = some p →
      ((P.layout r.t).size ≠ 0 ∨ (P.layout r.t).align ∣ s'.sto.vec.ptr) →
      Denotes C.arch P ⟨true, true⟩ s'.sto.buffer r.t (s'.sto.vec.ptr + p) v :=
  (C34_complete hC hP hacc h0 hv hrun).2

/-- What `Denotes` with both flags says of a `Vec<T>` (of a non-zero-sized `T`). -/
theorem C26_header {A : Arch} {m : Mem} {t u a : Nat} {v : Val} (ht : P.defn t = .vec u) (hz : (P.layout u).size ≠ 0)
    (h : Denotes A P ⟨true, true⟩ m t a v) :
    ∃ hd, readHeader A m (P.vecOrder u) a = some hd ∧ hd.cap = hd.len ∧ (hd.len = 0 → hd.ptr = (P.layout u).align) := by
  obtain ⟨n, hn⟩ := h
  cases n with
  | zero => simp [decode] at hn
  | succ n =>
    rw [decode] at hn
    split at hn
    · simp only [ht, decodeVec, Option.bind_eq_bind, Option.bind_eq_some_iff, Option.ite_none_right_eq_some] at hn
      obtain ⟨hd, h1, h2, _⟩ := hn
      obtain ⟨_, _, _, hcan, htig⟩ := h2.2.2 hz
      exact ⟨hd, h1, htig rfl, fun h0 => hcan rfl (by rw [htig rfl, h0])⟩
    · cases hn

/-! ### C27, C28: `PtrOffsetSerializer` -/

/-- C27. After a `PtrOffsetSerializer` session a reader that takes each pointer to be a position in the output finds every
value at the position its `serialize_value` returned. -/
theorem C27_offset_roundtrip (hC : C.OK) (hP : P.WF C.arch) (hacc : P.Accepted C) {t0 : Sto} (h0 : Reach C P t0)
    {rs : List (Root × Val)} (hv : Inputs C.arch P fl rs) {fuel : Nat} {ps : List Nat} {s' : Ser}
    (hrun : session C .ptrOffset P fuel (rs.map (·.1)) (Ser.fromStorage t0) = .ok ps s') :
    ps.length = rs.length ∧ ∀ (i : Nat) (r : Root) (v : Val) (p : Nat), rs[i]? = some (r, v) → ps[i]? = some p →
      Denotes C.arch P ⟨fl.canon, false⟩ s'.sto.bytes r.t p v := by
  have hW := hC.arch.ptr_pos
  obtain ⟨n, js, hm, hj, hp⟩ := session_post hC hP hacc (h0.inv hC hP hacc) hv hrun
  refine ⟨jobs_length hm hp.ps, ?_⟩
  intro i r v p hr hpi
  obtain ⟨x, hx, rfl, rfl, rfl⟩ := jobsAt_get hm hp.ps hr hpi
  have hend := ptr_end_lt hC hp.inv
  rw [hp.pos] at hend
  have := (jobs_read (md := Kind.mode s'.sto.vec.ptr .ptrOffset) (D := 0) (dm := s'.sto.bytes) (m := t0.view) hC.facts.va.pos hW hP hacc rfl hj (by omega)
    (fun i _ hi => by rw [Nat.zero_add]; exact hp.bytes (by rw [hp.pos]; exact hi)) x hx (fun _ => Nat.dvd_zero _) (fun _ _ _ => Nat.dvd_zero _)).1
  rw [Nat.zero_add] at this
  exact ⟨n, this⟩

/-- C28. Every offset a `PtrOffsetSerializer` wrote (`x.ptr`, stored at `x.slot`) lies after its own slot, so is not zero, and the
block it points to ends at or before `pos()`; it is aligned for the elements; blocks do not overlap. -/
theorem C28_offsets (hC : C.OK) (hP : P.WF C.arch) (hacc : P.Accepted C) {t0 : Sto} (h0 : Reach C P t0)
    {rs : List (Root × Val)} (hv : Inputs C.arch P fl rs) {fuel : Nat} {ps : List Nat} {s' : Ser}
    (hrun : session C .ptrOffset P fuel (rs.map (·.1)) (Ser.fromStorage t0) = .ok ps s') :
    ∀ (i : Nat) (r : Root) (v : Val) (p : Nat), rs[i]? = some (r, v) → ps[i]? = some p →
      ∃ n as, owned C.arch P s'.sto.bytes n r.t p = some as ∧ OwnedWithin C.arch s'.sto.bytes 0 s'.sto.vec.pos as := by
  have hW := hC.arch.ptr_pos
  have F := hC.facts
  obtain ⟨n, js, hm, hj, hp⟩ := session_post hC hP hacc (h0.inv hC hP hacc) hv hrun
  intro i r v p hr hpi
  obtain ⟨x, hx, rfl, rfl, rfl⟩ := jobsAt_get hm hp.ps hr hpi
  have hend := ptr_end_lt hC hp.inv
  rw [hp.pos] at hend
  obtain ⟨hxm, _, hle⟩ := jobsAt_mem_le F.va.pos hW hP hacc hj x hx
  obtain ⟨_, as, ho, hout⟩ := jobs_read (md := Kind.mode s'.sto.vec.ptr .ptrOffset) (D := 0) (dm := s'.sto.bytes) (m := t0.view) F.va.pos hW hP hacc rfl hj (by omega)
    (fun i _ hi => by rw [Nat.zero_add]; exact hp.bytes (by rw [hp.pos]; exact hi)) x hx (fun _ => Nat.dvd_zero _) (fun _ _ _ => Nat.dvd_zero _)
  rw [Nat.zero_add] at ho
  refine ⟨n, as, ho, ownedWithin_of F.va.pos hW hP hacc (hj _ hxm) (fun i hi => by omega) ho hout (fun _ _ => Nat.dvd_zero _) (Nat.zero_le _) ?_⟩
  rw [bodyAt_end hW hP (hj _ hxm), hp.pos, Nat.zero_add]
  exact hle

/-! ### C29, C30: `PureCopySerializer` (and position-tracking serializers) -/

theorem seqRoots_of {va : Nat} {m : Mem} {n : Nat} (js : List Job) (p : Nat)
    (h : ∀ x ∈ jobsAt P va p js, decodeSeq C.arch P va m n x.1.r.t (jobPos P x) (bodyAt P va x) = some (x.1.v, placeEnd va x.2 (x.1.shapes P))) :
    seqRoots C.arch P va m n (js.map (·.r.t)) p = some (js.map (·.v), placeEnd va p (jobsShapes P js)) := by
  induction js generalizing p with
  | nil => rfl
  | cons j js ih =>
    have h1 := h (j, p) (by simp [jobsAt])
    have h2 := ih (placeEnd va p (j.shapes P)) (fun x hx => h x (by simp [jobsAt, hx]))
    have e : seqRoot C.arch P va m n j.r.t p = some (j.v, placeEnd va p (j.shapes P)) := by
      rw [← h1]
      unfold seqRoot
      by_cases hz : (P.layout j.r.t).size = 0
      · simp [bodyAt, jobPos, rootPos, hz]
      · simp [bodyAt, jobPos, rootPos, hz, nextBlock, Shape.bytes]
    simp only [List.map_cons, seqRoots, e, Option.bind_eq_bind, Option.bind_some, h2, Option.pure_def]
    simp only [jobsShapes, List.flatMap_cons, placeEnd_append]

/-- C29. After a `PureCopySerializer` session, a reader that knows only the types of the values and where the output started,
and looks at no pointer or capacity, recovers all values in order, and ends at `pos()`. -/
theorem C29_in_order (hC : C.OK) (hP : P.WF C.arch) (hacc : P.Accepted C) {t0 : Sto} (h0 : Reach C P t0) {k : Kind}
    (hk : k = .pureCopy ∨ k = .posTracking) {rs : List (Root × Val)} (hv : Inputs C.arch P fl rs) {fuel : Nat} {ps : List Nat} {s' : Ser}
    (hrun : session C k P fuel (rs.map (·.1)) (Ser.fromStorage t0) = .ok ps s') :
    ∃ n, seqRoots C.arch P C.valueAlign s'.sto.bytes n (rs.map (·.1.t)) t0.vec.pos = some (rs.map (·.2), s'.sto.vec.pos) := by
  have hW := hC.arch.ptr_pos
  obtain ⟨n, js, hm, hj, hp⟩ := session_post hC hP hacc (h0.inv hC hP hacc) hv hrun
  refine ⟨n, ?_⟩
  have hmode : k.mode s'.sto.vec.ptr = Mode.plain := by rcases hk with rfl | rfl <;> rfl
  have e1 : rs.map (·.1.t) = js.map (·.r.t) := by rw [← hm, List.map_map]; rfl
  have e2 : rs.map (·.2) = js.map (·.v) := by rw [← hm, List.map_map]; rfl
  rw [e1, e2, hp.pos]
  refine seqRoots_of js _ (jobs_seq (m := t0.view) hC.facts.va.pos hW hP hacc hj ?_)
  intro i _ hi
  rw [hp.bytes (by rw [hp.pos]; exact hi), hmode]
  rfl

/-- C30. After a `PureCopySerializer` session, each value and each allocation it owns (`owned` of the *input*, in depth-first
order) is in the output byte for byte: the value at the returned position, its allocations from there on. -/
theorem C30_verbatim (hC : C.OK) (hP : P.WF C.arch) (hacc : P.Accepted C) {t0 : Sto} (h0 : Reach C P t0) {k : Kind}
    (hk : k = .pureCopy ∨ k = .posTracking) {rs : List (Root × Val)} (hv : Inputs C.arch P fl rs) {fuel : Nat} {ps : List Nat} {s' : Ser}
    (hrun : session C k P fuel (rs.map (·.1)) (Ser.fromStorage t0) = .ok ps s') :
    ∀ (i : Nat) (r : Root) (v : Val) (p : Nat), rs[i]? = some (r, v) → ps[i]? = some p → (P.layout r.t).size ≠ 0 →
      (∀ j < (P.layout r.t).size, s'.sto.bytes (p + j) = r.im (r.a + j)) ∧
      ∃ n as, owned C.arch P r.im n r.t r.a = some as ∧
        ∀ z ∈ as.zip (place C.valueAlign (roundUp (p + (P.layout r.t).size) C.valueAlign) (as.map Own.shape)),
          z.2 + z.1.shape.bytes ≤ s'.sto.vec.pos ∧
          ∀ j < z.1.shape.bytes, s'.sto.bytes (z.2 + j) = r.im (z.1.ptr + j) := by
  have hW := hC.arch.ptr_pos
  have F := hC.facts
  obtain ⟨n, js, hm, hj, hp⟩ := session_post hC hP hacc (h0.inv hC hP hacc) hv hrun
  intro i r v p hr hpi hz
  obtain ⟨x, hx, rfl, rfl, rfl⟩ := jobsAt_get hm hp.ps hr hpi
  have hmode : k.mode s'.sto.vec.ptr = Mode.plain := by rcases hk with rfl | rfl <;> rfl
  obtain ⟨hxm, _, hle⟩ := jobsAt_mem_le F.va.pos hW hP hacc hj x hx
  have hb := fun i hi => hp.bytes (i := i) hi
  rw [hmode] at hb
  rw [hp.pos] at hb
  obtain ⟨v1, v2⟩ := jobs_verbatim (m := t0.view) F.va.pos hW hP hacc hj x hx
  have hroot : jobPos P x + (P.layout x.1.r.t).size ≤ placeEnd C.valueAlign x.2 (x.1.shapes P) := by
    have h1 := le_roundUp (jobPos P x + (P.layout x.1.r.t).size) F.va.pos
    have h2 := le_placeEnd F.va.pos (pushes_align x.1.sc (script_wf hW hP hacc n _ _ _ _ _ (hj _ hxm).1 (hj _ hxm).2 (placed_root (decode_guard (hj _ hxm).1).1)).1)
      (bodyAt P C.valueAlign x)
    rw [bodyAt_end hW hP (hj _ hxm)] at h2
    unfold bodyAt at h2
    rw [if_neg hz] at h2
    omega
  constructor
  · intro j hj'
    rw [hb _ (by simp only [Ser.fromStorage] at *; omega)]
    exact v1 j hj'
  · obtain ⟨as, ho, hk, _⟩ := (hj _ hxm).blocks hW hP
    refine ⟨n, as, ho, ?_⟩
    have hsh : as.map Own.shape = x.1.sc.shapes := by unfold Script.shapes; rw [← hk, List.map_map]; rfl
    have hbody : roundUp (jobPos P x + (P.layout x.1.r.t).size) C.valueAlign = bodyAt P C.valueAlign x := by simp [bodyAt, hz]
    rw [hsh, hbody]
    intro z hzm
    have hz1 : (z.1.key, z.2) ∈ x.1.sc.pushes.zip (place C.valueAlign (bodyAt P C.valueAlign x) x.1.sc.shapes) := by
      rw [← hk, List.zip_map_left]; exact List.mem_map.2 ⟨z, hzm, rfl⟩
    have hwf := (script_wf hW hP hacc n _ _ _ _ _ (hj _ hxm).1 (hj _ hxm).2 (placed_root (decode_guard (hj _ hxm).1).1)).1
    have hb2 := (place_bounds F.va.pos (pushes_align x.1.sc hwf) _ _ (mem_zip_shapes hz1)).2.2
    rw [bodyAt_end hW hP (hj _ hxm)] at hb2
    simp only [Own.key] at hb2
    refine ⟨by rw [hp.pos]; simp only [Ser.fromStorage] at *; omega, ?_⟩
    intro j hj'
    rw [hb _ (by simp only [Ser.fromStorage] at *; omega)]
    exact v2 _ hz1 j hj'

/-! ### C35, C36: any kind -/

/-- C35. Serializing into an existing storage appends: the bytes below its old `pos()` are unchanged, `pos()` does not go
back, and (non-zero-sized) values are placed at or after the old `pos()`. -/
theorem C35_appends (hC : C.OK) (hP : P.WF C.arch) (hacc : P.Accepted C) {t0 : Sto} (h0 : Reach C P t0) {k : Kind}
    {rs : List (Root × Val)} (hv : Inputs C.arch P fl rs) {fuel : Nat} {ps : List Nat} {s' : Ser}
    (hrun : session C k P fuel (rs.map (·.1)) (Ser.fromStorage t0) = .ok ps s') :
    (∀ i < t0.vec.pos, s'.sto.bytes i = t0.bytes i) ∧ t0.vec.pos ≤ s'.sto.vec.pos ∧ t0.vec.capacity ≤ s'.sto.vec.capacity ∧
    ∀ (i : Nat) (r : Root) (v : Val) (p : Nat), rs[i]? = some (r, v) → ps[i]? = some p → (P.layout r.t).size ≠ 0 → t0.vec.pos ≤ p := by
  have hW := hC.arch.ptr_pos
  have F := hC.facts
  have hI := h0.inv hC hP hacc
  obtain ⟨n, js, hm, hj, hp⟩ := session_post hC hP hacc hI hv hrun
  have hle : t0.vec.pos ≤ s'.sto.vec.pos := by
    rw [hp.pos]; exact le_placeEnd F.va.pos (jobs_align hW hP hacc hj) _
  refine ⟨?_, hle, hp.cap, ?_⟩
  · intro i hi
    have := hI.pos_le
    rw [hp.bytes (by omega), jobsIdeal_frame F.va.pos hW hP hacc hj hi]
    unfold Sto.bytes
    rw [if_pos hi, load_eq_view hI.toWInv (by omega)]
  · intro i r v p hr hpi hz
    obtain ⟨x, hx, rfl, rfl, rfl⟩ := jobsAt_get hm hp.ps hr hpi
    obtain ⟨hxm, hge, _⟩ := jobsAt_mem_le F.va.pos hW hP hacc hj x hx
    have hpow : Pow2 (P.layout x.1.r.t).align := (hP _).1
    have h1 := le_roundUp x.2 hpow.pos
    simp only [jobPos, rootPos, if_neg hz]
    exact Nat.le_trans hge h1

theorem SessionPost.root_in (hC : C.OK) (hP : P.WF C.arch) (hacc : P.Accepted C) {n : Nat} {k : Kind} {js : List Job} (hj : ∀ j ∈ js, j.OK C P fl n)
    {s s' : Ser} {m : Nat → Mem} {ps : List Nat} (hp : SessionPost C k P js s m ps s') {x : Job × Nat}
    (hx : x ∈ jobsAt P C.valueAlign s.sto.vec.pos js) (hz : (P.layout x.1.r.t).size ≠ 0) :
    jobPos P x + (P.layout x.1.r.t).size ≤ s'.sto.vec.pos := by
  have hW := hC.arch.ptr_pos
  have F := hC.facts
  obtain ⟨hxm, _, hle⟩ := jobsAt_mem_le F.va.pos hW hP hacc hj x hx
  have h1 := le_roundUp (jobPos P x + (P.layout x.1.r.t).size) F.va.pos
  have h2 := le_placeEnd F.va.pos (pushes_align x.1.sc (script_wf hW hP hacc n _ _ _ _ _ (hj _ hxm).1 (hj _ hxm).2 (placed_root (decode_guard (hj _ hxm).1).1)).1)
    (bodyAt P C.valueAlign x)
  rw [bodyAt_end hW hP (hj _ hxm)] at h2
  unfold bodyAt at h2
  rw [if_neg hz] at h2
  rw [hp.pos]; omega

/-- C36. The position returned for a non-zero-sized value is aligned for its type and the value ends at or before `pos()`, so
`storage.read::<T>(p)` is within its safety contract: it succeeds and yields the bytes of the output at `p`. -/
theorem C36_position_readable (hC : C.OK) (hP : P.WF C.arch) (hacc : P.Accepted C) {t0 : Sto} (h0 : Reach C P t0) {k : Kind}
    {rs : List (Root × Val)} (hv : Inputs C.arch P fl rs) {fuel : Nat} {ps : List Nat} {s' : Ser}
    (hrun : session C k P fuel (rs.map (·.1)) (Ser.fromStorage t0) = .ok ps s') :
    ∀ (i : Nat) (r : Root) (v : Val) (p : Nat), rs[i]? = some (r, v) → ps[i]? = some p → (P.layout r.t).size ≠ 0 →
      (P.layout r.t).align ∣ p ∧ p + (P.layout r.t).size ≤ s'.sto.vec.pos ∧
      ∃ cells, Sto.read C p (P.layout r.t) s'.sto = .ok cells s'.sto ∧ ∀ j < (P.layout r.t).size, cells j = s'.sto.bytes (p + j) := by
  have hW := hC.arch.ptr_pos
  have F := hC.facts
  obtain ⟨n, js, hm, hj, hp⟩ := session_post hC hP hacc (h0.inv hC hP hacc) hv hrun
  intro i r v p hr hpi hz
  obtain ⟨x, hx, rfl, rfl, rfl⟩ := jobsAt_get hm hp.ps hr hpi
  have hend := hp.root_in hC hP hacc hj hx hz
  have hal : (P.layout x.1.r.t).align ∣ jobPos P x := by
    simp only [jobPos, rootPos, if_neg hz]; exact dvd_roundUp _ _
  refine ⟨hal, hend, ?_⟩
  have h1 := hacc _ hz
  rw [accepts_iff] at h1
  obtain ⟨cells, h2, h3⟩ := read_ok hC hp.inv ⟨(hP x.1.r.t).1, (hP x.1.r.t).2.1⟩ hend hal (Nat.le_trans h1 F.mva_le) (Or.inl hz)
  refine ⟨cells, h2, fun j hj' => ?_⟩
  rw [h3 j hj', Sto.bytes, if_pos (by omega)]

/-- C36, zero-sized types: the position is 0, in range of the output, and aligned; reading needs, besides, that the buffer
address is aligned for the type (see `C36_zst_unallocated_ub`). -/
theorem C36_zst (hC : C.OK) (hP : P.WF C.arch) (hacc : P.Accepted C) {t0 : Sto} (h0 : Reach C P t0) {k : Kind}
    {rs : List (Root × Val)} (hv : Inputs C.arch P fl rs) {fuel : Nat} {ps : List Nat} {s' : Ser}
    (hrun : session C k P fuel (rs.map (·.1)) (Ser.fromStorage t0) = .ok ps s') :
    ∀ (i : Nat) (r : Root) (v : Val) (p : Nat), rs[i]? = some (r, v) → ps[i]? = some p → (P.layout r.t).size = 0 →
      p = 0 ∧ ((P.layout r.t).align ≤ C.storageAlign → 0 < s'.sto.vec.capacity ∨ (P.layout r.t).align = 1 →
        ∃ cells, Sto.read C p (P.layout r.t) s'.sto = .ok cells s'.sto) := by
  obtain ⟨n, js, hm, hj, hp⟩ := session_post hC hP hacc (h0.inv hC hP hacc) hv hrun
  intro i r v p hr hpi hz
  obtain ⟨x, hx, rfl, rfl, rfl⟩ := jobsAt_get hm hp.ps hr hpi
  have h0 : jobPos P x = 0 := by simp [jobPos, rootPos, hz]
  refine ⟨h0, fun h1 h2 => ?_⟩
  rw [h0]
  obtain ⟨cells, h2, _⟩ := read_ok hC hp.inv ⟨(hP x.1.r.t).1, (hP x.1.r.t).2.1⟩ (by omega) (Nat.dvd_zero _) h1 (Or.inr h2)
  exact ⟨cells, h2⟩

/-! ### C37: variants -/

theorem activeVariant_congr {A : Arch} {m m' : Mem} {a a' size : Nat} {t : TyId} (h : ∀ j < size, m (a + j) = m' (a' + j)) {tag : Tag}
    (ht : TagWF A P t size tag) : activeVariant A m a tag = activeVariant A m' a' tag := by
  cases tag with
  | single => rfl
  | bytes off len sel =>
    have : readBytes m (a + off) len = readBytes m' (a' + off) len :=
      readBytes_congr fun i hi => by rw [Nat.add_assoc, Nat.add_assoc]; exact h _ (by have := ht.1; omega)
    simp only [activeVariant, this]
  | word off sel =>
    have : readWord A m (a + off) = readWord A m' (a' + off) := by
      unfold readWord
      rw [readBytes_congr (m' := m') (a' := a' + off) fun i hi => by rw [Nat.add_assoc, Nat.add_assoc]; exact h _ (by have := ht.1; omega)]
    simp only [activeVariant, this]

theorem denotes_variant {A : Arch} {fl : Flags} {m : Mem} {t a : Nat} {v : Val} {tag : Tag} {vs : List (List Field)} (ht : P.defn t = .enum tag vs)
    (h : Denotes A P fl m t a v) : ∃ i xs, v = .enum i xs ∧ activeVariant A m a tag = some i := by
  obtain ⟨n, hn⟩ := h
  cases n with
  | zero => simp [decode] at hn
  | succ n =>
    rw [decode] at hn
    split at hn
    · simp only [ht, Option.bind_eq_bind, Option.bind_eq_some_iff, Option.pure_def, Option.some.injEq] at hn
      obtain ⟨i, h1, fs, h2, xs, h3, h4⟩ := hn
      exact ⟨i, xs, h4.symm, h1⟩
    · cases hn

theorem enum_zst_variant {A : Arch} (hP : P.WF A) {m m' : Mem} {t a a' : Nat} {tag : Tag} {vs : List (List Field)}
    (ht : P.defn t = .enum tag vs) (hz : (P.layout t).size = 0) : activeVariant A m a tag = activeVariant A m' a' tag := by
  have hw := (hP t).2.2.2
  rw [ht] at hw
  exact activeVariant_congr (size := 0) (by intro j hj; omega) (by rw [← hz]; exact hw.2)

/-- C37. Whatever the kind of serializer, and whichever way the compiler stores the discriminant, a serialized enum or
`Option` is in the same variant as the input. (For enums nested in other values see the equality of values in C24, C27
and C29: `Val.enum` carries the variant.) -/
theorem C37_variant (hC : C.OK) (hP : P.WF C.arch) (hacc : P.Accepted C) {t0 : Sto} (h0 : Reach C P t0) {k : Kind}
    {rs : List (Root × Val)} (hv : Inputs C.arch P fl rs) {fuel : Nat} {ps : List Nat} {s' : Ser}
    (hrun : session C k P fuel (rs.map (·.1)) (Ser.fromStorage t0) = .ok ps s') :
    ∀ (i : Nat) (r : Root) (v : Val) (p : Nat), rs[i]? = some (r, v) → ps[i]? = some p →
      ∀ tag vs, P.defn r.t = .enum tag vs → ∃ d xs, v = .enum d xs ∧ activeVariant C.arch r.im r.a tag = some d ∧
        activeVariant C.arch s'.sto.bytes p tag = some d := by
  have hW := hC.arch.ptr_pos
  intro i r v p hr hpi tag vs ht
  obtain ⟨d, xs, e, hd⟩ := denotes_variant ht (hv _ (List.mem_of_getElem? hr))
  simp only at e
  subst e
  refine ⟨d, xs, rfl, hd, ?_⟩
  have hw := (hP r.t).2.2.2
  rw [ht] at hw
  by_cases hz : (P.layout r.t).size = 0
  · rw [← hd]; exact enum_zst_variant hP ht hz
  · have pure_case : k = .pureCopy ∨ k = .posTracking → activeVariant C.arch s'.sto.bytes p tag = some d := by
      intro hk
      rw [← hd]
      exact activeVariant_congr (C30_verbatim hC hP hacc h0 hk hv hrun i r _ p hr hpi hz).1 hw.2
    cases k with
    | pureCopy => exact pure_case (Or.inl rfl)
    | posTracking => exact pure_case (Or.inr rfl)
    | ptrOffset =>
      obtain ⟨d', xs', e, h⟩ := denotes_variant ht ((C27_offset_roundtrip hC hP hacc h0 hv hrun).2 i r _ p hr hpi)
      injection e with e1 _
      rw [e1]; exact h
    | complete =>
      obtain ⟨d', xs', e, h⟩ := denotes_variant ht ((C34_complete hC hP hacc h0 hv hrun).2 i r _ p hr hpi (Or.inl hz))
      injection e with e1 _
      rw [e1, ← h]
      have hend := (C36_position_readable hC hP hacc h0 hv hrun i r _ p hr hpi hz).2.1
      refine activeVariant_congr (fun j hj => ?_) hw.2
      unfold Sto.bytes Sto.buffer
      rw [if_pos (by omega), if_pos (by omega), Nat.add_assoc]

/-! ### C32, C33: when serializing succeeds -/

/-- Every valid value consists of definite blocks. -/
theorem blocks_exist (hW : 0 < C.arch.ptrBytes) (hP : P.WF C.arch) {im : Mem} {t a : Nat} {v : Val} (h : Denotes C.arch P fl im t a v) :
    ∃ xs, Blocks C.arch P im t a xs := by
  obtain ⟨n, hn⟩ := h
  obtain ⟨sc, hs, _⟩ := serData_eq hW .pureCopy hP hn
  obtain ⟨as, h1, _⟩ := script_own n _ _ _ hs
  exact ⟨_, n, as, h1, rfl⟩

/-- C32. Let `need` be where the output must end: the blocks of the values placed one after the other from `pos()` on, each
aligned for its type. With an allocator that does not fail, a session on valid values returns if `need ≤ MAX_CAPACITY`, and
then ends at exactly `need`; otherwise it panics with "capacity exceeded". (`N` bounds the depth of the values.) -/
theorem C32_fits_iff (hC : C.OK) (hnf : C.NeverFails) (hP : P.WF C.arch) (hacc : P.Accepted C) {t0 : Sto} (h0 : Reach C P t0) (k : Kind)
    {rs : List (Root × Val)} (hv : Inputs C.arch P fl rs) {bs : List (List Shape)} (hl : bs.length = rs.length)
    (hb : ∀ (i : Nat) (x : Root × Val) (xs : List Shape), rs[i]? = some x → bs[i]? = some xs → Blocks C.arch P x.1.im x.1.t x.1.a xs) :
    ∃ N, ∀ fuel, N ≤ fuel →
      (placeEnd C.valueAlign t0.vec.pos bs.flatten ≤ C.maxCapacity →
        ∃ ps s', session C k P fuel (rs.map (·.1)) (Ser.fromStorage t0) = .ok ps s' ∧
          s'.sto.vec.pos = placeEnd C.valueAlign t0.vec.pos bs.flatten) ∧
      (C.maxCapacity < placeEnd C.valueAlign t0.vec.pos bs.flatten →
        ∃ s', session C k P fuel (rs.map (·.1)) (Ser.fromStorage t0) = .panic .capacity s') := by
  have hW := hC.arch.ptr_pos
  obtain ⟨N, hN⟩ := session_cases hC hP hacc k (h0.inv hC hP hacc) hv
  refine ⟨N, fun fuel hf => ?_⟩
  obtain ⟨js, h1, h2, h3⟩ := hN fuel hf
  rw [jobs_blocks hW hP h2 h1 hl hb]
  cases hr : session C k P fuel (rs.map (·.1)) (Ser.fromStorage t0) with
  | ok ps s' =>
    rw [hr] at h3
    have hp : s'.sto.vec.pos = placeEnd C.valueAlign t0.vec.pos (jobsShapes P js) := h3.pos
    have h4 := h3.inv.pos_le; have h5 := h3.inv.cap_le
    exact ⟨fun _ => ⟨ps, s', rfl, hp⟩, fun hc => by omega⟩
  | panic pk s' =>
    rw [hr] at h3
    obtain ⟨e, _, hlt⟩ := h3.panic
    subst e
    exact ⟨fun hc => by omega, fun _ => ⟨s', rfl⟩⟩
  | abort => rw [hr] at h3; exact absurd hnf h3
  | ub => rw [hr] at h3; exact h3.elim
  | fuel => rw [hr] at h3; exact h3.elim

/-- C33. A session on valid values never breaks the safety contract of a memory primitive, and the only panic is the capacity
panic — no debug assertion, overflow check or internal assertion fires; it aborts only if the allocator failed. -/
theorem C33_safe (hC : C.OK) (hP : P.WF C.arch) (hacc : P.Accepted C) {t0 : Sto} (h0 : Reach C P t0) (k : Kind)
    {rs : List Root} (hv : ∀ r ∈ rs, Valid C.arch P r) :
    (∀ fuel, session C k P fuel rs (Ser.fromStorage t0) ≠ .ub ∧
      (∀ pk s', session C k P fuel rs (Ser.fromStorage t0) = .panic pk s' → pk = .capacity) ∧
      (session C k P fuel rs (Ser.fromStorage t0) = .abort → ¬ C.NeverFails)) ∧
    ∃ N, ∀ fuel, N ≤ fuel → session C k P fuel rs (Ser.fromStorage t0) ≠ .fuel := by
  obtain ⟨xs, rfl, hx⟩ := valid_inputs hv
  have hI := h0.inv hC hP hacc
  constructor
  · intro fuel
    by_cases hne : session C k P fuel (xs.map (·.1)) (Ser.fromStorage t0) = .fuel
    · rw [hne]; simp
    · obtain ⟨n, js, _, _, h⟩ := session_out hC hP hacc hI hx hne
      cases hr : session C k P fuel (xs.map (·.1)) (Ser.fromStorage t0) with
      | ok ps s' => simp
      | panic pk s' =>
        rw [hr] at h
        refine ⟨by simp, ?_, by simp⟩
        intro pk' s'' e
        injection e with e1 _
        rw [← e1]; exact h.panic.1
      | abort => rw [hr] at h; exact ⟨by simp, by simp, fun _ => h⟩
      | ub => rw [hr] at h; exact h.elim
      | fuel => exact absurd hr hne
  · obtain ⟨N, hN⟩ := session_cases hC hP hacc k hI hx
    refine ⟨N, fun fuel hf he => ?_⟩
    obtain ⟨js, _, _, h⟩ := hN fuel hf
    rw [he] at h
    exact h.elim

end
end SerRaw
