import Verif.Lemmas.InOrder
import Verif.Props.Assembled
import Verif.Props.CustomComplete
import Verif.Props.SerEx
import Verif.Props.Durable
import Verif.Props.Lossless
/-
C71: the output of every serializer kind can be read in order.

`seqRoots` (Spec/Decode.lean) is a reader that knows only the types of the values and where the output started: it follows no pointer, uses no
capacity, and takes the blocks one after the other. So relative pointers, absolute pointers and corrected capacities are all optional for a reader,
and a reader need not know which kind of serializer wrote the output.
-/
namespace SerRaw

section
variable {C : Cfg} {P : Prog} {fl : Flags}

/-- C71. After a session of any of the four serializer kinds, reading in order gives all the values and ends at `pos()`. -/
theorem C71_in_order (hC : C.OK) (hP : P.WF C.arch) (hacc : P.Accepted C) {t0 : Sto} (h0 : Reach C P t0) (k : Kind)
    {rs : List (Root × Val)} (hv : Inputs C.arch P fl rs) {fuel : Nat} {ps : List Nat} {s' : Ser}
    (hrun : session C k P fuel (rs.map (·.1)) (Ser.fromStorage t0) = .ok ps s') :
    ∃ n, seqRoots C.arch P C.valueAlign s'.sto.bytes n (rs.map (·.1.t)) t0.vec.pos = some (rs.map (·.2), s'.sto.vec.pos) := by
  have hW := hC.arch.ptr_pos
  obtain ⟨n, js, hm, hj, hp⟩ := session_post hC hP hacc (h0.inv hC hP hacc) hv hrun
  refine ⟨n, ?_⟩
  have e1 : rs.map (·.1.t) = js.map (·.r.t) := by rw [← hm, List.map_map]; rfl
  have e2 : rs.map (·.2) = js.map (·.v) := by rw [← hm, List.map_map]; rfl
  have hend := ptr_end_lt hC hp.inv
  have hpos : s'.sto.vec.pos = placeEnd C.valueAlign t0.vec.pos (jobsShapes P js) := hp.pos
  have hfit : (k.mode s'.sto.vec.ptr).Fits C.arch (placeEnd C.valueAlign t0.vec.pos (jobsShapes P js)) := by
    intro D hD
    rw [← hpos]
    cases k <;> simp [Kind.mode] at hD <;> omega
  rw [e1, e2, hpos]
  refine seqRoots_of js _ (jobs_seq_any (m := t0.view) hC.facts.va.pos hW hP hacc hj hfit ?_)
  intro i _ hi
  rw [hp.bytes (by rw [hpos]; exact hi)]
  rfl

/-- C71. The values can be read in order at any later time, whatever the serializer kind was and whatever happened to the storage since: further
storage operations, sessions of any kind, panics, reallocations. In particular a `CompleteSerializer` output whose pointers have gone stale because
the buffer moved (`C54_moved_stale`) can still be read this way. -/
theorem C71_later (hC : C.OK) (hP : P.WF C.arch) (hacc : P.Accepted C) {t0 : Sto} (h0 : Reach C P t0) (k : Kind)
    {rs : List (Root × Val)} (hv : Inputs C.arch P fl rs) {fuel : Nat} {ps : List Nat} {s' : Ser}
    (hrun : session C k P fuel (rs.map (·.1)) (Ser.fromStorage t0) = .ok ps s') {t' : Sto} (hl : Later C P s'.sto t') :
    ∃ n, seqRoots C.arch P C.valueAlign t'.bytes n (rs.map (·.1.t)) t0.vec.pos = some (rs.map (·.2), s'.sto.vec.pos) := by
  obtain ⟨n, h1⟩ := C71_in_order hC hP hacc h0 k hv hrun
  have hR : Reach C P s'.sto := .session h0 (inputs_valid hv) hrun
  exact ⟨n, seqRoots_le (bytes_le_of (C54_stays hC hP hacc hR hl).1) _ h1⟩

/-- Reading on after some roots. -/
theorem seqRoots_append {A : Arch} {va n : Nat} {m : Mem} {ts us : List TyId} {p q r : Nat} {vs ws : List Val}
    (h1 : seqRoots A P va m n ts p = some (vs, q)) (h2 : seqRoots A P va m n us q = some (ws, r)) :
    seqRoots A P va m n (ts ++ us) p = some (vs ++ ws, r) := by
  induction ts generalizing p vs with
  | nil =>
    simp only [seqRoots, Option.some.injEq, Prod.mk.injEq] at h1
    obtain ⟨rfl, rfl⟩ := h1
    exact h2
  | cons t ts ih =>
    simp only [List.cons_append, seqRoots, Option.bind_eq_bind, Option.bind_eq_some_iff, Option.pure_def, Option.some.injEq, Prod.mk.injEq,
      Prod.exists] at h1 ⊢
    obtain ⟨v, p1, e1, vs', p2, e2, rfl, rfl⟩ := h1
    exact ⟨v, p1, e1, _, _, ih e2, rfl, rfl⟩

/-- `Sessions C P t xs t'`: sessions of any kinds, one after the other on one storage, lead from `t` to `t'`, having serialized the values `xs` in this
order. -/
inductive Sessions (C : Cfg) (P : Prog) (t : Sto) : List (Root × Val) → Sto → Prop
  | start : Sessions C P t [] t
  | next {xs : List (Root × Val)} {u : Sto} {fl : Flags} {k : Kind} {rs : List (Root × Val)} {fuel : Nat} {ps : List Nat} {s' : Ser} :
      Sessions C P t xs u → Inputs C.arch P fl rs →
      session C k P fuel (rs.map Prod.fst) (Ser.fromStorage u) = .ok ps s' → Sessions C P t (xs ++ rs) s'.sto

/-- C71. Values serialized by any number of sessions of any kinds into one storage can be read in order in one go: the reader needs to know neither
the kinds nor where one session ended and the next began. -/
theorem C71_sessions (hC : C.OK) (hP : P.WF C.arch) (hacc : P.Accepted C) {t t' : Sto} (h0 : Reach C P t) {xs : List (Root × Val)}
    (h : Sessions C P t xs t') :
    Reach C P t' ∧ ∃ n, seqRoots C.arch P C.valueAlign t'.bytes n (xs.map (·.1.t)) t.vec.pos = some (xs.map (·.2), t'.vec.pos) := by
  induction h with
  | start => exact ⟨h0, 0, rfl⟩
  | @next xs u fl k rs fuel ps s' _ hv hrun ih =>
    obtain ⟨hu, n, hn⟩ := ih
    have hR : Reach C P s'.sto := .session hu (inputs_valid hv) hrun
    obtain ⟨m, hm⟩ := C71_in_order hC hP hacc hu k hv hrun
    have hs := (C54_stays hC hP hacc hu (.session .refl (inputs_valid hv) hrun)).1
    refine ⟨hR, max n m, ?_⟩
    rw [List.map_append, List.map_append]
    exact seqRoots_append (seqRoots_mono (by omega) (seqRoots_le (bytes_le_of hs) _ hn)) (seqRoots_mono (by omega) hm)

end

section
variable {σ : Type} {P : Prog} {fl : Flags} {Inv : σ → Prop} {content : σ → Mem}

/-- C71, derived serializers of the kinds without absolute pointers over any conforming random-access storage. -/
theorem C71_derived {I : RandomImpl σ} (h : I.Conforms Inv content) (hP : P.WF I.C.arch) (hacc : P.Accepted I.C) {t : σ} (ht : KReach I P t) (k : DKind)
    {rs : List (Root × Val)} (hv : Inputs I.C.arch P fl rs) {fuel : Nat} {ps : List Nat} {s' : GSer σ}
    (hrun : gSession I k P fuel (rs.map (·.1)) (GSer.fromStorage t) = .ok ps s') :
    ∃ n, seqRoots I.C.arch P I.C.valueAlign (I.bytes content s'.sto) n (rs.map (·.1.t)) (I.pos t) = some (rs.map (·.2), I.pos s'.sto) := by
  have F := h.storage.facts
  have hW := h.storage.arch.ptr_pos
  obtain ⟨hI, hd⟩ := ht.inv h hP hacc
  obtain ⟨n, js, hm, hj, hp⟩ := h.rootsOut hP hacc hI hd hv (by rw [hrun]; simp)
  rw [hrun] at hp
  have hp : GJobs I Inv content k P js t ps s' := hp
  have e1 : rs.map (·.1.t) = js.map (·.r.t) := by rw [← hm, List.map_map]; rfl
  have e2 : rs.map (·.2) = js.map (·.v) := by rw [← hm, List.map_map]; rfl
  have h1 := h.storage.pos_le _ hp.kept.inv
  have h2 := h.storage.cap_le _ hp.kept.inv
  have h3 := F.max_lt
  have hpos := hp.pos
  have hfit : (RandomImpl.gmode k).Fits I.C.arch (placeEnd I.C.valueAlign (I.pos t) (jobsShapes P js)) := by
    intro D hD
    rw [← hpos]
    cases k <;> simp [RandomImpl.gmode, Kind.mode, DKind.kind] at hD <;> omega
  rw [e1, e2, hpos]
  exact ⟨n, seqRoots_le hp.bytes _ (seqRoots_of js _ (jobs_seq_any (m := fun _ => none) F.va.pos hW hP hacc hj hfit (fun _ _ _ => rfl)))⟩

/-- C71, the derived `complete` serializer over any conforming contiguous storage. -/
theorem C71_derived_complete {I : ContigImpl σ} (h : I.Conforms Inv content) (hP : P.WF I.C.arch) (hacc : P.Accepted I.C) {t : σ} (ht : CReach I P t)
    {rs : List (Root × Val)} (hv : Inputs I.C.arch P fl rs) {fuel : Nat} {ps : List Nat} {s' : CSer σ}
    (hrun : cSession I P fuel (rs.map (·.1)) (CSer.fromStorage t) = .ok ps s') :
    ∃ n, seqRoots I.C.arch P I.C.valueAlign (I.bytes content s'.sto) n (rs.map (·.1.t)) (I.pos t) = some (rs.map (·.2), I.pos s'.sto) := by
  have F := h.random.storage.facts
  have hW := h.random.storage.arch.ptr_pos
  obtain ⟨hI, hd⟩ := ht.inv h hP hacc
  obtain ⟨n, js, hm, hj, hp⟩ := h.rootsOut hP hacc hI hd hv (by rw [hrun]; simp)
  rw [hrun] at hp
  have hp : CJobs I Inv content P js t ps s' := hp
  have e1 : rs.map (·.1.t) = js.map (·.r.t) := by rw [← hm, List.map_map]; rfl
  have e2 : rs.map (·.2) = js.map (·.v) := by rw [← hm, List.map_map]; rfl
  have h1 := h.random.storage.pos_le _ hp.inv
  have h2 := h.fits _ hp.inv
  have hpos := hp.pos
  have hfit : (ContigImpl.cmode (I.asPtr s'.sto)).Fits I.C.arch (placeEnd I.C.valueAlign (I.pos t) (jobsShapes P js)) := by
    intro D hD
    rw [← hpos]
    simp [ContigImpl.cmode, Kind.mode] at hD
    omega
  have hb : (jobsIdeal I.C.arch I.C.valueAlign (ContigImpl.cmode (I.asPtr s'.sto)) P js (fun _ => none, I.pos t)).1.Le (I.bytes content s'.sto) := by
    intro i b hb
    have hlt : i < I.pos s'.sto := by
      apply Nat.lt_of_not_le; intro hle
      rw [hp.fresh i hle] at hb; cases hb
    show (if i < I.pos s'.sto then content s'.sto i else none) = some b
    rw [if_pos hlt]
    exact hp.le i b hb
  rw [e1, e2, hpos]
  exact ⟨n, seqRoots_le hb _ (seqRoots_of js _ (jobs_seq_any (m := fun _ => none) F.va.pos hW hP hacc hj hfit (fun _ _ _ => rfl)))⟩

/-- C71, serializers assembled from the traits, whatever they do with pointers and corrections: both the stored bytes and the bytes after the
recorded corrections are applied read the same. -/
theorem C71_assembled {I : RandomImpl σ} (h : I.Conforms Inv content) (hP : P.WF I.C.arch) (hacc : P.Accepted I.C) {t : σ} (ht : KReach I P t) (K : Kit)
    {rs : List (Root × Val)} (hv : Inputs I.C.arch P fl rs) {fuel : Nat} {ps : List Nat} {s' : KSer σ}
    (hrun : aSession (kitSerializer I K) P fuel (rs.map (·.1)) (KSer.fromStorage t) = .ok ps s') :
    ∃ n, seqRoots I.C.arch P I.C.valueAlign (I.bytes content s'.sto) n (rs.map (·.1.t)) (I.pos t) = some (rs.map (·.2), I.pos s'.sto) ∧
      seqRoots I.C.arch P I.C.valueAlign (applyFixes s'.log (I.bytes content s'.sto)) n (rs.map (·.1.t)) (I.pos t) = some (rs.map (·.2), I.pos s'.sto) := by
  have F := h.storage.facts
  have hA := h.storage.arch
  have hW := hA.ptr_pos
  obtain ⟨hI, hd⟩ := ht.inv h hP hacc
  obtain ⟨n, js, hm, hj, hs⟩ := h.krootsOut hP hacc (K := K) hI hd hv (by rw [hrun]; simp)
  rw [hrun] at hs
  have hs : KUsers I Inv content K (js.map (Job.gval P)) t ps s' := hs
  have e1 : rs.map (·.1.t) = js.map (·.r.t) := by rw [← hm, List.map_map]; rfl
  have e2 : rs.map (·.2) = js.map (·.v) := by rw [← hm, List.map_map]; rfl
  have h1 := h.storage.pos_le _ hs.kept.inv
  have h2 := h.storage.cap_le _ hs.kept.inv
  have h3 := F.max_lt
  have h4 : I.pos s'.sto = placeEnd I.C.valueAlign (I.pos t) (jobsShapes P js) := by
    rw [hs.pos, gIdeal_jobs, jobsIdeal_end]
  have hfit : ∀ b, (⟨if K.offsets then some 0 else none, b⟩ : Mode).Fits I.C.arch (placeEnd I.C.valueAlign (I.pos t) (jobsShapes P js)) := by
    intro b D hD
    rw [← h4]
    cases hK : K.offsets <;> simp [hK] at hD
    omega
  have hk : ∀ v ∈ js.map (Job.gval P), KValueOK I.C v ∧ v.sc.Deferrable I.C.arch := by
    intro v hv
    obtain ⟨j, hjm, rfl⟩ := List.mem_map.1 hv
    exact Job.OK.kval hA hP hacc (hj j hjm)
  have hle := hs.le F.va.pos (fun v hv => (hk v hv).1) (fun _ v hv => (hk v hv).2)
  rw [gIdeal_jobs] at hle
  have hb : (jobsIdeal I.C.arch I.C.valueAlign K.storeMode P js (fun _ => none, I.pos t)).1.Le (I.bytes content s'.sto) := by
    intro i b hb
    have hrel := hs.rel
    rw [gIdeal_jobs] at hrel
    have hlt : i < I.pos s'.sto := by
      apply Nat.lt_of_not_le; intro hle
      rw [hrel.fresh i hle] at hb; cases hb
    show (if i < I.pos s'.sto then content s'.sto i else none) = some b
    rw [if_pos hlt]
    exact hrel.sub i b hb
  rw [e1, e2, h4]
  exact ⟨n, seqRoots_le hb _ (seqRoots_of js _ (jobs_seq_any (m := fun _ => none) F.va.pos hW hP hacc hj (hfit _) (fun _ _ _ => rfl))),
    seqRoots_le hle _ (seqRoots_of js _ (jobs_seq_any (m := fun _ => none) F.va.pos hW hP hacc hj (hfit _) (fun _ _ _ => rfl)))⟩

end

/-! ### Examples -/

/-- C71 applies to all four kinds, for a storage that already holds bytes (so the output starts at 8): the node, the zero-sized value, the big integer
and the enum are read back in order. In the output of `CompleteSerializer` the pointers are absolute and the capacities corrected. -/
example (k : Kind) : ∃ (s' : Ser) (n : Nat), seqRoots x64 exP 8 s'.sto.bytes n [1, 10, 8, 9] 8 = some ([exNode, .prim [], exBig, exEnum], 208) := by
  obtain ⟨t, s', h0, ht, hr, hp, _⟩ := exRun k
  obtain ⟨n, h⟩ := C71_in_order cfg64_ok exP_wf exP_accepted h0 k exInputs hr
  rw [ht, hp] at h
  exact ⟨s', n, h⟩

/-- Two sessions of different kinds on one storage (a `CompleteSerializer`, then a `PtrOffsetSerializer`), read in one go. -/
example : ∃ (t' : Sto) (n : Nat), seqRoots x64 exP 8 t'.bytes n [1, 10, 8, 9, 1, 10, 8, 9] 0 =
    some ([exNode, .prim [], exBig, exEnum, exNode, .prim [], exBig, exEnum], 400) := by
  have h : (session cfg64 .complete exP 6 (exRoots.map Prod.fst) (Ser.fromStorage Sto.new)).andThen (fun s =>
      (session cfg64 .ptrOffset exP 6 (exRoots.map Prod.fst) (Ser.fromStorage s.sto)).andThen fun s => some s.sto.vec.pos) = some 400 := by
    decide +kernel
  obtain ⟨ps, s', h1, h2⟩ := Out.andThen_some h
  obtain ⟨qs, u, h3, h4⟩ := Out.andThen_some h2
  simp only [Option.some.injEq] at h4
  obtain ⟨_, n, hn⟩ := C71_sessions cfg64_ok exP_wf exP_accepted .new (.next (.next .start exInputs h1) exInputs h3)
  rw [h4] at hn
  exact ⟨u.sto, n, hn⟩

/-- The derived kinds over an array. -/
example (k : DKind) : ∃ (s' : ArrayStorage) (n : Nat),
    seqRoots x64 exP 8 ((arrayImpl cfg64).bytes ArrayStorage.mem s') n [1, 10, 8, 9] 0 = some ([exNode, .prim [], exBig, exEnum], 200) := by
  obtain ⟨s', hr, hp⟩ := arrayRun k
  obtain ⟨n, h⟩ := C71_derived (C62_array cfg64_ok) exP_wf exP_accepted .new k exInputs hr
  rw [show (arrayImpl cfg64).pos s'.sto = 200 from hp] at h
  exact ⟨s'.sto, n, h⟩

/-- The derived `complete` serializer over a storage whose buffer moves. -/
example : ∃ (s' : MovingStorage) (n : Nat),
    seqRoots x64 exP 8 ((movingImpl cfg64).bytes MovingStorage.mem s') n [1, 10, 8, 9] 0 = some ([exNode, .prim [], exBig, exEnum], 200) := by
  obtain ⟨s', hr, hp, _, _⟩ := movingRun
  obtain ⟨n, h⟩ := C71_derived_complete (C63_moving cfg64_ok) exP_wf exP_accepted .new exInputs hr
  rw [show (movingImpl cfg64).pos s'.sto = 200 from hp] at h
  exact ⟨s'.sto, n, h⟩

/-- With pointers and three recorded corrections: the same values before and after the corrections are applied. -/
example : ∃ (s' : KSer ArrayStorage) (n : Nat), s'.log.length = 3 ∧
    seqRoots x64 exP 8 ((arrayImpl cfg64).bytes ArrayStorage.mem s'.sto) n [1, 10, 8, 9] 0 = some ([exNode, .prim [], exBig, exEnum], 200) ∧
    seqRoots x64 exP 8 (applyFixes s'.log ((arrayImpl cfg64).bytes ArrayStorage.mem s'.sto)) n [1, 10, 8, 9] 0 =
      some ([exNode, .prim [], exBig, exEnum], 200) := by
  obtain ⟨s', hr, hp, hl⟩ := recordRun
  obtain ⟨n, h⟩ := C71_assembled (C62_array cfg64_ok) exP_wf exP_accepted .new ⟨true, .record⟩ exInputs hr
  rw [show (arrayImpl cfg64).pos s'.sto = 200 from hp] at h
  exact ⟨s', n, by simpa using congrArg List.length hl, h⟩

end SerRaw
