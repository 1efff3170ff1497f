import Verif.Lemmas.JumpRun
import Verif.Props.CustomSerializer
/-
C64: serializers derived over a storage whose `reserve` moves the position ("`reserve` is allowed to alter `pos`", ser_raw/src/storage/mod.rs:276) — for
example a storage in chunks which are never moved. Where each allocation goes is then up to the storage, but whatever it does, the output can be read.

`RandomImpl.Lawful`, `OwnIn`, `Copied`, `RootsLaid`: Spec/Jump.lean.
-/
namespace SerRaw

section
variable {σ : Type} {I : RandomImpl σ} {Inv : σ → Prop} {content : σ → Mem} {P : Prog} {fl : Flags}

theorem KReach.lawful (h : I.Lawful Inv content) (hP : P.WF I.C.arch) (hacc : P.Accepted I.C) {s : σ} (hr : KReach I P s) :
    Inv s ∧ I.C.valueAlign ∣ I.pos s := by
  induction hr with
  | new => exact ⟨h.storage.new.1, by rw [h.storage.new.2]; exact Nat.dvd_zero _⟩
  | @withCapacity c s _ e =>
    have := h.storage.withCapacity_sat c
    rw [e] at this
    exact ⟨this.1, by rw [this.2.1]; exact Nat.dvd_zero _⟩
  | op _ hl hr ih => have := h.storage.step_sat ih.1 ih.2 hl; rw [hr] at this; exact ⟨this.inv, this.dvd⟩
  | opPanic _ hl hr ih => have := h.storage.step_sat ih.1 ih.2 hl; rw [hr] at this; exact ⟨this.2.inv, this.2.dvd⟩
  | session _ hv hr ih =>
    obtain ⟨xs, rfl, hx⟩ := valid_inputs hv
    obtain ⟨n, js, _, _, hs⟩ := h.rootsOut hP hacc ih.1 ih.2 hx (by rw [hr]; simp)
    rw [hr] at hs
    obtain ⟨m', hs⟩ := hs
    exact ⟨hs.kept.inv, hs.kept.dvd⟩
  | sessionPanic _ hv hr ih =>
    obtain ⟨xs, rfl, hx⟩ := valid_inputs hv
    obtain ⟨n, js, _, _, hs⟩ := h.rootsOut hP hacc ih.1 ih.2 hx (by rw [hr]; simp)
    rw [hr] at hs
    exact ⟨hs.2.inv, hs.2.dvd⟩

/-- The output lies before the position, so it is part of what the consumer sees. -/
theorem LJobs.bytes {k : DKind} {js : List Job} {t : σ} {ps : List Nat} {s' : GSer σ} {m' : Mem} (h : LJobs I Inv content k P js t ps s' m') :
    m'.Le (I.bytes content s'.sto) := by
  intro i b hb
  have hlt : i < I.pos s'.sto := by
    apply Nat.lt_of_not_le; intro hle
    rw [h.fresh i hle] at hb; cases hb
  show (if i < I.pos s'.sto then content s'.sto i else none) = some b
  rw [if_pos hlt]
  exact h.le i b hb

/-- C64. Serializing valid values into any reachable storage never has undefined behaviour and never fails a debug assertion: given enough
recursion depth it returns, panics for lack of capacity, or the process aborts (allocation failure). -/
theorem C64_outcome (h : I.Lawful Inv content) (hP : P.WF I.C.arch) (hacc : P.Accepted I.C) {t : σ} (ht : KReach I P t) (k : DKind)
    {rs : List Root} (hv : ∀ r ∈ rs, Valid I.C.arch P r) :
    ∃ N, ∀ fuel, N ≤ fuel →
      (∃ ps s', gSession I k P fuel rs (GSer.fromStorage t) = .ok ps s') ∨
      (∃ s', gSession I k P fuel rs (GSer.fromStorage t) = .panic .capacity s') ∨
      gSession I k P fuel rs (GSer.fromStorage t) = .abort := by
  obtain ⟨hI, hd⟩ := ht.lawful h hP hacc
  obtain ⟨xs, rfl, hx⟩ := valid_inputs hv
  obtain ⟨N, hN⟩ := h.roots hP hacc (k := k) hI hd hx
  refine ⟨N, fun fuel hf => ?_⟩
  obtain ⟨js, _, _, hs⟩ := hN fuel hf
  cases hr : gSession I k P fuel (xs.map (·.1)) (GSer.fromStorage t) with
  | ok ps s' => exact Or.inl ⟨ps, s', rfl⟩
  | panic pk s' =>
    rw [hr] at hs
    obtain ⟨rfl, _⟩ := hs
    exact Or.inr (Or.inl ⟨s', rfl⟩)
  | abort => exact Or.inr (Or.inr rfl)
  | ub => rw [hr] at hs; exact hs.elim
  | fuel => rw [hr] at hs; exact hs.elim

theorem job_get {js : List Job} {rs : List (Root × Val)} (hm : js.map (fun j => (j.r, j.v)) = rs) {i : Nat} {r : Root} {v : Val} (hr : rs[i]? = some (r, v)) :
    ∃ j ∈ js, j.r = r ∧ j.v = v ∧ (js.map (Job.gval P))[i]? = some (j.gval P) := by
  subst hm
  rw [List.getElem?_map, Option.map_eq_some_iff] at hr
  obtain ⟨j, h1, h2⟩ := hr
  cases h2
  exact ⟨j, List.mem_of_getElem? h1, rfl, rfl, by rw [List.getElem?_map, h1]; rfl⟩

/-- C64 (C27 and C28 where `reserve` may move the position). After a session of a `ptr_offset` serializer there is a position for every value; a reader
that takes each pointer to be a position in the output finds the value there; and the blocks the value owns, as found by that reader, come after the
value (so no pointer is zero), in order, without overlap, each aligned, each after the pointer to it, and before the end of the output. -/
theorem C64_roundtrip (h : I.Lawful Inv content) (hP : P.WF I.C.arch) (hacc : P.Accepted I.C) {t : σ} (ht : KReach I P t)
    {rs : List (Root × Val)} (hv : Inputs I.C.arch P fl rs) {fuel : Nat} {ps : List Nat} {s' : GSer σ}
    (hrun : gSession I .ptrOffset P fuel (rs.map (·.1)) (GSer.fromStorage t) = .ok ps s') :
    ps.length = rs.length ∧ ∀ (i : Nat) (r : Root) (v : Val) (p : Nat), rs[i]? = some (r, v) → ps[i]? = some p →
      Denotes I.C.arch P ⟨fl.canon, false⟩ (I.bytes content s'.sto) r.t p v ∧
      ∃ n as, owned I.C.arch P (I.bytes content s'.sto) n r.t p = some as ∧ OwnIn (p + (P.layout r.t).size) (I.pos s'.sto) as := by
  have F := h.storage.facts
  have hW := h.storage.arch.ptr_pos
  obtain ⟨hI, hd⟩ := ht.lawful h hP hacc
  obtain ⟨n, js, hm, hj, hp⟩ := h.rootsOut hP hacc hI hd hv (by rw [hrun]; simp)
  rw [hrun] at hp
  obtain ⟨m', hp⟩ := hp
  have hp : LJobs I Inv content .ptrOffset P js t ps s' m' := hp
  refine ⟨by rw [rootsLaid_length hp.laid, ← hm]; simp, ?_⟩
  intro i r v p hr hpi
  obtain ⟨j, hjm, rfl, rfl, hg⟩ := job_get (P := P) hm hr
  have h1 := h.storage.pos_le _ hp.kept.inv
  have h2 := h.storage.cap_le _ hp.kept.inv
  have h3 := F.max_lt
  obtain ⟨s1, s2, g1, g2, g3, g4⟩ := rootsLaid_get hp.laid hg hpi
  simp only at g3
  obtain ⟨k1, as, k2, k3⟩ := rootLaid_read hW hP hacc (hj j hjm) g1 (by omega) fun i _ hi => g4 i hi
  exact ⟨Denotes.le hp.bytes ⟨n, k1⟩, n, as, owned_le hp.bytes n _ _ _ k2,
    ⟨k3.lo, fun o ho => Nat.le_trans (k3.hi o ho) g3, k3.al, k3.fwd, k3.ord⟩⟩

/-- C64. Different values do not overlap: a value and all blocks it owns end before the position of every later value (that is stored). -/
theorem C64_apart (h : I.Lawful Inv content) (hP : P.WF I.C.arch) (hacc : P.Accepted I.C) {t : σ} (ht : KReach I P t)
    {rs : List (Root × Val)} (hv : Inputs I.C.arch P fl rs) {fuel : Nat} {ps : List Nat} {s' : GSer σ}
    (hrun : gSession I .ptrOffset P fuel (rs.map (·.1)) (GSer.fromStorage t) = .ok ps s')
    {i j : Nat} {r r' : Root} {v v' : Val} {p p' : Nat} (hij : i < j) (hri : rs[i]? = some (r, v)) (hpi : ps[i]? = some p)
    (hrj : rs[j]? = some (r', v')) (hpj : ps[j]? = some p') (hz : (P.layout r.t).size ≠ 0) (hz' : (P.layout r'.t).size ≠ 0) :
    I.pos t ≤ p ∧ p + (P.layout r.t).size ≤ p' ∧
    ∃ n as, owned I.C.arch P (I.bytes content s'.sto) n r.t p = some as ∧ ∀ o ∈ as, o.ptr + o.L.size * o.len ≤ p' := by
  have F := h.storage.facts
  have hW := h.storage.arch.ptr_pos
  obtain ⟨hI, hd⟩ := ht.lawful h hP hacc
  obtain ⟨n, js, hm, hj, hp⟩ := h.rootsOut hP hacc hI hd hv (by rw [hrun]; simp)
  rw [hrun] at hp
  obtain ⟨m', hp⟩ := hp
  have hp : LJobs I Inv content .ptrOffset P js t ps s' m' := hp
  obtain ⟨x, hxm, rfl, rfl, hg⟩ := job_get (P := P) hm hri
  obtain ⟨y, hym, rfl, rfl, hg'⟩ := job_get (P := P) hm hrj
  have h1 := h.storage.pos_le _ hp.kept.inv
  have h2 := h.storage.cap_le _ hp.kept.inv
  have h3 := F.max_lt
  obtain ⟨s1, s2, g1, g2, g3, g4⟩ := rootsLaid_order hp.laid hij hg hpi hg' hpj hz'
  obtain ⟨q1, q2, e1, e2, _⟩ := rootsLaid_get hp.laid hg hpi
  simp only at g3 e2
  obtain ⟨_, as, k2, k3⟩ := rootLaid_read hW hP hacc (hj x hxm) g1 (by omega) fun i _ hi => g4 i hi
  have hroot : p + (P.layout x.r.t).size ≤ s2.2 := by
    unfold RootLaid at g1
    rw [if_neg (show (x.gval P).L.size ≠ 0 from hz)] at g1
    obtain ⟨e, _, _, c3, c4⟩ := g1
    have := laid_mono _ c4
    change p + (P.layout x.r.t).size ≤ e at c3
    simp only at this; omega
  have hlo : q1.2 ≤ p := by
    unfold RootLaid at e1
    rw [if_neg (show (x.gval P).L.size ≠ 0 from hz)] at e1
    obtain ⟨e, c1, _⟩ := e1
    exact c1
  exact ⟨Nat.le_trans e2 hlo, by omega, n, as, owned_le hp.bytes n _ _ _ k2, fun o ho => Nat.le_trans (k3.hi o ho) g2⟩

/-- C64 (C30 where `reserve` may move the position). After a session of a `pure_copy` or `pos_tracking` serializer, every value (that is stored) is copied
verbatim to the position its `serialize_value` returned, and the allocations it owns are copied verbatim after it, in order, aligned, without overlap. -/
theorem C64_copies (h : I.Lawful Inv content) (hP : P.WF I.C.arch) (hacc : P.Accepted I.C) {t : σ} (ht : KReach I P t) {k : DKind}
    (hk : k = .pureCopy ∨ k = .posTracking) {rs : List (Root × Val)} (hv : Inputs I.C.arch P fl rs) {fuel : Nat} {ps : List Nat} {s' : GSer σ}
    (hrun : gSession I k P fuel (rs.map (·.1)) (GSer.fromStorage t) = .ok ps s') :
    ps.length = rs.length ∧ ∀ (i : Nat) (r : Root) (v : Val) (p : Nat), rs[i]? = some (r, v) → ps[i]? = some p → (P.layout r.t).size ≠ 0 →
      (P.layout r.t).align ∣ p ∧
      (∀ j < (P.layout r.t).size, ∀ b, r.im (r.a + j) = some b → I.bytes content s'.sto (p + j) = some b) ∧
      ∃ n as qs, owned I.C.arch P r.im n r.t r.a = some as ∧
        Copied r.im (I.bytes content s'.sto) (p + (P.layout r.t).size) (I.pos s'.sto) (as.map fun o => (o.shape, o.ptr)) qs := by
  have hW := h.storage.arch.ptr_pos
  obtain ⟨hI, hd⟩ := ht.lawful h hP hacc
  obtain ⟨n, js, hm, hj, hp⟩ := h.rootsOut hP hacc hI hd hv (by rw [hrun]; simp)
  rw [hrun] at hp
  obtain ⟨m', hp⟩ := hp
  have hp : LJobs I Inv content k P js t ps s' m' := hp
  have hw : RandomImpl.wr k = false := by rcases hk with rfl | rfl <;> rfl
  have hl := hp.laid
  rw [hw] at hl
  refine ⟨by rw [rootsLaid_length hl, ← hm]; simp, ?_⟩
  intro i r v p hr hpi hz
  obtain ⟨j, hjm, rfl, rfl, hg⟩ := job_get (P := P) hm hr
  obtain ⟨s1, s2, g1, g2, g3, g4⟩ := rootsLaid_get hl hg hpi
  simp only at g3
  obtain ⟨c1, qs, c2⟩ := rootLaid_copied g1 hz
  obtain ⟨as, ho, hkey, _⟩ := (hj j hjm).blocks hW hP
  have hsub : ∀ i < s2.2, ∀ b, s2.1 i = some b → I.bytes content s'.sto i = some b := fun i hi b hb => hp.bytes i b (by rw [← hb]; exact g4 i hi)
  have hal : (P.layout j.r.t).align ∣ p := by
    unfold RootLaid at g1
    rw [if_neg (show (j.gval P).L.size ≠ 0 from hz)] at g1
    obtain ⟨_, _, c, _⟩ := g1
    exact c
  refine ⟨hal, fun x hx b hb => hsub _ ?_ b ((c1 x hx).trans hb), n, as, qs, ho, ?_⟩
  · have := c2.le
    change p + (P.layout j.r.t).size ≤ s2.2 at this; omega
  · rw [show (as.map fun o => (o.shape, o.ptr)) = (j.gval P).sc.pushes from hkey]
    have := (c2.mono fun i _ => hsub i).append (Copied.nil g3)
    rw [List.append_nil, List.append_nil] at this
    exact this

/-- C64. Whatever was in the storage before a session stays where it is, whether the session succeeds or panics, and the position does not go
back; after either, the storage is still consistent. -/
theorem C64_keeps (h : I.Lawful Inv content) (hP : P.WF I.C.arch) (hacc : P.Accepted I.C) {t : σ} (ht : KReach I P t) {k : DKind}
    {rs : List Root} (hv : ∀ r ∈ rs, Valid I.C.arch P r) {fuel : Nat} {s' : GSer σ}
    (hrun : (∃ ps, gSession I k P fuel rs (GSer.fromStorage t) = .ok ps s') ∨ ∃ pk, gSession I k P fuel rs (GSer.fromStorage t) = .panic pk s') :
    (∀ i < I.pos t, content s'.sto i = content t i) ∧ I.pos t ≤ I.pos s'.sto ∧ I.pos s'.sto ≤ I.capacity s'.sto ∧
    I.capacity s'.sto ≤ I.C.maxCapacity ∧ I.C.valueAlign ∣ I.pos s'.sto := by
  obtain ⟨hI, hd⟩ := ht.lawful h hP hacc
  obtain ⟨xs, rfl, hx⟩ := valid_inputs hv
  obtain ⟨n, js, _, _, hs⟩ := h.rootsOut hP hacc (k := k) hI hd hx (fuel := fuel) (by
    rcases hrun with ⟨_, hr⟩ | ⟨_, hr⟩ <;> rw [hr] <;> simp)
  have hk : RandomImpl.GKept I Inv content (I.pos t) (GSer.fromStorage t) s' := by
    rcases hrun with ⟨_, hr⟩ | ⟨_, hr⟩
    · rw [hr] at hs
      obtain ⟨m', hs⟩ := hs
      exact hs.kept
    · rw [hr] at hs; exact hs.2
  exact ⟨hk.below, hk.pos, h.storage.pos_le _ hk.inv, h.storage.cap_le _ hk.inv, hk.dvd⟩

/-- C64. Values with hand-written implementations that follow the rules of the `unsafe` methods (Spec/Discipline.lean): either everything is done, and the
output is one that the calls allow (`RootsLaid`: each slice at the next aligned place the storage chose, pointers to positions if the kind is `ptr_offset`);
or there is a panic for lack of capacity; or the process aborts. In no case is what was stored before changed. Never undefined behaviour. -/
theorem C64_user (h : I.Lawful Inv content) (hP : P.WF I.C.arch) (hacc : P.Accepted I.C) {t : σ} (ht : KReach I P t) (k : DKind)
    {rs : List UserRoot} (hr : ∀ r ∈ rs, r.OK I.C) (hty : ∀ r ∈ rs, r.L.OK ∧ r.sc.RealTypes) :
    (∃ ps s' m', gValues I k rs (GSer.fromStorage t) = .ok ps s' ∧
      RootsLaid I.C.arch (decide (k = .ptrOffset)) rs ps (fun _ => none, I.pos t) (m', I.pos s'.sto) ∧
      (∀ i b, m' i = some b → I.bytes content s'.sto i = some b) ∧ ∀ i < I.pos t, content s'.sto i = content t i) ∨
    (∃ s', gValues I k rs (GSer.fromStorage t) = .panic .capacity s' ∧ ∀ i < I.pos t, content s'.sto i = content t i) ∨
    gValues I k rs (GSer.fromStorage t) = .abort := by
  obtain ⟨hI, hd⟩ := ht.lawful h hP hacc
  have hv : ∀ v ∈ rs, RandomImpl.GValueOK I.C v := fun v hv =>
    ⟨(hty v hv).1, fun _ => (hr v hv).1, fun _ => (hr v hv).2, (hty v hv).2, fun hz => absurd hz (hr v hv).1.size_ne⟩
  have hs := h.gvalues (k := k) rs hv (s := GSer.fromStorage t) (m := fun _ => none) ⟨hI, hd, fun _ _ => rfl, fun i b hb => by cases hb⟩
  cases hr' : gValues I k rs (GSer.fromStorage t) with
  | ok ps s' =>
    rw [hr'] at hs
    obtain ⟨m', h1, h2, h4⟩ := hs
    refine Or.inl ⟨ps, s', m', rfl, h1, ?_, h4.below⟩
    intro i b hb
    have hlt : i < I.pos s'.sto := by
      apply Nat.lt_of_not_le; intro hle
      rw [h2.fresh i hle] at hb; cases hb
    show (if i < I.pos s'.sto then content s'.sto i else none) = some b
    rw [if_pos hlt]
    exact h2.sub i b hb
  | panic pk s' =>
    rw [hr'] at hs
    obtain ⟨rfl, hs⟩ := hs
    exact Or.inr (Or.inl ⟨s', rfl, hs.below⟩)
  | abort => exact Or.inr (Or.inr rfl)
  | ub => rw [hr'] at hs; exact hs.elim
  | fuel => rw [hr'] at hs; exact hs.elim

end

/-! ### The storages of C62, and one that moves the position -/

/-- The storages C62 is about are lawful. -/
theorem C64_covers {σ : Type} {I : RandomImpl σ} {Inv : σ → Prop} {content : σ → Mem} (h : I.Conforms Inv content) : I.Lawful Inv content := h.lawful

/-- The chunked storage of C61 (a hypothetical implementation, not part of /repo) with random access. Outside its safety contract `write_slice` has
undefined behaviour. -/
def chunkedRandom (C : Cfg) : RandomImpl Chunked where
  toStorageImpl := chunkedImpl C
  writeSlice p L len data := fun s =>
    if p + L.size * len ≤ s.cap ∧ L.align ∣ p then .ok () { s with mem := s.mem.blit p (L.size * len) data } else .ub

/-- C64. The chunked storage keeps the contract. -/
theorem C64_chunked {C : Cfg} (hC : C.OK) :
    (chunkedRandom C).Lawful (fun s => s.pos ≤ s.cap ∧ s.cap ≤ C.maxCapacity ∧ C.maxValueAlign ∣ s.cap) Chunked.mem where
  storage := C61_chunked hC
  writeSlice s p L len data h hL hz hal hlen hroom hd := by
    refine ⟨{ s with mem := s.mem.blit p (L.size * len) data }, if_pos ⟨hroom, hd⟩, h, rfl, rfl, ?_, ?_⟩
    · intro i hi; exact blit_at hi
    · intro i _ ho; exact blit_out (by omega)

/-- It does not keep the contract of C62: `reserve` can move the position. -/
example : ¬ ∃ Inv content, (chunkedRandom cfg64).Conforms Inv content ∧ Inv ⟨16, 8, fun _ => none⟩ := by
  rintro ⟨Inv, content, h, hi⟩
  have := h.inPlace _ 9 _ hi rfl
  exact absurd this (by decide)

/-- What a session on the chunked storage returned: the positions and the end of the output. -/
def Out.chunkedResult {α : Type} (o : Out (GSer Chunked) α) : Option (α × Nat) :=
  match o with
  | .ok a s => some (a, s.sto.pos)
  | _ => none

theorem Out.chunkedResult_ok {α : Type} {o : Out (GSer Chunked) α} {r : α × Nat} (h : o.chunkedResult = some r) :
    ∃ s, o = .ok r.1 s ∧ s.sto.pos = r.2 := by
  cases o with
  | ok a s => simp only [Out.chunkedResult, Option.some.injEq] at h; subst h; exact ⟨s, rfl, rfl⟩
  | _ => cases h

/-- Every kind of serializer serializes the example values (a linked node with strings, a zero-sized value, a `BigInt`, an enum) to a new chunked storage. The
position jumps: the `BigInt` is at 160 and the end at 224, against 136 and 200 on a storage that stays in place (`arrayRun`). -/
theorem chunkedRun (k : DKind) : ∃ s', gSession (chunkedRandom cfg64) k exP 6 (exRoots.map Prod.fst) (GSer.fromStorage (chunkedRandom cfg64).new) =
    .ok [0, 0, 160, 208] s' ∧ s'.sto.pos = 224 := by
  have h : (gSession (chunkedRandom cfg64) k exP 6 (exRoots.map Prod.fst) (GSer.fromStorage (chunkedRandom cfg64).new)).chunkedResult =
      some ([0, 0, 160, 208], 224) := by cases k <;> decide +kernel
  exact Out.chunkedResult_ok h

/-- C64 applies: the node is found at 0, the `BigInt` at 160, the enum at 208. -/
example : ∃ s' : Chunked, Denotes x64 exP ⟨true, false⟩ ((chunkedRandom cfg64).bytes Chunked.mem s') 1 0 exNode ∧
    Denotes x64 exP ⟨true, false⟩ ((chunkedRandom cfg64).bytes Chunked.mem s') 8 160 exBig ∧
    Denotes x64 exP ⟨true, false⟩ ((chunkedRandom cfg64).bytes Chunked.mem s') 9 208 exEnum := by
  obtain ⟨s', hr, _⟩ := chunkedRun .ptrOffset
  have h := (C64_roundtrip (C64_chunked cfg64_ok) exP_wf exP_accepted .new exInputs hr).2
  exact ⟨s'.sto, (h 0 _ _ _ rfl rfl).1, (h 2 _ _ _ rfl rfl).1, (h 3 _ _ _ rfl rfl).1⟩

/-- The blocks of the node end before the `BigInt`. -/
example : ∃ (s' : Chunked) (n : Nat) (as : List Own), owned x64 exP ((chunkedRandom cfg64).bytes Chunked.mem s') n 1 0 = some as ∧
    ∀ o ∈ as, o.ptr + o.L.size * o.len ≤ 160 := by
  obtain ⟨s', hr, _⟩ := chunkedRun .ptrOffset
  obtain ⟨_, _, n, as, h1, h2⟩ := C64_apart (C64_chunked cfg64_ok) exP_wf exP_accepted .new exInputs hr (i := 0) (j := 2)
    (by decide) rfl rfl rfl rfl (by decide) (by decide)
  exact ⟨s'.sto, n, as, h1, h2⟩

/-- Plain copies: the bytes of the node are at 0 and its blocks (in chunks) after it. -/
example : ∃ (s' : Chunked) (n : Nat) (as : List Own) (qs : List Nat), owned x64 exP exIm n 1 4096 = some as ∧
    Copied exIm ((chunkedRandom cfg64).bytes Chunked.mem s') 40 224 (as.map fun o => (o.shape, o.ptr)) qs := by
  obtain ⟨s', hr, hp⟩ := chunkedRun .pureCopy
  obtain ⟨_, _, n, as, qs, h1, h2⟩ := (C64_copies (C64_chunked cfg64_ok) exP_wf exP_accepted .new (Or.inl rfl) exInputs hr).2 0 _ _ _ rfl rfl (by decide)
  rw [show (chunkedRandom cfg64).pos s'.sto = 224 from hp] at h2
  exact ⟨s'.sto, n, as, qs, h1, h2⟩

/-- The hand-written implementation of the C45 example, twice. -/
example (k : DKind) : (∃ ps s' m', gValues (chunkedRandom cfg64) k [exUser, exUser] (GSer.fromStorage (chunkedRandom cfg64).new) = .ok ps s' ∧
    RootsLaid x64 (decide (k = .ptrOffset)) [exUser, exUser] ps (fun _ => none, 0) (m', s'.sto.pos)) := by
  have e8 : Pow2 8 := ⟨3, rfl⟩
  have e4 : Pow2 4 := ⟨2, rfl⟩
  have e1 : Pow2 1 := ⟨0, rfl⟩
  have h := C64_user (C64_chunked cfg64_ok) exP_wf exP_accepted .new k (rs := [exUser, exUser])
    (by intro r hr; simp only [List.mem_cons, List.not_mem_nil, or_false, or_self] at hr; subst hr; exact exUser_ok)
    (by
      intro r hr; simp only [List.mem_cons, List.not_mem_nil, or_false, or_self] at hr; subst hr
      exact ⟨⟨e8, by decide⟩, ⟨e8, by decide⟩, ⟨⟨e1, by decide⟩, trivial⟩, ⟨e4, by decide⟩, ⟨e8, by decide⟩, trivial⟩)
  have hok : ((gValues (chunkedRandom cfg64) k [exUser, exUser] (GSer.fromStorage (chunkedRandom cfg64).new)).chunkedResult).isSome = true := by
    cases k <;> decide +kernel
  rcases h with ⟨ps, s', m', h1, h2, _⟩ | ⟨_, he, _⟩ | he
  · exact ⟨ps, s', m', h1, h2⟩
  · rw [he] at hok; cases hok
  · rw [he] at hok; cases hok

end SerRaw
