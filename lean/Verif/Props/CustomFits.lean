import Verif.Props.CustomComplete
/-
C67: serializers derived over a custom storage panic exactly when the output does not fit (C32 for any conforming storage).

`Exact`, `NeverAborts` (Spec/CustomSerializer.lean): the storage's `reserve` panics only if `MAX_CAPACITY` would be exceeded, and does not abort
the process. `placeEnd` (Spec/Layout.lean): where blocks placed one after the other, each aligned for its type, end.
-/
namespace SerRaw

section
variable {σ : Type} {P : Prog} {fl : Flags}

/-- C67. Let `need` be where the output must end. On a storage with exact `reserve`, a session of a derived `pure_copy`, `pos_tracking` or
`ptr_offset` serializer on valid values returns if `need ≤ MAX_CAPACITY`, and then ends at exactly `need`; otherwise it panics with "capacity
exceeded". (`N` bounds the depth of the values.) -/
theorem C67_fits_iff {I : RandomImpl σ} {Inv : σ → Prop} {content : σ → Mem} (h : I.Conforms Inv content) (hx : I.Exact Inv) (hna : I.NeverAborts Inv)
    (hP : P.WF I.C.arch) (hacc : P.Accepted I.C) {t : σ} (ht : KReach I P t) (k : DKind)
    {rs : List (Root × Val)} (hv : Inputs I.C.arch P fl rs) {bs : List (List Shape)} (hl : bs.length = rs.length)
    (hb : ∀ (i : Nat) (x : Root × Val) (xs : List Shape), rs[i]? = some x → bs[i]? = some xs → Blocks I.C.arch P x.1.im x.1.t x.1.a xs) :
    ∃ N, ∀ fuel, N ≤ fuel →
      (placeEnd I.C.valueAlign (I.pos t) bs.flatten ≤ I.C.maxCapacity →
        ∃ ps s', gSession I k P fuel (rs.map (·.1)) (GSer.fromStorage t) = .ok ps s' ∧
          I.pos s'.sto = placeEnd I.C.valueAlign (I.pos t) bs.flatten) ∧
      (I.C.maxCapacity < placeEnd I.C.valueAlign (I.pos t) bs.flatten →
        ∃ s', gSession I k P fuel (rs.map (·.1)) (GSer.fromStorage t) = .panic .capacity s') := by
  have hW := h.storage.arch.ptr_pos
  obtain ⟨hI, hd⟩ := ht.inv h hP hacc
  obtain ⟨N, hN⟩ := h.roots hP hacc (k := k) hI hd hv
  refine ⟨N, fun fuel hf => ?_⟩
  obtain ⟨js, h1, h2, h3⟩ := hN fuel hf
  rw [jobs_blocks hW hP h2 h1 hl hb]
  cases hr : gSession I k P fuel (rs.map (·.1)) (GSer.fromStorage t) with
  | ok ps s' =>
    rw [hr] at h3
    have h3 : GJobs I Inv content k P js t ps s' := h3
    have hp := h3.pos
    have h4 := h.storage.pos_le _ h3.kept.inv; have h5 := h.storage.cap_le _ h3.kept.inv
    exact ⟨fun _ => ⟨ps, s', rfl, hp⟩, fun hc => by omega⟩
  | panic pk s' =>
    rw [hr] at h3
    obtain ⟨⟨rfl, _⟩, hlt⟩ := h3
    have := hlt hx
    exact ⟨fun hc => by omega, fun _ => ⟨s', rfl⟩⟩
  | abort => rw [hr] at h3; exact absurd hna h3
  | ub => rw [hr] at h3; exact h3.elim
  | fuel => rw [hr] at h3; exact h3.elim

/-- C67. The same for derived `complete` serializers, `finalize` included. -/
theorem C67_complete_fits_iff {I : ContigImpl σ} {Inv : σ → Prop} {content : σ → Mem} (h : I.Conforms Inv content) (hx : I.Exact Inv)
    (hna : I.NeverAborts Inv) (hP : P.WF I.C.arch) (hacc : P.Accepted I.C) {t : σ} (ht : CReach I P t)
    {rs : List (Root × Val)} (hv : Inputs I.C.arch P fl rs) {bs : List (List Shape)} (hl : bs.length = rs.length)
    (hb : ∀ (i : Nat) (x : Root × Val) (xs : List Shape), rs[i]? = some x → bs[i]? = some xs → Blocks I.C.arch P x.1.im x.1.t x.1.a xs) :
    ∃ N, ∀ fuel, N ≤ fuel →
      (placeEnd I.C.valueAlign (I.pos t) bs.flatten ≤ I.C.maxCapacity →
        ∃ ps s', cSession I P fuel (rs.map (·.1)) (CSer.fromStorage t) = .ok ps s' ∧
          I.pos s'.sto = placeEnd I.C.valueAlign (I.pos t) bs.flatten) ∧
      (I.C.maxCapacity < placeEnd I.C.valueAlign (I.pos t) bs.flatten →
        ∃ s', cSession I P fuel (rs.map (·.1)) (CSer.fromStorage t) = .panic .capacity s') := by
  have hW := h.random.storage.arch.ptr_pos
  obtain ⟨hI, hd⟩ := ht.inv h hP hacc
  obtain ⟨N, hN⟩ := h.roots hP hacc hI hd hv
  refine ⟨N, fun fuel hf => ?_⟩
  obtain ⟨js, h1, h2, h3⟩ := hN fuel hf
  rw [jobs_blocks hW hP h2 h1 hl hb]
  cases hr : cSession I P fuel (rs.map (·.1)) (CSer.fromStorage t) with
  | ok ps s' =>
    rw [hr] at h3
    have h3 : CJobs I Inv content P js t ps s' := h3
    have hp := h3.pos
    have h4 := h.random.storage.pos_le _ h3.inv; have h5 := h.random.storage.cap_le _ h3.inv
    exact ⟨fun _ => ⟨ps, s', rfl, hp⟩, fun hc => by omega⟩
  | panic pk s' =>
    rw [hr] at h3
    obtain ⟨⟨rfl, _⟩, hlt⟩ := h3
    have := hlt hx
    exact ⟨fun hc => by omega, fun _ => ⟨s', rfl⟩⟩
  | abort => rw [hr] at h3; exact absurd hna h3
  | ub => rw [hr] at h3; exact h3.elim
  | fuel => rw [hr] at h3; exact h3.elim

/-- C67, hand-written implementations. Values whose implementations follow the rules of the `unsafe` methods: the session returns if the
reference output (`userIdeal`) ends within `MAX_CAPACITY`, and otherwise panics with "capacity exceeded". -/
theorem C67_user_fits_iff {I : RandomImpl σ} {Inv : σ → Prop} {content : σ → Mem} (h : I.Conforms Inv content) (hx : I.Exact Inv)
    (hna : I.NeverAborts Inv) (hP : P.WF I.C.arch) (hacc : P.Accepted I.C) {t : σ} (ht : KReach I P t) (k : DKind)
    {rs : List UserRoot} (hr : ∀ r ∈ rs, r.OK I.C) (hty : ∀ r ∈ rs, r.L.OK ∧ r.sc.RealTypes) :
    let need := (userIdeal I.C.arch I.C.valueAlign (k.kind.mode 0) rs (fun _ => none, I.pos t)).2
    (need ≤ I.C.maxCapacity → ∃ ps s', gValues I k rs (GSer.fromStorage t) = .ok ps s' ∧ I.pos s'.sto = need) ∧
    (I.C.maxCapacity < need → ∃ s', gValues I k rs (GSer.fromStorage t) = .panic .capacity s') := by
  intro need
  obtain ⟨hI, hd⟩ := ht.inv h hP hacc
  have hv : ∀ v ∈ rs, RandomImpl.GValueOK I.C v := fun v hv =>
    ⟨(hty v hv).1, fun _ => (hr v hv).1, fun _ => (hr v hv).2, (hty v hv).2, fun hz => absurd hz (hr v hv).1.size_ne⟩
  have hs := h.gvalues (k := k) rs hv (s := GSer.fromStorage t) (m := fun _ => none) ⟨hI, hd, fun _ _ => rfl, fun i b hb => by cases hb⟩
  cases hr' : gValues I k rs (GSer.fromStorage t) with
  | ok ps s' =>
    rw [hr'] at hs
    obtain ⟨_, h2, h3, _⟩ := hs
    have h3 : I.pos s'.sto = need := h3
    have h4 := h.storage.pos_le _ h2.inv; have h5 := h.storage.cap_le _ h2.inv
    exact ⟨fun _ => ⟨ps, s', rfl, h3⟩, fun hc => by omega⟩
  | panic pk s' =>
    rw [hr'] at hs
    obtain ⟨⟨rfl, _⟩, hlt⟩ := hs
    have : I.C.maxCapacity < need := hlt hx
    exact ⟨fun hc => by omega, fun _ => ⟨s', rfl⟩⟩
  | abort => rw [hr'] at hs; exact absurd hna hs
  | ub => rw [hr'] at hs; exact hs.elim
  | fuel => rw [hr'] at hs; exact hs.elim

/-- C67, hand-written implementations, `complete`. -/
theorem C67_complete_user_fits_iff {I : ContigImpl σ} {Inv : σ → Prop} {content : σ → Mem} (h : I.Conforms Inv content) (hx : I.Exact Inv)
    (hna : I.NeverAborts Inv) (hP : P.WF I.C.arch) (hacc : P.Accepted I.C) {t : σ} (ht : CReach I P t)
    {rs : List UserRoot} (hr : ∀ r ∈ rs, r.OK I.C) (hty : ∀ r ∈ rs, r.L.OK ∧ r.sc.RealTypes ∧ r.sc.RealOverwrites) :
    let need := (userIdeal I.C.arch I.C.valueAlign (Kind.complete.mode 0) rs (fun _ => none, I.pos t)).2
    (need ≤ I.C.maxCapacity → ∃ ps s', cUserSession I rs (CSer.fromStorage t) = .ok ps s' ∧ I.pos s'.sto = need) ∧
    (I.C.maxCapacity < need → ∃ s', cUserSession I rs (CSer.fromStorage t) = .panic .capacity s') := by
  intro need
  obtain ⟨hI, hd⟩ := ht.inv h hP hacc
  have hv : ∀ v ∈ rs, ContigImpl.CValueOK I.C v := fun v hv =>
    ⟨⟨(hty v hv).1, fun _ => (hr v hv).1, fun _ => (hr v hv).2, (hty v hv).2.1, fun hz => absurd hz (hr v hv).1.size_ne⟩, (hty v hv).2.2⟩
  have hs := h.csession rs hv hI hd
  cases hr' : cUserSession I rs (CSer.fromStorage t) with
  | ok ps s' =>
    rw [hr'] at hs
    have hs : ContigImpl.COut I Inv content rs t ps s' := hs
    have h3 : I.pos s'.sto = need := hs.pos.trans (userIdeal_end_indep rs rfl)
    have h4 := h.random.storage.pos_le _ hs.inv; have h5 := h.random.storage.cap_le _ hs.inv
    exact ⟨fun _ => ⟨ps, s', rfl, h3⟩, fun hc => by omega⟩
  | panic pk s' =>
    rw [hr'] at hs
    obtain ⟨⟨rfl, _⟩, hlt⟩ := hs
    have : I.C.maxCapacity < need := hlt hx
    exact ⟨fun hc => by omega, fun _ => ⟨s', rfl⟩⟩
  | abort => rw [hr'] at hs; exact absurd hna hs
  | ub => rw [hr'] at hs; exact hs.elim
  | fuel => rw [hr'] at hs; exact hs.elim

end

/-! ### Storages with exact `reserve` -/

/-- C67. `AlignedVec`'s `reserve` is exact, and it aborts only if the allocator fails. -/
theorem C67_aligned_vec {C : Cfg} (hC : C.OK) : (alignedVecRandom C).Exact (Sto.WInv C) ∧
    (C.NeverFails → (alignedVecRandom C).NeverAborts (Sto.WInv C)) := by
  constructor
  · intro s n h hroom k s' e
    have := reserve_sat hC h n
    rw [show Sto.reserve C n s = .panic k s' from e] at this
    have h1 : C.maxCapacity < s.vec.pos + n := this.2.2
    have h2 : s.vec.pos + n ≤ C.maxCapacity := hroom
    omega
  · intro hnf s n h e
    have := reserve_sat hC h n
    rw [show Sto.reserve C n s = .abort from e] at this
    exact this hnf

theorem array_exact (C : Cfg) : (arrayImpl C).Exact (fun s => s.pos ≤ C.maxCapacity) := by
  intro s n _ hroom k s' e
  rw [show (arrayImpl C).reserve n s = .ok () s from if_pos hroom] at e
  cases e

theorem array_never (C : Cfg) : (arrayImpl C).NeverAborts (fun s => s.pos ≤ C.maxCapacity) := by
  intro s n _ e
  change (if s.pos + n ≤ C.maxCapacity then Out.ok () s else .panic .capacity s) = .abort at e
  split at e <;> cases e

theorem moving_exact (C : Cfg) : (movingImpl C).Exact
    (fun s => s.pos ≤ C.maxCapacity ∧ (s.addr = C.storageAlign ∨ s.addr = 2 * C.storageAlign)) := by
  intro s n _ hroom k s' e
  rw [show (movingImpl C).reserve n s = .ok () { s with addr := 3 * C.storageAlign - s.addr } from if_pos hroom] at e
  cases e

theorem moving_never' (C : Cfg) : (movingImpl C).NeverAborts
    (fun s => s.pos ≤ C.maxCapacity ∧ (s.addr = C.storageAlign ∨ s.addr = 2 * C.storageAlign)) := by
  intro s n _ e
  change (if s.pos + n ≤ C.maxCapacity then Out.ok () { s with addr := 3 * C.storageAlign - s.addr } else .panic .capacity s) = .abort at e
  split at e <;> cases e

/-- The blocks of the one value of the examples below. -/
theorem exOneBlocks (i : Nat) (x : Root × Val) (xs : List Shape) (h1 : [((⟨exIm, 1, 4096⟩, exNode) : Root × Val)][i]? = some x)
    (h2 : [[⟨⟨40, 8⟩, 1⟩, ⟨⟨40, 8⟩, 1⟩, ⟨⟨24, 8⟩, 2⟩, (⟨⟨1, 1⟩, 5⟩ : Shape)]][i]? = some xs) : Blocks x64 exP x.1.im x.1.t x.1.a xs := by
  cases i with
  | zero => simp at h1 h2; subst h1; subst h2; exact exBlocks
  | succ i => simp at h1

/-- C67 applies, on both sides of the limit: the node takes 136 bytes; an array of 128 bytes is too small. -/
example (k : DKind) : (∃ fuel ps s', gSession (arrayImpl cfg64) k exP fuel [⟨exIm, 1, 4096⟩] (GSer.fromStorage (arrayImpl cfg64).new) = .ok ps s' ∧ s'.sto.pos = 136) ∧
    ∃ fuel s', gSession (arrayImpl cfgTiny) k exP fuel [⟨exIm, 1, 4096⟩] (GSer.fromStorage (arrayImpl cfgTiny).new) = .panic .capacity s' := by
  constructor
  · obtain ⟨N, h⟩ := C67_fits_iff (C62_array cfg64_ok) (array_exact _) (array_never _) exP_wf exP_accepted .new k
      (rs := [(⟨exIm, 1, 4096⟩, exNode)]) (one_input (exInputs _ (List.mem_cons_self ..))) (bs := [_]) rfl exOneBlocks
    obtain ⟨ps, s', h1, h2⟩ := (h N (Nat.le_refl _)).1 (by decide)
    exact ⟨N, ps, s', h1, h2⟩
  · obtain ⟨N, h⟩ := C67_fits_iff (C62_array cfgTiny_ok) (array_exact _) (array_never _) exP_wf exP_accepted_tiny .new k
      (rs := [(⟨exIm, 1, 4096⟩, exNode)]) (one_input (exInputs _ (List.mem_cons_self ..))) (bs := [_]) rfl exOneBlocks
    obtain ⟨s', h1⟩ := (h N (Nat.le_refl _)).2 (by decide)
    exact ⟨N, s', h1⟩

/-- C67 applies to `complete` serializers. -/
example : (∃ fuel ps s', cSession (movingImpl cfg64) exP fuel [⟨exIm, 1, 4096⟩] (CSer.fromStorage (movingImpl cfg64).new) = .ok ps s' ∧ s'.sto.pos = 136) ∧
    ∃ fuel s', cSession (movingImpl cfgTiny) exP fuel [⟨exIm, 1, 4096⟩] (CSer.fromStorage (movingImpl cfgTiny).new) = .panic .capacity s' := by
  constructor
  · obtain ⟨N, h⟩ := C67_complete_fits_iff (C63_moving cfg64_ok) (moving_exact _) (moving_never' _) exP_wf exP_accepted .new
      (rs := [(⟨exIm, 1, 4096⟩, exNode)]) (one_input (exInputs _ (List.mem_cons_self ..))) (bs := [_]) rfl exOneBlocks
    obtain ⟨ps, s', h1, h2⟩ := (h N (Nat.le_refl _)).1 (by decide)
    exact ⟨N, ps, s', h1, h2⟩
  · obtain ⟨N, h⟩ := C67_complete_fits_iff (C63_moving cfgTiny_ok) (moving_exact _) (moving_never' _) exP_wf exP_accepted_tiny .new
      (rs := [(⟨exIm, 1, 4096⟩, exNode)]) (one_input (exInputs _ (List.mem_cons_self ..))) (bs := [_]) rfl exOneBlocks
    obtain ⟨s', h1⟩ := (h N (Nat.le_refl _)).2 (by decide)
    exact ⟨N, s', h1⟩

/-- C67 applies to hand-written implementations: two values of the C45 example take 160 bytes. -/
example (k : DKind) : ∃ ps s', gValues (arrayImpl cfg64) k [exUser, exUser] (GSer.fromStorage (arrayImpl cfg64).new) = .ok ps s' ∧ s'.sto.pos = 160 := by
  have e8 : Pow2 8 := ⟨3, rfl⟩
  have e4 : Pow2 4 := ⟨2, rfl⟩
  have e1 : Pow2 1 := ⟨0, rfl⟩
  obtain ⟨ps, s', h1, h2⟩ := (C67_user_fits_iff (C62_array cfg64_ok) (array_exact _) (array_never _) exP_wf exP_accepted .new k (rs := [exUser, exUser])
    (by intro r hr; simp only [List.mem_cons, List.not_mem_nil, or_false, or_self] at hr; subst hr; exact exUser_ok)
    (by
      intro r hr; simp only [List.mem_cons, List.not_mem_nil, or_false, or_self] at hr; subst hr
      exact ⟨⟨e8, by decide⟩, ⟨e8, by decide⟩, ⟨⟨e1, by decide⟩, trivial⟩, ⟨e4, by decide⟩, ⟨e8, by decide⟩, trivial⟩)).1 (by cases k <;> decide +kernel)
  exact ⟨ps, s', h1, h2.trans (by cases k <;> decide +kernel)⟩

/-! ### Why `reserve` has to be exact -/

/-- A hypothetical storage that gives up early: it keeps one `MAX_VALUE_ALIGNMENT` of its capacity back. -/
def cautiousImpl (C : Cfg) : RandomImpl ArrayStorage :=
  { arrayImpl C with reserve := fun n s => if s.pos + n + C.maxValueAlign ≤ C.maxCapacity then .ok () s else .panic .capacity s }

/-- It keeps the rest of the contract … -/
theorem cautious_conforms {C : Cfg} (hC : C.OK) : (cautiousImpl C).Conforms (fun s => s.pos ≤ C.maxCapacity) ArrayStorage.mem where
  storage :=
    { (C62_array hC).storage with
      reserve := fun s n h => by
        by_cases h1 : s.pos + n + C.maxValueAlign ≤ C.maxCapacity
        · exact Or.inl ⟨s, if_pos h1, h, by change s.pos + n ≤ C.maxCapacity; omega, Nat.le_refl _, Or.inl rfl, fun _ _ => rfl⟩
        · exact Or.inr (Or.inl ⟨s, if_neg h1, h, rfl, Nat.le_refl _, fun _ _ => rfl⟩) }
  inPlace s n s' _ e := by
    change (if s.pos + n + C.maxValueAlign ≤ C.maxCapacity then Out.ok () s else .panic .capacity s) = .ok () s' at e
    split at e
    · cases e; rfl
    · cases e
  writeSlice := (C62_array hC).writeSlice

/-- `AlignedVec<16, 16, 8, 144>`. -/
def cfg144 : Cfg := mkCfg x64 16 16 8 144

/-- … but on it the node, which needs 136 of the 144 bytes, does not serialize. -/
example : ∃ s', gSession (cautiousImpl cfg144) .ptrOffset exP 6 [⟨exIm, 1, 4096⟩] (GSer.fromStorage (cautiousImpl cfg144).new) = .panic .capacity s' ∧
    placeEnd 8 0 [⟨⟨40, 8⟩, 1⟩, ⟨⟨40, 8⟩, 1⟩, ⟨⟨24, 8⟩, 2⟩, ⟨⟨1, 1⟩, 5⟩] ≤ 144 := by
  have h : (match gSession (cautiousImpl cfg144) .ptrOffset exP 6 [⟨exIm, 1, 4096⟩] (GSer.fromStorage (cautiousImpl cfg144).new) with
      | .panic .capacity _ => true | _ => false) = true := by decide +kernel
  revert h
  cases hr : gSession (cautiousImpl cfg144) .ptrOffset exP 6 [⟨exIm, 1, 4096⟩] (GSer.fromStorage (cautiousImpl cfg144).new) with
  | panic pk s => cases pk <;> intro h <;> first | exact ⟨s, rfl, by decide⟩ | cases h
  | _ => intro h; cases h

end SerRaw
