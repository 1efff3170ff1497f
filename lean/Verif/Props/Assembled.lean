import Verif.Lemmas.Deferred
import Verif.Props.AnySerializer
import Verif.Props.CustomFits
/-
C70: serializers assembled by hand from the traits in `ser_traits` — position tracking, optionally pointers as offsets, and corrections that are
ignored, applied at once, or recorded for the deserializer — are right over every conforming random-access storage.

`kitSerializer`, `Kit`, `KSer` (Model/Assembled.lean): the combinations. `applyFixes`, `Deferrable` (Spec/Assembled.lean): what a deserializer does
with recorded corrections. `aSession`, `aValues` (Model/AnySerializer.lean): a session on any serializer.
-/
namespace SerRaw

section
variable {σ : Type} {I : RandomImpl σ} {Inv : σ → Prop} {content : σ → Mem} {P : Prog} {fl : Flags}

/-- C70. Serializing valid values never has undefined behaviour and never fails a debug assertion: it returns, panics for lack of capacity, or the
process aborts (allocation failure). -/
theorem C70_outcome (h : I.Conforms Inv content) (hP : P.WF I.C.arch) (hacc : P.Accepted I.C) {t : σ} (ht : KReach I P t) (K : Kit)
    {rs : List Root} (hv : ∀ r ∈ rs, Valid I.C.arch P r) :
    ∃ N, ∀ fuel, N ≤ fuel →
      (∃ ps s', aSession (kitSerializer I K) P fuel rs (KSer.fromStorage t) = .ok ps s') ∨
      (∃ s', aSession (kitSerializer I K) P fuel rs (KSer.fromStorage t) = .panic .capacity s') ∨
      aSession (kitSerializer I K) P fuel rs (KSer.fromStorage t) = .abort := by
  obtain ⟨hI, hd⟩ := ht.inv h hP hacc
  obtain ⟨xs, rfl, hx⟩ := valid_inputs hv
  obtain ⟨N, hN⟩ := h.kroots hP hacc (K := K) hI hd hx
  refine ⟨N, fun fuel hf => ?_⟩
  obtain ⟨js, _, _, hs⟩ := hN fuel hf
  cases hr : aSession (kitSerializer I K) P fuel (xs.map (·.1)) (KSer.fromStorage t) with
  | ok ps s' => exact Or.inl ⟨ps, s', rfl⟩
  | panic pk s' =>
    rw [hr] at hs
    obtain ⟨⟨rfl, _⟩, _⟩ := hs
    exact Or.inr (Or.inl ⟨s', rfl⟩)
  | abort => exact Or.inr (Or.inr rfl)
  | ub => rw [hr] at hs; exact hs.elim
  | fuel => rw [hr] at hs; exact hs.elim

/-- C70. With pointers written: a reader that first applies the recorded corrections (there are none unless the serializer records them) and takes
each pointer to be a position in the output finds every value at the position its `serialize_value` returned; and unless corrections are ignored,
every `Vec` and `String` has its capacity equal to its length, and empty ones a dangling pointer. -/
theorem C70_roundtrip (h : I.Conforms Inv content) (hP : P.WF I.C.arch) (hacc : P.Accepted I.C) {t : σ} (ht : KReach I P t) {K : Kit}
    (hK : K.offsets = true) {rs : List (Root × Val)} (hv : Inputs I.C.arch P fl rs) {fuel : Nat} {ps : List Nat} {s' : KSer σ}
    (hrun : aSession (kitSerializer I K) P fuel (rs.map (·.1)) (KSer.fromStorage t) = .ok ps s') :
    ps.length = rs.length ∧ ∀ (i : Nat) (r : Root) (v : Val) (p : Nat), rs[i]? = some (r, v) → ps[i]? = some p →
      Denotes I.C.arch P ⟨fl.canon, decide (K.fix ≠ .drop)⟩ (applyFixes s'.log (I.bytes content s'.sto)) r.t p v := by
  have F := h.storage.facts
  have hA := h.storage.arch
  have hW := hA.ptr_pos
  obtain ⟨hI, hd⟩ := ht.inv h hP hacc
  obtain ⟨n, js, hm, hj, hs⟩ := h.krootsOut hP hacc (K := K) hI hd hv (by rw [hrun]; simp)
  rw [hrun] at hs
  have hs : KUsers I Inv content K (js.map (Job.gval P)) t ps s' := hs
  have hps : ps = (jobsAt P I.C.valueAlign (I.pos t) js).map (jobPos P) := hs.ps.trans (gPos_jobs js _)
  have hk : ∀ v ∈ js.map (Job.gval P), KValueOK I.C v ∧ v.sc.Deferrable I.C.arch := by
    intro v hv
    obtain ⟨j, hjm, rfl⟩ := List.mem_map.1 hv
    exact Job.OK.kval hA hP hacc (hj j hjm)
  have hle := hs.le F.va.pos (fun v hv => (hk v hv).1) (fun _ v hv => (hk v hv).2)
  rw [gIdeal_jobs] at hle
  refine ⟨jobs_length hm hps, ?_⟩
  intro i r v p hr hpi
  obtain ⟨x, hx, rfl, rfl, rfl⟩ := jobsAt_get hm hps hr hpi
  have h1 := h.storage.pos_le _ hs.kept.inv
  have h2 := h.storage.cap_le _ hs.kept.inv
  have h3 := F.max_lt
  have h4 : I.pos s'.sto = placeEnd I.C.valueAlign (I.pos t) (jobsShapes P js) := by
    rw [hs.pos, gIdeal_jobs, jobsIdeal_end]
  have := (jobs_read (md := K.mode) (va := I.C.valueAlign) (D := 0) (m := fun _ => none) F.va.pos hW hP hacc (by simp [Kit.mode, hK]) hj
    (by omega) (dm := (jobsIdeal I.C.arch I.C.valueAlign K.mode P js (fun _ => none, I.pos t)).1)
    (fun i _ _ => by rw [Nat.zero_add]) x hx (fun _ => Nat.dvd_zero _) (fun _ _ _ => Nat.dvd_zero _)).1
  rw [Nat.zero_add] at this
  exact Denotes.le hle ⟨n, this⟩

/-- C70. Corrections are recorded only if the serializer records them. -/
theorem C70_no_record (h : I.Conforms Inv content) (hP : P.WF I.C.arch) (hacc : P.Accepted I.C) {t : σ} (ht : KReach I P t) {K : Kit}
    (hK : K.fix ≠ .record) {rs : List Root} (hv : ∀ r ∈ rs, Valid I.C.arch P r) {fuel : Nat} {ps : List Nat} {s' : KSer σ}
    (hr : aSession (kitSerializer I K) P fuel rs (KSer.fromStorage t) = .ok ps s') : s'.log = [] := by
  obtain ⟨hI, hd⟩ := ht.inv h hP hacc
  obtain ⟨xs, rfl, hx⟩ := valid_inputs hv
  obtain ⟨_, js, _, _, hs⟩ := h.krootsOut hP hacc (K := K) hI hd hx (by rw [hr]; simp)
  rw [hr] at hs
  have hs : KUsers I Inv content K (js.map (Job.gval P)) t ps s' := hs
  rw [hs.log, Kit.recorded, if_neg hK]

/-- C70. Without pointers, and as long as corrections are not applied to the storage, a reader that knows only the types of the values and where the
output started recovers all values in order, and ends at the position. (It looks at the output without the recorded corrections.) -/
theorem C70_in_order (h : I.Conforms Inv content) (hP : P.WF I.C.arch) (hacc : P.Accepted I.C) {t : σ} (ht : KReach I P t) {K : Kit}
    (hK : K.offsets = false) (hf : K.fix ≠ .apply) {rs : List (Root × Val)} (hv : Inputs I.C.arch P fl rs) {fuel : Nat} {ps : List Nat}
    {s' : KSer σ} (hrun : aSession (kitSerializer I K) P fuel (rs.map (·.1)) (KSer.fromStorage t) = .ok ps s') :
    ∃ n, seqRoots I.C.arch P I.C.valueAlign (I.bytes content s'.sto) n (rs.map (·.1.t)) (I.pos t) = some (rs.map (·.2), I.pos s'.sto) := by
  have F := h.storage.facts
  have hW := h.storage.arch.ptr_pos
  obtain ⟨hI, hd⟩ := ht.inv h hP hacc
  obtain ⟨n, js, hm, hj, hs⟩ := h.krootsOut hP hacc (K := K) hI hd hv (by rw [hrun]; simp)
  rw [hrun] at hs
  have hs : KUsers I Inv content K (js.map (Job.gval P)) t ps s' := hs
  have hmode : K.storeMode = Mode.plain := by simp [Kit.storeMode, hK, hf, Mode.plain]
  have e1 : rs.map (·.1.t) = js.map (·.r.t) := by rw [← hm, List.map_map]; rfl
  have e2 : rs.map (·.2) = js.map (·.v) := by rw [← hm, List.map_map]; rfl
  have h4 : I.pos s'.sto = placeEnd I.C.valueAlign (I.pos t) (jobsShapes P js) := by
    rw [hs.pos, gIdeal_jobs, jobsIdeal_end]
  have hb : (jobsIdeal I.C.arch I.C.valueAlign Mode.plain P js (fun _ => none, I.pos t)).1.Le (I.bytes content s'.sto) := by
    intro i b hb
    have hrel := hs.rel
    rw [gIdeal_jobs, hmode] at hrel
    have hlt : i < I.pos s'.sto := by
      apply Nat.lt_of_not_le; intro hle
      rw [hrel.fresh i hle] at hb; cases hb
    show (if i < I.pos s'.sto then content s'.sto i else none) = some b
    rw [if_pos hlt]
    exact hrel.sub i b hb
  rw [e1, e2, h4]
  exact ⟨n, seqRoots_le hb _ (seqRoots_of js _ (jobs_seq (m := fun _ => none) F.va.pos hW hP hacc hj (fun _ _ _ => rfl)))⟩

/-- C70. Whatever was in the storage before stays where it is, whether the session succeeds or panics, the position does not go back, and the
storage is still consistent. -/
theorem C70_keeps (h : I.Conforms Inv content) (hP : P.WF I.C.arch) (hacc : P.Accepted I.C) {t : σ} (ht : KReach I P t) {K : Kit}
    {rs : List Root} (hv : ∀ r ∈ rs, Valid I.C.arch P r) {fuel : Nat} {s' : KSer σ}
    (hrun : (∃ ps, aSession (kitSerializer I K) P fuel rs (KSer.fromStorage t) = .ok ps s') ∨
      ∃ pk, aSession (kitSerializer I K) P fuel rs (KSer.fromStorage t) = .panic pk s') :
    (∀ i < I.pos t, content s'.sto i = content t i) ∧ I.pos t ≤ I.pos s'.sto ∧ I.pos s'.sto ≤ I.capacity s'.sto ∧
    I.capacity s'.sto ≤ I.C.maxCapacity ∧ I.C.valueAlign ∣ I.pos s'.sto := by
  obtain ⟨hI, hd⟩ := ht.inv h hP hacc
  obtain ⟨xs, rfl, hx⟩ := valid_inputs hv
  obtain ⟨_, js, _, _, hs⟩ := h.krootsOut hP hacc (K := K) hI hd hx (fuel := fuel) (by
    rcases hrun with ⟨_, hr⟩ | ⟨_, hr⟩ <;> rw [hr] <;> simp)
  have hk : RandomImpl.GKept I Inv content (I.pos t) (GSer.fromStorage t) s'.toGSer := by
    rcases hrun with ⟨_, hr⟩ | ⟨_, hr⟩
    · rw [hr] at hs; exact hs.kept
    · rw [hr] at hs; exact hs.1.2
  exact ⟨hk.below, hk.pos, h.storage.pos_le _ hk.inv, h.storage.cap_le _ hk.inv, hk.dvd⟩

/-- C70. On a storage with exact `reserve` the session returns if the output fits and panics with "capacity exceeded" otherwise; recording or
applying corrections takes no room. -/
theorem C70_fits_iff (h : I.Conforms Inv content) (hx : I.Exact Inv) (hna : I.NeverAborts Inv)
    (hP : P.WF I.C.arch) (hacc : P.Accepted I.C) {t : σ} (ht : KReach I P t) (K : Kit)
    {rs : List (Root × Val)} (hv : Inputs I.C.arch P fl rs) {bs : List (List Shape)} (hl : bs.length = rs.length)
    (hb : ∀ (i : Nat) (x : Root × Val) (xs : List Shape), rs[i]? = some x → bs[i]? = some xs → Blocks I.C.arch P x.1.im x.1.t x.1.a xs) :
    ∃ N, ∀ fuel, N ≤ fuel →
      (placeEnd I.C.valueAlign (I.pos t) bs.flatten ≤ I.C.maxCapacity →
        ∃ ps s', aSession (kitSerializer I K) P fuel (rs.map (·.1)) (KSer.fromStorage t) = .ok ps s' ∧
          I.pos s'.sto = placeEnd I.C.valueAlign (I.pos t) bs.flatten) ∧
      (I.C.maxCapacity < placeEnd I.C.valueAlign (I.pos t) bs.flatten →
        ∃ s', aSession (kitSerializer I K) P fuel (rs.map (·.1)) (KSer.fromStorage t) = .panic .capacity s') := by
  have hW := h.storage.arch.ptr_pos
  obtain ⟨hI, hd⟩ := ht.inv h hP hacc
  obtain ⟨N, hN⟩ := h.kroots hP hacc (K := K) hI hd hv
  refine ⟨N, fun fuel hf => ?_⟩
  obtain ⟨js, h1, h2, h3⟩ := hN fuel hf
  rw [jobs_blocks hW hP h2 h1 hl hb]
  cases hr : aSession (kitSerializer I K) P fuel (rs.map (·.1)) (KSer.fromStorage t) with
  | ok ps s' =>
    rw [hr] at h3
    have h3 : KUsers I Inv content K (js.map (Job.gval P)) t ps s' := h3
    have hp : I.pos s'.sto = placeEnd I.C.valueAlign (I.pos t) (jobsShapes P js) := by
      rw [h3.pos, gIdeal_jobs, jobsIdeal_end]
    have h4 := h.storage.pos_le _ h3.kept.inv; have h5 := h.storage.cap_le _ h3.kept.inv
    exact ⟨fun _ => ⟨ps, s', rfl, hp⟩, fun hc => by omega⟩
  | panic pk s' =>
    rw [hr] at h3
    obtain ⟨⟨rfl, _⟩, hlt⟩ := h3
    have := hlt hx
    exact ⟨fun hc => by omega, fun _ => ⟨s', rfl⟩⟩
  | abort => rw [hr] at h3; exact absurd hna h3
  | ub => rw [hr] at h3; exact h3.elim
  | fuel => rw [hr] at h3; exact h3.elim

/-- C70, hand-written implementations that follow the rules of the `unsafe` methods (and, if corrections are recorded, never correct a place whose
pointer is written later): the positions are those of the reference serializer, and after the recorded corrections are applied the output
contains the reference output, byte for byte. -/
theorem C70_user (h : I.Conforms Inv content) (hP : P.WF I.C.arch) (hacc : P.Accepted I.C) {t : σ} (ht : KReach I P t) (K : Kit)
    {rs : List UserRoot} (hr : ∀ r ∈ rs, r.OK I.C) (hty : ∀ r ∈ rs, r.L.OK ∧ r.sc.RealTypes ∧ r.sc.RealOverwrites)
    (hdf : K.fix = .record → ∀ r ∈ rs, r.sc.Deferrable I.C.arch) :
    let ref := userIdeal I.C.arch I.C.valueAlign K.mode rs (fun _ => none, I.pos t)
    (∃ ps s', aValues (kitSerializer I K) rs (KSer.fromStorage t) = .ok ps s' ∧ ps = userPositions I.C.arch I.C.valueAlign rs (I.pos t) ∧
      I.pos s'.sto = ref.2 ∧ (∀ i b, ref.1 i = some b → applyFixes s'.log (I.bytes content s'.sto) i = some b) ∧
      ∀ i < I.pos t, content s'.sto i = content t i) ∨
    (∃ s', aValues (kitSerializer I K) rs (KSer.fromStorage t) = .panic .capacity s' ∧ ∀ i < I.pos t, content s'.sto i = content t i) ∨
    aValues (kitSerializer I K) rs (KSer.fromStorage t) = .abort := by
  intro ref
  obtain ⟨hI, hd⟩ := ht.inv h hP hacc
  have hv : ∀ v ∈ rs, KValueOK I.C v := fun v hv =>
    ⟨⟨(hty v hv).1, fun _ => (hr v hv).1, fun _ => (hr v hv).2, (hty v hv).2.1, fun hz => absurd hz (hr v hv).1.size_ne⟩, (hty v hv).2.2⟩
  have hs := h.kusers (K := K) hI hd rs hv
  cases hr' : aValues (kitSerializer I K) rs (KSer.fromStorage t) with
  | ok ps s' =>
    rw [hr'] at hs
    have hs : KUsers I Inv content K rs t ps s' := hs
    refine Or.inl ⟨ps, s', rfl, hs.ps.trans (gPos_user (fun r hx => (hr r hx).1.size_ne) _ _), hs.pos.trans (userIdeal_end_indep rs rfl),
      hs.le h.storage.facts.va.pos hv hdf, hs.kept.below⟩
  | panic pk s' =>
    rw [hr'] at hs
    obtain ⟨⟨rfl, hs⟩, _⟩ := hs
    exact Or.inr (Or.inl ⟨s', rfl, hs.below⟩)
  | abort => exact Or.inr (Or.inr rfl)
  | ub => rw [hr'] at hs; exact hs.elim
  | fuel => rw [hr'] at hs; exact hs.elim

end

/-! ### Combinations that ignore corrections are the derived kinds -/

section
variable {σ : Type}

/-- `y` does what `x` does, apart from the record of corrections. -/
def kitRel (σ : Type) : ActRel (KSer σ) (GSer σ) where
  rel x y := ∀ s, y s.toGSer = (x s).mapState KSer.toGSer
  pure _ _ := rfl
  bind := by
    intro β γ x y f g hx hf s
    rw [bind_def, bind_def, hx s]
    cases x s with
    | ok a t => exact hf a t
    | _ => rfl
  ub _ := rfl
  fuel _ := rfl
  throw _ _ := rfl

theorem kitRel_lift {β : Type} (x : M (GSer σ) β) : (kitRel σ).rel (KSer.lift x) x := by
  intro s
  unfold KSer.lift
  cases x s.toGSer <;> rfl

theorem kitRel_uadd (A : Arch) (a b : Nat) : (kitRel σ).rel (SerRaw.uadd A a b) (SerRaw.uadd A a b) := by
  intro g; unfold SerRaw.uadd; split
  · rfl
  · split <;> rfl

theorem kitRel_usub (A : Arch) (a b : Nat) : (kitRel σ).rel (SerRaw.usub A a b) (SerRaw.usub A a b) := by
  intro g; unfold SerRaw.usub; split
  · rfl
  · split <;> rfl

theorem kitRel_posForAddr (A : Arch) (m : PosMapping) (a : Nat) : (kitRel σ).rel (m.posForAddr A a) (m.posForAddr A a) := by
  unfold PosMapping.posForAddr
  exact (kitRel σ).bind (kitRel_usub _ _ _) fun _ => kitRel_uadd _ _ _

theorem kit_derived (I : RandomImpl σ) : SerRel (kitRel σ) (kitSerializer I ⟨true, .drop⟩) (derivedSerializer I .ptrOffset) where
  A := rfl
  fromRef := rfl
  fromRefOffset a off := kitRel_uadd _ _ _
  serializeValue L a d x y h :=
    (kitRel σ).bind (kitRel_lift _) fun _ => (kitRel σ).bind (kitRel_lift _) fun _ => (kitRel σ).bind h fun _ => (kitRel σ).pure _
  pushSlice sl p := by
    refine (kitRel σ).bind (kitRel_lift _) fun _ => (kitRel σ).bind (kitRel_lift _) fun m => ?_
    intro s
    show _ = ((KSer.writePtr I ⟨true, .drop⟩ m p _ >>= fun _ => pure _ : M (KSer σ) Nat) s).mapState KSer.toGSer
    unfold KSer.writePtr
    simp only [if_true, bind_assoc_M]
    exact ((kitRel σ).bind (kitRel_posForAddr _ _ _) fun _ => (kitRel σ).bind (kitRel_lift _) fun _ => (kitRel σ).pure _) s
  pushAndProcess L a d p x y h := by
    refine (kitRel σ).bind (kitRel_lift _) fun m => (kitRel σ).bind (kitRel_lift _) fun pos => ?_
    intro s
    show _ = ((KSer.writePtr I ⟨true, .drop⟩ m p pos >>= fun _ => _ : M (KSer σ) Nat) s).mapState KSer.toGSer
    unfold KSer.writePtr
    simp only [if_true, bind_assoc_M]
    exact ((kitRel σ).bind (kitRel_posForAddr _ _ _) fun _ => (kitRel σ).bind (kitRel_lift _) fun _ => (kitRel σ).bind (kitRel_lift _) fun _ =>
      (kitRel σ).bind h fun _ => (kitRel σ).bind (kitRel_lift _) fun _ => (kitRel σ).pure _) s
  pushAndProcessSlice sl p x y h := by
    refine (kitRel σ).bind (kitRel_lift _) fun m => (kitRel σ).bind (kitRel_lift _) fun pos => ?_
    intro s
    show _ = ((KSer.writePtr I ⟨true, .drop⟩ m p pos >>= fun _ => _ : M (KSer σ) Nat) s).mapState KSer.toGSer
    unfold KSer.writePtr
    simp only [if_true, bind_assoc_M]
    exact ((kitRel σ).bind (kitRel_posForAddr _ _ _) fun _ => (kitRel σ).bind (kitRel_lift _) fun _ => (kitRel σ).bind (kitRel_lift _) fun _ =>
      (kitRel σ).bind h fun _ => (kitRel σ).bind (kitRel_lift _) fun _ => (kitRel σ).pure _) s
  pushRawSlice _ := kitRel_lift _
  overwrite _ _ _ := (kitRel σ).pure _
  overwriteWith _ := (kitRel σ).pure _
  finalize := (kitRel σ).pure _

/-- C70. Pointers as offsets with corrections ignored is the derived `ptr_offset` serializer of C62: the same outcome, for every input (valid or
not). -/
theorem C70_derived (I : RandomImpl σ) (P : Prog) (fuel : Nat) (rs : List Root) (t : σ) :
    gSession I .ptrOffset P fuel rs (GSer.fromStorage t) =
      (aSession (kitSerializer I ⟨true, .drop⟩) P fuel rs (KSer.fromStorage t)).mapState KSer.toGSer := by
  rw [← C68_derived_serializers]
  exact aSession_rel (kit_derived I) fuel rs (KSer.fromStorage t)

end

/-! ### Examples -/

/-- What a session of a combination on the array storage returned: the positions, the end of the output, and where corrections were recorded. -/
def Out.kitResult {α : Type} (o : Out (KSer ArrayStorage) α) : Option (α × Nat × List (Nat × Nat)) :=
  match o with
  | .ok a s => some (a, s.sto.pos, s.log.map fun f => (f.pos, f.size))
  | _ => none

theorem Out.kitResult_ok {α : Type} {o : Out (KSer ArrayStorage) α} {r : α × Nat × List (Nat × Nat)} (h : o.kitResult = some r) :
    ∃ s, o = .ok r.1 s ∧ s.sto.pos = r.2.1 ∧ s.log.map (fun f => (f.pos, f.size)) = r.2.2 := by
  cases o with
  | ok a s => simp only [Out.kitResult, Option.some.injEq] at h; subst h; exact ⟨s, rfl, rfl, rfl⟩
  | _ => cases h

/-- The example values on a serializer that writes offsets and records corrections: two of the linked nodes' headers need one, and a string is
empty with a capacity. -/
theorem recordRun : ∃ s', aSession (kitSerializer (arrayImpl cfg64) ⟨true, .record⟩) exP 6 (exRoots.map Prod.fst)
    (KSer.fromStorage (arrayImpl cfg64).new) = .ok [0, 0, 136, 184] s' ∧ s'.sto.pos = 200 ∧
    s'.log.map (fun f => (f.pos, f.size)) = [(48, 16), (8, 8), (96, 8)] := by
  have h : (aSession (kitSerializer (arrayImpl cfg64) ⟨true, .record⟩) exP 6 (exRoots.map Prod.fst)
      (KSer.fromStorage (arrayImpl cfg64).new)).kitResult = some ([0, 0, 136, 184], 200, [(48, 16), (8, 8), (96, 8)]) := by decide +kernel
  exact Out.kitResult_ok h

/-- C70 applies: after the corrections the node is found at 0 with every capacity right. -/
example : ∃ s' : KSer ArrayStorage, s'.log.length = 3 ∧
    Denotes x64 exP ⟨true, true⟩ (applyFixes s'.log ((arrayImpl cfg64).bytes ArrayStorage.mem s'.sto)) 1 0 exNode := by
  obtain ⟨s', hr, _, hl⟩ := recordRun
  have h := (C70_roundtrip (C62_array cfg64_ok) exP_wf exP_accepted .new (K := ⟨true, .record⟩) rfl exInputs hr).2
  exact ⟨s', by simpa using congrArg List.length hl, h 0 _ _ _ rfl rfl⟩

/-- Applied at once, no record is kept and the output itself reads back with every capacity right. -/
example : ∃ s' : KSer ArrayStorage, s'.log = [] ∧ Denotes x64 exP ⟨true, true⟩ ((arrayImpl cfg64).bytes ArrayStorage.mem s'.sto) 1 0 exNode := by
  have h : (aSession (kitSerializer (arrayImpl cfg64) ⟨true, .apply⟩) exP 6 (exRoots.map Prod.fst)
      (KSer.fromStorage (arrayImpl cfg64).new)).kitResult = some ([0, 0, 136, 184], 200, []) := by decide +kernel
  obtain ⟨s', hr, _⟩ := Out.kitResult_ok h
  have hl := C70_no_record (C62_array cfg64_ok) exP_wf exP_accepted .new (K := ⟨true, .apply⟩) (by decide) exRoots_valid hr
  have h := (C70_roundtrip (C62_array cfg64_ok) exP_wf exP_accepted .new (K := ⟨true, .apply⟩) rfl exInputs hr).2 0 _ _ _ rfl rfl
  rw [hl] at h
  exact ⟨s', hl, h⟩

/-- Without pointers, read in order. -/
example : ∃ (s' : KSer ArrayStorage) (n : Nat), s'.log.length = 3 ∧
    seqRoots x64 exP 8 ((arrayImpl cfg64).bytes ArrayStorage.mem s'.sto) n [1, 10, 8, 9] 0 = some ([exNode, .prim [], exBig, exEnum], 200) := by
  have h : (aSession (kitSerializer (arrayImpl cfg64) ⟨false, .record⟩) exP 6 (exRoots.map Prod.fst)
      (KSer.fromStorage (arrayImpl cfg64).new)).kitResult = some ([0, 0, 136, 184], 200, [(48, 16), (8, 8), (96, 8)]) := by decide +kernel
  obtain ⟨s', hr, hp, hl⟩ := Out.kitResult_ok h
  obtain ⟨n, h⟩ := C70_in_order (C62_array cfg64_ok) exP_wf exP_accepted .new (K := ⟨false, .record⟩) rfl (by decide) exInputs hr
  rw [show (arrayImpl cfg64).pos s'.sto = 200 from hp] at h
  exact ⟨s', n, by simpa using congrArg List.length hl, h⟩

/-- `AlignedVec` in particular, and any other conforming storage. -/
example (K : Kit) : ∃ N, ∀ fuel, N ≤ fuel →
    (∃ ps s', aSession (kitSerializer (alignedVecRandom cfg64) K) exP fuel (exRoots.map Prod.fst) (KSer.fromStorage Sto.new) = .ok ps s') ∨
    (∃ s', aSession (kitSerializer (alignedVecRandom cfg64) K) exP fuel (exRoots.map Prod.fst) (KSer.fromStorage Sto.new) = .panic .capacity s') ∨
    aSession (kitSerializer (alignedVecRandom cfg64) K) exP fuel (exRoots.map Prod.fst) (KSer.fromStorage Sto.new) = .abort :=
  C70_outcome (C62_aligned_vec cfg64_ok) exP_wf exP_accepted .new K exRoots_valid

theorem exUser_deferrable : exUser.sc.Deferrable x64 := by
  refine ⟨trivial, ?_, trivial⟩
  intro p hp
  simp only [Script.slots, List.mem_cons, List.not_mem_nil, or_false] at hp
  subst hp
  right; decide

/-- C70 applies to the hand-written implementation of the C45 example, in every combination: the word at 8 is the pointer if pointers are written,
and the correction at 20 is in unless corrections are ignored. -/
example (K : Kit) : ∃ ps s', aValues (kitSerializer (arrayImpl cfg64) K) [exUser, exUser] (KSer.fromStorage (arrayImpl cfg64).new) = .ok ps s' ∧
    ps = [0, 80] ∧ s'.sto.pos = 160 ∧
    (K.fix ≠ .drop → applyFixes s'.log ((arrayImpl cfg64).bytes ArrayStorage.mem s'.sto) 20 = some 7) ∧
    (K.fix = .drop → applyFixes s'.log ((arrayImpl cfg64).bytes ArrayStorage.mem s'.sto) 20 = some 20) ∧
    (K.offsets = true → applyFixes s'.log ((arrayImpl cfg64).bytes ArrayStorage.mem s'.sto) 8 = some 24) := by
  have e8 : Pow2 8 := ⟨3, rfl⟩
  have e4 : Pow2 4 := ⟨2, rfl⟩
  have e2 : Pow2 2 := ⟨1, rfl⟩
  have e1 : Pow2 1 := ⟨0, rfl⟩
  have h := C70_user (C62_array cfg64_ok) exP_wf exP_accepted .new K (rs := [exUser, exUser])
    (by intro r hr; simp only [List.mem_cons, List.not_mem_nil, or_false, or_self] at hr; subst hr; exact exUser_ok)
    (by
      intro r hr; simp only [List.mem_cons, List.not_mem_nil, or_false, or_self] at hr; subst hr
      exact ⟨⟨e8, by decide⟩, ⟨⟨e8, by decide⟩, ⟨⟨e1, by decide⟩, trivial⟩, ⟨e4, by decide⟩, ⟨e8, by decide⟩, trivial⟩, ⟨trivial, ⟨e2, by decide⟩, trivial⟩⟩)
    (fun _ r hr => by simp only [List.mem_cons, List.not_mem_nil, or_false, or_self] at hr; subst hr; exact exUser_deferrable)
  have hok : ∃ ps s', aValues (kitSerializer (arrayImpl cfg64) K) [exUser, exUser] (KSer.fromStorage (arrayImpl cfg64).new) = .ok ps s' := by
    have h : (aValues (kitSerializer (arrayImpl cfg64) K) [exUser, exUser] (KSer.fromStorage (arrayImpl cfg64).new)).kitResult =
        some ([0, 80], 160, if K.fix = .record then [(20, 2), (100, 2)] else []) := by
      obtain ⟨o, f⟩ := K
      cases o <;> cases f <;> decide +kernel
    obtain ⟨s, hs, _⟩ := Out.kitResult_ok h
    exact ⟨_, s, hs⟩
  obtain ⟨ps0, s0, hok⟩ := hok
  rw [hok] at h
  rcases h with ⟨ps, s', he, h1, h2, h3, _⟩ | ⟨_, he, _⟩ | he
  · cases he
    refine ⟨ps0, s0, hok, ?_, ?_, fun hf => h3 20 _ ?_, fun hf => h3 20 _ ?_, fun ho => h3 8 _ ?_⟩
    · rw [h1]; decide +kernel
    · rw [show s0.sto.pos = _ from h2]
      obtain ⟨o, f⟩ := K
      cases o <;> cases f <;> decide +kernel
    · obtain ⟨o, f⟩ := K
      cases o <;> cases f <;> first | exact absurd rfl hf | decide +kernel
    · obtain ⟨o, f⟩ := K
      cases o <;> cases f <;> first | (cases hf; done) | decide +kernel
    · obtain ⟨o, f⟩ := K
      cases o <;> cases f <;> first | (cases ho; done) | decide +kernel
  · cases he
  · cases he

/-! ### Why recorded corrections must not cover pointers written later -/

/-- An implementation that follows the rules of the `unsafe` methods but first corrects the word whose pointer it then has written. -/
def exEarly : UserRoot where
  im := fun i => some (UInt8.ofNat i)
  L := ⟨8, 8⟩
  a := 4096
  sc := .overwrite 4096 ⟨8, 8⟩ (fun _ => some 7) (.push ⟨1, 1⟩ 5 300 4096 .done)

theorem exEarly_ok : exEarly.OK cfg64 ∧ exEarly.L.OK ∧ exEarly.sc.RealTypes ∧ exEarly.sc.RealOverwrites := by
  have e8 : Pow2 8 := ⟨3, rfl⟩
  have e1 : Pow2 1 := ⟨0, rfl⟩
  exact ⟨⟨⟨by decide, e8, by decide, by decide⟩, ⟨by decide, e8, by decide, by decide, by decide, by decide⟩,
    ⟨by decide, e1, by decide, by decide⟩, ⟨by decide, by decide, by decide, by decide⟩, by simp [Script.touch], trivial⟩,
    ⟨e8, by decide⟩, ⟨⟨e1, by decide⟩, trivial⟩, ⟨⟨e8, by decide⟩, trivial⟩⟩

theorem exEarly_not : ¬ exEarly.sc.Deferrable x64 := by
  intro h
  have := h.1 4096 (by simp [Script.slots])
  unfold DisjRange at this
  have : (4096 : Nat) + 8 ≤ 4096 ∨ 4096 + 8 ≤ 4096 := this
  omega

/-- What the reader finds in byte 0, the pointer's lowest. -/
def Out.kitByte {α : Type} (o : Out (KSer ArrayStorage) α) : Option Cell :=
  match o with
  | .ok _ s => some (applyFixes s.log ((arrayImpl cfg64).bytes ArrayStorage.mem s.sto) 0)
  | _ => none

/-- Applied at once, the pointer comes last and is right (8); recorded and applied by the reader, the correction comes last, and the pointer is
lost (7). The reference has 8. -/
example : (aValues (kitSerializer (arrayImpl cfg64) ⟨true, .apply⟩) [exEarly] (KSer.fromStorage (arrayImpl cfg64).new)).kitByte = some (some 8) ∧
    (aValues (kitSerializer (arrayImpl cfg64) ⟨true, .record⟩) [exEarly] (KSer.fromStorage (arrayImpl cfg64).new)).kitByte = some (some 7) ∧
    (userIdeal x64 8 (Kit.mk true .record).mode [exEarly] (fun _ => none, 0)).1 0 = some 8 := by decide +kernel

end SerRaw
