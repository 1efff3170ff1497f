import Verif.Lemmas.CustomSerializer
import Verif.Lemmas.Agree
import Verif.Props.CustomStorage
import Verif.Props.SerEx
import Verif.Props.UserImpl
/-
C62: serializers derived over a custom storage (`#[derive(Serializer)] #[ser_type(pure_copy | pos_tracking | ptr_offset)]`) are right for
*every* correct random-access storage whose `reserve` stays in place, not only `AlignedVec`.

`RandomImpl`, `gSession`, `KReach` (Model/CustomSerializer.lean): the storage a user writes, a session of a serializer on it, the states
such a storage can be in. `Conforms` (Spec/CustomSerializer.lean): the contract of the storage.
-/
namespace SerRaw

/-- What a consumer may look at: the bytes stored before the position. -/
def RandomImpl.bytes {σ : Type} (I : RandomImpl σ) (content : σ → Mem) (s : σ) : Mem := fun i => if i < I.pos s then content s i else none

section
variable {σ : Type} {I : RandomImpl σ} {Inv : σ → Prop} {content : σ → Mem} {P : Prog} {fl : Flags}

theorem KReach.inv (h : I.Conforms Inv content) (hP : P.WF I.C.arch) (hacc : P.Accepted I.C) {s : σ} (hr : KReach I P s) :
    Inv s ∧ I.C.valueAlign ∣ I.pos s := by
  induction hr with
  | new => exact ⟨h.storage.new.1, by rw [h.storage.new.2]; exact Nat.dvd_zero _⟩
  | @withCapacity c s _ e =>
    have := h.storage.withCapacity_sat c
    rw [e] at this
    exact ⟨this.1, by rw [this.2.1]; exact Nat.dvd_zero _⟩
  | op _ hl hr ih => have := h.storage.step_sat ih.1 ih.2 hl; rw [hr] at this; exact ⟨this.inv, this.dvd⟩
  | opPanic _ hl hr ih => have := h.storage.step_sat ih.1 ih.2 hl; rw [hr] at this; exact ⟨this.2.inv, this.2.dvd⟩
  | session _ hv hr ih =>
    obtain ⟨xs, rfl, hx⟩ := valid_inputs hv
    obtain ⟨n, js, _, _, hs⟩ := h.rootsOut hP hacc ih.1 ih.2 hx (by rw [hr]; simp)
    rw [hr] at hs
    exact ⟨hs.kept.inv, hs.kept.dvd⟩
  | sessionPanic _ hv hr ih =>
    obtain ⟨xs, rfl, hx⟩ := valid_inputs hv
    obtain ⟨n, js, _, _, hs⟩ := h.rootsOut hP hacc ih.1 ih.2 hx (by rw [hr]; simp)
    rw [hr] at hs
    exact ⟨hs.1.2.inv, hs.1.2.dvd⟩

/-- The reference output lies before the position, so it is part of what the consumer sees. -/
theorem GJobs.bytes {k : DKind} {js : List Job} {t : σ} {ps : List Nat} {s' : GSer σ} (h : GJobs I Inv content k P js t ps s') :
    (jobsIdeal I.C.arch I.C.valueAlign (RandomImpl.gmode k) P js (fun _ => none, I.pos t)).1.Le (I.bytes content s'.sto) := by
  intro i b hb
  have hlt : i < I.pos s'.sto := by
    apply Nat.lt_of_not_le; intro hle
    rw [h.fresh i hle] at hb; cases hb
  show (if i < I.pos s'.sto then content s'.sto i else none) = some b
  rw [if_pos hlt]
  exact h.le i b hb

/-- C62. Serializing valid values into any reachable storage never has undefined behaviour and never fails a debug assertion: given enough
recursion depth it returns, panics for lack of capacity, or the process aborts (allocation failure). -/
theorem C62_outcome (h : I.Conforms Inv content) (hP : P.WF I.C.arch) (hacc : P.Accepted I.C) {t : σ} (ht : KReach I P t) (k : DKind)
    {rs : List Root} (hv : ∀ r ∈ rs, Valid I.C.arch P r) :
    ∃ N, ∀ fuel, N ≤ fuel →
      (∃ ps s', gSession I k P fuel rs (GSer.fromStorage t) = .ok ps s') ∨
      (∃ s', gSession I k P fuel rs (GSer.fromStorage t) = .panic .capacity s') ∨
      gSession I k P fuel rs (GSer.fromStorage t) = .abort := by
  obtain ⟨hI, hd⟩ := ht.inv h hP hacc
  obtain ⟨xs, rfl, hx⟩ := valid_inputs hv
  obtain ⟨N, hN⟩ := h.roots hP hacc (k := k) hI hd hx
  refine ⟨N, fun fuel hf => ?_⟩
  obtain ⟨js, _, _, hs⟩ := hN fuel hf
  cases hr : gSession I k P fuel (xs.map (·.1)) (GSer.fromStorage t) with
  | ok ps s' => exact Or.inl ⟨ps, s', rfl⟩
  | panic pk s' =>
    rw [hr] at hs
    obtain ⟨⟨rfl, _⟩, _⟩ := hs
    exact Or.inr (Or.inl ⟨s', rfl⟩)
  | abort => exact Or.inr (Or.inr rfl)
  | ub => rw [hr] at hs; exact hs.elim
  | fuel => rw [hr] at hs; exact hs.elim

/-- C62 (C27 for any storage). After a session of a `ptr_offset` serializer, a reader that takes each pointer to be a position in the output
finds every value at the position its `serialize_value` returned. -/
theorem C62_roundtrip (h : I.Conforms Inv content) (hP : P.WF I.C.arch) (hacc : P.Accepted I.C) {t : σ} (ht : KReach I P t)
    {rs : List (Root × Val)} (hv : Inputs I.C.arch P fl rs) {fuel : Nat} {ps : List Nat} {s' : GSer σ}
    (hrun : gSession I .ptrOffset P fuel (rs.map (·.1)) (GSer.fromStorage t) = .ok ps s') :
    ps.length = rs.length ∧ ∀ (i : Nat) (r : Root) (v : Val) (p : Nat), rs[i]? = some (r, v) → ps[i]? = some p →
      Denotes I.C.arch P ⟨fl.canon, false⟩ (I.bytes content s'.sto) r.t p v := by
  have F := h.storage.facts
  have hW := h.storage.arch.ptr_pos
  obtain ⟨hI, hd⟩ := ht.inv h hP hacc
  obtain ⟨n, js, hm, hj, hp⟩ := h.rootsOut hP hacc hI hd hv (by rw [hrun]; simp)
  rw [hrun] at hp
  have hp : GJobs I Inv content .ptrOffset P js t ps s' := hp
  refine ⟨jobs_length hm hp.ps, ?_⟩
  intro i r v p hr hpi
  obtain ⟨x, hx, rfl, rfl, rfl⟩ := jobsAt_get hm hp.ps hr hpi
  have h1 := h.storage.pos_le _ hp.kept.inv
  have h2 := h.storage.cap_le _ hp.kept.inv
  have h3 := F.max_lt
  rw [hp.pos] at h1
  have := (jobs_read (md := RandomImpl.gmode .ptrOffset) (va := I.C.valueAlign) (D := 0) (m := fun _ => none) F.va.pos hW hP hacc rfl hj (by omega)
    (dm := (jobsIdeal I.C.arch I.C.valueAlign (RandomImpl.gmode .ptrOffset) P js (fun _ => none, I.pos t)).1)
    (fun i _ _ => by rw [Nat.zero_add]) x hx (fun _ => Nat.dvd_zero _) (fun _ _ _ => Nat.dvd_zero _)).1
  rw [Nat.zero_add] at this
  exact Denotes.le hp.bytes ⟨n, this⟩

/-- C62 (C29 for any storage). After a session of a `pure_copy` or `pos_tracking` serializer, a reader that knows only the types of the values and
where the output started recovers all values in order, and ends at the position. -/
theorem C62_in_order (h : I.Conforms Inv content) (hP : P.WF I.C.arch) (hacc : P.Accepted I.C) {t : σ} (ht : KReach I P t) {k : DKind}
    (hk : k = .pureCopy ∨ k = .posTracking) {rs : List (Root × Val)} (hv : Inputs I.C.arch P fl rs) {fuel : Nat} {ps : List Nat} {s' : GSer σ}
    (hrun : gSession I k P fuel (rs.map (·.1)) (GSer.fromStorage t) = .ok ps s') :
    ∃ n, seqRoots I.C.arch P I.C.valueAlign (I.bytes content s'.sto) n (rs.map (·.1.t)) (I.pos t) = some (rs.map (·.2), I.pos s'.sto) := by
  have F := h.storage.facts
  have hW := h.storage.arch.ptr_pos
  obtain ⟨hI, hd⟩ := ht.inv h hP hacc
  obtain ⟨n, js, hm, hj, hp⟩ := h.rootsOut hP hacc hI hd hv (by rw [hrun]; simp)
  rw [hrun] at hp
  have hp : GJobs I Inv content k P js t ps s' := hp
  have hmode : RandomImpl.gmode k = Mode.plain := by rcases hk with rfl | rfl <;> rfl
  have e1 : rs.map (·.1.t) = js.map (·.r.t) := by rw [← hm, List.map_map]; rfl
  have e2 : rs.map (·.2) = js.map (·.v) := by rw [← hm, List.map_map]; rfl
  have hb := hp.bytes
  rw [hmode] at hb
  rw [e1, e2, hp.pos]
  exact ⟨n, seqRoots_le hb _ (seqRoots_of js _ (jobs_seq (m := fun _ => none) F.va.pos hW hP hacc hj (fun _ _ _ => rfl)))⟩

/-- C62. Whatever was in the storage before a session stays where it is, whether the session succeeds or panics, and the position does not go
back; after either, the storage is still consistent. -/
theorem C62_keeps (h : I.Conforms Inv content) (hP : P.WF I.C.arch) (hacc : P.Accepted I.C) {t : σ} (ht : KReach I P t) {k : DKind}
    {rs : List Root} (hv : ∀ r ∈ rs, Valid I.C.arch P r) {fuel : Nat} {s' : GSer σ}
    (hrun : (∃ ps, gSession I k P fuel rs (GSer.fromStorage t) = .ok ps s') ∨ ∃ pk, gSession I k P fuel rs (GSer.fromStorage t) = .panic pk s') :
    (∀ i < I.pos t, content s'.sto i = content t i) ∧ I.pos t ≤ I.pos s'.sto ∧ I.pos s'.sto ≤ I.capacity s'.sto ∧
    I.capacity s'.sto ≤ I.C.maxCapacity ∧ I.C.valueAlign ∣ I.pos s'.sto := by
  obtain ⟨hI, hd⟩ := ht.inv h hP hacc
  obtain ⟨xs, rfl, hx⟩ := valid_inputs hv
  obtain ⟨n, js, _, _, hs⟩ := h.rootsOut hP hacc (k := k) hI hd hx (fuel := fuel) (by
    rcases hrun with ⟨_, hr⟩ | ⟨_, hr⟩ <;> rw [hr] <;> simp)
  have hk : RandomImpl.GKept I Inv content (I.pos t) (GSer.fromStorage t) s' := by
    rcases hrun with ⟨_, hr⟩ | ⟨_, hr⟩
    · rw [hr] at hs; exact hs.kept
    · rw [hr] at hs; exact hs.1.2
  exact ⟨hk.below, hk.pos, h.storage.pos_le _ hk.inv, h.storage.cap_le _ hk.inv, hk.dvd⟩

/-- C62. A custom storage gives the output of `AlignedVec`: on the same target with the same `VALUE_ALIGNMENT`, both starting empty, the positions
returned and the length of the output are the same, and every byte the `AlignedVec` serializer initialised is the same. -/
theorem C62_same_output (h : I.Conforms Inv content) (hP : P.WF I.C.arch) (hacc : P.Accepted I.C) {t : σ} (ht : KReach I P t)
    {C : Cfg} (hC : C.OK) (hA : I.C.arch = C.arch) (hva : I.C.valueAlign = C.valueAlign) (haccC : P.Accepted C) (h0 : I.pos t = 0)
    {k : DKind} {rs : List (Root × Val)} (hv : Inputs I.C.arch P fl rs) {f1 f2 : Nat} {ps1 ps2 : List Nat} {s1 : GSer σ} {s2 : Ser}
    (h1 : gSession I k P f1 (rs.map (·.1)) (GSer.fromStorage t) = .ok ps1 s1)
    (h2 : session C k.kind P f2 (rs.map (·.1)) (Ser.fromStorage Sto.new) = .ok ps2 s2) :
    ps1 = ps2 ∧ I.pos s1.sto = s2.sto.vec.pos ∧ ∀ i b, s2.sto.bytes i = some b → I.bytes content s1.sto i = some b := by
  obtain ⟨hI, hd⟩ := ht.inv h hP hacc
  obtain ⟨N1, hN1⟩ := h.roots hP hacc (k := k) hI hd hv
  obtain ⟨N2, hN2⟩ := session_cases hC (hA ▸ hP) haccC k.kind (Sto.new_inv C) (fl := fl) (rs := rs) (hA ▸ hv)
  obtain ⟨js, m1, o1, p1⟩ := hN1 (max (max N1 N2) (max f1 f2)) (by omega)
  obtain ⟨js', m2, o2, p2⟩ := hN2 (max (max N1 N2) (max f1 f2)) (by omega)
  have e := jobs_unique (m1.trans m2.symm) hA o1 o2
  subst e
  rw [gRoots_fuel (show f1 ≤ _ by omega) _ _ (by rw [h1]; simp), h1] at p1
  rw [session_fuel (show f2 ≤ _ by omega) _ _ (by rw [h2]; simp), h2] at p2
  have p1 : GJobs I Inv content k P js t ps1 s1 := p1
  have p2 : SessionPost C k.kind P js (Ser.fromStorage Sto.new) (fun _ => Sto.new.view) ps2 s2 := p2
  refine ⟨?_, ?_, ?_⟩
  · rw [p1.ps, p2.ps, h0, hva]; rfl
  · rw [p1.pos, p2.pos, h0, hva]; rfl
  · intro i b hb
    have hi : i < s2.sto.vec.pos := by
      apply Nat.lt_of_not_le; intro hle
      unfold Sto.bytes at hb
      rw [if_neg (by omega)] at hb; cases hb
    rw [p2.bytes hi] at hb
    refine p1.bytes i b ?_
    have hmode : k.kind.mode s2.sto.vec.ptr = RandomImpl.gmode k := by cases k <;> rfl
    have hview : (Sto.new.view : Mem) = fun _ => none := by funext i; rfl
    rw [h0, hA, hva, ← hmode, ← hview]
    exact hb

theorem gPos_user {va : Nat} {md : Mode} {A : Arch} {rs : List UserRoot} (hz : ∀ r ∈ rs, r.L.size ≠ 0) (m : Mem) (q : Nat) :
    gPos A va md rs (m, q) = userPositions A va rs q := by
  induction rs generalizing m q with
  | nil => rfl
  | cons r rs ih =>
    simp only [gPos, userPositions, rootPos, if_neg (hz r (by simp))]
    have e : ∀ md m, (rootIdeal A va md r.L r.im r.a r.sc (m, q)).2 = placeEnd va q (rootShapes r.L r.sc) := fun md m => rootIdeal_end
    rw [show rootIdeal A va md r.L r.im r.a r.sc (m, q) = ((rootIdeal A va md r.L r.im r.a r.sc (m, q)).1,
      (rootIdeal A va md r.L r.im r.a r.sc (m, q)).2) from rfl, ih (fun x hx => hz x (by simp [hx])), e md m, e]

/-- C62 (C45 for any storage). Values with hand-written implementations that follow the rules of the `unsafe` methods (Spec/Discipline.lean):
either everything is done, the values are at the positions the reference serializer gives them (`userPositions`), the output is as long as the
reference output (`userIdeal`) and contains its every byte, and what was stored before is untouched; or there is a panic for lack of capacity,
what was stored before being untouched; or the process aborts. Never undefined behaviour. -/
theorem C62_user (h : I.Conforms Inv content) (hP : P.WF I.C.arch) (hacc : P.Accepted I.C) {t : σ} (ht : KReach I P t) (k : DKind)
    {rs : List UserRoot} (hr : ∀ r ∈ rs, r.OK I.C) (hty : ∀ r ∈ rs, r.L.OK ∧ r.sc.RealTypes) :
    let ref := userIdeal I.C.arch I.C.valueAlign (k.kind.mode 0) rs (fun _ => none, I.pos t)
    (∃ ps s', gValues I k rs (GSer.fromStorage t) = .ok ps s' ∧ ps = userPositions I.C.arch I.C.valueAlign rs (I.pos t) ∧
      I.pos s'.sto = ref.2 ∧ (∀ i b, ref.1 i = some b → I.bytes content s'.sto i = some b) ∧ ∀ i < I.pos t, content s'.sto i = content t i) ∨
    (∃ s', gValues I k rs (GSer.fromStorage t) = .panic .capacity s' ∧ ∀ i < I.pos t, content s'.sto i = content t i) ∨
    gValues I k rs (GSer.fromStorage t) = .abort := by
  intro ref
  obtain ⟨hI, hd⟩ := ht.inv h hP hacc
  have hv : ∀ v ∈ rs, RandomImpl.GValueOK I.C v := fun v hv =>
    ⟨(hty v hv).1, fun _ => (hr v hv).1, fun _ => (hr v hv).2, (hty v hv).2, fun hz => absurd hz (hr v hv).1.size_ne⟩
  have hs := h.gvalues (k := k) rs hv (s := GSer.fromStorage t) (m := fun _ => none) ⟨hI, hd, fun _ _ => rfl, fun i b hb => by cases hb⟩
  cases hr' : gValues I k rs (GSer.fromStorage t) with
  | ok ps s' =>
    rw [hr'] at hs
    obtain ⟨h1, h2, h3, h4⟩ := hs
    refine Or.inl ⟨ps, s', rfl, by rw [h1]; exact gPos_user (fun r hx => (hr r hx).1.size_ne) _ _, h3, ?_, h4.below⟩
    intro i b hb
    have hlt : i < I.pos s'.sto := by
      apply Nat.lt_of_not_le; intro hle
      have := h2.fresh i hle
      rw [show (userIdeal I.C.arch I.C.valueAlign (RandomImpl.gmode k) rs (fun _ => none, I.pos (GSer.fromStorage t).sto)).1 i = some b from hb] at this
      cases this
    show (if i < I.pos s'.sto then content s'.sto i else none) = some b
    rw [if_pos hlt]
    exact h2.sub i b hb
  | panic pk s' =>
    rw [hr'] at hs
    obtain ⟨⟨rfl, hs⟩, _⟩ := hs
    exact Or.inr (Or.inl ⟨s', rfl, hs.below⟩)
  | abort => exact Or.inr (Or.inr rfl)
  | ub => rw [hr'] at hs; exact hs.elim
  | fuel => rw [hr'] at hs; exact hs.elim

end

/-! ### `AlignedVec` -/

/-- C62. `AlignedVec` keeps the contract. -/
theorem C62_aligned_vec {C : Cfg} (hC : C.OK) : (alignedVecRandom C).Conforms (Sto.WInv C) Sto.view where
  storage := C61_aligned_vec hC
  inPlace s n s' h e := by
    have hs := reserve_sat hC h n
    change Sto.reserve C n s = .ok () s' at e
    rw [e] at hs
    exact hs.pos
  writeSlice s p L len data h hL hz hal hlen hroom hd := by
    have F := hC.facts
    change p + L.size * len ≤ s.vec.capacity at hroom
    change L.align ≤ C.maxValueAlign at hal
    have hpos := Nat.mul_pos (Nat.pos_of_ne_zero hz) hlen
    obtain ⟨s', hw, hvec, _, w', hview⟩ := writeSlice_ok hC h data hz (Or.inl (by omega)) hroom hL.pow2 hd (Nat.le_trans hal F.mva_le)
    refine ⟨s', hw, w', ?_, ?_, ?_, ?_⟩
    · show s'.vec.pos = s.vec.pos
      rw [hvec]
    · show s'.vec.capacity = s.vec.capacity
      rw [hvec]
    · intro i hi; rw [hview]; exact blit_at hi
    · intro i _ ho; rw [hview]; exact blit_out (by omega)

/-- A state of the generic serializer as a state of the serializer on `AlignedVec`. -/
def GSer.toSer (p : Ptrs) (g : GSer Sto) : Ser := ⟨g.sto, g.map, p⟩

/-- An outcome, with its state translated. -/
def Out.mapState {σ τ α : Type} (f : σ → τ) : Out σ α → Out τ α
  | .ok a s => .ok a (f s)
  | .panic k s => .panic k (f s)
  | .abort => .abort
  | .ub => .ub
  | .fuel => .fuel

/-- `y` does on `AlignedVec` what `x` does. -/
def GSim (p : Ptrs) {α : Type} (x : M (GSer Sto) α) (y : M Ser α) : Prop := ∀ g, y (g.toSer p) = (x g).mapState (GSer.toSer p)

section
variable {p : Ptrs} {C : Cfg}

theorem GSim.bind {α β : Type} {x : M (GSer Sto) α} {y : M Ser α} {f : α → M (GSer Sto) β} {f' : α → M Ser β} (h : GSim p x y)
    (hf : ∀ a, GSim p (f a) (f' a)) : GSim p (x >>= f) (y >>= f') := by
  intro g
  rw [bind_def, bind_def, h g]
  cases x g with
  | ok a s => exact hf a s
  | _ => rfl

theorem GSim.pure {α : Type} (a : α) : GSim p (Pure.pure a) (Pure.pure a) := fun _ => rfl
theorem GSim.ub {α : Type} : GSim p (M.ub : M (GSer Sto) α) M.ub := fun _ => rfl
theorem GSim.fuel {α : Type} : GSim p (M.outOfFuel : M (GSer Sto) α) M.outOfFuel := fun _ => rfl

theorem GSim.lift {α : Type} (x : M Sto α) : GSim p (GSer.lift x) (Ser.lift x) := by
  intro g
  show Ser.lift x ⟨g.sto, g.map, p⟩ = _
  unfold Ser.lift GSer.lift
  cases x g.sto <;> rfl

theorem GSim.getMap : GSim p GSer.getMap Ser.getMap := fun _ => rfl
theorem GSim.setMap (m : PosMapping) : GSim p (GSer.setMap m) (Ser.setMap m) := fun _ => rfl
theorem GSim.getCapacity : GSim p (GSer.getCapacity (alignedVecImpl C)) Ser.getCapacity := fun _ => rfl

theorem GSim.ite {α : Type} {c : Prop} [Decidable c] {x x' : M (GSer Sto) α} {y y' : M Ser α} (h : GSim p x y) (h' : GSim p x' y') :
    GSim p (if c then x else x') (if c then y else y') := by split <;> assumption

theorem GSim.throw {α : Type} (k : PanicKind) : GSim p (M.throw k : M (GSer Sto) α) (M.throw k) := fun _ => rfl
theorem GSim.assert (k : PanicKind) (b : Bool) : GSim p (M.assert k b) (M.assert k b) := by
  unfold M.assert; cases b <;> intro _ <;> rfl

theorem GSim.debugAssert (b : Bool) : GSim p (M.debugAssert C.arch b) (M.debugAssert C.arch b) := by
  intro g; unfold M.debugAssert; split <;> rfl

theorem GSim.uadd (a b : Nat) : GSim p (SerRaw.uadd C.arch a b) (SerRaw.uadd C.arch a b) := by
  intro g; unfold SerRaw.uadd; split
  · rfl
  · split <;> rfl

theorem GSim.usub (a b : Nat) : GSim p (SerRaw.usub C.arch a b) (SerRaw.usub C.arch a b) := by
  intro g; unfold SerRaw.usub; split
  · rfl
  · split <;> rfl

theorem GSim.debugAssertM {x : M (GSer Sto) Bool} {y : M Ser Bool} (h : GSim p x y) :
    GSim p (M.debugAssertM C.arch x) (M.debugAssertM C.arch y) := by
  unfold M.debugAssertM
  exact GSim.ite (h.bind fun b => GSim.debugAssert b) (GSim.pure ())

theorem GSim.isAlignedTo (a b : Nat) : GSim p (SerRaw.isAlignedTo C.arch a b) (SerRaw.isAlignedTo C.arch a b) := by
  unfold SerRaw.isAlignedTo
  exact (GSim.debugAssert _).bind fun _ => (GSim.usub _ _).bind fun _ => GSim.pure _

theorem GSim.posForAddr (m : PosMapping) (a : Nat) : GSim p (m.posForAddr C.arch a) (m.posForAddr C.arch a) := by
  unfold PosMapping.posForAddr
  exact (GSim.usub _ _).bind fun _ => GSim.uadd _ _

theorem GSim.readIn (im : Mem) (a : Nat) : GSim p (SerRaw.readIn C.arch im a) (SerRaw.readIn C.arch im a) := by
  unfold SerRaw.readIn
  split
  · exact GSim.pure _
  · exact GSim.ub

theorem GSim.constEval {α : Type} (x : Option α) : GSim p (SerRaw.constEval x) (SerRaw.constEval x) := by
  cases x
  · exact GSim.throw _
  · exact GSim.pure _

theorem GSim.addrFromRefOffset (k : DKind) (a off : Nat) :
    GSim p (SerRaw.addrFromRefOffset C.arch k.kind a off) (SerRaw.addrFromRefOffset C.arch k.kind a off) :=
  GSim.ite (GSim.uadd _ _) (GSim.pure _)

theorem GSim.pushRaw (sl : Slice) : GSim p (GSer.pushRawSlice (alignedVecRandom C) sl) (SerRaw.pushRawSlice C sl) := GSim.lift _

theorem GSim.overwritePtr (x y : Nat) : GSim p (GSer.doOverwritePtr (alignedVecRandom C) x y) (SerRaw.overwritePtr C .ptrOffset x y) := by
  show GSim p _ (PtrOffset.doOverwritePtr C x y)
  unfold GSer.doOverwritePtr PtrOffset.doOverwritePtr
  exact GSim.getCapacity.bind fun _ => (GSim.debugAssertM ((GSim.usub _ _).bind fun _ => GSim.pure _)).bind fun _ =>
    (GSim.debugAssertM (GSim.isAlignedTo _ _)).bind fun _ => (GSim.debugAssert _).bind fun _ => GSim.lift _

theorem GSim.pushProcess (k : DKind) (sl : Slice) (a : Nat) {x : M (GSer Sto) Unit} {y : M Ser Unit} (h : GSim p x y) :
    GSim p (GSer.pushAndProcessSlice (alignedVecRandom C) k sl a x) (SerRaw.pushAndProcessSlice C k.kind sl a y) := by
  cases k with
  | pureCopy => exact (GSim.pushRaw _).bind fun _ => h.bind fun _ => GSim.pure _
  | posTracking =>
    exact GSim.getMap.bind fun _ => (GSim.lift _).bind fun _ => (GSim.setMap _).bind fun _ => h.bind fun _ =>
      (GSim.setMap _).bind fun _ => GSim.pure _
  | ptrOffset =>
    exact GSim.getMap.bind fun _ => (GSim.lift _).bind fun _ => (GSim.posForAddr _ _).bind fun _ => (GSim.overwritePtr _ _).bind fun _ =>
      (GSim.setMap _).bind fun _ => h.bind fun _ => (GSim.setMap _).bind fun _ => GSim.pure _

theorem GSim.pushSlice (k : DKind) (sl : Slice) (a : Nat) :
    GSim p (GSer.pushSlice (alignedVecRandom C) k sl a) (SerRaw.pushSlice C k.kind sl a) := by
  cases k with
  | pureCopy => exact GSim.pushProcess .pureCopy sl a (GSim.pure _)
  | posTracking => exact GSim.pushRaw _
  | ptrOffset =>
    exact (GSim.pushRaw _).bind fun _ => GSim.getMap.bind fun _ => (GSim.posForAddr _ _).bind fun _ => (GSim.overwritePtr _ _).bind fun _ =>
      GSim.pure _

theorem GSim.value (k : DKind) (L : Layout) (a : Nat) (d : Nat → Cell) {x : M (GSer Sto) Unit} {y : M Ser Unit} (h : GSim p x y) :
    GSim p (GSer.serializeValue (alignedVecRandom C) k L a d x) (SerRaw.serializeValue C k.kind L a d y) := by
  cases k with
  | pureCopy => exact (GSim.pushRaw _).bind fun _ => h.bind fun _ => GSim.pure _
  | _ => exact (GSim.pushRaw _).bind fun _ => (GSim.setMap _).bind fun _ => h.bind fun _ => GSim.pure _

variable {P : Prog} {im : Mem}

theorem GSim.each {r : TyId → Nat → M (GSer Sto) Unit} {r' : TyId → Nat → M Ser Unit} (h : ∀ t a, GSim p (r t a) (r' t a)) (a : Nat)
    (fs : List Field) : GSim p (gEach r a fs) (serEach r' a fs) := by
  induction fs with
  | nil => exact GSim.pure _
  | cons f fs ih => exact (h _ _).bind fun _ => ih

/-- For these kinds `overwrite_with` drops its closure. -/
theorem GSim.noFixup (k : DKind) (x : M Ser Unit) {α : Type} {y : M (GSer Sto) α} {z : Unit → M Ser α} (h : GSim p y (z ())) :
    GSim p y (overwriteWith k.kind x >>= z) := by
  have : (overwriteWith k.kind x : M Ser Unit) = Pure.pure () := by cases k <;> rfl
  rw [this, pure_bind_M]; exact h

theorem GSim.vec (k : DKind) {r : TyId → Nat → M (GSer Sto) Unit} {r' : TyId → Nat → M Ser Unit} (h : ∀ t a, GSim p (r t a) (r' t a)) (t a : Nat) :
    GSim p (gVec (alignedVecRandom C) k P im r t a) (serVec C k.kind P im r' t a) := by
  unfold gVec serVec
  refine GSim.ite (GSim.pure _) ?_
  refine (GSim.readIn _ _).bind fun _ => (GSim.readIn _ _).bind fun _ => (GSim.readIn _ _).bind fun _ => (GSim.constEval _).bind fun _ => ?_
  refine GSim.ite ?_ ?_
  · have : ∀ x : M Ser Unit, (overwriteWith k.kind x : M Ser Unit) = Pure.pure () := by intro x; cases k <;> rfl
    rw [this]; exact GSim.pure _
  · refine GSim.noFixup k _ ?_
    exact (GSim.addrFromRefOffset _ _ _).bind fun _ => (GSim.pushProcess _ _ _ (GSim.each h _ _)).bind fun _ => GSim.pure _

theorem GSim.string (k : DKind) (a : Nat) : GSim p (gString (alignedVecRandom C) k P im a) (serString C k.kind P im a) := by
  unfold gString serString
  refine (GSim.readIn _ _).bind fun _ => (GSim.readIn _ _).bind fun _ => (GSim.readIn _ _).bind fun _ => (GSim.constEval _).bind fun _ => ?_
  refine GSim.ite ?_ ?_
  · have : ∀ x : M Ser Unit, (overwriteWith k.kind x : M Ser Unit) = Pure.pure () := by intro x; cases k <;> rfl
    rw [this]; exact GSim.pure _
  · refine GSim.noFixup k _ ?_
    exact (GSim.addrFromRefOffset _ _ _).bind fun _ => (GSim.pushSlice _ _ _).bind fun _ => GSim.pure _

theorem GSim.bigintOffset (u : TyId) : GSim p (bigintDataOffset C.arch P u) (bigintDataOffset C.arch P u) := by
  unfold bigintDataOffset
  refine (GSim.constEval _).bind fun _ => (GSim.constEval _).bind fun _ => ?_
  split
  · refine GSim.ite ?_ ?_
    · exact (GSim.assert _ _).bind fun _ => GSim.pure _
    · exact (GSim.assert _ _).bind fun _ => GSim.pure _
  · exact GSim.ub

theorem GSim.data (k : DKind) (n t a : Nat) : GSim p (gData (alignedVecRandom C) k P im n t a) (serData C k.kind P im n t a) := by
  induction n generalizing t a with
  | zero => exact GSim.fuel
  | succ n ih =>
    rw [gData, serData]
    cases P.defn t with
    | prim => exact GSim.pure _
    | box u =>
      refine GSim.ite (GSim.pure _) ?_
      exact (GSim.readIn _ _).bind fun _ => (GSim.pushProcess _ _ _ (ih _ _)).bind fun _ => GSim.pure _
    | vec u => exact GSim.vec k ih _ _
    | string => exact GSim.string k _
    | array u m => exact GSim.each ih _ _
    | struct fs => exact GSim.each ih _ _
    | enum tag vs =>
      simp only [gEnum, serEnum]
      cases hv : activeVariant C.arch im a tag with
      | none =>
        rw [show activeVariant (alignedVecRandom C).C.arch im a tag = none from hv]
        exact GSim.ub
      | some i =>
        rw [show activeVariant (alignedVecRandom C).C.arch im a tag = some i from hv]
        cases hi : vs[i]? with
        | none => simp only [hi]; exact GSim.ub
        | some fs => simp only [hi]; exact GSim.each ih _ _
    | bigUint u => exact GSim.vec k ih _ _
    | bigInt u =>
      simp only [gBigInt, serBigInt]
      cases P.defn u with
      | bigUint w => exact (GSim.bigintOffset _).bind fun _ => ih _ _
      | _ => exact GSim.ub

end

/-- C62. The model of serializers over a custom storage, applied to `AlignedVec`, is the model used by all other properties: for *every* input
(valid or not), storage state and outcome, the run of `gSession` is the run of `session`. -/
theorem C62_aligned_vec_same (C : Cfg) (k : DKind) (P : Prog) (fuel : Nat) (rs : List Root) (t : Sto) :
    session C k.kind P fuel rs (Ser.fromStorage t) =
      (gSession (alignedVecRandom C) k P fuel rs (GSer.fromStorage t)).mapState (GSer.toSer Ptrs.new) := by
  have h : ∀ rs, GSim Ptrs.new (gSession (alignedVecRandom C) k P fuel rs) (serValues C k.kind P fuel rs) := by
    intro rs
    induction rs with
    | nil => exact GSim.pure _
    | cons r rs ih => exact (GSim.value k _ _ _ (GSim.data k _ _ _)).bind fun _ => ih.bind fun _ => GSim.pure _
  have hf : (finalize C k.kind : M Ser Unit) = pure () := by cases k <;> rfl
  unfold session
  rw [hf]
  simp only [pure_bind_M, bind_pure_M]
  exact h rs (GSer.fromStorage t)

/-! ### Another conforming storage -/

/-- A storage of a user: an array of `MAX_CAPACITY` bytes inside the value, which never allocates and never moves. (A hypothetical
implementation, not part of /repo: it only shows that the contract admits implementations other than `AlignedVec`.) -/
structure ArrayStorage where
  pos : Nat
  mem : Mem

/-- The methods of the hypothetical storage. Outside their safety contracts the unsafe ones have undefined behaviour. -/
def arrayImpl (C : Cfg) : RandomImpl ArrayStorage where
  C := C
  new := ⟨0, fun _ => some 0⟩
  withCapacityUnchecked _ := fun _ => .ok () ⟨0, fun _ => some 0⟩
  capacity _ := C.maxCapacity
  pos s := s.pos
  setPos p := fun s => if p ≤ C.maxCapacity ∧ C.valueAlign ∣ p then .ok () { s with pos := p } else .ub
  pushSliceUnchecked L len data size := fun s =>
    if s.pos + size ≤ C.maxCapacity ∧ L.align ∣ s.pos ∧ size = L.size * len then
      .ok () { s with pos := s.pos + size, mem := s.mem.blit s.pos size data } else .ub
  reserve n := fun s => if s.pos + n ≤ C.maxCapacity then .ok () s else .panic .capacity s
  shrinkToFit := fun s => .ok () s
  writeSlice p L len data := fun s =>
    if p + L.size * len ≤ C.maxCapacity ∧ L.align ∣ p then .ok () { s with mem := s.mem.blit p (L.size * len) data } else .ub

/-- C62. The array storage keeps the contract. -/
theorem C62_array {C : Cfg} (hC : C.OK) : (arrayImpl C).Conforms (fun s => s.pos ≤ C.maxCapacity) ArrayStorage.mem where
  storage :=
    { arch := hC.arch
      consts := hC.valid
      pos_le := fun _ h => h
      cap_le := fun _ _ => Nat.le_refl _
      cap_dvd := fun _ _ => hC.facts.max_dvd
      new := ⟨Nat.zero_le _, rfl⟩
      withCapacity := fun c _ h1 _ => Or.inl ⟨_, rfl, Nat.zero_le _, rfl, h1⟩
      setPos := fun s p _ h1 h2 => ⟨{ s with pos := p }, if_pos ⟨h1, h2⟩, h1, rfl, rfl, rfl⟩
      pushSliceUnchecked := fun s L len data h hL hz hal hroom hd hlen => by
        refine ⟨{ s with pos := s.pos + L.size * len, mem := s.mem.blit s.pos (L.size * len) data }, if_pos ⟨hroom, hd, rfl⟩, hroom, rfl, rfl, ?_, ?_⟩
        · intro i hi; exact blit_at hi
        · intro i hi
          change i < s.pos at hi
          exact blit_out (by omega)
      reserve := fun s n h => by
        by_cases h1 : s.pos + n ≤ C.maxCapacity
        · exact Or.inl ⟨s, if_pos h1, h, h1, Nat.le_refl _, Or.inl rfl, fun _ _ => rfl⟩
        · exact Or.inr (Or.inl ⟨s, if_neg h1, h, rfl, Nat.le_refl _, fun _ _ => rfl⟩)
      shrinkToFit := fun s h _ => Or.inl ⟨s, rfl, h, rfl, Nat.le_refl _, fun _ _ => rfl⟩ }
  inPlace s n s' _ e := by
    change (if s.pos + n ≤ C.maxCapacity then Out.ok () s else .panic .capacity s) = .ok () s' at e
    split at e
    · cases e; rfl
    · cases e
  writeSlice s p L len data h hL hz hal hlen hroom hd := by
    refine ⟨{ s with mem := s.mem.blit p (L.size * len) data }, if_pos ⟨hroom, hd⟩, h, rfl, rfl, ?_, ?_⟩
    · intro i hi; exact blit_at hi
    · intro i _ ho; exact blit_out (by omega)

/-- What a session on the array storage returned: the positions and the end of the output. -/
def Out.arrayResult {α : Type} (o : Out (GSer ArrayStorage) α) : Option (α × Nat) :=
  match o with
  | .ok a s => some (a, s.sto.pos)
  | _ => none

theorem Out.arrayResult_ok {α : Type} {o : Out (GSer ArrayStorage) α} {r : α × Nat} (h : o.arrayResult = some r) :
    ∃ s, o = .ok r.1 s ∧ s.sto.pos = r.2 := by
  cases o with
  | ok a s => simp only [Out.arrayResult, Option.some.injEq] at h; subst h; exact ⟨s, rfl, rfl⟩
  | _ => cases h

/-- Every kind of serializer serializes the example values (a linked node with strings, a zero-sized value, a `BigInt`, an enum) to a new array
storage: 200 bytes. -/
theorem arrayRun (k : DKind) : ∃ s', gSession (arrayImpl cfg64) k exP 6 (exRoots.map Prod.fst) (GSer.fromStorage (arrayImpl cfg64).new) =
    .ok [0, 0, 136, 184] s' ∧ s'.sto.pos = 200 := by
  have h : (gSession (arrayImpl cfg64) k exP 6 (exRoots.map Prod.fst) (GSer.fromStorage (arrayImpl cfg64).new)).arrayResult =
      some ([0, 0, 136, 184], 200) := by cases k <;> decide +kernel
  exact Out.arrayResult_ok h

/-- C62 applies: the node is found at 0 and the `BigInt` at 136. -/
example : ∃ s' : ArrayStorage, Denotes x64 exP ⟨true, false⟩ ((arrayImpl cfg64).bytes ArrayStorage.mem s') 1 0 exNode ∧
    Denotes x64 exP ⟨true, false⟩ ((arrayImpl cfg64).bytes ArrayStorage.mem s') 8 136 exBig := by
  obtain ⟨s', hr, _⟩ := arrayRun .ptrOffset
  have h := (C62_roundtrip (C62_array cfg64_ok) exP_wf exP_accepted .new exInputs hr).2
  exact ⟨s'.sto, h 0 _ _ _ rfl rfl, h 2 _ _ _ rfl rfl⟩

/-- And read back in order. -/
example : ∃ (s' : ArrayStorage) (n : Nat),
    seqRoots x64 exP 8 ((arrayImpl cfg64).bytes ArrayStorage.mem s') n [1, 10, 8, 9] 0 = some ([exNode, .prim [], exBig, exEnum], 200) := by
  obtain ⟨s', hr, hp⟩ := arrayRun .pureCopy
  obtain ⟨n, h⟩ := C62_in_order (C62_array cfg64_ok) exP_wf exP_accepted .new (Or.inl rfl) exInputs hr
  rw [show (arrayImpl cfg64).pos s'.sto = 200 from hp] at h
  exact ⟨s'.sto, n, h⟩

/-- A second serializer on the same storage leaves the output of the first. -/
example : ∃ s1 s2 : ArrayStorage, s1.pos = 200 ∧ (∀ i < 200, s2.mem i = s1.mem i) ∧ 200 ≤ s2.pos := by
  obtain ⟨s1, hr, hp⟩ := arrayRun .ptrOffset
  have hv : ∀ r ∈ exRoots.map Prod.fst, Valid x64 exP r := by
    intro r hr
    obtain ⟨x, hx, rfl⟩ := List.mem_map.1 hr
    exact ⟨_, _, exInputs x hx⟩
  have h1 : KReach (arrayImpl cfg64) exP s1.sto := .session .new hv hr
  obtain ⟨N, hN⟩ := C62_outcome (C62_array cfg64_ok) exP_wf exP_accepted h1 .pureCopy hv
  rcases hN N (Nat.le_refl _) with ⟨ps, s2, h2⟩ | ⟨s2, h2⟩ | h2
  · have := C62_keeps (C62_array cfg64_ok) exP_wf exP_accepted h1 hv (Or.inl ⟨_, h2⟩)
    exact ⟨s1.sto, s2.sto, hp, by rw [← hp]; exact this.1, by rw [← hp]; exact this.2.1⟩
  · have := C62_keeps (C62_array cfg64_ok) exP_wf exP_accepted h1 hv (Or.inr ⟨_, h2⟩)
    exact ⟨s1.sto, s2.sto, hp, by rw [← hp]; exact this.1, by rw [← hp]; exact this.2.1⟩
  · exact ⟨s1.sto, s1.sto, hp, fun _ _ => rfl, by rw [hp]⟩

/-- The array storage and `AlignedVec` get the same output. -/
example : ∃ (s1 : GSer ArrayStorage) (s2 : Ser), s2.sto.vec.pos = 200 ∧
    ∀ i b, s2.sto.bytes i = some b → (arrayImpl cfg64).bytes ArrayStorage.mem s1.sto i = some b := by
  obtain ⟨s1, hr, hp⟩ := arrayRun .ptrOffset
  have h : (session cfg64 .ptrOffset exP 6 (exRoots.map Prod.fst) (Ser.fromStorage Sto.new)).result.map Prod.fst = some [0, 0, 136, 184] := by
    decide +kernel
  obtain ⟨r, h, _⟩ := Option.map_eq_some_iff.1 h
  obtain ⟨s2, h2, _⟩ := Out.result_ok h
  have := C62_same_output (C62_array cfg64_ok) exP_wf exP_accepted .new cfg64_ok rfl rfl exP_accepted rfl (k := .ptrOffset) exInputs hr h2
  exact ⟨s1, s2, by rw [← this.2.1]; exact hp, this.2.2⟩

/-- C62 applies to the hand-written implementation of the C45 example. -/
example (k : DKind) : ∃ ps s', gValues (arrayImpl cfg64) k [exUser, exUser] (GSer.fromStorage (arrayImpl cfg64).new) = .ok ps s' ∧
    ps = [0, 80] ∧ s'.sto.pos = 160 ∧ (arrayImpl cfg64).bytes ArrayStorage.mem s'.sto 56 = some (UInt8.ofNat 300) := by
  have e8 : Pow2 8 := ⟨3, rfl⟩
  have e4 : Pow2 4 := ⟨2, rfl⟩
  have e1 : Pow2 1 := ⟨0, rfl⟩
  have h := C62_user (C62_array cfg64_ok) exP_wf exP_accepted .new k (rs := [exUser, exUser])
    (by intro r hr; simp only [List.mem_cons, List.not_mem_nil, or_false, or_self] at hr; subst hr; exact exUser_ok)
    (by
      intro r hr; simp only [List.mem_cons, List.not_mem_nil, or_false, or_self] at hr; subst hr
      exact ⟨⟨e8, by decide⟩, ⟨e8, by decide⟩, ⟨⟨e1, by decide⟩, trivial⟩, ⟨e4, by decide⟩, ⟨e8, by decide⟩, trivial⟩)
  have hok : ∃ ps s', gValues (arrayImpl cfg64) k [exUser, exUser] (GSer.fromStorage (arrayImpl cfg64).new) = .ok ps s' := by
    have h : (gValues (arrayImpl cfg64) k [exUser, exUser] (GSer.fromStorage (arrayImpl cfg64).new)).arrayResult = some ([0, 80], 160) := by
      cases k <;> decide +kernel
    obtain ⟨s, hs, _⟩ := Out.arrayResult_ok h
    exact ⟨_, s, hs⟩
  obtain ⟨ps0, s0, hok⟩ := hok
  rw [hok] at h
  rcases h with ⟨ps, s', he, h1, h2, h3, _⟩ | ⟨_, he, _⟩ | he
  · cases he
    refine ⟨ps0, s0, hok, ?_, ?_, h3 56 _ ?_⟩
    · rw [h1]; decide +kernel
    · rw [show s0.sto.pos = _ from h2]; cases k <;> decide +kernel
    · cases k <;> decide +kernel
  · cases he
  · cases he

/-! ### Why pointers need `write_slice` to be exact -/

/-- A hypothetical storage whose `write_slice` writes one word too far to the right. -/
def shiftedImpl (C : Cfg) : RandomImpl ArrayStorage :=
  { arrayImpl C with writeSlice := fun p L len data => (arrayImpl C).writeSlice (p + 8) L len data }

/-- The result and whether word 0 is the pointer 40. -/
def Out.andThenMem {α : Type} (o : Out (GSer ArrayStorage) α) : Option (α × Bool) :=
  match o with
  | .ok a s => some (a, decide (readWord x64 s.sto.mem 0 = some 40))
  | _ => none

theorem Out.andThenMem_ok {α : Type} {o : Out (GSer ArrayStorage) α} {a : α} (h : o.andThenMem = some (a, false)) :
    ∃ s, o = .ok a s ∧ readWord x64 s.sto.mem 0 ≠ some 40 := by
  cases o with
  | ok b s =>
    simp only [Out.andThenMem, Option.some.injEq, Prod.mk.injEq, decide_eq_false_iff_not] at h
    exact ⟨s, by rw [h.1], h.2⟩
  | _ => cases h

/-- On it, a reader does not find the node again: the contract matters. -/
example : ∃ s', gSession (shiftedImpl cfg64) .ptrOffset exP 6 [⟨exIm, 1, 4096⟩] (GSer.fromStorage (shiftedImpl cfg64).new) = .ok [0] s' ∧
    readWord x64 s'.sto.mem 0 ≠ some 40 := by
  have h : ((gSession (shiftedImpl cfg64) .ptrOffset exP 6 [⟨exIm, 1, 4096⟩] (GSer.fromStorage (shiftedImpl cfg64).new)).andThenMem) = some ([0], false) := by
    decide +kernel
  exact Out.andThenMem_ok h

end SerRaw
