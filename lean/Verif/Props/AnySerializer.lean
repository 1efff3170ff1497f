import Verif.Lemmas.AnySerializer
import Verif.Props.CustomComplete
/-
C68: the crate's `Serialize` implementations are generic in the serializer. On every serializer — the crate's, derived or hand-written — a value
makes the same calls with the same arguments in the same order. C69: a serializer for which only the access to its storage is written is a pure
copy serializer.

`SerializerImpl`, `aData`, `aSession` (Model/AnySerializer.lean): the trait `Serializer` as an interface, and `serialize_data`,
`serialize_value` on several values and `finalize` with any implementation of it. `CallTree` (Spec/CallTree.lean): a tree of calls.
-/
namespace SerRaw

/-! ### C68 -/

/-- C68. For a valid value there is a fixed tree of calls — of `push_and_process`, `push_and_process_slice`, `push_slice`, `overwrite_with` and,
inside the latter, `overwrite` — such that on *every* implementation of `Serializer`, whatever its methods do, `serialize_data` makes exactly
these calls, given enough recursion depth. No `from_ref_offset` in it overflows. -/
theorem C68_same_calls {A : Arch} (hW : 0 < A.ptrBytes) {P : Prog} (hP : P.WF A) {r : Root} (hv : Valid A P r) :
    ∃ (c : CallTree) (N : Nat), c.InRange A ∧ ∀ fuel, N ≤ fuel → ∀ (τ α : Type) (S : SerializerImpl τ α), S.A = A →
      aData S P r.im fuel r.t r.a = c.run S r.im := by
  obtain ⟨fl, v, n, hd⟩ := hv
  obtain ⟨c, _, h2, h3⟩ := aData_calls hW hP hd
  exact ⟨c, n, h2, h3⟩

/-- C68. The calls follow the rules for implementations of `Serialize`: slices are real, pointers and corrections lie inside the value being
processed, and no pointer is written twice (`Script.WF`, Spec/Discipline.lean). -/
theorem C68_calls_wf {C : Cfg} (hW : 0 < C.arch.ptrBytes) {P : Prog} (hP : P.WF C.arch) (hacc : P.Accepted C) {r : Root}
    (hv : Valid C.arch P r) :
    ∃ (c : CallTree) (N : Nat), c.toScript.WF C ⟨r.a, (P.layout r.t).size, (P.layout r.t).align⟩ ∧
      ∀ fuel, N ≤ fuel → ∀ (τ α : Type) (S : SerializerImpl τ α), S.A = C.arch → aData S P r.im fuel r.t r.a = c.run S r.im := by
  obtain ⟨fl, v, n, hd⟩ := hv
  obtain ⟨c, h1, h2, h3⟩ := aData_calls hW hP hd
  exact ⟨c, n, (script_wf hW hP hacc n _ _ _ _ _ hd h1 (placed_root (decode_guard hd).1)).1, h3⟩

section own
variable {C : Cfg} {k : Kind} {P : Prog} {im : Mem}

theorem aEach_own {rec : TyId → Nat → M Ser Unit} (a : Nat) (fs : List Field) : aEach rec a fs = serEach rec a fs := by
  induction fs with
  | nil => rfl
  | cons f fs ih => rw [aEach, serEach, ih]

theorem aData_own (n : Nat) (t a : Nat) : aData (ownSerializer C k) P im n t a = serData C k P im n t a := by
  induction n generalizing t a with
  | zero => rfl
  | succ n ih =>
    have hrec : aData (ownSerializer C k) P im n = serData C k P im n := by funext t a; exact ih t a
    rw [aData, serData]
    have hvec : ∀ u, aVec (ownSerializer C k) P im (aData (ownSerializer C k) P im n) u a = serVec C k P im (serData C k P im n) u a := by
      intro u
      unfold aVec serVec
      simp only [aEach_own, hrec]
      rfl
    cases P.defn t with
    | prim => rfl
    | box u => simp only [hrec]; rfl
    | vec u => exact hvec u
    | string => rfl
    | array u m => simp only [aEach_own, hrec]
    | struct fs => simp only [aEach_own, hrec]
    | enum tag vs => simp only [aEnum, serEnum, aEach_own, hrec]; rfl
    | bigUint u => exact hvec u
    | bigInt u => simp only [hrec]; rfl

/-- C68. The models of the crate's serializers used by the other properties are the generic implementations applied to them: for every input
(valid or not) and every state. -/
theorem C68_own_serializers (C : Cfg) (k : Kind) (P : Prog) (fuel : Nat) (rs : List Root) :
    aSession (ownSerializer C k) P fuel rs = session C k P fuel rs := by
  have h : ∀ rs, aRoots (ownSerializer C k) P fuel rs = serValues C k P fuel rs := by
    intro rs
    induction rs with
    | nil => rfl
    | cons r rs ih => rw [aRoots, serValues, ih, aData_own]; rfl
  rw [aSession, session, h]
  rfl

end own

section derived
variable {σ : Type} {P : Prog} {im : Mem}

theorem aEach_g {rec : TyId → Nat → M (GSer σ) Unit} (a : Nat) (fs : List Field) : aEach rec a fs = gEach rec a fs := by
  induction fs with
  | nil => rfl
  | cons f fs ih => rw [aEach, gEach, ih]

theorem aData_g {I : RandomImpl σ} {k : DKind} (n : Nat) (t a : Nat) : aData (derivedSerializer I k) P im n t a = gData I k P im n t a := by
  induction n generalizing t a with
  | zero => rfl
  | succ n ih =>
    have hrec : aData (derivedSerializer I k) P im n = gData I k P im n := by funext t a; exact ih t a
    rw [aData, gData]
    have hvec : ∀ u, aVec (derivedSerializer I k) P im (aData (derivedSerializer I k) P im n) u a = gVec I k P im (gData I k P im n) u a := by
      intro u
      unfold aVec gVec
      simp only [aEach_g, hrec]
      rfl
    cases P.defn t with
    | prim => rfl
    | box u => simp only [hrec]; rfl
    | vec u => exact hvec u
    | string => rfl
    | array u m => simp only [aEach_g, hrec]
    | struct fs => simp only [aEach_g, hrec]
    | enum tag vs => simp only [aEnum, gEnum, aEach_g, hrec]; rfl
    | bigUint u => exact hvec u
    | bigInt u => simp only [hrec]; rfl

/-- C68. So are the models of serializers derived over a custom storage (C62). -/
theorem C68_derived_serializers (I : RandomImpl σ) (k : DKind) (P : Prog) (fuel : Nat) (rs : List Root) :
    aSession (derivedSerializer I k) P fuel rs = gSession I k P fuel rs := by
  have h : ∀ rs, aRoots (derivedSerializer I k) P fuel rs = gSession I k P fuel rs := by
    intro rs
    induction rs with
    | nil => rfl
    | cons r rs ih => rw [aRoots, gSession, ih, aData_g]; rfl
  rw [aSession, h]
  exact bind_pure_M _

theorem aEach_c {rec : TyId → Nat → M (CSer σ) Unit} (a : Nat) (fs : List Field) : aEach rec a fs = cEach rec a fs := by
  induction fs with
  | nil => rfl
  | cons f fs ih => rw [aEach, cEach, ih]

theorem aData_c {I : ContigImpl σ} (n : Nat) (t a : Nat) : aData (derivedComplete I) P im n t a = cData I P im n t a := by
  induction n generalizing t a with
  | zero => rfl
  | succ n ih =>
    have hrec : aData (derivedComplete I) P im n = cData I P im n := by funext t a; exact ih t a
    rw [aData, cData]
    have hvec : ∀ u, aVec (derivedComplete I) P im (aData (derivedComplete I) P im n) u a = cVec I P im (cData I P im n) u a := by
      intro u
      unfold aVec cVec
      simp only [aEach_c, hrec]
      rfl
    cases P.defn t with
    | prim => rfl
    | box u => simp only [hrec]; rfl
    | vec u => exact hvec u
    | string => rfl
    | array u m => simp only [aEach_c, hrec]
    | struct fs => simp only [aEach_c, hrec]
    | enum tag vs => simp only [aEnum, cEnum, aEach_c, hrec]; rfl
    | bigUint u => exact hvec u
    | bigInt u => simp only [hrec]; rfl

/-- C68. And of `complete` serializers derived over a custom storage (C63). -/
theorem C68_derived_complete (I : ContigImpl σ) (P : Prog) (fuel : Nat) (rs : List Root) :
    aSession (derivedComplete I) P fuel rs = cSession I P fuel rs := by
  have h : ∀ rs, aRoots (derivedComplete I) P fuel rs = cRoots I P fuel rs := by
    intro rs
    induction rs with
    | nil => rfl
    | cons r rs ih => rw [aRoots, cRoots, ih, aData_c]; rfl
  rw [aSession, cSession, h]
  rfl

end derived

/-! ### C69 -/

/-- A hand-written serializer's `storage`/`storage_mut` give access to one storage and nothing else. -/
structure StorageField.Lawful {τ σ : Type} (F : StorageField τ σ) : Prop where
  get_set : ∀ t s, F.get (F.set t s) = t
  set_get : ∀ s, F.set (F.get s) s = s
  set_set : ∀ t t' s, F.set t (F.set t' s) = F.set t s

section manual
variable {τ σ α : Type} {I : RandomImpl σ} {F : StorageField τ σ} {fromRef : Nat → α} {fromRefOffset : Nat → Nat → M τ α}

/-- On states with the same storage, `x` does to the storage what `y` does, and nothing else. -/
def FSim (F : StorageField τ σ) {β : Type} (x : M τ β) (y : M (GSer σ) β) : Prop :=
  ∀ s g, F.get s = g.sto → x s = (y g).mapState (fun g' => F.set g'.sto s)

theorem FSim.pure (hF : F.Lawful) {β : Type} (b : β) : FSim F (Pure.pure b) (Pure.pure b) := by
  intro s g h
  show Out.ok b s = Out.ok b (F.set g.sto s)
  rw [← h, hF.set_get]

theorem FSim.bind (hF : F.Lawful) {β γ : Type} {x : M τ β} {y : M (GSer σ) β} {f : β → M τ γ} {f' : β → M (GSer σ) γ} (h : FSim F x y)
    (hf : ∀ b, FSim F (f b) (f' b)) : FSim F (x >>= f) (y >>= f') := by
  intro s g e
  rw [bind_def, bind_def, h s g e]
  cases y g with
  | ok b g' =>
    show f b (F.set g'.sto s) = _
    rw [hf b (F.set g'.sto s) g' (hF.get_set _ _)]
    have : (fun g'' : GSer σ => F.set g''.sto (F.set g'.sto s)) = fun g'' => F.set g''.sto s := by funext g''; exact hF.set_set _ _ _
    rw [this]
  | _ => rfl

theorem FSim.push (sl : Slice) : FSim F (F.lift (I.pushSlice sl.L sl.len sl.data)) (GSer.pushRawSlice I sl) := by
  intro s g e
  unfold StorageField.lift GSer.pushRawSlice GSer.lift
  rw [e]
  cases I.pushSlice sl.L sl.len sl.data g.sto <;> rfl

theorem FSim.skip {β β' γ : Type} {x : M τ β} {f : β → M τ γ} {f' : β' → M (GSer σ) γ} {b' : β'} (hx : ∀ s, ∃ b, x s = .ok b s)
    (hf : ∀ b, FSim F (f b) (f' b')) : FSim F (x >>= f) (Pure.pure b' >>= f') := by
  intro s g e
  obtain ⟨b, hb⟩ := hx s
  rw [bind_ok hb]
  exact hf b s g e

theorem FSim.calls (hF : F.Lawful) (hA : ∀ a off, a + off < I.C.arch.usizeMod → ∀ s, ∃ x, fromRefOffset a off s = .ok x s) (im : Mem)
    (c : CallTree) (hc : c.InRange I.C.arch) :
    FSim F (c.run (manualSerializer I.toStorageImpl F fromRef fromRefOffset) im) (c.run (derivedSerializer I .pureCopy) im) := by
  induction c with
  | done => exact FSim.pure hF _
  | process L target a inner rest ih1 ih2 =>
    exact FSim.bind hF (FSim.bind hF (FSim.push _) fun _ => FSim.bind hF (ih1 hc.1) fun _ => FSim.pure hF _) fun _ => ih2 hc.2
  | processSlice L len src a off inner rest ih1 ih2 =>
    exact FSim.skip (b' := 0) (hA a off hc.1) fun x => FSim.bind hF (FSim.bind hF (FSim.push _) fun _ => FSim.bind hF (ih1 hc.2.1) fun _ => FSim.pure hF _) fun _ => ih2 hc.2.2
  | pushSlice L len src a off rest ih =>
    exact FSim.skip (b' := 0) (hA a off hc.1) fun x => FSim.bind hF (FSim.bind hF (FSim.push _) fun _ => FSim.bind hF (FSim.pure hF _) fun _ => FSim.pure hF _) fun _ => ih hc.2
  | overwriteWith cs rest ih => exact FSim.bind hF (FSim.pure hF _) fun _ => ih hc.2

/-- C69. A serializer for which only `storage`, `storage_mut` and `into_storage` are written (the documentation's "manual implementation", any
storage, any `Addr` whose `from_ref_offset` works within the address space, any further fields) is a pure copy serializer: serializing any valid
values has the same outcome, returns the same positions and leaves the same in the storage as `#[ser_type(pure_copy)]` on that storage, and
changes nothing else. -/
theorem C69_pure_copy (hF : F.Lawful) (hA : ∀ a off, a + off < I.C.arch.usizeMod → ∀ s, ∃ x, fromRefOffset a off s = .ok x s)
    (hW : 0 < I.C.arch.ptrBytes) {P : Prog} (hP : P.WF I.C.arch) {rs : List Root} (hv : ∀ r ∈ rs, Valid I.C.arch P r) :
    ∃ N, ∀ fuel, N ≤ fuel → ∀ s, aSession (manualSerializer I.toStorageImpl F fromRef fromRefOffset) P fuel rs s =
      (gSession I .pureCopy P fuel rs (GSer.fromStorage (F.get s))).mapState fun g => F.set g.sto s := by
  have h : ∃ N, ∀ fuel, N ≤ fuel → FSim F (aRoots (manualSerializer I.toStorageImpl F fromRef fromRefOffset) P fuel rs)
      (gSession I .pureCopy P fuel rs) := by
    induction rs with
    | nil => exact ⟨0, fun _ _ => FSim.pure hF _⟩
    | cons r rs ih =>
      obtain ⟨N, hN⟩ := ih fun r hr => hv r (List.mem_cons_of_mem _ hr)
      obtain ⟨c, N', hc, hN'⟩ := C68_same_calls hW hP (hv r (List.mem_cons_self))
      refine ⟨max N N', fun fuel hf => ?_⟩
      rw [aRoots, gSession, hN' fuel (by omega) τ α (manualSerializer I.toStorageImpl F fromRef fromRefOffset) rfl, ← aData_g,
        hN' fuel (by omega) (GSer σ) Nat (derivedSerializer I .pureCopy) rfl]
      exact FSim.bind hF (FSim.bind hF (FSim.push _) fun _ => FSim.bind hF (FSim.calls hF hA _ c hc) fun _ => FSim.pure hF _)
        fun _ => FSim.bind hF (hN fuel (by omega)) fun _ => FSim.pure hF _
  obtain ⟨N, hN⟩ := h
  refine ⟨N, fun fuel hf s => ?_⟩
  rw [aSession]
  exact (congrFun (bind_pure_M _) s).trans (hN fuel hf s (GSer.fromStorage (F.get s)) rfl)

/-- C69, for values with hand-written `Serialize` implementations: any calls, following the rules or not. -/
theorem C69_user (hF : F.Lawful) (vs : List UserRoot) (s : τ) :
    aValues (manualSerializer I.toStorageImpl F fromRef fromRefOffset) vs s =
      (gValues I .pureCopy vs (GSer.fromStorage (F.get s))).mapState fun g => F.set g.sto s := by
  have hsc : ∀ (im : Mem) (sc : Script), FSim F (sc.runA (manualSerializer I.toStorageImpl F fromRef fromRefOffset) im)
      (sc.runG I .pureCopy im) := by
    intro im sc
    induction sc with
    | done => exact FSim.pure hF _
    | pushProcess L len src ptr inner rest ih1 ih2 =>
      exact FSim.bind hF (FSim.bind hF (FSim.push _) fun _ => FSim.bind hF ih1 fun _ => FSim.pure hF _) fun _ => ih2
    | push L len src ptr rest ih =>
      exact FSim.bind hF (FSim.bind hF (FSim.push _) fun _ => FSim.bind hF (FSim.pure hF _) fun _ => FSim.pure hF _) fun _ => ih
    | pushRaw L len src rest ih => exact FSim.bind hF (FSim.push _) fun _ => ih
    | overwrite a L d rest ih => exact ih
  have h : FSim F (aValues (manualSerializer I.toStorageImpl F fromRef fromRefOffset) vs) (gValues I .pureCopy vs) := by
    induction vs with
    | nil => exact FSim.pure hF _
    | cons v vs ih =>
      exact FSim.bind hF (FSim.bind hF (FSim.push _) fun _ => FSim.bind hF (hsc _ _) fun _ => FSim.pure hF _)
        fun _ => FSim.bind hF ih fun _ => FSim.pure hF _
  exact h s (GSer.fromStorage (F.get s)) rfl

end manual

/-- C69 for `AlignedVec` (the documentation's example): what it does is what `PureCopySerializer` does. -/
theorem C69_aligned_vec {τ α : Type} {C : Cfg} {F : StorageField τ Sto} {fromRef : Nat → α} {fromRefOffset : Nat → Nat → M τ α} (hF : F.Lawful)
    (hA : ∀ a off, a + off < C.arch.usizeMod → ∀ s, ∃ x, fromRefOffset a off s = .ok x s) (hW : 0 < C.arch.ptrBytes) {P : Prog}
    (hP : P.WF C.arch) {rs : List Root} (hv : ∀ r ∈ rs, Valid C.arch P r) :
    ∃ N, ∀ fuel, N ≤ fuel → ∀ s, aSession (manualSerializer (alignedVecImpl C) F fromRef fromRefOffset) P fuel rs s =
      (session C .pureCopy P fuel rs (Ser.fromStorage (F.get s))).mapState fun g => F.set g.sto s := by
  obtain ⟨N, hN⟩ := C69_pure_copy (I := alignedVecRandom C) (fromRef := fromRef) hF hA hW hP hv
  refine ⟨N, fun fuel hf s => ?_⟩
  have h1 := hN fuel hf s
  have h2 := C62_aligned_vec_same C .pureCopy P fuel rs (F.get s)
  rw [show session C .pureCopy P fuel rs (Ser.fromStorage (F.get s)) = _ from h2]
  rw [show aSession (manualSerializer (alignedVecImpl C) F fromRef fromRefOffset) P fuel rs s = _ from h1]
  cases gSession (alignedVecRandom C) .pureCopy P fuel rs (GSer.fromStorage (F.get s)) <;> rfl

/-! ### Examples -/

/-- A serializer `struct { storage, calls: usize }` (with a `NoopAddr`). -/
def exField : StorageField (ArrayStorage × Nat) ArrayStorage := ⟨Prod.fst, fun t s => (t, s.2)⟩

theorem exField_lawful : exField.Lawful := ⟨fun _ _ => rfl, fun _ => rfl, fun _ _ _ => rfl⟩

theorem exRoots_valid : ∀ r ∈ exRoots.map Prod.fst, Valid x64 exP r := by
  intro r hr
  obtain ⟨x, hx, rfl⟩ := List.mem_map.1 hr
  exact ⟨_, _, exInputs x hx⟩

/-- C68 applies to the example values: the node makes one tree of calls on all serializers. -/
example : ∀ r ∈ exRoots.map Prod.fst, ∃ (c : CallTree) (N : Nat), c.InRange x64 ∧ ∀ fuel, N ≤ fuel →
    ∀ (τ α : Type) (S : SerializerImpl τ α), S.A = x64 → aData S exP r.im fuel r.t r.a = c.run S r.im :=
  fun r hr => C68_same_calls (by decide) exP_wf (exRoots_valid r hr)

/-- C69 applies: the example values end up in a hand-written serializer's storage, at 0, 136 and 184, and its other field is as before. -/
example (n : Nat) : ∃ N, ∀ fuel, N ≤ fuel → ∃ ps t,
    aSession (manualSerializer (arrayImpl cfg64).toStorageImpl exField (fun _ => ()) (fun _ _ => pure ())) exP fuel (exRoots.map Prod.fst)
      ((arrayImpl cfg64).new, n) = .ok ps (t, n) := by
  obtain ⟨N, hN⟩ := C69_pure_copy (I := arrayImpl cfg64) (fromRef := fun _ => ()) (fromRefOffset := fun _ _ => pure ()) exField_lawful
    (fun _ _ _ s => ⟨(), rfl⟩) (by decide) exP_wf exRoots_valid
  obtain ⟨s', hr, _⟩ := arrayRun .pureCopy
  refine ⟨max N 6, fun fuel hf => ?_⟩
  have h1 := hN fuel (by omega) ((arrayImpl cfg64).new, n)
  have h2 := gRoots_fuel (show 6 ≤ fuel by omega) (exRoots.map Prod.fst) (GSer.fromStorage (arrayImpl cfg64).new) (by rw [hr]; simp)
  rw [hr] at h2
  rw [show exField.get ((arrayImpl cfg64).new, n) = (arrayImpl cfg64).new from rfl, h2] at h1
  exact ⟨_, _, h1⟩

end SerRaw
