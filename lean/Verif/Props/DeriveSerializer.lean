import Verif.Model.DeriveSerializer
/-
C43: the serializer generated by `#[derive(Serializer)]`, for every declaration.
-/
namespace SerRaw

/-! ### Specification -/

/-- No attribute is `#[tag...]`. -/
def NoTag (tag : String) (as : List Attr) : Prop := ∀ a ∈ as, a.path ≠ [tag]

/-- `a` is the only `#[tag...]` attribute. -/
def OnlyTag (tag : String) (as : List Attr) (a : Attr) : Prop :=
  ∃ l r, as = l ++ a :: r ∧ NoTag tag l ∧ NoTag tag r ∧ a.path = [tag]

/-- `f` is the only field tagged `#[tag...]`, and `a` is its tag. -/
def TheField (tag : String) (fs : List SField) (f : SField) (a : Attr) : Prop :=
  ∃ l r, fs = l ++ f :: r ∧ (∀ g ∈ l, NoTag tag g.attrs) ∧ (∀ g ∈ r, NoTag tag g.attrs) ∧ OnlyTag tag f.attrs a

/-- The name of a kind in `#[ser_type(..)]`. -/
def Kind.attrName : Kind → String
  | .pureCopy => "pure_copy"
  | .posTracking => "pos_tracking"
  | .ptrOffset => "ptr_offset"
  | .complete => "complete"

/-- The struct is tagged `#[ser_type(kind)]`, once. -/
def NamesKind (as : List Attr) (k : Kind) : Prop :=
  ∃ a p, OnlyTag "ser_type" as a ∧ a.parseMeta = some (.list p [.item (.path [k.attrName])])

/-- What the derive requires: `#[ser_type(kind)]` once, a struct with named fields, exactly one storage field with
`#[ser_storage(T)]`, exactly one `#[ser_pos_mapping]` field unless the kind is `pure_copy`, exactly one `#[ser_ptrs]` field if it
is `complete`. -/
structure Acceptable (d : SerializerDecl) (k : Kind) (fs : List SField) : Prop where
  kind : NamesKind d.attrs k
  fields : d.data = .named fs
  storage : ∃ f a ty, TheField "ser_storage" fs f a ∧ a.typeTokens = .paren ty
  posMapping : k ≠ .pureCopy → ∃ f a, TheField "ser_pos_mapping" fs f a
  ptrs : k = .complete → ∃ f a, TheField "ser_ptrs" fs f a

/-- `syn`: the fields of a struct with named fields have names. -/
def Named (d : SerializerDecl) : Prop := ∀ fs, d.data = .named fs → ∀ f ∈ fs, f.ident.isSome

/-- The behaviour of a kind, as in Model/Serializer.lean (on which C20-C36 are proved). -/
def Kind.table (C : Cfg) (k : Kind) : MethodTable :=
  ⟨k.tracking, serializeValue C k, pushSlice C k, pushAndProcessSlice C k, overwrite C k, overwriteWith k, finalize C k⟩

/-! ### Proofs -/

theorem tagAttrs_nil {tag : String} {as : List Attr} : tagAttrs tag as = [] ↔ NoTag tag as := by
  simp [tagAttrs, List.filter_eq_nil_iff, isIdent, NoTag]

theorem tagAttrs_one {tag : String} {as : List Attr} {a : Attr} : tagAttrs tag as = [a] ↔ OnlyTag tag as a := by
  constructor
  · intro h
    induction as with
    | nil => cases h
    | cons x xs ih =>
      by_cases hx : isIdent x.path tag = true
      · rw [tagAttrs, List.filter_cons_of_pos (p := fun a : Attr => isIdent a.path tag) hx] at h
        obtain ⟨rfl, h2⟩ := List.cons.inj h
        exact ⟨[], xs, rfl, (by intro a h; cases h), tagAttrs_nil.1 h2, by simpa [isIdent] using hx⟩
      · rw [tagAttrs, List.filter_cons_of_neg (p := fun a : Attr => isIdent a.path tag) hx] at h
        obtain ⟨l, r, rfl, h1, h2⟩ := ih h
        refine ⟨x :: l, r, rfl, fun y hy => ?_, h2⟩
        rcases List.mem_cons.1 hy with rfl | hy
        · simpa [isIdent] using hx
        · exact h1 y hy
  · rintro ⟨l, r, rfl, h1, h2, h3⟩
    have e1 := tagAttrs_nil.2 h1
    have e2 := tagAttrs_nil.2 h2
    simp only [tagAttrs] at e1 e2 ⊢
    rw [List.filter_append, e1, List.filter_cons_of_pos (by simp [isIdent, h3]), e2]; rfl

theorem OnlyTag.unique {tag : String} {as : List Attr} {a b : Attr} (h1 : OnlyTag tag as a) (h2 : OnlyTag tag as b) : a = b := by
  have := (tagAttrs_one.2 h1).symm.trans (tagAttrs_one.2 h2)
  exact (List.cons.inj this).1

theorem tagField_none {tag : String} {f : SField} : tagField tag f = some none ↔ NoTag tag f.attrs := by
  rw [← tagAttrs_nil]
  unfold tagField
  constructor
  · intro h; split at h
    · assumption
    · cases h
    · cases h
  · intro h; rw [h]

theorem tagField_some {tag : String} {f : SField} {p : SField × Attr} :
    tagField tag f = some (some p) ↔ p.1 = f ∧ OnlyTag tag f.attrs p.2 := by
  rw [← tagAttrs_one]
  unfold tagField
  constructor
  · intro h; split at h
    · cases h
    · rename_i e; cases h; exact ⟨rfl, e⟩
    · cases h
  · rintro ⟨h1, h2⟩; rw [h2]; cases p; cases h1; rfl

theorem tagFields_nil {tag : String} {fs : List SField} :
    (∃ xs, fs.mapM (tagField tag) = some xs ∧ xs.filterMap id = []) ↔ ∀ g ∈ fs, NoTag tag g.attrs := by
  induction fs with
  | nil => exact ⟨fun _ g hg => (by cases hg), fun _ => ⟨[], rfl, rfl⟩⟩
  | cons f fs ih =>
    simp only [List.mapM_cons, Option.bind_eq_bind, Option.bind_eq_some_iff, Option.pure_def, Option.some.injEq, List.mem_cons, forall_eq_or_imp]
    rw [← ih]
    constructor
    · rintro ⟨xs, ⟨y, h1, ys, h2, rfl⟩, h3⟩
      cases y with
      | none => exact ⟨tagField_none.1 h1, ys, h2, h3⟩
      | some p => simp at h3
    · rintro ⟨h1, ys, h2, h3⟩
      exact ⟨none :: ys, ⟨none, tagField_none.2 h1, ys, h2, rfl⟩, h3⟩

theorem tagFields_one {tag : String} {fs : List SField} {f : SField} {a : Attr} :
    (∃ xs, fs.mapM (tagField tag) = some xs ∧ xs.filterMap id = [(f, a)]) ↔ TheField tag fs f a := by
  induction fs with
  | nil =>
    constructor
    · rintro ⟨xs, h1, h2⟩; cases h1; cases h2
    · rintro ⟨l, r, h, _⟩; simp at h
  | cons g fs ih =>
    simp only [List.mapM_cons, Option.bind_eq_bind, Option.bind_eq_some_iff, Option.pure_def, Option.some.injEq]
    constructor
    · rintro ⟨xs, ⟨y, h1, ys, h2, rfl⟩, h3⟩
      cases y with
      | none =>
        obtain ⟨l, r, rfl, h4, h5⟩ := ih.1 ⟨ys, h2, h3⟩
        refine ⟨g :: l, r, rfl, fun x hx => ?_, h5⟩
        rcases List.mem_cons.1 hx with rfl | hx
        · exact tagField_none.1 h1
        · exact h4 x hx
      | some p =>
        simp only [List.filterMap_cons, id, List.cons.injEq] at h3
        obtain ⟨rfl, h3⟩ := h3
        obtain ⟨h4, h5⟩ := tagField_some.1 h1
        simp only at h4; subst h4
        exact ⟨[], fs, rfl, (by intro x hx; cases hx), tagFields_nil.1 ⟨ys, h2, h3⟩, h5⟩
    · rintro ⟨l, r, h, h1, h2, h3⟩
      cases l with
      | nil =>
        obtain ⟨rfl, rfl⟩ := List.cons.inj h
        obtain ⟨ys, h4, h5⟩ := tagFields_nil.2 h2
        exact ⟨some (g, a) :: ys, ⟨_, tagField_some.2 ⟨rfl, h3⟩, ys, h4, rfl⟩, congrArg (List.cons (g, a)) h5⟩
      | cons x l =>
        obtain ⟨rfl, rfl⟩ := List.cons.inj h
        obtain ⟨ys, h4, h5⟩ := ih.2 ⟨l, r, rfl, fun y hy => h1 y (List.mem_cons_of_mem _ hy), h2, h3⟩
        exact ⟨none :: ys, ⟨none, tagField_none.2 (h1 g (List.mem_cons_self ..)), ys, h4, rfl⟩, h5⟩

theorem TheField.mem {tag : String} {fs : List SField} {f : SField} {a : Attr} (h : TheField tag fs f a) : f ∈ fs := by
  obtain ⟨l, r, rfl, _⟩ := h; simp

theorem TheField.unique {tag : String} {fs : List SField} {f g : SField} {a b : Attr} (h1 : TheField tag fs f a) (h2 : TheField tag fs g b) :
    f = g ∧ a = b := by
  obtain ⟨xs, e1, e2⟩ := tagFields_one.2 h1
  obtain ⟨ys, e3, e4⟩ := tagFields_one.2 h2
  rw [e1] at e3; cases e3
  rw [e2] at e4
  simpa using e4

theorem getTaggedField_iff {tag : String} {fs : List SField} {name : Ident} {ty : String} {a : Attr} :
    getTaggedField fs tag = some (name, ty, a) ↔ ∃ f, TheField tag fs f a ∧ f.ident = some name ∧ f.ty = ty := by
  simp only [getTaggedField, Option.bind_eq_bind, Option.bind_eq_some_iff]
  constructor
  · rintro ⟨xs, h1, h2⟩
    split at h2
    · rename_i f b e
      simp only [Option.bind_eq_some_iff, Option.pure_def, Option.some.injEq, Prod.mk.injEq] at h2
      obtain ⟨n, h3, rfl, rfl, rfl⟩ := h2
      exact ⟨f, tagFields_one.1 ⟨xs, h1, e⟩, h3, rfl⟩
    · cases h2
  · rintro ⟨f, h1, h2, rfl⟩
    obtain ⟨xs, h3, h4⟩ := tagFields_one.2 h1
    exact ⟨xs, h3, by rw [h4]; simp [h2]⟩

theorem kindOfName_iff {s : String} {k : Kind} : kindOfName s = some k ↔ s = k.attrName := by
  unfold kindOfName
  constructor
  · intro h
    split at h
    · cases h; assumption
    · split at h
      · cases h; assumption
      · split at h
        · cases h; assumption
        · split at h
          · cases h; assumption
          · cases h
  · rintro rfl
    cases k <;> decide

theorem getSerType_iff {d : SerializerDecl} {k : Kind} : getSerType d = some k ↔ NamesKind d.attrs k := by
  unfold getSerType NamesKind
  constructor
  · intro h
    split at h
    · rename_i a e
      simp only [Option.bind_eq_bind, Option.bind_eq_some_iff] at h
      obtain ⟨s, h1, h2⟩ := h
      have := kindOfName_iff.1 h2; subst this
      unfold serTypeName at h1
      split at h1
      · rename_i p x e2
        cases h1
        exact ⟨a, p, tagAttrs_one.1 e, e2⟩
      · cases h1
    · cases h
  · rintro ⟨a, p, h1, h2⟩
    rw [tagAttrs_one.2 h1]
    simp only [serTypeName, h2, Option.bind_eq_bind, Option.bind_some]
    exact kindOfName_iff.2 rfl

theorem getStorageField_iff {fs : List SField} {name : Ident} {ty b : String} :
    getStorageField fs = some (name, ty, b) ↔ ∃ f a, TheField "ser_storage" fs f a ∧ f.ident = some name ∧ f.ty = b ∧ a.typeTokens = .paren ty := by
  simp only [getStorageField, Option.bind_eq_bind, Option.bind_eq_some_iff]
  constructor
  · rintro ⟨⟨n, c, a⟩, h1, h2⟩
    obtain ⟨f, h3, h4, h5⟩ := getTaggedField_iff.1 h1
    simp only at h2
    split at h2
    · rename_i e; cases h2; exact ⟨f, a, h3, h4, h5, e⟩
    · cases h2
  · rintro ⟨f, a, h1, h2, h3, h4⟩
    exact ⟨(name, b, a), getTaggedField_iff.2 ⟨f, h1, h2, h3⟩, by simp [h4]⟩

theorem implPosTracking_iff {fs : List SField} {name : Ident} :
    implPosTracking fs = some name ↔ ∃ f a, TheField "ser_pos_mapping" fs f a ∧ f.ident = some name := by
  simp only [implPosTracking, Option.bind_eq_bind, Option.bind_eq_some_iff, Option.pure_def, Option.some.injEq]
  constructor
  · rintro ⟨⟨n, c, a⟩, h1, rfl⟩
    obtain ⟨f, h3, h4, h5⟩ := getTaggedField_iff.1 h1
    exact ⟨f, a, h3, h4⟩
  · rintro ⟨f, a, h1, h2⟩
    exact ⟨(name, f.ty, a), getTaggedField_iff.2 ⟨f, h1, h2, rfl⟩, rfl⟩

theorem getFields_iff {d : SerializerDecl} {fs : List SField} : getFields d = some fs ↔ d.data = .named fs := by
  unfold getFields
  cases d.data <;> simp

/-- C43, acceptance. The macro expands exactly on the declarations which meet the requirements. -/
theorem C43_accepts {d : SerializerDecl} (hn : Named d) : (∃ g, deriveSerializer d = some g) ↔ ∃ k fs, Acceptable d k fs := by
  constructor
  · rintro ⟨g, h⟩
    simp only [deriveSerializer, Option.bind_eq_bind, Option.bind_eq_some_iff] at h
    obtain ⟨k, h1, fs, h2, ⟨name, ty, b⟩, h3, ⟨ms, is⟩, h4, h5⟩ := h
    obtain ⟨f, a, h6, h7, h8, h9⟩ := getStorageField_iff.1 h3
    refine ⟨k, fs, getSerType_iff.1 h1, getFields_iff.1 h2, ⟨f, a, ty, h6, h9⟩, fun hk => ?_, fun hk => ?_⟩
    · have : ∃ m, implPosTracking fs = some m := by
        cases k with
        | pureCopy => exact absurd rfl hk
        | posTracking => simp only [extraImpl, posTrackingImpl, Option.bind_eq_bind, Option.bind_eq_some_iff] at h4; exact ⟨_, h4.choose_spec.1⟩
        | ptrOffset => simp only [extraImpl, ptrOffsetImpl, Option.bind_eq_bind, Option.bind_eq_some_iff] at h4; exact ⟨_, h4.choose_spec.1⟩
        | complete => simp only [extraImpl, completeImpl, Option.bind_eq_bind, Option.bind_eq_some_iff] at h4; exact ⟨_, h4.choose_spec.1⟩
      obtain ⟨m, hm⟩ := this
      obtain ⟨f, a, h, _⟩ := implPosTracking_iff.1 hm
      exact ⟨f, a, h⟩
    · subst hk
      simp only [extraImpl, completeImpl, Option.bind_eq_bind, Option.bind_eq_some_iff] at h4
      obtain ⟨m, _, ⟨p, q, r⟩, h10, _⟩ := h4
      obtain ⟨f, h, _⟩ := getTaggedField_iff.1 h10
      exact ⟨f, r, h⟩
  · rintro ⟨k, fs, h⟩
    have nm : ∀ f ∈ fs, ∃ i, f.ident = some i := fun f hf => Option.isSome_iff_exists.1 (hn fs h.fields f hf)
    obtain ⟨f, a, ty, h1, h2⟩ := h.storage
    obtain ⟨i, hi⟩ := nm f h1.mem
    have e1 := getSerType_iff.2 h.kind
    have e2 := getFields_iff.2 h.fields
    have e3 := getStorageField_iff.2 ⟨f, a, h1, hi, rfl, h2⟩
    have hpm : k ≠ .pureCopy → ∃ m, implPosTracking fs = some m := by
      intro hk
      obtain ⟨f, a, h⟩ := h.posMapping hk
      obtain ⟨i, hi⟩ := nm f h.mem
      exact ⟨i, implPosTracking_iff.2 ⟨f, a, h, hi⟩⟩
    simp only [deriveSerializer, e1, e2, e3, Option.bind_eq_bind, Option.bind_some]
    cases k with
    | pureCopy => exact ⟨_, rfl⟩
    | posTracking =>
      obtain ⟨m, hm⟩ := hpm (by decide)
      simp only [extraImpl, posTrackingImpl, hm, Option.bind_eq_bind, Option.bind_some]; exact ⟨_, rfl⟩
    | ptrOffset =>
      obtain ⟨m, hm⟩ := hpm (by decide)
      simp only [extraImpl, ptrOffsetImpl, hm, Option.bind_eq_bind, Option.bind_some]; exact ⟨_, rfl⟩
    | complete =>
      obtain ⟨m, hm⟩ := hpm (by decide)
      obtain ⟨f, a, h⟩ := h.ptrs rfl
      obtain ⟨i, hi⟩ := nm f h.mem
      simp only [extraImpl, completeImpl, hm, getTaggedField_iff.2 ⟨f, h, hi, rfl⟩, Option.bind_eq_bind, Option.bind_some]; exact ⟨_, rfl⟩

/-- C43, behaviour. If the macro accepts a struct tagged `#[ser_type(kind)]`, the generated impls compile, and every method does
what the model says of that kind. -/
theorem C43_behaviour (C : Cfg) {d : SerializerDecl} {k : Kind} (hk : NamesKind d.attrs k) {g : SerImpl} (h : deriveSerializer d = some g) :
    g.table C = some (k.table C) := by
  simp only [deriveSerializer, Option.bind_eq_bind, Option.bind_eq_some_iff, getSerType_iff.2 hk, Option.some.injEq, exists_eq_left'] at h
  obtain ⟨fs, h2, ⟨name, ty, b⟩, h3, ⟨ms, is⟩, h4, h5⟩ := h
  cases k with
  | pureCopy =>
    cases h4; cases h5; rfl
  | posTracking =>
    simp only [extraImpl, posTrackingImpl, Option.bind_eq_bind, Option.bind_eq_some_iff] at h4
    obtain ⟨m, _, h4⟩ := h4
    cases h4; cases h5; rfl
  | ptrOffset =>
    simp only [extraImpl, ptrOffsetImpl, Option.bind_eq_bind, Option.bind_eq_some_iff] at h4
    obtain ⟨m, _, h4⟩ := h4
    cases h4; cases h5; rfl
  | complete =>
    simp only [extraImpl, completeImpl, Option.bind_eq_bind, Option.bind_eq_some_iff] at h4
    obtain ⟨m, _, ⟨p, q, r⟩, _, h4⟩ := h4
    cases h4; cases h5; rfl

/-- C43, fields. The storage is the field tagged `#[ser_storage(T)]`: `Storage` is `T`, `BorrowedStorage` the field's type. The
position mapping and the pointer record, where the kind has them, are the fields tagged for them. -/
theorem C43_fields {d : SerializerDecl} {k : Kind} (hk : NamesKind d.attrs k) {g : SerImpl} (h : deriveSerializer d = some g)
    {fs : List SField} (hfs : d.data = .named fs) :
    (∀ f a, TheField "ser_storage" fs f a → some g.storageField = f.ident ∧ g.borrowedTy = f.ty ∧ a.typeTokens = .paren g.storageTy) ∧
    (∀ f a, TheField "ser_pos_mapping" fs f a → k ≠ .pureCopy → g.impls.posTracking = f.ident) ∧
    (∀ f a, TheField "ser_ptrs" fs f a → k = .complete → g.impls.complete = f.ident) ∧
    (g.impls.posTracking.isSome ↔ k ≠ .pureCopy) ∧ (g.impls.complete.isSome ↔ k = .complete) ∧
    (g.isLocal = true ↔ ¬ NoTag "__local" d.attrs) := by
  simp only [deriveSerializer, Option.bind_eq_bind, Option.bind_eq_some_iff, getSerType_iff.2 hk, getFields_iff.2 hfs,
    Option.some.injEq, exists_eq_left'] at h
  obtain ⟨⟨name, ty, b⟩, h3, ⟨ms, is⟩, h4, h5⟩ := h
  have key : (∀ f a, TheField "ser_pos_mapping" fs f a → k ≠ .pureCopy → is.posTracking = f.ident) ∧
      (∀ f a, TheField "ser_ptrs" fs f a → k = .complete → is.complete = f.ident) ∧
      (is.posTracking.isSome ↔ k ≠ .pureCopy) ∧ (is.complete.isSome ↔ k = .complete) := by
    have pm : ∀ m f a, implPosTracking fs = some m → TheField "ser_pos_mapping" fs f a → some m = f.ident := by
      intro m f a hm hf
      obtain ⟨f', a', h1, h2⟩ := implPosTracking_iff.1 hm
      obtain ⟨rfl, _⟩ := h1.unique hf
      exact h2.symm
    cases k with
    | pureCopy =>
      cases h4
      exact ⟨fun _ _ _ h => absurd rfl h, fun _ _ _ h => (by cases h), by simp, by simp⟩
    | posTracking =>
      simp only [extraImpl, posTrackingImpl, Option.bind_eq_bind, Option.bind_eq_some_iff] at h4
      obtain ⟨m, hm, h4⟩ := h4
      cases h4
      exact ⟨fun f a hf _ => pm m f a hm hf, fun _ _ _ h => (by cases h), by simp, by simp⟩
    | ptrOffset =>
      simp only [extraImpl, ptrOffsetImpl, Option.bind_eq_bind, Option.bind_eq_some_iff] at h4
      obtain ⟨m, hm, h4⟩ := h4
      cases h4
      exact ⟨fun f a hf _ => pm m f a hm hf, fun _ _ _ h => (by cases h), by simp, by simp⟩
    | complete =>
      simp only [extraImpl, completeImpl, Option.bind_eq_bind, Option.bind_eq_some_iff] at h4
      obtain ⟨m, hm, ⟨p, q, r⟩, hp, h4⟩ := h4
      cases h4
      refine ⟨fun f a hf _ => pm m f a hm hf, fun f a hf _ => ?_, by simp, by simp⟩
      obtain ⟨f', h1, h2, _⟩ := getTaggedField_iff.1 hp
      obtain ⟨rfl, _⟩ := h1.unique hf
      exact h2.symm
  cases h5
  refine ⟨fun f a hf => ?_, key.1, key.2.1, key.2.2.1, key.2.2.2, ?_⟩
  · obtain ⟨f', a', h1, h2, h6, h7⟩ := getStorageField_iff.1 h3
    obtain ⟨rfl, rfl⟩ := h1.unique hf
    exact ⟨h2.symm, h6.symm, h7⟩
  · simp only [getNamespace, Bool.not_eq_true', List.isEmpty_eq_false_iff, ne_eq, tagAttrs_nil]

/-! ### The hypotheses are met -/

/-- `#[name]` -/
private def plain (name : String) : Attr := ⟨[name], some (.path [name]), none, .err⟩

/-- `#[ser_type(name)]` -/
private def serType (name : String) : Attr := ⟨["ser_type"], some (.list ["ser_type"] [.item (.path [name])]), none, .paren name⟩

/-- `#[ser_storage(ty)]` -/
private def serStorage (ty : String) : Attr := ⟨["ser_storage"], none, none, .paren ty⟩

/-- The declaration of `CompleteSerializer` — ser_raw/src/serializers/complete.rs:64-80. -/
private def completeDecl : SerializerDecl :=
  ⟨[plain "__local", serType "complete"],
   .named [⟨⟨some ⟨false, "storage"⟩, [serStorage "AlignedVec<SA, MVA, VA, MAX>"]⟩, "BorrowedStorage"⟩,
           ⟨⟨some ⟨false, "pos_mapping"⟩, [plain "ser_pos_mapping"]⟩, "PosMapping"⟩,
           ⟨⟨some ⟨false, "ptrs"⟩, [plain "ser_ptrs"]⟩, "Ptrs"⟩]⟩

private theorem completeDecl_named : Named completeDecl := by
  intro fs h f hf
  cases h
  simp only [List.mem_cons, List.not_mem_nil, or_false] at hf
  rcases hf with rfl | rfl | rfl <;> rfl

private theorem completeDecl_kind : NamesKind completeDecl.attrs .complete :=
  ⟨serType "complete", ["ser_type"], ⟨[plain "__local"], [], rfl, by simp [NoTag, plain], by simp [NoTag], rfl⟩, rfl⟩

/-- C43 applies to it: it is accepted, it behaves as `CompleteSerializer`, and its three fields are found. -/
example : (∃ k fs, Acceptable completeDecl k fs) ∧
    (∀ C g, deriveSerializer completeDecl = some g → g.table C = some (Kind.complete.table C)) ∧
    ∀ g, deriveSerializer completeDecl = some g → g.impls.posTracking.isSome ∧ g.impls.complete.isSome ∧ g.isLocal = true := by
  refine ⟨(C43_accepts completeDecl_named).1 ⟨_, rfl⟩, fun C g h => C43_behaviour C completeDecl_kind h, fun g h => ?_⟩
  have h := (C43_fields completeDecl_kind h rfl).2.2.2
  exact ⟨h.1.2 (by decide), h.2.1.2 rfl, h.2.2.2 (fun hn => hn (plain "__local") (by simp [completeDecl]) rfl)⟩

example : ∃ g, deriveSerializer completeDecl = some g ∧ g.storageField.name = "storage" ∧ g.impls.complete = some ⟨false, "ptrs"⟩ :=
  ⟨_, rfl, rfl, rfl⟩

/-- Without the `#[ser_ptrs]` field it is rejected. -/
example : deriveSerializer { completeDecl with
    data := .named [⟨⟨some ⟨false, "storage"⟩, [serStorage "S"]⟩, "B"⟩, ⟨⟨some ⟨false, "m"⟩, [plain "ser_pos_mapping"]⟩, "PosMapping"⟩] } = none := rfl

end SerRaw
