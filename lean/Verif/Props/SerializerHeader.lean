import Verif.Props.DeriveHeader
import Verif.Props.DeriveSerializer
import Verif.Spec.SerializerHeader
/-
C87: the impls `#[derive(Serializer)]` generates — which traits, for which types.
-/
namespace SerRaw

theorem serializerItems_some {d : SerializerItem} {k : Kind} (hk : NamesKind d.decl.attrs k) {r : SerImpl × List HeaderT} :
    serializerItems d = some r ↔ deriveSerializer d.decl = some r.1 ∧
      r.2 = headerFor d.ident d.generics outerImports "Serializer" :: kindHeaders d.ident d.generics k := by
  unfold serializerItems
  rw [getSerType_iff.2 hk]
  simp only [Option.bind_eq_bind, Option.bind_some, Option.bind_eq_some_iff, Option.pure_def, Option.some.injEq]
  constructor
  · rintro ⟨b, h1, rfl⟩; exact ⟨h1, rfl⟩
  · rintro ⟨h1, h2⟩; exact ⟨r.1, h1, by rw [← h2]⟩

theorem kindHeaders_form (ident : Ident) (g : GenericsT) (k : Kind) :
    ∃ l : List (String × List String), headerFor ident g outerImports "Serializer" :: kindHeaders ident g k = l.map (fun x => headerFor ident g x.2 x.1) ∧
      l.map Prod.fst = k.traits ∧ (∀ x ∈ l, x.1 ∈ x.2) ∧ (∀ x ∈ l, ∀ n ∈ x.2, n ∈ k.names) ∧ ∀ n ∈ k.names, ∃ x ∈ l, n ∈ x.2 := by
  cases k with
  | pureCopy => exact ⟨[("Serializer", outerImports)], rfl, rfl, by decide, by decide, by decide⟩
  | posTracking => exact ⟨[("Serializer", outerImports), ("PosTracking", outerImports ++ ["PosTracking", "PosMapping"])], rfl, rfl, by decide, by decide, by decide⟩
  | ptrOffset =>
    exact ⟨[("Serializer", outerImports), ("PosTracking", outerImports ++ ["PosTracking", "PosMapping"]),
      ("PtrWriting", outerImports ++ ["PtrOffset", "PtrWriting"]), ("PtrOffset", outerImports ++ ["PtrOffset", "PtrWriting"])], rfl, rfl, by decide, by decide, by decide⟩
  | complete =>
    exact ⟨[("Serializer", outerImports), ("PosTracking", outerImports ++ ["PosTracking", "PosMapping"]),
      ("PtrWriting", outerImports ++ ["Ptrs", "Complete", "PtrWriting", "Writable"]), ("Writable", outerImports ++ ["Ptrs", "Complete", "PtrWriting", "Writable"]),
      ("Complete", outerImports ++ ["Ptrs", "Complete", "PtrWriting", "Writable"])], rfl, rfl, by decide, by decide, by decide⟩

/-- One impl is for exactly the types of the declaration, if no name is captured. -/
theorem headerFor_implements {τ : Type} {W : List String → Rustc τ} {g : GenericsT} (hl : g.Legal) {names imports : List String}
    (hu : Unaffected W names g) (hi : ∀ x ∈ imports, x ∈ names) {id : Ident} (hid : id.name ∉ names) {t : String} (ht : t ∈ imports)
    (hp : ∀ p ∈ g.params, p.name ∉ names) (tr : String) (ident : Ident) (args : List τ) :
    Implements W (headerFor id g imports t) tr ident args ↔ tr = t ∧ ident = id ∧ ∃ env, (W []).IsType g env args := by
  have hfit : ∀ env, (W imports).Fit env g.implParams ↔ (W imports).Fit env g.params := by
    intro env
    simp only [GenericsT.implParams, lifetimesFirst_eq hl.2, Rustc.Fit, List.forall_mem_map]
  have hargs : ∀ env : String → τ, g.typeArgs.map env = g.params.map fun p => env p.name := by
    intro env
    simp [GenericsT.typeArgs, lifetimesFirst_eq hl.2]
  constructor
  · rintro ⟨h1, _, _, h2, _, env, h3, h4, h5⟩
    simp only [headerFor] at h1 h2 h3 h4 h5
    exact ⟨h1.symm, h2.symm, env, h5.trans (hargs env), (hu imports hi env).1.1 ((hfit env).1 h3), fun w hw => ((hu imports hi env).2 w hw).1 (h4 w hw)⟩
  · rintro ⟨rfl, rfl, env, h1, h2, h3⟩
    refine ⟨rfl, ht, ?_, rfl, fun h => hid (hi _ h), env, (hfit env).2 ((hu imports hi env).1.2 h2), fun w hw => ((hu imports hi env).2 w hw).2 (h3 w hw), h1.trans (hargs env).symm⟩
    intro p hp' e
    simp only [headerFor, GenericsT.implParams, lifetimesFirst_eq hl.2, List.mem_map] at hp'
    obtain ⟨q, hq, rfl⟩ := hp'
    refine hp q hq ?_
    have e : q.name = tr := e
    rw [e]
    exact hi _ ht

/-- C87, the impls are for every type of the declaration: if the struct, its parameters, and the bounds and predicates of its declaration do not use the names the
generated code imports, then `ident<args>` gets the trait `tr` exactly if `ident<args>` is a type, by the declaration, and `tr` is one of the traits of the kind. No
requirement is added, none is dropped. -/
theorem C87_instances {τ : Type} (W : List String → Rustc τ) {d : SerializerItem} {k : Kind} (hk : NamesKind d.decl.attrs k) (hl : d.generics.Legal)
    (hid : d.ident.name ∉ k.names) (hp : ∀ p ∈ d.generics.params, p.name ∉ k.names) (hu : Unaffected W k.names d.generics)
    {r : SerImpl × List HeaderT} (h : serializerItems d = some r) (tr : String) (ident : Ident) (args : List τ) :
    (∃ x ∈ r.2, Implements W x tr ident args) ↔ tr ∈ k.traits ∧ ident = d.ident ∧ ∃ env, (W []).IsType d.generics env args := by
  obtain ⟨_, h2⟩ := (serializerItems_some hk).1 h
  obtain ⟨l, e, ht, h3, h4, _⟩ := kindHeaders_form d.ident d.generics k
  rw [h2, e, ← ht]
  have key : ∀ x ∈ l, Implements W (headerFor d.ident d.generics x.2 x.1) tr ident args ↔ tr = x.1 ∧ ident = d.ident ∧ ∃ env, (W []).IsType d.generics env args :=
    fun x hx => headerFor_implements hl hu (h4 x hx) hid (h3 x hx) hp tr ident args
  constructor
  · rintro ⟨y, hy, h5⟩
    obtain ⟨x, hx, rfl⟩ := List.mem_map.1 hy
    obtain ⟨rfl, h6⟩ := (key x hx).1 h5
    exact ⟨List.mem_map.2 ⟨x, hx, rfl⟩, h6⟩
  · rintro ⟨h5, h6⟩
    obtain ⟨x, hx, rfl⟩ := List.mem_map.1 h5
    exact ⟨_, List.mem_map.2 ⟨x, hx, rfl⟩, (key x hx).2 ⟨rfl, h6⟩⟩

/-- C87, coherence: no trait is implemented twice; what a trait requires of its implementors is implemented too; and all impls are for the same types. -/
theorem C87_coherent {d : SerializerItem} {k : Kind} (hk : NamesKind d.decl.attrs k) {r : SerImpl × List HeaderT} (h : serializerItems d = some r) :
    (r.2.map HeaderT.trait).Nodup ∧ (∀ x ∈ r.2, ∀ s ∈ supertraits x.trait, ∃ y ∈ r.2, y.trait = s) ∧
    ∀ x ∈ r.2, ∀ y ∈ r.2, x.ident = y.ident ∧ x.params = y.params ∧ x.args = y.args ∧ x.preds = y.preds := by
  obtain ⟨_, h2⟩ := (serializerItems_some hk).1 h
  obtain ⟨l, e, ht, _⟩ := kindHeaders_form d.ident d.generics k
  rw [h2, e]
  have hm : (l.map fun x => headerFor d.ident d.generics x.2 x.1).map HeaderT.trait = k.traits := by
    rw [← ht, List.map_map]; rfl
  refine ⟨hm ▸ by cases k <;> decide, ?_, ?_⟩
  · intro x hx s hs
    have h3 : x.trait ∈ k.traits := hm ▸ List.mem_map.2 ⟨x, hx, rfl⟩
    have h4 : ∀ t ∈ k.traits, ∀ s ∈ supertraits t, s ∈ k.traits := by cases k <;> decide
    have h5 := h4 _ h3 _ hs
    rw [← hm] at h5
    exact List.mem_map.1 h5
  · intro x hx y hy
    obtain ⟨x', _, rfl⟩ := List.mem_map.1 hx
    obtain ⟨y', _, rfl⟩ := List.mem_map.1 hy
    exact ⟨rfl, rfl, rfl, rfl⟩

/-- C87, the headers are ones rustc accepts: distinct parameters, lifetimes first, no defaults; and the parameters they apply the type to are declared. -/
theorem C87_params {d : SerializerItem} {k : Kind} (hk : NamesKind d.decl.attrs k) (hl : d.generics.Legal) {r : SerImpl × List HeaderT}
    (h : serializerItems d = some r) : ∀ x ∈ r.2, (x.params.map GenParam.name).Nodup ∧
      (x.params.Pairwise fun p q => q.kind = .lifetime → p.kind = .lifetime) ∧ (∀ p ∈ x.params, p.default = none) ∧
      x.args = d.generics.params.map GenParam.name ∧ x.params.map GenParam.name = d.generics.params.map GenParam.name := by
  obtain ⟨_, h2⟩ := (serializerItems_some hk).1 h
  obtain ⟨l, e, _⟩ := kindHeaders_form d.ident d.generics k
  rw [h2, e]
  intro x hx
  obtain ⟨y, _, rfl⟩ := List.mem_map.1 hx
  have hn : (d.generics.implParams.map GenParam.name) = d.generics.params.map GenParam.name := by
    simp [GenericsT.implParams, lifetimesFirst_eq hl.2]
  simp only [headerFor]
  refine ⟨hn ▸ hl.1, ?_, ?_, by simp [GenericsT.typeArgs, lifetimesFirst_eq hl.2], hn⟩
  · simp only [GenericsT.implParams, lifetimesFirst_eq hl.2, List.pairwise_map]
    exact hl.2
  · intro p hp
    obtain ⟨q, _, rfl⟩ := List.mem_map.1 hp
    rfl

/-- C87, the headers belong to the bodies: the macro accepts what C43 says, and the impls with a body are those with a header. -/
theorem C87_bodies {d : SerializerItem} {k : Kind} (hk : NamesKind d.decl.attrs k) :
    ((∃ r, serializerItems d = some r) ↔ ∃ g, deriveSerializer d.decl = some g) ∧
    ∀ r, serializerItems d = some r → deriveSerializer d.decl = some r.1 ∧
      ((∃ x ∈ r.2, x.trait = "PosTracking") ↔ r.1.impls.posTracking.isSome) ∧ ((∃ x ∈ r.2, x.trait = "PtrWriting") ↔ r.1.impls.ptrWriting.isSome) ∧
      ((∃ x ∈ r.2, x.trait = "PtrOffset") ↔ r.1.impls.ptrOffset) ∧ ((∃ x ∈ r.2, x.trait = "Writable") ↔ r.1.impls.writable) ∧
      ((∃ x ∈ r.2, x.trait = "Complete") ↔ r.1.impls.complete.isSome) := by
  refine ⟨⟨?_, ?_⟩, ?_⟩
  · rintro ⟨r, h⟩; exact ⟨_, ((serializerItems_some hk).1 h).1⟩
  · rintro ⟨g, h⟩; exact ⟨(g, _), (serializerItems_some hk).2 ⟨h, rfl⟩⟩
  · intro r h
    obtain ⟨h1, h2⟩ := (serializerItems_some hk).1 h
    refine ⟨h1, ?_⟩
    obtain ⟨l, e, ht, _⟩ := kindHeaders_form d.ident d.generics k
    have hm : r.2.map HeaderT.trait = k.traits := by
      rw [h2, e, ← ht, List.map_map]; rfl
    have hex : ∀ t, (∃ x ∈ r.2, x.trait = t) ↔ t ∈ k.traits := by
      intro t
      rw [← hm, List.mem_map]
    simp only [hex]
    simp only [deriveSerializer, Option.bind_eq_bind, Option.bind_eq_some_iff, getSerType_iff.2 hk, Option.some.injEq, exists_eq_left'] at h1
    obtain ⟨fs, _, ⟨name, ty, b⟩, _, ⟨ms, is⟩, h4, h5⟩ := h1
    have e5 : r.1.impls = is := by simp only [Option.pure_def, Option.some.injEq] at h5; rw [← h5]
    rw [e5]
    cases k with
    | pureCopy => cases h4; simp [Kind.traits]
    | posTracking =>
      simp only [extraImpl, posTrackingImpl, Option.bind_eq_bind, Option.bind_eq_some_iff] at h4
      obtain ⟨m, _, h4⟩ := h4
      cases h4; simp [Kind.traits]
    | ptrOffset =>
      simp only [extraImpl, ptrOffsetImpl, Option.bind_eq_bind, Option.bind_eq_some_iff] at h4
      obtain ⟨m, _, h4⟩ := h4
      cases h4; simp [Kind.traits]
    | complete =>
      simp only [extraImpl, completeImpl, Option.bind_eq_bind, Option.bind_eq_some_iff] at h4
      obtain ⟨m, _, ⟨p, q, s⟩, _, h4⟩ := h4
      cases h4; simp [Kind.traits]

/-- C87, the names it takes: a struct whose own name is one of those the generated code imports for its kind does not get all the traits of the kind, whatever its
parameters are. -/
theorem C87_names {τ : Type} (W : List String → Rustc τ) {d : SerializerItem} {k : Kind} (hk : NamesKind d.decl.attrs k) (hid : d.ident.name ∈ k.names)
    {r : SerImpl × List HeaderT} (h : serializerItems d = some r) : ∃ tr ∈ k.traits, ∀ ident args, ¬ ∃ x ∈ r.2, Implements W x tr ident args := by
  obtain ⟨_, h2⟩ := (serializerItems_some hk).1 h
  obtain ⟨l, e, ht, _, _, h5⟩ := kindHeaders_form d.ident d.generics k
  obtain ⟨⟨t, im⟩, hx, hin⟩ := h5 _ hid
  refine ⟨t, ht ▸ List.mem_map.2 ⟨_, hx, rfl⟩, ?_⟩
  rintro ident args ⟨y, hy, h6, _, _, h7, h8, _⟩
  rw [h2, e] at hy
  obtain ⟨⟨t', im'⟩, hx', rfl⟩ := List.mem_map.1 hy
  have hnd : (l.map Prod.fst).Nodup := ht ▸ by cases k <;> decide
  have : (t', im') = (t, im) := List.inj_on_of_nodup_map hnd hx' hx h6
  cases this
  simp only [headerFor] at h7 h8
  exact h8 (h7 ▸ hin)

/-! ### The hypotheses are met -/

/-- `#[derive(Serializer)] #[ser_type(ptr_offset)] struct Own<'a, T: Copy, const N: usize = 16> where T: 'a { .. }`, with the three fields. -/
def exOwn : SerializerItem where
  decl := ⟨[⟨["ser_type"], some (.list ["ser_type"] [.item (.path ["ptr_offset"])]), none, .paren "ptr_offset"⟩],
    .named [⟨⟨some ⟨false, "storage"⟩, [⟨["ser_storage"], none, none, .paren "AlignedVec<16>"⟩]⟩, "&'a mut AlignedVec<16>"⟩,
            ⟨⟨some ⟨false, "m"⟩, [⟨["ser_pos_mapping"], some (.path ["ser_pos_mapping"]), none, .err⟩]⟩, "PosMapping"⟩]⟩
  ident := ⟨false, "Own"⟩
  generics := ⟨[⟨.lifetime, "'a", [], none⟩, ⟨.type, "T", ["Copy"], none⟩, ⟨.const, "N", ["usize"], some "16"⟩], ["T: 'a"]⟩

theorem exOwn_kind : NamesKind exOwn.decl.attrs .ptrOffset := ⟨_, ["ser_type"], ⟨[], [], rfl, by simp [NoTag], by simp [NoTag], rfl⟩, rfl⟩

/-- It implements `PtrWriting`, for its types; not `Complete`; and not for an argument which is not `Copy`. -/
example : ∃ r, serializerItems exOwn = some r ∧
    (∃ x ∈ r.2, Implements (fun _ => exRustc) x "PtrWriting" ⟨false, "Own"⟩ [(.lifetime, []), (.type, ["Copy"]), (.const, ["usize"])]) ∧
    (¬ ∃ x ∈ r.2, Implements (fun _ => exRustc) x "Complete" ⟨false, "Own"⟩ [(.lifetime, []), (.type, ["Copy"]), (.const, ["usize"])]) ∧
    ¬ ∃ x ∈ r.2, Implements (fun _ => exRustc) x "PtrWriting" ⟨false, "Own"⟩ [(.lifetime, []), (.type, []), (.const, ["usize"])] := by
  refine ⟨_, rfl, ?_⟩
  have key := C87_instances (fun _ => exRustc) exOwn_kind (⟨by decide, by decide⟩ : exOwn.generics.Legal) (by decide) (by decide)
    (fun _ _ _ => ⟨Iff.rfl, fun _ _ => Iff.rfl⟩) (rfl : serializerItems exOwn = some _)
  refine ⟨(key _ _ _).2 ⟨by decide, rfl, fun x => if x = "'a" then (.lifetime, []) else if x = "T" then (.type, ["Copy"]) else (.const, ["usize"]), rfl, ?_, fun _ _ => trivial⟩,
    fun h => absurd ((key _ _ _).1 h).1 (by decide), ?_⟩
  · intro p hp
    simp only [exOwn, List.mem_cons, List.not_mem_nil, or_false] at hp
    rcases hp with rfl | rfl | rfl <;> exact ⟨rfl, by simp [exRustc]⟩
  · intro h
    obtain ⟨_, _, env, h1, h2, _⟩ := (key _ _ _).1 h
    have hT := (h2 ⟨.type, "T", ["Copy"], none⟩ (by simp [exOwn])).2 "Copy" (by simp)
    have e : env "T" = (.type, []) := by
      simp only [exOwn, List.map_cons, List.map_nil, List.cons.injEq] at h1
      exact h1.2.1.symm
    simp [exRustc, e] at hT

/-- The same struct named `PosMapping` cannot have it. -/
example : ∃ r, serializerItems { exOwn with ident := ⟨false, "PosMapping"⟩ } = some r ∧
    ∃ tr ∈ Kind.ptrOffset.traits, ∀ ident args, ¬ ∃ x ∈ r.2, Implements (fun _ => exRustc) x tr ident args :=
  ⟨_, rfl, C87_names (fun _ => exRustc) (d := { exOwn with ident := ⟨false, "PosMapping"⟩ }) exOwn_kind (by decide) rfl⟩

end SerRaw
