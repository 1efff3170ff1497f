import Verif.Spec.DeriveHeader
import Verif.Props.Derive
/-
C86: what `#[derive(Serialize)]` accepts, and for which types and serializers the generated impl is.
-/
namespace SerRaw

theorem lifetimesFirst_eq {ps : List GenParam} (h : ps.Pairwise fun p q => q.kind = .lifetime → p.kind = .lifetime) : lifetimesFirst ps = ps := by
  induction ps with
  | nil => rfl
  | cons p ps ih =>
    obtain ⟨h1, h2⟩ := List.pairwise_cons.1 h
    have ih := ih h2
    unfold lifetimesFirst at ih ⊢
    by_cases hp : p.kind = .lifetime
    · rw [List.filter_cons_of_pos (by simp [hp]), List.filter_cons_of_neg (by simp [hp]), List.cons_append, ih]
    · have hno : ∀ q ∈ ps, ¬ q.kind = .lifetime := fun q hq hk => hp (h1 q hq hk)
      rw [List.filter_cons_of_neg (by simp [hp]), List.filter_cons_of_pos (by simp [hp])]
      rw [List.filter_eq_nil_iff.2 (by intro q hq; simp [hno q hq]), List.nil_append, List.filter_eq_self.2 (by intro q hq; simp [hno q hq])]

theorem getGenerics_some {as : List Attr} {g g' : GenericsT} : getGenerics as g = some g' ↔
    ∃ b, AsksBound as b ∧ g' = ⟨g.params ++ [⟨.type, "__S", "::ser_raw::Serializer" :: b.toList, none⟩], g.preds⟩ := by
  unfold getGenerics
  cases h : getSerBound none as with
  | none =>
    simp only [Option.bind_eq_bind, Option.bind_none, reduceCtorEq, false_iff, not_exists, not_and]
    intro b hb
    have := (C41_ser_bound as b).2 hb
    rw [h] at this
    cases this
  | some b =>
    simp only [Option.bind_eq_bind, Option.bind_some, Option.pure_def, Option.some.injEq]
    have hb := (C41_ser_bound as b).1 h
    constructor
    · rintro rfl
      refine ⟨b, hb, ?_⟩
      cases b <;> rfl
    · rintro ⟨b', hb', rfl⟩
      have := (C41_ser_bound as b').2 hb'
      rw [h] at this
      cases this
      cases b <;> rfl

/-- The impl generated, in one piece. -/
theorem serializeImpl_some {d : DeriveDecl} {i : ImplT} : serializeImpl d = some i ↔
    ∃ b, AsksBound d.attrs b ∧ ∃ body, i = implAround d.ident d.generics
        ⟨d.generics.params ++ [⟨.type, "__S", "::ser_raw::Serializer" :: b.toList, none⟩], d.generics.preds⟩ body ∧
      ((∃ fs st, d.data = .struct fs ∧ deriveStruct fs = some st ∧ body = .struct st) ∨
       ∃ vs arms, d.data = .enum vs ∧ deriveEnum vs = some arms ∧ body = .enum arms) := by
  unfold serializeImpl
  simp only [Option.bind_eq_bind, Option.bind_eq_some_iff]
  constructor
  · rintro ⟨g, hg, h⟩
    obtain ⟨b, hb, rfl⟩ := getGenerics_some.1 hg
    refine ⟨b, hb, ?_⟩
    cases hd : d.data with
    | struct fs =>
      rw [hd] at h
      obtain ⟨st, hs, rfl⟩ := Option.map_eq_some_iff.1 h
      exact ⟨_, rfl, .inl ⟨fs, st, rfl, hs, rfl⟩⟩
    | enum vs =>
      rw [hd] at h
      obtain ⟨st, hs, rfl⟩ := Option.map_eq_some_iff.1 h
      exact ⟨_, rfl, .inr ⟨vs, st, rfl, hs, rfl⟩⟩
    | union => rw [hd] at h; cases h
  · rintro ⟨b, hb, body, rfl, h⟩
    refine ⟨_, getGenerics_some.2 ⟨b, hb, rfl⟩, ?_⟩
    rcases h with ⟨fs, st, hd, hs, rfl⟩ | ⟨vs, arms, hd, hs, rfl⟩
    · rw [hd]; exact Option.map_eq_some_iff.2 ⟨st, hs, rfl⟩
    · rw [hd]; exact Option.map_eq_some_iff.2 ⟨arms, hs, rfl⟩

/-- C86, acceptance: the macro accepts a declaration exactly if it is a struct each of whose fields has no well-formed `#[ser_with..]` attribute or exactly one
`#[ser_with(path)]`, or an enum none of whose struct-like variants has a field with a raw name, and it has at most one `#[ser_bound(..)]`, which parses. Unions are not
accepted. -/
theorem C86_accepts {d : DeriveDecl} (hs : ∀ fs, d.data = .struct fs → fs.OK) (he : ∀ vs, d.data = .enum vs → ∀ v ∈ vs, v.OK) :
    (∃ i, serializeImpl d = some i) ↔ (∃ b, AsksBound d.attrs b) ∧
      match d.data with
      | .struct fs => ∀ f ∈ fs.list, ∃ w, Asks f w
      | .enum vs => ∀ v ∈ vs, NoRawNames v
      | .union => False := by
  constructor
  · rintro ⟨i, h⟩
    obtain ⟨b, hb, body, _, ⟨fs, st, hd, h1, _⟩ | ⟨vs, arms, hd, h1, _⟩⟩ := serializeImpl_some.1 h
    · refine ⟨⟨b, hb⟩, ?_⟩
      rw [hd]
      exact (C41_accepts (hs fs hd)).1 ⟨st, h1⟩
    · refine ⟨⟨b, hb⟩, ?_⟩
      rw [hd]
      exact (C42_accepts (he vs hd)).1 ⟨arms, h1⟩
  · rintro ⟨⟨b, hb⟩, h⟩
    cases hd : d.data with
    | struct fs =>
      rw [hd] at h
      obtain ⟨st, h1⟩ := (C41_accepts (hs fs hd)).2 h
      exact ⟨_, serializeImpl_some.2 ⟨b, hb, _, rfl, .inl ⟨fs, st, hd, h1, rfl⟩⟩⟩
    | enum vs =>
      rw [hd] at h
      obtain ⟨st, h1⟩ := (C42_accepts (he vs hd)).2 h
      exact ⟨_, serializeImpl_some.2 ⟨b, hb, _, rfl, .inr ⟨vs, st, hd, h1, rfl⟩⟩⟩
    | union => rw [hd] at h; exact h.elim

/-- C86, body: the body is the one C41 or C42 is about. -/
theorem C86_body {d : DeriveDecl} {i : ImplT} (h : serializeImpl d = some i) :
    match d.data with
    | .struct fs => ∃ st, deriveStruct fs = some st ∧ i.body = .struct st
    | .enum vs => ∃ arms, deriveEnum vs = some arms ∧ i.body = .enum arms
    | .union => False := by
  obtain ⟨b, hb, body, rfl, ⟨fs, st, hd, h1, rfl⟩ | ⟨vs, arms, hd, h1, rfl⟩⟩ := serializeImpl_some.1 h
  · rw [hd]; exact ⟨st, h1, rfl⟩
  · rw [hd]; exact ⟨arms, h1, rfl⟩

/-- C86, the impl is for every type of the declaration, and for every serializer: it gives `Serialize<S>` for `ident<args>` exactly if `ident<args>` is a type, by
the declaration, and `S` is a type that implements `Serializer` and satisfies the `#[ser_bound]`, if any, where the parameters have the values `args` and `__S` is
`S`. No other requirement is added, and none is dropped. -/
theorem C86_instances {τ : Type} (R : Rustc τ) {d : DeriveDecl} (hl : d.generics.Legal) (hn : ∀ p ∈ d.generics.params, p.name ≠ "__S") (hsc : R.Scoped d.generics)
    {i : ImplT} (h : serializeImpl d = some i) (ident : Ident) (args : List τ) (S : τ) :
    R.Gives i ident args S ↔ ident = d.ident ∧ ∃ env, R.IsType d.generics env args ∧
      R.kind S = .type ∧ R.sat (Function.update env "__S" S) "::ser_raw::Serializer" S ∧
      ∀ b, AsksBound d.attrs (some b) → R.sat (Function.update env "__S" S) b S := by
  obtain ⟨b, hb, body, rfl, _⟩ := serializeImpl_some.1 h
  have hb' : ∀ b', AsksBound d.attrs b' → b' = b := by
    intro b' h'
    have h1 := (C41_ser_bound d.attrs b').2 h'
    have h2 := (C41_ser_bound d.attrs b).2 hb
    rw [h1] at h2
    injection h2
  have hord : (d.generics.params ++ [(⟨.type, "__S", "::ser_raw::Serializer" :: b.toList, none⟩ : GenParam)]).Pairwise
      fun p q => q.kind = .lifetime → p.kind = .lifetime := by
    rw [List.pairwise_append]
    refine ⟨hl.2, List.pairwise_singleton _ _, ?_⟩
    intro p _ q hq hk
    rw [List.mem_singleton.1 hq] at hk
    cases hk
  have hfit : ∀ env, R.Fit env (implAround d.ident d.generics ⟨d.generics.params ++ [⟨.type, "__S", "::ser_raw::Serializer" :: b.toList, none⟩], d.generics.preds⟩ body).params ↔
      R.Fit env d.generics.params ∧ R.kind (env "__S") = .type ∧ R.sat env "::ser_raw::Serializer" (env "__S") ∧ ∀ x, b = some x → R.sat env x (env "__S") := by
    intro env
    simp only [implAround, GenericsT.implParams, lifetimesFirst_eq hord, Rustc.Fit, List.forall_mem_map, List.forall_mem_append, List.forall_mem_singleton,
      List.forall_mem_cons, Option.mem_toList, Option.mem_def]
  have hargs : (implAround d.ident d.generics ⟨d.generics.params ++ [⟨.type, "__S", "::ser_raw::Serializer" :: b.toList, none⟩], d.generics.preds⟩ body).args =
      d.generics.params.map GenParam.name := by
    simp only [implAround, GenericsT.typeArgs, lifetimesFirst_eq hl.2]
  constructor
  · rintro ⟨h1, env, h2, h3, h4, h5, _⟩
    have h5 : S = env "__S" := h5
    subst h5
    rw [hargs, List.map_map] at h4
    obtain ⟨g1, g2, g3, g4⟩ := (hfit env).1 h2
    refine ⟨h1, env, ⟨h4, g1, h3⟩, g2, ?_⟩
    rw [Function.update_eq_self]
    exact ⟨g3, fun x hx => g4 x (hb' _ hx).symm⟩
  · rintro ⟨h1, env, ⟨h4, g1, h3⟩, g2, g3, g4⟩
    have hs : Function.update env "__S" S "__S" = S := Function.update_self ..
    have ho : ∀ x, x ≠ "__S" → env x = Function.update env "__S" S x := fun x hx => (Function.update_of_ne hx ..).symm
    obtain ⟨k1, k2⟩ := hsc env (Function.update env "__S" S) ho
    refine ⟨h1, Function.update env "__S" S, (hfit _).2 ⟨fun p hp => ?_, by rw [hs]; exact g2, by rw [hs]; exact g3, fun x hx => by rw [hs]; exact g4 x (hx ▸ hb)⟩,
      fun w hw => k2 w hw (h3 w hw), ?_, hs.symm, hs.symm⟩
    · rw [← ho _ (hn p hp)]
      exact ⟨(g1 p hp).1, fun x hx => k1 p hp x hx _ ((g1 p hp).2 x hx)⟩
    · rw [hargs, List.map_map, h4]
      exact List.map_congr_left fun p hp => ho _ (hn p hp)

/-- C86, the impl is well-formed: its parameters have distinct names, as rustc requires, exactly if no parameter of the declaration is called `__S`; the lifetimes come first;
none has a default; and every name that the impl applies the type and the trait to is one of them. -/
theorem C86_params {d : DeriveDecl} (hl : d.generics.Legal) {i : ImplT} (h : serializeImpl d = some i) :
    ((i.params.map GenParam.name).Nodup ↔ ∀ p ∈ d.generics.params, p.name ≠ "__S") ∧
    (i.params.Pairwise fun p q => q.kind = .lifetime → p.kind = .lifetime) ∧ (∀ p ∈ i.params, p.default = none) ∧
    (∀ x ∈ i.traitArg :: i.serArg :: i.args, ∃ p ∈ i.params, p.name = x) := by
  obtain ⟨b, hb, body, rfl, _⟩ := serializeImpl_some.1 h
  have hord : (d.generics.params ++ [(⟨.type, "__S", "::ser_raw::Serializer" :: b.toList, none⟩ : GenParam)]).Pairwise
      fun p q => q.kind = .lifetime → p.kind = .lifetime := by
    rw [List.pairwise_append]
    refine ⟨hl.2, List.pairwise_singleton _ _, ?_⟩
    intro p _ q hq hk
    rw [List.mem_singleton.1 hq] at hk
    cases hk
  simp only [implAround, GenericsT.implParams, GenericsT.typeArgs, lifetimesFirst_eq hord, lifetimesFirst_eq hl.2]
  refine ⟨?_, ?_, ?_, ?_⟩
  · rw [List.map_map, List.map_append, List.nodup_append]
    constructor
    · rintro ⟨_, _, h3⟩ p hp hx
      exact h3 p.name (List.mem_map.2 ⟨p, hp, rfl⟩) "__S" (by simp) hx
    · intro h3
      refine ⟨hl.1, by simp, ?_⟩
      rintro x hx y hy rfl
      obtain ⟨p, hp, rfl⟩ := List.mem_map.1 hx
      exact h3 p hp (by simpa using hy)
  · rw [List.pairwise_map]; exact hord
  · intro p hp
    obtain ⟨q, _, rfl⟩ := List.mem_map.1 hp
    rfl
  · have hS : ∃ p ∈ (d.generics.params ++ [(⟨.type, "__S", "::ser_raw::Serializer" :: b.toList, none⟩ : GenParam)]).map fun p => { p with default := none },
        p.name = "__S" := ⟨⟨.type, "__S", "::ser_raw::Serializer" :: b.toList, none⟩, by simp, rfl⟩
    intro x hx
    rcases List.mem_cons.1 hx with rfl | hx
    · exact hS
    rcases List.mem_cons.1 hx with rfl | hx
    · exact hS
    obtain ⟨p, hp, rfl⟩ := List.mem_map.1 hx
    exact ⟨{ p with default := none }, List.mem_map.2 ⟨p, List.mem_append_left _ hp, rfl⟩, rfl⟩

/-! ### C86 applied -/

/-- `#[ser_bound(PtrWriting)] struct Pair<'a, T: Copy = u8, const N: usize>(&'a T, [u8; N]) where T: 'a` -/
def exPair : DeriveDecl :=
  ⟨[⟨["repr"], none, none, .err⟩, ⟨["ser_bound"], none, some "PtrWriting", .err⟩], ⟨false, "Pair"⟩,
    ⟨[⟨.lifetime, "'a", [], none⟩, ⟨.type, "T", ["Copy"], some "u8"⟩, ⟨.const, "N", ["usize"], none⟩], ["T: 'a"]⟩,
    .struct (.unnamed [⟨none, []⟩, ⟨none, []⟩])⟩

theorem exPair_legal : exPair.generics.Legal := ⟨by decide, by decide⟩

theorem exPair_bound : AsksBound exPair.attrs (some "PtrWriting") := .inr ⟨_, rfl, [_], _, [], rfl, rfl, rfl, by simp, by simp⟩

/-- It is accepted. -/
theorem exPair_some : ∃ i, serializeImpl exPair = some i :=
  (C86_accepts (by rintro fs h; cases h; simp [FieldsDecl.OK]) (by rintro vs h; cases h)).2
    ⟨⟨_, exPair_bound⟩, fun f hf => ⟨none, by
      have : f = ⟨none, []⟩ := by simpa [FieldsDecl.list] using hf
      subst this
      exact nofun⟩⟩

/-- A small world: of lifetimes, types and numbers, each with the traits it implements; `T: 'a` holds. -/
def exRustc : Rustc (ParamKind × List String) where
  kind := Prod.fst
  sat _ b t := b ∈ t.2
  holds _ _ := True

/-- `Pair<'x, u8, 3>` has an implementation for a `PtrOffsetSerializer`, and none for a `PureCopySerializer`, which has no `PtrWriting`. -/
example (i : ImplT) (h : serializeImpl exPair = some i) :
    exRustc.Gives i ⟨false, "Pair"⟩ [(.lifetime, []), (.type, ["Copy"]), (.const, ["usize"])] (.type, ["::ser_raw::Serializer", "PtrWriting"]) ∧
    ¬ exRustc.Gives i ⟨false, "Pair"⟩ [(.lifetime, []), (.type, ["Copy"]), (.const, ["usize"])] (.type, ["::ser_raw::Serializer"]) := by
  have hn : ∀ p ∈ exPair.generics.params, p.name ≠ "__S" := by decide
  have hsc : exRustc.Scoped exPair.generics := fun _ _ _ => ⟨fun _ _ _ _ _ h => h, fun _ _ h => h⟩
  have key := C86_instances exRustc exPair_legal hn hsc h
  constructor
  · refine (key _ _ _).2 ⟨rfl, fun x => if x = "'a" then (.lifetime, []) else if x = "T" then (.type, ["Copy"]) else (.const, ["usize"]), ⟨rfl, ?_, fun _ _ => trivial⟩,
      rfl, List.mem_cons_self, ?_⟩
    · intro p hp
      simp only [exPair, List.mem_cons, List.not_mem_nil, or_false] at hp
      rcases hp with rfl | rfl | rfl <;> exact ⟨rfl, by simp [exRustc]⟩
    · intro b hb
      have h1 := (C41_ser_bound _ _).2 hb
      rw [(C41_ser_bound _ _).2 exPair_bound] at h1
      cases h1
      exact List.mem_cons_of_mem _ List.mem_cons_self
  · intro hg
    obtain ⟨_, _, _, _, _, h3⟩ := (key _ _ _).1 hg
    have : "PtrWriting" ∈ ["::ser_raw::Serializer"] := h3 _ exPair_bound
    simp at this

/-- A parameter called `__S` makes the generated impl one that rustc rejects. -/
example (i : ImplT) (h : serializeImpl ⟨[], ⟨false, "W"⟩, ⟨[⟨.type, "__S", [], none⟩], []⟩, .struct .unit⟩ = some i) : ¬ (i.params.map GenParam.name).Nodup :=
  fun hn => (C86_params ⟨by decide, by decide⟩ h).1.1 hn ⟨.type, "__S", [], none⟩ List.mem_cons_self rfl

/-- Unions are rejected. -/
example (as : List Attr) (g : GenericsT) (i : Ident) : ¬ ∃ x, serializeImpl ⟨as, i, g, .union⟩ = some x :=
  fun h => ((C86_accepts (by rintro _ h; cases h) (by rintro _ h; cases h)).1 h).2

end SerRaw
