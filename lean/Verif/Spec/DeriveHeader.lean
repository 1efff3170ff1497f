import Verif.Model.DeriveHeader
/-
What an impl says, in terms of rustc: for which types, and for which serializers, it gives an implementation.
-/
namespace SerRaw

/-- What rustc knows: `τ` are lifetimes, types and const values; an environment gives the parameters in scope their values. -/
structure Rustc (τ : Type) where
  /-- what it is -/
  kind : τ → ParamKind
  /-- `t: bound`, where the names in the bound have the values given -/
  sat : (String → τ) → String → τ → Prop
  /-- the predicate of a `where` clause holds -/
  holds : (String → τ) → String → Prop

/-- The values fit the parameters: right kind, bounds satisfied. -/
def Rustc.Fit {τ : Type} (R : Rustc τ) (env : String → τ) (ps : List GenParam) : Prop :=
  ∀ p ∈ ps, R.kind (env p.name) = p.kind ∧ ∀ b ∈ p.bounds, R.sat env b (env p.name)

/-- `ident<args>` is a type, by the declaration: parameters in the order declared. -/
def Rustc.IsType {τ : Type} (R : Rustc τ) (g : GenericsT) (env : String → τ) (args : List τ) : Prop :=
  args = g.params.map (fun p => env p.name) ∧ R.Fit env g.params ∧ ∀ w ∈ g.preds, R.holds env w

/-- The impl gives `impl ::ser_raw::Serialize<S> for ident<args>`, whose `serialize_data` takes a `&mut S`. -/
def Rustc.Gives {τ : Type} (R : Rustc τ) (i : ImplT) (ident : Ident) (args : List τ) (S : τ) : Prop :=
  ident = i.ident ∧ ∃ env, R.Fit env i.params ∧ (∀ w ∈ i.preds, R.holds env w) ∧ args = i.args.map env ∧ S = env i.traitArg ∧ S = env i.serArg

/-- What rustc requires of the parameters of a declaration: distinct names, lifetimes before the others. -/
def GenericsT.Legal (g : GenericsT) : Prop :=
  (g.params.map GenParam.name).Nodup ∧ g.params.Pairwise fun p q => q.kind = .lifetime → p.kind = .lifetime

/-- Bounds and predicates of the declaration are about names in scope there, so that `__S`, unless declared, does not matter for them. -/
def Rustc.Scoped {τ : Type} (R : Rustc τ) (g : GenericsT) : Prop :=
  ∀ env env' : String → τ, (∀ x, x ≠ "__S" → env x = env' x) →
    (∀ p ∈ g.params, ∀ b ∈ p.bounds, ∀ t, R.sat env b t → R.sat env' b t) ∧ ∀ w ∈ g.preds, R.holds env w → R.holds env' w

/-- With this bound asked for (`#[ser_bound(...)]`), or none. -/
def AsksBound (as : List Attr) (r : Option String) : Prop :=
  (r = none ∧ ∀ a ∈ as, a.path ≠ ["ser_bound"]) ∨
    ∃ b, r = some b ∧ ∃ l x y, as = l ++ x :: y ∧ x.path = ["ser_bound"] ∧ x.parseBound = some b ∧
      (∀ a ∈ l, a.path ≠ ["ser_bound"]) ∧ ∀ a ∈ y, a.path ≠ ["ser_bound"]

end SerRaw
