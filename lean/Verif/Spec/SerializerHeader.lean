import Verif.Model.SerializerHeader
import Verif.Spec.DeriveHeader
/-
What the impls generated by `#[derive(Serializer)]` say, in terms of rustc.
-/
namespace SerRaw

/-- The traits a serializer of a kind is documented to implement. -/
def Kind.traits : Kind → List String
  | .pureCopy => ["Serializer"]
  | .posTracking => ["Serializer", "PosTracking"]
  | .ptrOffset => ["Serializer", "PosTracking", "PtrWriting", "PtrOffset"]
  | .complete => ["Serializer", "PosTracking", "PtrWriting", "Writable", "Complete"]

/-- The supertraits of each, by its declaration: ser_raw/src/serializer_traits/{pos_tracking.rs:7, ptr_writing.rs:11, ptr_offset.rs:9, writable.rs:4, complete.rs:13}. -/
def supertraits : String → List String
  | "PosTracking" => ["Serializer"]
  | "PtrWriting" => ["PosTracking"]
  | "PtrOffset" => ["PosTracking"]
  | "Writable" => ["PosTracking"]
  | "Complete" => ["PosTracking", "Writable"]
  | _ => []

/-- What the names in a header mean depends on the imports in scope: a world for each list of imports, `W []` at the declaration. The impl is one of the trait `tr` of
`ser_raw`, for the declared type applied to `args`, if: the name of the trait is imported, and no parameter hides it; the name of the type is not hidden by an import;
the parameters fit and the predicates hold, with the imports in scope. -/
def Implements {τ : Type} (W : List String → Rustc τ) (h : HeaderT) (tr : String) (ident : Ident) (args : List τ) : Prop :=
  h.trait = tr ∧ tr ∈ h.imports ∧ (∀ p ∈ h.params, p.name ≠ tr) ∧ h.ident = ident ∧ ident.name ∉ h.imports ∧
    ∃ env, (W h.imports).Fit env h.params ∧ (∀ w ∈ h.preds, (W h.imports).holds env w) ∧ args = h.args.map env

/-- Every name the generated code imports somewhere, for a kind. -/
def Kind.names : Kind → List String
  | .pureCopy => ["_ser_raw", "Serializer", "ser_traits"]
  | .posTracking => ["_ser_raw", "Serializer", "ser_traits", "PosTracking", "PosMapping"]
  | .ptrOffset => ["_ser_raw", "Serializer", "ser_traits", "PosTracking", "PosMapping", "PtrOffset", "PtrWriting"]
  | .complete => ["_ser_raw", "Serializer", "ser_traits", "PosTracking", "PosMapping", "Ptrs", "Complete", "PtrWriting", "Writable"]

/-- Importing these names does not change what the bounds and predicates of the declaration say: they mention none of them. -/
def Unaffected {τ : Type} (W : List String → Rustc τ) (names : List String) (g : GenericsT) : Prop :=
  ∀ imports, (∀ x ∈ imports, x ∈ names) → ∀ env,
    ((W imports).Fit env g.params ↔ (W []).Fit env g.params) ∧ ∀ w ∈ g.preds, ((W imports).holds env w ↔ (W []).holds env w)

end SerRaw
