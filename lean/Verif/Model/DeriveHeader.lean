import Verif.Model.Derive
/-
The rest of `#[derive(Serialize)]`: which declarations it accepts, and the header of the generated impl — its generic parameters, the trait, the type, and
the `where` clause.

Simplifications: bounds, types of const parameters and predicates of the `where` clause are opaque strings, which the macro passes on; attributes of generic
parameters are dropped.
-/
namespace SerRaw

/-- The three kinds of `syn::GenericParam` — as used in ser_raw_derive/src/lib.rs:40. -/
inductive ParamKind
  | lifetime
  | type
  | const
  deriving DecidableEq, Repr

/-- `syn::GenericParam`: `'a: b`, `T: b + c = Default`, `const N: ty = 3` (with the type as the bound) — as used in ser_raw_derive/src/lib.rs:40. -/
structure GenParam where
  kind : ParamKind
  name : String
  bounds : List String
  default : Option String
  deriving DecidableEq, Repr

/-- `syn::Generics` — as used in ser_raw_derive/src/lib.rs:34. -/
structure GenericsT where
  params : List GenParam
  preds : List String
  deriving DecidableEq, Repr

/-- `syn::Data` — ser_raw_derive/src/lib.rs:26-30. -/
inductive DataDecl
  | struct (fields : FieldsDecl)
  | enum (variants : List VariantDecl)
  | union

/-- `syn::DeriveInput` — ser_raw_derive/src/lib.rs:18. -/
structure DeriveDecl where
  attrs : List Attr
  ident : Ident
  generics : GenericsT
  data : DataDecl

/-- The generated body — ser_raw_derive/src/structs.rs:26-28, ser_raw_derive/src/enums.rs:48-50. -/
inductive BodyT
  | struct (stmts : List StructStmt)
  | enum (arms : Option (List Arm))

/-- `impl<params> ::ser_raw::Serialize<traitArg> for ident<args> where preds { fn serialize_data(&self, serializer: &mut serArg) { body } }` —
ser_raw_derive/src/structs.rs:23-30, ser_raw_derive/src/enums.rs:45-52. -/
structure ImplT where
  params : List GenParam
  traitArg : String
  ident : Ident
  args : List String
  preds : List String
  serArg : String
  body : BodyT

/-- The parameters with the lifetimes first, as `syn` prints them — ser_raw_derive/src/structs.rs:20-21. -/
def lifetimesFirst (ps : List GenParam) : List GenParam := ps.filter (·.kind == .lifetime) ++ ps.filter (·.kind != .lifetime)

/-- `syn::ImplGenerics`: with the bounds, without the defaults — `split_for_impl`, ser_raw_derive/src/structs.rs:20. -/
def GenericsT.implParams (g : GenericsT) : List GenParam := (lifetimesFirst g.params).map fun p => { p with default := none }

/-- `syn::TypeGenerics`: the names only — `split_for_impl`, ser_raw_derive/src/structs.rs:21. -/
def GenericsT.typeArgs (g : GenericsT) : List String := (lifetimesFirst g.params).map GenParam.name

/-- `get_generics` — ser_raw_derive/src/lib.rs:34-48. -/
def getGenerics (attrs : List Attr) (g : GenericsT) : Option GenericsT := do
  let b ← getSerBound none attrs
  let bounds := "::ser_raw::Serializer" :: (match b with
    | some b => [b]
    | none => [])
  pure { g with params := g.params ++ [⟨.type, "__S", bounds, none⟩] }

/-- The impl around the body — ser_raw_derive/src/structs.rs:20-30, ser_raw_derive/src/enums.rs:42-52. -/
def implAround (ident : Ident) (g gImpl : GenericsT) (body : BodyT) : ImplT :=
  ⟨gImpl.implParams, "__S", ident, g.typeArgs, g.preds, "__S", body⟩

/-- `serialize_impl` — ser_raw_derive/src/lib.rs:22-31. -/
def serializeImpl (d : DeriveDecl) : Option ImplT := do
  let g ← getGenerics d.attrs d.generics
  match d.data with
  | .struct fs => (deriveStruct fs).map fun b => implAround d.ident d.generics g (.struct b)
  | .enum vs => (deriveEnum vs).map fun b => implAround d.ident d.generics g (.enum b)
  | .union => none

end SerRaw
