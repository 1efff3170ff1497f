import Verif.Model.DeriveHeader
import Verif.Model.DeriveSerializer
/-
The rest of `#[derive(Serializer)]`: the headers of the generated impls — which traits are implemented, with which generic parameters, for which type — and the
names the generated blocks import, which are in scope of these headers.

Simplifications: as in Model/DeriveHeader.lean.
-/
namespace SerRaw

/-- `syn::DeriveInput`, with what Model/DeriveSerializer.lean leaves out — ser_raw_derive_serializer/src/lib.rs:28. -/
structure SerializerItem where
  decl : SerializerDecl
  ident : Ident
  generics : GenericsT

/-- `impl<params> trait for ident<args> where preds`, in a block with these `use` imports — ser_raw_derive_serializer/src/lib.rs:54-60. -/
structure HeaderT where
  trait : String
  params : List GenParam
  ident : Ident
  args : List String
  preds : List String
  imports : List String

/-- `impl #impl_generics trait for #ser #type_generics #where_clause` — ser_raw_derive_serializer/src/lib.rs:45-60. -/
def headerFor (ident : Ident) (g : GenericsT) (imports : List String) (trait : String) : HeaderT :=
  ⟨trait, g.implParams, ident, g.typeArgs, g.preds, imports⟩

/-- `use #ns as _ser_raw; use _ser_raw::{Serializer, ser_traits};` — ser_raw_derive_serializer/src/lib.rs:54-57. -/
def outerImports : List String := ["_ser_raw", "Serializer", "ser_traits"]

/-- `impl_pos_tracking`: `use ser_traits::PosTracking; use _ser_raw::pos::PosMapping;` and the impl —
ser_raw_derive_serializer/src/ser_types/pos_tracking.rs:48-70. -/
def posTrackingHeaders (ident : Ident) (g : GenericsT) : List HeaderT :=
  ["PosTracking"].map (headerFor ident g (outerImports ++ ["PosTracking", "PosMapping"]))

/-- `get_impls` of `ptr_offset`: `use ser_traits::{PtrOffset, PtrWriting};` and the impls — ser_raw_derive_serializer/src/ser_types/ptr_offset.rs:43-75. -/
def ptrOffsetHeaders (ident : Ident) (g : GenericsT) : List HeaderT :=
  posTrackingHeaders ident g ++ ["PtrWriting", "PtrOffset"].map (headerFor ident g (outerImports ++ ["PtrOffset", "PtrWriting"]))

/-- `get_impls` of `complete`: `use _ser_raw::pos::Ptrs; use ser_traits::{Complete, PtrWriting, Writable};` and the impls —
ser_raw_derive_serializer/src/ser_types/complete.rs:62-102. -/
def completeHeaders (ident : Ident) (g : GenericsT) : List HeaderT :=
  posTrackingHeaders ident g ++
    ["PtrWriting", "Writable", "Complete"].map (headerFor ident g (outerImports ++ ["Ptrs", "Complete", "PtrWriting", "Writable"]))

/-- The impls of `#impls`, by serializer type — ser_raw_derive_serializer/src/lib.rs:37-42. -/
def kindHeaders (ident : Ident) (g : GenericsT) : Kind → List HeaderT
  | .pureCopy => []
  | .posTracking => posTrackingHeaders ident g
  | .ptrOffset => ptrOffsetHeaders ident g
  | .complete => completeHeaders ident g

/-- `serializer_impl`: the bodies of Model/DeriveSerializer.lean with the headers around them — ser_raw_derive_serializer/src/lib.rs:28-87. -/
def serializerItems (d : SerializerItem) : Option (SerImpl × List HeaderT) := do
  let k ← getSerType d.decl
  let body ← deriveSerializer d.decl
  pure (body, headerFor d.ident d.generics outerImports "Serializer" :: kindHeaders d.ident d.generics k)

end SerRaw
