import Verif.Model.Derive
import Verif.Model.Serializer
/-
Model of `#[derive(Serializer)]`: ser_raw_derive_serializer/src/{lib,common}.rs and ser_types/*.rs — from the declaration, as
parsed by `syn`, to the generated impls, and what the generated methods do.

A macro panic (the compile error the user sees) is `none`. Simplifications: generics are in Model/SerializerHeader.lean; types are their text; bounds on the storage type are left to rustc. Paths with a leading `::` have an empty
first segment.
-/
namespace SerRaw

/-- `syn::Field` with its type — as used in ser_raw_derive_serializer/src/common.rs:102. -/
structure SField extends FieldDecl where
  ty : String

/-- `syn::Data`, as far as the macro looks — ser_raw_derive_serializer/src/common.rs:87-95. -/
inductive SData
  | named (fs : List SField)
  | unnamed
  | unit
  | enumT
  | unionT

/-- `syn::DeriveInput` — ser_raw_derive_serializer/src/lib.rs:28. -/
structure SerializerDecl where
  attrs : List Attr
  data : SData

/-- The attributes whose path is `tag` — ser_raw_derive_serializer/src/common.rs:18-22, 74-78, 106-110. -/
def tagAttrs (tag : String) (as : List Attr) : List Attr := as.filter fun a => isIdent a.path tag

/-- The name inside `#[ser_type(name)]` — ser_raw_derive_serializer/src/common.rs:29-50. `get_ident` succeeds on paths of one segment. -/
def serTypeName (a : Attr) : Option String :=
  match a.parseMeta with
  | some (.list _ [.item (.path [x])]) => some x
  | _ => none

/-- The final `match` of `get_ser_type` — ser_raw_derive_serializer/src/common.rs:52-63. -/
def kindOfName (s : String) : Option Kind :=
  if s = "pure_copy" then some .pureCopy
  else if s = "pos_tracking" then some .posTracking
  else if s = "ptr_offset" then some .ptrOffset
  else if s = "complete" then some .complete
  else none

/-- `get_ser_type` — ser_raw_derive_serializer/src/common.rs:16-64. -/
def getSerType (d : SerializerDecl) : Option Kind :=
  match tagAttrs "ser_type" d.attrs with
  | [a] => do kindOfName (← serTypeName a)
  | _ => none

/-- `get_namespace` — ser_raw_derive_serializer/src/common.rs:71-83: `true` for `crate`, `false` for `::ser_raw`. -/
def getNamespace (d : SerializerDecl) : Bool := !(tagAttrs "__local" d.attrs).isEmpty

/-- `get_fields` — ser_raw_derive_serializer/src/common.rs:87-99. -/
def getFields (d : SerializerDecl) : Option (List SField) :=
  match d.data with
  | .named fs => some fs
  | _ => none

/-- The closure passed to `filter_map` — ser_raw_derive_serializer/src/common.rs:107-121. Outer `none` is the panic. -/
def tagField (tag : String) (f : SField) : Option (Option (SField × Attr)) :=
  match tagAttrs tag f.attrs with
  | [] => some none
  | [a] => some (some (f, a))
  | _ => none

/-- `get_tagged_field` — ser_raw_derive_serializer/src/common.rs:104-134. -/
def getTaggedField (fs : List SField) (tag : String) : Option (Ident × String × Attr) := do
  match (← fs.mapM (tagField tag)).filterMap id with
  | [(f, a)] => do
    let name ← f.ident
    pure (name, f.ty, a)
  | _ => none

/-- `get_storage_field` — ser_raw_derive_serializer/src/lib.rs:87-101: field, storage type, borrowed storage type. -/
def getStorageField (fs : List SField) : Option (Ident × String × String) := do
  let (name, borrowed, a) ← getTaggedField fs "ser_storage"
  match a.typeTokens with
  | .paren ty => pure (name, ty, borrowed)
  | _ => none

/-! ### Generated impls -/

/-- The provided trait methods generated code delegates to — ser_types/*.rs. -/
inductive Callee
  | posTrackingSerializeValue
  | posTrackingPushSlice
  | posTrackingPushAndProcessSlice
  | ptrWritingPushSlice
  | ptrWritingPushAndProcessSlice
  | writableOverwrite
  | completeOverwriteWith
  | completeFinalize
  | ptrOffsetOverwritePtr
  | completeOverwritePtr
  deriving DecidableEq, Repr

/-- `#methods_and_types` — `type Addr` and the methods of `Serializer` which are overridden (`none`: the default stays) —
ser_raw_derive_serializer/src/lib.rs:64. -/
structure MethodsT where
  /-- `TrackingAddr` (else `NoopAddr`) -/
  tracking : Bool
  serializeValue : Option Callee := none
  pushSlice : Option Callee := none
  pushAndProcessSlice : Option Callee := none
  overwrite : Option Callee := none
  overwriteWith : Option Callee := none
  finalize : Option Callee := none

/-- `#impls` — further traits implemented — ser_raw_derive_serializer/src/lib.rs:84. -/
structure ImplsT where
  /-- `PosTracking`, whose mapping is in this field -/
  posTracking : Option Ident := none
  /-- `PtrWriting`, whose `overwrite_ptr` delegates to this -/
  ptrWriting : Option Callee := none
  ptrOffset : Bool := false
  writable : Bool := false
  /-- `Complete`, whose pointer record is in this field -/
  complete : Option Ident := none

/-- What the macro generates — ser_raw_derive_serializer/src/lib.rs:47-84. -/
structure SerImpl where
  isLocal : Bool
  storageTy : String
  borrowedTy : String
  storageField : Ident
  methods : MethodsT
  impls : ImplsT

/-- `get_pure_copy_ser_impl` — ser_raw_derive_serializer/src/ser_types/pure_copy.rs:4-12. -/
def pureCopyImpl : Option (MethodsT × ImplsT) := some ({ tracking := false }, {})

/-- `impl_pos_tracking` — ser_raw_derive_serializer/src/ser_types/pos_tracking.rs:45-71. -/
def implPosTracking (fs : List SField) : Option Ident := do
  let (name, _, _) ← getTaggedField fs "ser_pos_mapping"
  pure name

/-- `get_pos_tracking_ser_impl` — ser_raw_derive_serializer/src/ser_types/pos_tracking.rs:7-42. -/
def posTrackingImpl (fs : List SField) : Option (MethodsT × ImplsT) := do
  let m ← implPosTracking fs
  pure ({ tracking := false, serializeValue := some .posTrackingSerializeValue, pushSlice := some .posTrackingPushSlice,
          pushAndProcessSlice := some .posTrackingPushAndProcessSlice }, { posTracking := some m })

/-- `get_ptr_offset_ser_impl` — ser_raw_derive_serializer/src/ser_types/ptr_offset.rs:7-76. -/
def ptrOffsetImpl (fs : List SField) : Option (MethodsT × ImplsT) := do
  let m ← implPosTracking fs
  pure ({ tracking := true, serializeValue := some .posTrackingSerializeValue, pushSlice := some .ptrWritingPushSlice,
          pushAndProcessSlice := some .ptrWritingPushAndProcessSlice },
        { posTracking := some m, ptrWriting := some .ptrOffsetOverwritePtr, ptrOffset := true })

/-- `get_complete_ser_impl` — ser_raw_derive_serializer/src/ser_types/complete.rs:8-103. -/
def completeImpl (fs : List SField) : Option (MethodsT × ImplsT) := do
  let m ← implPosTracking fs
  let (p, _, _) ← getTaggedField fs "ser_ptrs"
  pure ({ tracking := true, serializeValue := some .posTrackingSerializeValue, pushSlice := some .ptrWritingPushSlice,
          pushAndProcessSlice := some .ptrWritingPushAndProcessSlice, overwrite := some .writableOverwrite,
          overwriteWith := some .completeOverwriteWith, finalize := some .completeFinalize },
        { posTracking := some m, ptrWriting := some .completeOverwritePtr, writable := true, complete := some p })

/-- The `match` on the serializer type — ser_raw_derive_serializer/src/lib.rs:37-42. -/
def extraImpl (fs : List SField) : Kind → Option (MethodsT × ImplsT)
  | .pureCopy => pureCopyImpl
  | .posTracking => posTrackingImpl fs
  | .ptrOffset => ptrOffsetImpl fs
  | .complete => completeImpl fs

/-- `serializer_impl` — ser_raw_derive_serializer/src/lib.rs:28-85. -/
def deriveSerializer (d : SerializerDecl) : Option SerImpl := do
  let k ← getSerType d
  let fs ← getFields d
  let (name, ty, borrowed) ← getStorageField fs
  let (ms, is) ← extraImpl fs k
  pure ⟨getNamespace d, ty, borrowed, name, ms, is⟩

/-! ### What the generated code does

`none` is an error reported by rustc: a call to a method of a trait which is not implemented, or an impl whose supertraits or
`where` clauses do not hold (serializer_traits/{ptr_writing,ptr_offset,writable,complete}.rs, headers of the traits). -/

/-- The traits which are implemented, with their requirements:
`PtrWriting: PosTracking where Addr: ActiveAddr`, `PtrOffset: PosTracking`, `Writable: PosTracking where Addr: ActiveAddr`,
`Complete: PosTracking + Writable where Addr: ActiveAddr` —
ser_raw/src/serializer_traits/ptr_writing.rs:11-13, ser_raw/src/serializer_traits/complete.rs:13-17. -/
def SerImpl.wellFormed (g : SerImpl) : Bool :=
  (g.impls.ptrWriting.isNone || (g.impls.posTracking.isSome && g.methods.tracking)) &&
  (!g.impls.ptrOffset || g.impls.posTracking.isSome) &&
  (!g.impls.writable || (g.impls.posTracking.isSome && g.methods.tracking)) &&
  (g.impls.complete.isNone || (g.impls.posTracking.isSome && g.impls.writable && g.methods.tracking))

/-- Behaviour of the methods of `Serializer` a kind may override — ser_raw/src/serializer.rs:186-520. -/
structure MethodTable where
  tracking : Bool
  serializeValue : Layout → Nat → (Nat → Cell) → M Ser Unit → M Ser Nat
  pushSlice : Slice → Nat → M Ser Nat
  pushAndProcessSlice : Slice → Nat → M Ser Unit → M Ser Nat
  overwrite : Nat → Layout → (Nat → Cell) → M Ser Unit
  overwriteWith : M Ser Unit → M Ser Unit
  finalize : M Ser Unit

/-- `overwrite_ptr`, if `PtrWriting` is implemented —
ser_raw_derive_serializer/src/ser_types/ptr_offset.rs:66-69, ser_raw_derive_serializer/src/ser_types/complete.rs:80-83. -/
def SerImpl.overwritePtr (C : Cfg) (g : SerImpl) : Option (Nat → Nat → M Ser Unit) :=
  match g.impls.ptrWriting with
  | some .ptrOffsetOverwritePtr => if g.impls.ptrOffset then some (PtrOffset.doOverwritePtr C) else none
  | some .completeOverwritePtr => if g.impls.complete.isSome then some (Complete.doOverwritePtr C) else none
  | _ => none

/-- `push_and_process_slice` — default ser_raw/src/serializer.rs:333-342; `PosTracking::do_push_and_process_slice`
ser_raw/src/serializer_traits/pos_tracking.rs:44-67; `PtrWriting::do_push_and_process_slice` ser_raw/src/serializer_traits/ptr_writing.rs:44-70. -/
def SerImpl.pushAndProcessSlice (C : Cfg) (g : SerImpl) : Option (Slice → Nat → M Ser Unit → M Ser Nat) :=
  match g.methods.pushAndProcessSlice with
  | none => some fun sl _ process => do
    let pos ← pushRawSlice C sl
    process
    pure pos
  | some .posTrackingPushAndProcessSlice =>
    if g.impls.posTracking.isSome then some fun sl _ process => PosTracking.doPushAndProcessSlice C sl process else none
  | some .ptrWritingPushAndProcessSlice => do
    let ow ← g.overwritePtr C
    some fun sl ptrAddr process => do
      let before ← Ser.getMap
      let pos ← Ser.lift (Sto.pushSlice C sl.L sl.len sl.data)
      let ptrPos ← before.posForAddr C.arch ptrAddr
      ow ptrPos pos
      Ser.setMap ⟨sl.addr, pos⟩
      process
      Ser.setMap before
      pure pos
  | _ => none

/-- `push_slice` — default ser_raw/src/serializer.rs:297-299; `PosTracking::do_push_slice` ser_raw/src/serializer_traits/pos_tracking.rs:39-41;
`PtrWriting::do_push_slice` ser_raw/src/serializer_traits/ptr_writing.rs:32-41. -/
def SerImpl.pushSlice (C : Cfg) (g : SerImpl) : Option (Slice → Nat → M Ser Nat) :=
  match g.methods.pushSlice with
  | none => do
    let p ← g.pushAndProcessSlice C
    some fun sl ptrAddr => p sl ptrAddr (pure ())
  | some .posTrackingPushSlice => if g.impls.posTracking.isSome then some fun sl _ => PosTracking.doPushSlice C sl else none
  | some .ptrWritingPushSlice => do
    let ow ← g.overwritePtr C
    some fun sl ptrAddr => do
      let pos ← pushRawSlice C sl
      let m ← Ser.getMap
      let ptrPos ← m.posForAddr C.arch ptrAddr
      ow ptrPos pos
      pure pos
  | _ => none

/-- `serialize_value` — default ser_raw/src/serializer.rs:260-269; `PosTracking::do_serialize_value` ser_raw/src/serializer_traits/pos_tracking.rs:23-35. -/
def SerImpl.serializeValue (C : Cfg) (g : SerImpl) : Option (Layout → Nat → (Nat → Cell) → M Ser Unit → M Ser Nat) :=
  match g.methods.serializeValue with
  | none => some fun L addr data serializeData => do
    let pos ← pushRaw C L addr data
    serializeData
    pure pos
  | some .posTrackingSerializeValue => if g.impls.posTracking.isSome then some (PosTracking.doSerializeValue C) else none
  | _ => none

/-- `overwrite` — default ser_raw/src/serializer.rs:455; `Writable::do_overwrite` ser_raw/src/serializer_traits/writable.rs:10-13. -/
def SerImpl.overwrite (C : Cfg) (g : SerImpl) : Option (Nat → Layout → (Nat → Cell) → M Ser Unit) :=
  match g.methods.overwrite with
  | none => some fun _ _ _ => pure ()
  | some .writableOverwrite => if g.impls.writable then some (Writable.doOverwrite C) else none
  | _ => none

/-- `overwrite_with` — default ser_raw/src/serializer.rs:486; `Complete::do_overwrite_with` ser_raw/src/serializer_traits/complete.rs:31-33. -/
def SerImpl.overwriteWith (g : SerImpl) : Option (M Ser Unit → M Ser Unit) :=
  match g.methods.overwriteWith with
  | none => some fun _ => pure ()
  | some .completeOverwriteWith => if g.impls.complete.isSome then some Complete.doOverwriteWith else none
  | _ => none

/-- `finalize` — default ser_raw/src/serializer.rs:491-493; `Complete::do_finalize` ser_raw/src/serializer_traits/complete.rs:83-102. -/
def SerImpl.finalize (C : Cfg) (g : SerImpl) : Option (M Ser Unit) :=
  match g.methods.finalize with
  | none => some (pure ())
  | some .completeFinalize => if g.impls.complete.isSome then some (Complete.doFinalize C) else none
  | _ => none

/-- Rust: the generated `Serializer` impl — ser_raw_derive_serializer/src/lib.rs:49-86. -/
def SerImpl.table (C : Cfg) (g : SerImpl) : Option MethodTable := do
  guard g.wellFormed
  let serializeValue ← g.serializeValue C
  let pushSlice ← g.pushSlice C
  let pushAndProcessSlice ← g.pushAndProcessSlice C
  let overwrite ← g.overwrite C
  let overwriteWith ← g.overwriteWith
  let finalize ← g.finalize C
  pure ⟨g.methods.tracking, serializeValue, pushSlice, pushAndProcessSlice, overwrite, overwriteWith, finalize⟩

end SerRaw
