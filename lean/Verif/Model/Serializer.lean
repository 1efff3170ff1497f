import Verif.Model.Pos
/-
Model of ser_raw/src/serializer.rs (trait `Serializer`), ser_raw/src/serializer_traits/*.rs and the method tables
generated by `#[derive(Serializer)]` (ser_raw_derive_serializer/src/ser_types/*.rs), for the four serializer types.
`PureCopySerializer`, `PtrOffsetSerializer` and `CompleteSerializer` (ser_raw/src/serializers/*.rs) are the derives of
kinds `pureCopy`, `ptrOffset` and `complete`; `posTracking` is the fourth kind a user can derive.

Simplification: one state record `Ser` for all kinds; a kind which has no `pos_mapping`/`ptrs` field never touches it.
`BorrowedStorage` (owned or `&mut`) is not distinguished: `borrow()`/`borrow_mut()` are identities.
-/
namespace SerRaw

/-- `SerializerType` — ser_raw_derive_serializer/src/common.rs:8-13. -/
inductive Kind
  | pureCopy | posTracking | ptrOffset | complete
  deriving DecidableEq, Repr

/-- State of a serializer: storage, position mapping, pointer record —
ser_raw/src/serializers/complete.rs:67-80, ser_raw/src/serializers/ptr_offset.rs:43-54, ser_raw/src/serializers/pure_copy.rs:51-61. -/
structure Ser where
  sto : Sto
  map : PosMapping
  ptrs : Ptrs

namespace Ser

/-- Run a storage operation through `storage_mut()` — ser_raw/src/serializer.rs:511, ser_raw_derive_serializer/src/lib.rs:73-76. -/
def lift {α} (x : M Sto α) : M Ser α := fun s =>
  match x s.sto with
  | .ok a t => .ok a { s with sto := t }
  | .panic k t => .panic k { s with sto := t }
  | .abort => .abort
  | .ub => .ub
  | .fuel => .fuel

/-- `pos_mapping` — ser_raw/src/serializer_traits/pos_tracking.rs:12. -/
def getMap : M Ser PosMapping := fun s => .ok s.map s
/-- `set_pos_mapping` — ser_raw/src/serializer_traits/pos_tracking.rs:15. -/
def setMap (m : PosMapping) : M Ser Unit := fun s => .ok () { s with map := m }
/-- `capacity` — ser_raw/src/serializer.rs:497-499. -/
def getCapacity : M Ser Nat := fun s => .ok s.sto.vec.capacity s

/-- `from_storage` — ser_raw/src/serializers/complete.rs:138-144, ser_raw/src/serializers/ptr_offset.rs:110-115, ser_raw/src/serializers/pure_copy.rs:114-116;
with a fresh storage also `new` (ser_raw/src/serializers/complete.rs:93-99) and `with_capacity` (ser_raw/src/serializers/complete.rs:109-117). -/
def fromStorage (t : Sto) : Ser := ⟨t, PosMapping.dummy, Ptrs.new⟩

end Ser

/-- A `&[T]`: layout of `T`, length, address, and the memory it points to — e.g. ser_raw/src/serializer.rs:297. -/
structure Slice where
  L : Layout
  len : Nat
  addr : Nat
  data : Nat → Cell

/-- `slice::from_ref` — used in ser_raw/src/serializer.rs:283, 318, 353. -/
def Slice.fromRef (L : Layout) (addr : Nat) (data : Nat → Cell) : Slice := ⟨L, 1, addr, data⟩

/-- Does the kind use `TrackingAddr` (true) or `NoopAddr` (false)? —
ser_raw_derive_serializer/src/ser_types/pure_copy.rs:10, ser_raw_derive_serializer/src/ser_types/pos_tracking.rs:17, ser_raw_derive_serializer/src/ser_types/ptr_offset.rs:17, ser_raw_derive_serializer/src/ser_types/complete.rs:18. -/
def Kind.tracking : Kind → Bool
  | .pureCopy | .posTracking => false
  | .ptrOffset | .complete => true

/-- `S::Addr::from_ref_offset(value, offset)` — ser_raw/src/pos.rs:105-109 (tracking), 136-138 (no-op, which records nothing;
represented by 0). `from_ref` (ser_raw/src/pos.rs:97-101, 130-132) is the case of offset 0. -/
def addrFromRefOffset {σ} (A : Arch) (k : Kind) (addr off : Nat) : M σ Nat :=
  if k.tracking then uadd A addr off else pure 0

/-- `S::Addr::from_ref(value)` — ser_raw/src/pos.rs:97-101, 130-132. -/
def addrFromRef (k : Kind) (addr : Nat) : Nat := if k.tracking then addr else 0

/-- `push_raw_slice` — ser_raw/src/serializer.rs:365-367. -/
def pushRawSlice (C : Cfg) (sl : Slice) : M Ser Nat :=
  Ser.lift (Sto.pushSlice C sl.L sl.len sl.data)

/-- `push_raw` — ser_raw/src/serializer.rs:352-354. -/
def pushRaw (C : Cfg) (L : Layout) (addr : Nat) (data : Nat → Cell) : M Ser Nat :=
  pushRawSlice C (Slice.fromRef L addr data)

/-- `push_raw_bytes` — ser_raw/src/serializer.rs:406-408. -/
def pushRawBytes (C : Cfg) (n : Nat) (data : Nat → Cell) : M Ser Nat := Ser.lift (Sto.pushBytes C n data)

/-- `push_empty` — ser_raw/src/serializer.rs:418-420. -/
def Ser.pushEmpty (C : Cfg) (L : Layout) : M Ser Nat := Ser.lift (Sto.pushEmpty C L)

/-- `push_empty_slice` — ser_raw/src/serializer.rs:434-436. -/
def Ser.pushEmptySlice (C : Cfg) (L : Layout) (len : Nat) : M Ser Nat := Ser.lift (Sto.pushEmptySlice C L len)

/-! ### `PtrOffset` and `Complete`: writing pointers -/

/-- `PtrOffset::do_overwrite_ptr` — ser_raw/src/serializer_traits/ptr_offset.rs:21-28.
`align_of::<usize>()` is `PTR_SIZE` on the targets considered. -/
def PtrOffset.doOverwritePtr (C : Cfg) (ptrPos targetPos : Nat) : M Ser Unit := do
  let cap ← Ser.getCapacity
  M.debugAssertM C.arch (do let x ← usub C.arch cap C.arch.ptrBytes; pure (decide (ptrPos ≤ x)))
  M.debugAssertM C.arch (isAlignedTo C.arch ptrPos C.arch.ptrBytes)
  M.debugAssert C.arch (decide (targetPos ≤ cap))
  Ser.lift (Sto.write C ptrPos ⟨C.arch.ptrBytes, C.arch.ptrBytes⟩ (wordCells C.arch targetPos))

/-- `new_ptr_group` — ser_raw/src/serializer_traits/complete.rs:67-75. -/
def newPtrGroup (p : Ptrs) (storageAddr : Nat) : Ptrs :=
  if p.current.isEmpty then { p with current := p.current.setAddr storageAddr }
  else { current := PtrGroup.new storageAddr, past := p.past ++ [p.current] }

/-- Recording of a pointer position — ser_raw/src/serializer_traits/complete.rs:57-62. -/
def recordPtr (p : Ptrs) (storageAddr ptrPos : Nat) : Ptrs :=
  let p := if storageAddr ≠ p.current.addr then newPtrGroup p storageAddr else p
  { p with current := p.current.pushPos ptrPos }

/-- `Complete::do_overwrite_ptr` — ser_raw/src/serializer_traits/complete.rs:44-76. -/
def Complete.doOverwritePtr (C : Cfg) (ptrPos targetPos : Nat) : M Ser Unit := do
  let cap ← Ser.getCapacity
  M.debugAssertM C.arch (do let x ← usub C.arch cap C.arch.ptrBytes; pure (decide (ptrPos ≤ x)))
  M.debugAssertM C.arch (isAlignedTo C.arch ptrPos C.arch.ptrBytes)
  M.debugAssert C.arch (decide (targetPos ≤ cap))
  let s ← M.get
  let storageAddr := s.sto.asPtr
  let targetAddr ← uadd C.arch storageAddr targetPos
  Ser.lift (Sto.write C ptrPos ⟨C.arch.ptrBytes, C.arch.ptrBytes⟩ (wordCells C.arch targetAddr))
  M.modify fun s => { s with ptrs := recordPtr s.ptrs storageAddr ptrPos }

/-- `overwrite_ptr` of the pointer-writing kinds — ser_raw_derive_serializer/src/ser_types/ptr_offset.rs:66-69, ser_raw_derive_serializer/src/ser_types/complete.rs:80-83.
The other kinds do not implement `PtrWriting` and never call it. -/
def overwritePtr (C : Cfg) (k : Kind) (ptrPos targetPos : Nat) : M Ser Unit :=
  match k with
  | .ptrOffset => PtrOffset.doOverwritePtr C ptrPos targetPos
  | .complete => Complete.doOverwritePtr C ptrPos targetPos
  | .pureCopy | .posTracking => pure ()

/-! ### `PosTracking` -/

/-- `PosTracking::do_serialize_value` — ser_raw/src/serializer_traits/pos_tracking.rs:23-35. `serializeData` is `value.serialize_data`. -/
def PosTracking.doSerializeValue (C : Cfg) (L : Layout) (addr : Nat) (data : Nat → Cell)
    (serializeData : M Ser Unit) : M Ser Nat := do
  let pos ← pushRaw C L addr data
  Ser.setMap ⟨addr, pos⟩
  serializeData
  pure pos

/-- `PosTracking::do_push_slice` — ser_raw/src/serializer_traits/pos_tracking.rs:39-41. -/
def PosTracking.doPushSlice (C : Cfg) (sl : Slice) : M Ser Nat := pushRawSlice C sl

/-- `PosTracking::do_push_and_process_slice` — ser_raw/src/serializer_traits/pos_tracking.rs:44-67. -/
def PosTracking.doPushAndProcessSlice (C : Cfg) (sl : Slice) (process : M Ser Unit) : M Ser Nat := do
  let before ← Ser.getMap
  let pos ← Ser.lift (Sto.pushSlice C sl.L sl.len sl.data)
  Ser.setMap ⟨sl.addr, pos⟩
  process
  Ser.setMap before
  pure pos

/-! ### `PtrWriting` -/

/-- `PtrWriting::do_push_slice` — ser_raw/src/serializer_traits/ptr_writing.rs:32-41. -/
def PtrWriting.doPushSlice (C : Cfg) (k : Kind) (sl : Slice) (ptrAddr : Nat) : M Ser Nat := do
  let pos ← pushRawSlice C sl
  let m ← Ser.getMap
  let ptrPos ← m.posForAddr C.arch ptrAddr
  overwritePtr C k ptrPos pos
  pure pos

/-- `PtrWriting::do_push_and_process_slice` — ser_raw/src/serializer_traits/ptr_writing.rs:44-70. -/
def PtrWriting.doPushAndProcessSlice (C : Cfg) (k : Kind) (sl : Slice) (ptrAddr : Nat)
    (process : M Ser Unit) : M Ser Nat := do
  let before ← Ser.getMap
  let pos ← Ser.lift (Sto.pushSlice C sl.L sl.len sl.data)
  let ptrPos ← before.posForAddr C.arch ptrAddr
  overwritePtr C k ptrPos pos
  Ser.setMap ⟨sl.addr, pos⟩
  process
  Ser.setMap before
  pure pos

/-! ### `Writable` and `Complete`: overwriting -/

/-- `Writable::do_overwrite` — ser_raw/src/serializer_traits/writable.rs:10-13 (identical to `Complete::do_overwrite`, ser_raw/src/serializer_traits/complete.rs:25-28). -/
def Writable.doOverwrite (C : Cfg) (addr : Nat) (L : Layout) (data : Nat → Cell) : M Ser Unit := do
  let m ← Ser.getMap
  let pos ← m.posForAddr C.arch addr
  Ser.lift (Sto.write C pos L data)

/-- `Complete::do_overwrite_with` — ser_raw/src/serializer_traits/complete.rs:31-33. -/
def Complete.doOverwriteWith (write : M Ser Unit) : M Ser Unit := write

/-- The loop of `do_finalize` over past groups — ser_raw/src/serializer_traits/complete.rs:94-98. -/
def Complete.correctPast (A : Arch) (storagePtr : Nat) : List PtrGroup → M Sto Unit
  | [] => pure ()
  | g :: gs => do
    (if g.addr ≠ storagePtr then g.correctPtrs A storagePtr else pure ())
    Complete.correctPast A storagePtr gs

/-- `Complete::do_finalize` — ser_raw/src/serializer_traits/complete.rs:83-102. -/
def Complete.doFinalize (C : Cfg) : M Ser Unit := do
  let s ← M.get
  let storagePtr := s.sto.asPtr
  let p := s.ptrs
  (if p.current.addr ≠ storagePtr ∧ p.current.isEmpty = false then
    Ser.lift (p.current.correctPtrs C.arch storagePtr) else pure ())
  Ser.lift (Complete.correctPast C.arch storagePtr p.past)

/-! ### Method tables: what each kind's `Serializer` impl does -/

/-- `push_and_process_slice`: default ser_raw/src/serializer.rs:333-342; overrides ser_raw_derive_serializer/src/ser_types/pos_tracking.rs:32-39,
ser_raw_derive_serializer/src/ser_types/ptr_offset.rs:31-39, ser_raw_derive_serializer/src/ser_types/complete.rs:32-40. -/
def pushAndProcessSlice (C : Cfg) (k : Kind) (sl : Slice) (ptrAddr : Nat) (process : M Ser Unit) : M Ser Nat :=
  match k with
  | .pureCopy => do
    let pos ← pushRawSlice C sl
    process
    pure pos
  | .posTracking => PosTracking.doPushAndProcessSlice C sl process
  | .ptrOffset | .complete => PtrWriting.doPushAndProcessSlice C k sl ptrAddr process

/-- `push_and_process` — ser_raw/src/serializer.rs:312-319. -/
def pushAndProcess (C : Cfg) (k : Kind) (L : Layout) (addr : Nat) (data : Nat → Cell) (ptrAddr : Nat)
    (process : M Ser Unit) : M Ser Nat :=
  pushAndProcessSlice C k (Slice.fromRef L addr data) ptrAddr process

/-- `push_slice`: default ser_raw/src/serializer.rs:297-299; overrides ser_raw_derive_serializer/src/ser_types/pos_tracking.rs:27-29, ser_raw_derive_serializer/src/ser_types/ptr_offset.rs:25-28,
ser_raw_derive_serializer/src/ser_types/complete.rs:26-29. -/
def pushSlice (C : Cfg) (k : Kind) (sl : Slice) (ptrAddr : Nat) : M Ser Nat :=
  match k with
  | .pureCopy => pushAndProcessSlice C k sl ptrAddr (pure ())
  | .posTracking => PosTracking.doPushSlice C sl
  | .ptrOffset | .complete => PtrWriting.doPushSlice C k sl ptrAddr

/-- `push` — ser_raw/src/serializer.rs:282-284. -/
def push (C : Cfg) (k : Kind) (L : Layout) (addr : Nat) (data : Nat → Cell) (ptrAddr : Nat) : M Ser Nat :=
  pushSlice C k (Slice.fromRef L addr data) ptrAddr

/-- `serialize_value`: default ser_raw/src/serializer.rs:260-269; overrides ser_raw_derive_serializer/src/ser_types/pos_tracking.rs:22-24, ser_raw_derive_serializer/src/ser_types/ptr_offset.rs:19-22,
ser_raw_derive_serializer/src/ser_types/complete.rs:20-23. -/
def serializeValue (C : Cfg) (k : Kind) (L : Layout) (addr : Nat) (data : Nat → Cell)
    (serializeData : M Ser Unit) : M Ser Nat :=
  match k with
  | .pureCopy => do
    let pos ← pushRaw C L addr data
    serializeData
    pure pos
  | .posTracking | .ptrOffset | .complete => PosTracking.doSerializeValue C L addr data serializeData

/-- `overwrite`: default no-op ser_raw/src/serializer.rs:455; override ser_raw_derive_serializer/src/ser_types/complete.rs:43-46. -/
def overwrite (C : Cfg) (k : Kind) (addr : Nat) (L : Layout) (data : Nat → Cell) : M Ser Unit :=
  match k with
  | .complete => Writable.doOverwrite C addr L data
  | .pureCopy | .posTracking | .ptrOffset => pure ()

/-- `overwrite_with`: default no-op (the closure is dropped) ser_raw/src/serializer.rs:486; override ser_raw_derive_serializer/src/ser_types/complete.rs:49-52. -/
def overwriteWith (k : Kind) (write : M Ser Unit) : M Ser Unit :=
  match k with
  | .complete => Complete.doOverwriteWith write
  | .pureCopy | .posTracking | .ptrOffset => pure ()

/-- `finalize`: default ser_raw/src/serializer.rs:491-493 (`into_storage`); override ser_raw_derive_serializer/src/ser_types/complete.rs:55-58. -/
def finalize (C : Cfg) (k : Kind) : M Ser Unit :=
  match k with
  | .complete => Complete.doFinalize C
  | .pureCopy | .posTracking | .ptrOffset => pure ()

/-- `serialize` — ser_raw/src/serializer.rs:217-221. The storage returned is the `sto` of the final state. -/
def serialize (C : Cfg) (k : Kind) (L : Layout) (addr : Nat) (data : Nat → Cell)
    (serializeData : M Ser Unit) : M Ser Nat := do
  let pos ← serializeValue C k L addr data serializeData
  finalize C k
  pure pos

end SerRaw
