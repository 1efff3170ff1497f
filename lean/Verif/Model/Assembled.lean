import Verif.Model.AnySerializer
/-
Serializers put together by hand from the traits in `ser_traits` (ser_raw/src/lib.rs:162-166, "Traits which are composed to create
Serializers"), over any random-access storage. The four derived kinds are particular combinations; the traits allow others:

* position tracking only (`PosTracking`), or position tracking and pointers written as offsets (`PosTracking`, `PtrWriting`, `PtrOffset`);
* corrections (`overwrite`) ignored, as by default; applied at once (`Writable`); or recorded with their position, for the deserializer to apply
  (ser_raw/src/serializer.rs:444-447: "storing the details of what need to be written in some other form, and leaving it to the deserializer to perform the
  writes later").

(With pointers written as addresses, `Complete`, a serializer has to apply corrections: ser_raw/src/serializer_traits/complete.rs:13-34; see
Model/CustomComplete.lean.)
-/
namespace SerRaw

/-- A recorded correction: `size` bytes `data` belong at position `pos` —
what an implementation of `Writable`, ser_raw/src/serializer_traits/writable.rs:5-14, may keep. -/
structure Fix where
  pos : Nat
  size : Nat
  data : Nat → Cell

/-- What the serializer does with corrections — the choices for `overwrite` and `overwrite_with`, ser_raw/src/serializer.rs:455-486. -/
inductive FixMode
  | drop | apply | record
  deriving DecidableEq, Repr

/-- A combination of traits: whether pointers are written (as offsets), and what becomes of corrections — ser_raw/src/serializer_traits/mod.rs:1-10. -/
structure Kit where
  offsets : Bool
  fix : FixMode
  deriving DecidableEq, Repr

/-- State: storage, position mapping and recorded corrections, oldest first — fields as in ser_raw/src/serializers/ptr_offset.rs:43-54. -/
structure KSer (σ : Type) extends GSer σ where
  log : List Fix

namespace KSer
variable {σ : Type}

/-- Run an operation on the storage and mapping — ser_raw/src/serializer.rs:507-511, ser_raw/src/serializer_traits/pos_tracking.rs:12-15. -/
def lift {α : Type} (x : M (GSer σ) α) : M (KSer σ) α := fun s =>
  match x s.toGSer with
  | .ok a g => .ok a { s with toGSer := g }
  | .panic k g => .panic k { s with toGSer := g }
  | .abort => .abort
  | .ub => .ub
  | .fuel => .fuel

/-- A new serializer on a storage (cf. ser_raw/src/serializers/ptr_offset.rs:110-115). -/
def fromStorage (t : σ) : KSer σ := ⟨GSer.fromStorage t, []⟩

/-- Record a correction — user code; what is recorded are arguments of `write`, ser_raw/src/storage/mod.rs:485. -/
def push (f : Fix) : M (KSer σ) Unit := fun s => .ok () { s with log := s.log ++ [f] }

variable (I : RandomImpl σ) (K : Kit)

/-- The pointer, if pointers are written: `PtrOffset::do_overwrite_ptr` at the position of `ptrAddr` — ser_raw/src/serializer_traits/ptr_writing.rs:57-58,
ser_raw/src/serializer_traits/ptr_offset.rs:21-28. -/
def writePtr (m : PosMapping) (ptrAddr pos : Nat) : M (KSer σ) Unit :=
  if K.offsets then do
    let ptrPos ← m.posForAddr I.C.arch ptrAddr
    lift (GSer.doOverwritePtr I ptrPos pos)
  else pure ()

/-- `push_slice`: `PosTracking::do_push_slice` — ser_raw/src/serializer_traits/pos_tracking.rs:39-41; `PtrWriting::do_push_slice` with
`PtrOffset::do_overwrite_ptr` — ser_raw/src/serializer_traits/ptr_writing.rs:32-41, ser_raw/src/serializer_traits/ptr_offset.rs:21-28. -/
def pushSlice (sl : Slice) (ptrAddr : Nat) : M (KSer σ) Nat := do
  let pos ← lift (GSer.pushRawSlice I sl)
  let m ← lift GSer.getMap
  writePtr I K m ptrAddr pos
  pure pos

/-- `push_and_process_slice`: `PosTracking::do_push_and_process_slice` — ser_raw/src/serializer_traits/pos_tracking.rs:44-67; `PtrWriting::do_push_and_process_slice` with
`PtrOffset::do_overwrite_ptr` — ser_raw/src/serializer_traits/ptr_writing.rs:44-70. -/
def pushAndProcessSlice (sl : Slice) (ptrAddr : Nat) (process : M (KSer σ) Unit) : M (KSer σ) Nat := do
  let before ← lift GSer.getMap
  let pos ← lift (GSer.pushRawSlice I sl)
  writePtr I K before ptrAddr pos
  lift (GSer.setMap ⟨sl.addr, pos⟩)
  process
  lift (GSer.setMap before)
  pure pos

/-- `serialize_value`: `PosTracking::do_serialize_value` — ser_raw/src/serializer_traits/pos_tracking.rs:23-35. -/
def serializeValue (L : Layout) (addr : Nat) (data : Nat → Cell) (serializeData : M (KSer σ) Unit) : M (KSer σ) Nat := do
  let pos ← lift (GSer.pushRawSlice I (Slice.fromRef L addr data))
  lift (GSer.setMap ⟨addr, pos⟩)
  serializeData
  pure pos

/-- `overwrite`: the default — ser_raw/src/serializer.rs:455; `Writable::do_overwrite` — ser_raw/src/serializer_traits/writable.rs:9-13; or the position the latter would
write at is recorded with the value. -/
def overwrite (addr : Nat) (L : Layout) (data : Nat → Cell) : M (KSer σ) Unit :=
  match K.fix with
  | .drop => pure ()
  | .apply => do
    let m ← lift GSer.getMap
    let pos ← m.posForAddr I.C.arch addr
    lift (GSer.lift (I.write pos L data))
  | .record => do
    let m ← lift GSer.getMap
    let pos ← m.posForAddr I.C.arch addr
    push ⟨pos, L.size, data⟩

/-- `overwrite_with`: the default, or the version for serializers that want corrections — ser_raw/src/serializer.rs:478-486. -/
def overwriteWith (write : M (KSer σ) Unit) : M (KSer σ) Unit :=
  match K.fix with
  | .drop => pure ()
  | .apply | .record => write

end KSer

/-- The combination as an implementation of `Serializer` with `Addr = TrackingAddr` (ser_raw/src/pos.rs:88-117); other methods are the defaults —
ser_raw/src/serializer.rs:282-284, 312-321, 352-408, 491-493. -/
def kitSerializer {σ : Type} (I : RandomImpl σ) (K : Kit) : SerializerImpl (KSer σ) Nat where
  A := I.C.arch
  fromRef a := a
  fromRefOffset a off := uadd I.C.arch a off
  serializeValue := KSer.serializeValue I
  push L a d p := KSer.pushSlice I K (Slice.fromRef L a d) p
  pushSlice := KSer.pushSlice I K
  pushAndProcess L a d p process := KSer.pushAndProcessSlice I K (Slice.fromRef L a d) p process
  pushAndProcessSlice := KSer.pushAndProcessSlice I K
  pushRaw L a d := KSer.lift (GSer.pushRawSlice I (Slice.fromRef L a d))
  pushRawSlice sl := KSer.lift (GSer.pushRawSlice I sl)
  pushRawBytes n d := KSer.lift (GSer.lift (I.pushBytes n d))
  overwrite := KSer.overwrite I K
  overwriteWith := KSer.overwriteWith K
  finalize := pure ()

end SerRaw
