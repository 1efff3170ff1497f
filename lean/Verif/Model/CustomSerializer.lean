import Verif.Model.CustomStorage
import Verif.Model.Script
import Verif.Model.Reach
import Verif.Model.UserImpl
/-
Serializers derived over a custom storage. `#[derive(Serializer)]` takes any storage type
(ser_raw_derive_serializer/src/lib.rs:16-96); kinds `PureCopy` and `PosTracking` need `Storage`, kind `PtrOffset` needs
`RandomAccessStorage` (ser_raw/src/serializer_traits/ptr_offset.rs:9-11). Kind `Complete` needs contiguous memory
(`ContiguousStorage`): see Model/CustomComplete.lean.

The definitions are those of Model/Serializer.lean and Model/Impls.lean with `AlignedVec` replaced by an arbitrary implementation
(`C62_aligned_vec_same` shows they agree on `AlignedVec`).
-/
namespace SerRaw

/-- An implementation of `RandomAccessStorage`: `Storage` and `write_slice` — ser_raw/src/storage/mod.rs:472-500. The methods returning
references or pointers (`read`, `read_mut`, `ptr`, `mut_ptr`) are not called by these serializers. -/
structure RandomImpl (σ : Type) extends StorageImpl σ where
  /-- `write_slice(pos, slice)` — ser_raw/src/storage/mod.rs:500 -/
  writeSlice : Nat → Layout → Nat → (Nat → Cell) → M σ Unit

/-- Default `write` — ser_raw/src/storage/mod.rs:484-486. -/
def RandomImpl.write {σ : Type} (I : RandomImpl σ) (p : Nat) (L : Layout) (data : Nat → Cell) : M σ Unit := I.writeSlice p L 1 data

/-- The kinds of serializer which work on any storage — `SerializerType`, ser_raw_derive_serializer/src/common.rs:8-13, without `Complete`. -/
inductive DKind
  | pureCopy | posTracking | ptrOffset
  deriving DecidableEq, Repr

/-- The same kind over `AlignedVec` (Model/Serializer.lean; ser_raw_derive_serializer/src/common.rs:8-13). -/
def DKind.kind : DKind → Kind
  | .pureCopy => .pureCopy
  | .posTracking => .posTracking
  | .ptrOffset => .ptrOffset

/-- State of a derived serializer: storage and position mapping (`PureCopy` has no mapping and never uses it) —
ser_raw/src/serializers/ptr_offset.rs:43-54, ser_raw/src/serializers/pure_copy.rs:51-61. -/
structure GSer (σ : Type) where
  sto : σ
  map : PosMapping

namespace GSer
variable {σ : Type}

/-- Run a storage operation through `storage_mut()` — ser_raw/src/serializer.rs:511, ser_raw_derive_serializer/src/lib.rs:73-76. -/
def lift {α} (x : M σ α) : M (GSer σ) α := fun s =>
  match x s.sto with
  | .ok a t => .ok a { s with sto := t }
  | .panic k t => .panic k { s with sto := t }
  | .abort => .abort
  | .ub => .ub
  | .fuel => .fuel

/-- `pos_mapping` — ser_raw/src/serializer_traits/pos_tracking.rs:12. -/
def getMap : M (GSer σ) PosMapping := fun s => .ok s.map s
/-- `set_pos_mapping` — ser_raw/src/serializer_traits/pos_tracking.rs:15. -/
def setMap (m : PosMapping) : M (GSer σ) Unit := fun s => .ok () { s with map := m }
/-- `capacity` — ser_raw/src/serializer.rs:497-499. -/
def getCapacity (I : StorageImpl σ) : M (GSer σ) Nat := fun s => .ok (I.capacity s.sto) s

/-- A new serializer on a storage — ser_raw/src/serializers/ptr_offset.rs:110-115, ser_raw/src/serializers/pure_copy.rs:114-116. -/
def fromStorage (t : σ) : GSer σ := ⟨t, PosMapping.dummy⟩

variable (I : RandomImpl σ)

/-- `push_raw_slice` — ser_raw/src/serializer.rs:365-367. -/
def pushRawSlice (sl : Slice) : M (GSer σ) Nat := lift (I.pushSlice sl.L sl.len sl.data)

/-- `PtrOffset::do_overwrite_ptr` — ser_raw/src/serializer_traits/ptr_offset.rs:21-28. -/
def doOverwritePtr (ptrPos targetPos : Nat) : M (GSer σ) Unit := do
  let cap ← getCapacity I.toStorageImpl
  M.debugAssertM I.C.arch (do let x ← usub I.C.arch cap I.C.arch.ptrBytes; pure (decide (ptrPos ≤ x)))
  M.debugAssertM I.C.arch (isAlignedTo I.C.arch ptrPos I.C.arch.ptrBytes)
  M.debugAssert I.C.arch (decide (targetPos ≤ cap))
  lift (I.write ptrPos ⟨I.C.arch.ptrBytes, I.C.arch.ptrBytes⟩ (wordCells I.C.arch targetPos))

/-- `push_and_process_slice`: default ser_raw/src/serializer.rs:333-342; `PosTracking::do_push_and_process_slice` — ser_raw/src/serializer_traits/pos_tracking.rs:44-67;
`PtrWriting::do_push_and_process_slice` — ser_raw/src/serializer_traits/ptr_writing.rs:44-70. -/
def pushAndProcessSlice (k : DKind) (sl : Slice) (ptrAddr : Nat) (process : M (GSer σ) Unit) : M (GSer σ) Nat :=
  match k with
  | .pureCopy => do
    let pos ← pushRawSlice I sl
    process
    pure pos
  | .posTracking => do
    let before ← getMap
    let pos ← lift (I.pushSlice sl.L sl.len sl.data)
    setMap ⟨sl.addr, pos⟩
    process
    setMap before
    pure pos
  | .ptrOffset => do
    let before ← getMap
    let pos ← lift (I.pushSlice sl.L sl.len sl.data)
    let ptrPos ← before.posForAddr I.C.arch ptrAddr
    doOverwritePtr I ptrPos pos
    setMap ⟨sl.addr, pos⟩
    process
    setMap before
    pure pos

/-- `push_slice`: default ser_raw/src/serializer.rs:297-299; `PosTracking::do_push_slice` — ser_raw/src/serializer_traits/pos_tracking.rs:39-41; `PtrWriting::do_push_slice` —
ser_raw/src/serializer_traits/ptr_writing.rs:32-41. -/
def pushSlice (k : DKind) (sl : Slice) (ptrAddr : Nat) : M (GSer σ) Nat :=
  match k with
  | .pureCopy => pushAndProcessSlice I k sl ptrAddr (pure ())
  | .posTracking => pushRawSlice I sl
  | .ptrOffset => do
    let pos ← pushRawSlice I sl
    let m ← getMap
    let ptrPos ← m.posForAddr I.C.arch ptrAddr
    doOverwritePtr I ptrPos pos
    pure pos

/-- `serialize_value`: default ser_raw/src/serializer.rs:260-269; `PosTracking::do_serialize_value` — ser_raw/src/serializer_traits/pos_tracking.rs:23-35. -/
def serializeValue (k : DKind) (L : Layout) (addr : Nat) (data : Nat → Cell) (serializeData : M (GSer σ) Unit) : M (GSer σ) Nat :=
  match k with
  | .pureCopy => do
    let pos ← pushRawSlice I (Slice.fromRef L addr data)
    serializeData
    pure pos
  | .posTracking | .ptrOffset => do
    let pos ← pushRawSlice I (Slice.fromRef L addr data)
    setMap ⟨addr, pos⟩
    serializeData
    pure pos

end GSer

/-- Run the calls of a `Serialize` implementation (Model/Script.lean). `overwrite` and `overwrite_with` are the no-op defaults of
ser_raw/src/serializer.rs:455, 486 for these kinds. -/
def Script.runG {σ : Type} (I : RandomImpl σ) (k : DKind) (im : Mem) : Script → M (GSer σ) Unit
  | .done => pure ()
  | .pushProcess L len src ptr inner rest => do
    let _ ← GSer.pushAndProcessSlice I k ⟨L, len, src, fun i => im (src + i)⟩ (addrFromRef k.kind ptr) (inner.runG I k im)
    rest.runG I k im
  | .push L len src ptr rest => do
    let _ ← GSer.pushSlice I k ⟨L, len, src, fun i => im (src + i)⟩ (addrFromRef k.kind ptr)
    rest.runG I k im
  | .pushRaw L len src rest => do
    let _ ← GSer.pushRawSlice I ⟨L, len, src, fun i => im (src + i)⟩
    rest.runG I k im
  | .overwrite _ _ _ rest => rest.runG I k im

/-- Several `serialize_value` calls on values with hand-written implementations (Model/UserImpl.lean) — ser_raw/src/serializer.rs:260-269; `finalize` does nothing more than hand out the storage for these kinds
(ser_raw/src/serializer.rs:491-493). -/
def gValues {σ : Type} (I : RandomImpl σ) (k : DKind) : List UserRoot → M (GSer σ) (List Nat)
  | [] => pure []
  | v :: vs => do
    let p ← GSer.serializeValue I k v.L v.a (fun i => v.im (v.a + i)) (v.sc.runG I k v.im)
    let ps ← gValues I k vs
    pure (p :: ps)

/-! ### `serialize_data` of the crate's own types, over any storage -/

section
variable {σ : Type} (I : RandomImpl σ) (k : DKind) (P : Prog) (im : Mem)

/-- `serialize_data` on each element / field in turn (cf. `serEach`) — ser_raw/src/serialize_impls/ptrs.rs:69-71, ser_raw/src/serialize_impls/multiples.rs:9-11, 23-25,
ser_raw_derive/src/structs.rs:27, ser_raw_derive/src/enums.rs:70,101. -/
def gEach (rec : TyId → Nat → M (GSer σ) Unit) (a : Nat) : List Field → M (GSer σ) Unit
  | [] => pure ()
  | f :: fs => do
    rec f.2 (a + f.1)
    gEach rec a fs

/-- `Box<T>::serialize_data` — ser_raw/src/serialize_impls/ptrs.rs:12-29. -/
def gBox (rec : TyId → Nat → M (GSer σ) Unit) (t : TyId) (a : Nat) : M (GSer σ) Unit := do
  if (P.layout t).size = 0 then pure ()
  else
    let target ← readIn I.C.arch im a
    let _ ← GSer.pushAndProcessSlice I k (Slice.fromRef (P.layout t) target (inputAt im target)) (addrFromRef k.kind a) (rec t target)
    pure ()

/-- `Vec<T>::serialize_data` — ser_raw/src/serialize_impls/ptrs.rs:37-73. `overwrite_with` does nothing (its closure is dropped) for these kinds —
ser_raw/src/serializer.rs:486. -/
def gVec (rec : TyId → Nat → M (GSer σ) Unit) (t : TyId) (a : Nat) : M (GSer σ) Unit := do
  let L := P.layout t
  let o := P.vecOrder t
  let W := I.C.arch.ptrBytes
  if L.size = 0 then pure ()
  else
    let len ← readIn I.C.arch im (a + o.lenIx * W)
    let _ ← readIn I.C.arch im (a + o.capIx * W)
    let ptr ← readIn I.C.arch im (a + o.ptrIx * W)
    let off ← constEval (vecOffsets W o L.align)
    if len = 0 then pure ()
    else
      let ptrAddr ← addrFromRefOffset I.C.arch k.kind a off.ptr
      let _ ← GSer.pushAndProcessSlice I k ⟨L, len, ptr, inputAt im ptr⟩ ptrAddr (gEach rec ptr (elems P t len))
      pure ()

/-- `String::serialize_data` — ser_raw/src/serialize_impls/ptrs.rs:79-104. -/
def gString (a : Nat) : M (GSer σ) Unit := do
  let o := P.stringOrder
  let W := I.C.arch.ptrBytes
  let len ← readIn I.C.arch im (a + o.lenIx * W)
  let _ ← readIn I.C.arch im (a + o.capIx * W)
  let ptr ← readIn I.C.arch im (a + o.ptrIx * W)
  let off ← constEval (vecOffsets W o 1)
  if len = 0 then pure ()
  else
    let ptrAddr ← addrFromRefOffset I.C.arch k.kind a off.ptr
    let _ ← GSer.pushSlice I k ⟨⟨1, 1⟩, len, ptr, inputAt im ptr⟩ ptrAddr
    pure ()

/-- `Option<T>` and derived enums — ser_raw/src/serialize_impls/other.rs:8-12, ser_raw_derive/src/enums.rs:36-41, 68-72, 99-103. -/
def gEnum (rec : TyId → Nat → M (GSer σ) Unit) (tag : Tag) (variants : List (List Field)) (a : Nat) : M (GSer σ) Unit :=
  match activeVariant I.C.arch im a tag with
  | none => M.ub
  | some i =>
    match variants[i]? with
    | none => M.ub
    | some fs => gEach rec a fs

/-- `BigInt::serialize_data` — ser_raw/src/serialize_impls/bigint.rs:44-52. -/
def gBigInt (rec : TyId → Nat → M (GSer σ) Unit) (u : TyId) (a : Nat) : M (GSer σ) Unit :=
  match P.defn u with
  | .bigUint usize => do
    let off ← bigintDataOffset I.C.arch P usize
    rec u (a + off)
  | _ => M.ub

end

/-- `value.serialize_data(serializer)` (cf. `serData`) — ser_raw/src/serialize_impls/*.rs; `BigUint` is a `Vec<usize>` (ser_raw/src/serialize_impls/bigint.rs:23-30).
`fuel` bounds the depth of recursion. -/
def gData {σ : Type} (I : RandomImpl σ) (k : DKind) (P : Prog) (im : Mem) : Nat → TyId → Nat → M (GSer σ) Unit
  | 0, _, _ => M.outOfFuel
  | f + 1, t, a =>
    match P.defn t with
    | .prim => pure ()
    | .box u => gBox I k P im (gData I k P im f) u a
    | .vec u => gVec I k P im (gData I k P im f) u a
    | .string => gString I k P im a
    | .array u n => gEach (gData I k P im f) a (elems P u n)
    | .struct fs => gEach (gData I k P im f) a fs
    | .enum tag vs => gEnum I im (gData I k P im f) tag vs a
    | .bigUint u => gVec I k P im (gData I k P im f) u a
    | .bigInt u => gBigInt I P (gData I k P im f) u a

/-- A serializer of kind `k` over a custom storage, used for several values: `serialize_value` on each (ser_raw/src/serializer.rs:260-269), then
`finalize`, which for these kinds only hands out the storage (ser_raw/src/serializer.rs:491-493). Cf. `session`. -/
def gSession {σ : Type} (I : RandomImpl σ) (k : DKind) (P : Prog) (fuel : Nat) : List Root → M (GSer σ) (List Nat)
  | [] => pure []
  | r :: rs => do
    let p ← GSer.serializeValue I k (P.layout r.t) r.a (inputAt r.im r.a) (gData I k P r.im fuel r.t r.a)
    let ps ← gSession I k P fuel rs
    pure (p :: ps)

/-- `KReach I P s`: a custom storage created by `new` or `with_capacity` (ser_raw/src/storage/mod.rs:186, 196-215), used through its safe methods
(Model/CustomStorage.lean) and by derived serializers made `from_storage` (ser_raw/src/serializers/ptr_offset.rs:110-115), some calls panicking and
being caught, is in state `s`. -/
inductive KReach {σ : Type} (I : RandomImpl σ) (P : Prog) : σ → Prop
  | new : KReach I P I.new
  | withCapacity {c s} : c < I.C.arch.usizeMod → I.withCapacity c I.new = .ok () s → KReach I P s
  | op {s o p s'} : KReach I P s → KOp.Legal I.toStorageImpl s o → o.run I.toStorageImpl s = .ok p s' → KReach I P s'
  | opPanic {s o k s'} : KReach I P s → KOp.Legal I.toStorageImpl s o → o.run I.toStorageImpl s = .panic k s' → KReach I P s'
  | session {s k fuel rs ps s'} : KReach I P s → (∀ r ∈ rs, Valid I.C.arch P r) →
      gSession I k P fuel rs (GSer.fromStorage s) = .ok ps s' → KReach I P s'.sto
  | sessionPanic {s k fuel rs pk s'} : KReach I P s → (∀ r ∈ rs, Valid I.C.arch P r) →
      gSession I k P fuel rs (GSer.fromStorage s) = .panic pk s' → KReach I P s'.sto

/-- `AlignedVec` as an implementation of `RandomAccessStorage` — ser_raw/src/storage/aligned_vec.rs:366-471. -/
def alignedVecRandom (C : Cfg) : RandomImpl Sto where
  toStorageImpl := alignedVecImpl C
  writeSlice := Sto.writeSlice C

end SerRaw
