import Verif.Model.CustomSerializer
/-
A serializer of kind `complete` derived over a custom contiguous storage: `#[derive(Serializer)] #[ser_type(complete)]`
(ser_raw_derive_serializer/src/ser_types/complete.rs:18-92) on any storage with `ContiguousStorage + RandomAccessStorage`
(ser_raw/src/serializer_traits/complete.rs:13-17).

The definitions are those of Model/Serializer.lean and Model/Impls.lean for the kind `complete`, with `AlignedVec` replaced by an arbitrary
implementation (`C63_aligned_vec_same` shows they agree on `AlignedVec`).
-/
namespace SerRaw

/-- An implementation of `ContiguousStorage` — ser_raw/src/storage/mod.rs:552-571 — and how the memory behind its pointer behaves.
`finalize` corrects pointers in place through that pointer, without calling the storage (ser_raw/src/pos.rs:222-237): `rawAdd` is
`storage_ptr.add(pos)`, `rawLoad` and `rawStore` read and write the `usize` at an address. -/
structure ContigImpl (σ : Type) extends RandomImpl σ where
  /-- `as_ptr` and `as_mut_ptr` — ser_raw/src/storage/mod.rs:560, 570 -/
  asPtr : σ → Nat
  /-- `storage_ptr.add(*ptr_pos)` — ser_raw/src/pos.rs:234 -/
  rawAdd : Nat → Nat → M σ Nat
  /-- Reading `*ptr` — ser_raw/src/pos.rs:235 -/
  rawLoad : Nat → M σ Nat
  /-- Writing `*ptr` — ser_raw/src/pos.rs:235 -/
  rawStore : Nat → Nat → M σ Unit

/-- State of a derived serializer of kind `complete`: storage, position mapping, pointer record —
ser_raw/src/serializers/complete.rs:67-80. -/
structure CSer (σ : Type) where
  sto : σ
  map : PosMapping
  ptrs : Ptrs

namespace CSer
variable {σ : Type}

/-- Run a storage operation through `storage_mut()` — ser_raw/src/serializer.rs:511, ser_raw_derive_serializer/src/lib.rs:73-76. -/
def lift {α} (x : M σ α) : M (CSer σ) α := fun s =>
  match x s.sto with
  | .ok a t => .ok a { s with sto := t }
  | .panic k t => .panic k { s with sto := t }
  | .abort => .abort
  | .ub => .ub
  | .fuel => .fuel

/-- `pos_mapping` — ser_raw/src/serializer_traits/pos_tracking.rs:12. -/
def getMap : M (CSer σ) PosMapping := fun s => .ok s.map s
/-- `set_pos_mapping` — ser_raw/src/serializer_traits/pos_tracking.rs:15. -/
def setMap (m : PosMapping) : M (CSer σ) Unit := fun s => .ok () { s with map := m }
/-- `capacity` — ser_raw/src/serializer.rs:497-499. -/
def getCapacity (I : StorageImpl σ) : M (CSer σ) Nat := fun s => .ok (I.capacity s.sto) s

/-- `from_storage` — ser_raw/src/serializers/complete.rs:138-144. -/
def fromStorage (t : σ) : CSer σ := ⟨t, PosMapping.dummy, Ptrs.new⟩

variable (I : ContigImpl σ)

/-- `push_raw_slice` — ser_raw/src/serializer.rs:365-367. -/
def pushRawSlice (sl : Slice) : M (CSer σ) Nat := lift (I.pushSlice sl.L sl.len sl.data)

/-- `Complete::do_overwrite_ptr` — ser_raw/src/serializer_traits/complete.rs:44-76. -/
def doOverwritePtr (ptrPos targetPos : Nat) : M (CSer σ) Unit := do
  let cap ← getCapacity I.toStorageImpl
  M.debugAssertM I.C.arch (do let x ← usub I.C.arch cap I.C.arch.ptrBytes; pure (decide (ptrPos ≤ x)))
  M.debugAssertM I.C.arch (isAlignedTo I.C.arch ptrPos I.C.arch.ptrBytes)
  M.debugAssert I.C.arch (decide (targetPos ≤ cap))
  let s ← M.get
  let storageAddr := I.asPtr s.sto
  let targetAddr ← uadd I.C.arch storageAddr targetPos
  lift (I.write ptrPos ⟨I.C.arch.ptrBytes, I.C.arch.ptrBytes⟩ (wordCells I.C.arch targetAddr))
  M.modify fun s => { s with ptrs := recordPtr s.ptrs storageAddr ptrPos }

/-- `PtrWriting::do_push_slice` — ser_raw/src/serializer_traits/ptr_writing.rs:32-41; ser_raw_derive_serializer/src/ser_types/complete.rs:26-29. -/
def pushSlice (sl : Slice) (ptrAddr : Nat) : M (CSer σ) Nat := do
  let pos ← pushRawSlice I sl
  let m ← getMap
  let ptrPos ← m.posForAddr I.C.arch ptrAddr
  doOverwritePtr I ptrPos pos
  pure pos

/-- `PtrWriting::do_push_and_process_slice` — ser_raw/src/serializer_traits/ptr_writing.rs:44-70; ser_raw_derive_serializer/src/ser_types/complete.rs:32-40. -/
def pushAndProcessSlice (sl : Slice) (ptrAddr : Nat) (process : M (CSer σ) Unit) : M (CSer σ) Nat := do
  let before ← getMap
  let pos ← lift (I.pushSlice sl.L sl.len sl.data)
  let ptrPos ← before.posForAddr I.C.arch ptrAddr
  doOverwritePtr I ptrPos pos
  setMap ⟨sl.addr, pos⟩
  process
  setMap before
  pure pos

/-- `Writable::do_overwrite` — ser_raw/src/serializer_traits/writable.rs:10-13; ser_raw_derive_serializer/src/ser_types/complete.rs:43-46. `overwrite_with` calls its closure
(ser_raw/src/serializer_traits/complete.rs:31-33), so it does not appear. -/
def overwrite (addr : Nat) (L : Layout) (data : Nat → Cell) : M (CSer σ) Unit := do
  let m ← getMap
  let pos ← m.posForAddr I.C.arch addr
  lift (I.write pos L data)

/-- `PosTracking::do_serialize_value` — ser_raw/src/serializer_traits/pos_tracking.rs:23-35; ser_raw_derive_serializer/src/ser_types/complete.rs:20-23. -/
def serializeValue (L : Layout) (addr : Nat) (data : Nat → Cell) (serializeData : M (CSer σ) Unit) : M (CSer σ) Nat := do
  let pos ← pushRawSlice I (Slice.fromRef L addr data)
  setMap ⟨addr, pos⟩
  serializeData
  pure pos

/-- One iteration of the loop of `correct_ptrs` — ser_raw/src/pos.rs:232-236. -/
def correctPtr (storagePtr shiftBy ptrPos : Nat) : M σ Unit := do
  let a ← I.rawAdd storagePtr ptrPos
  let w ← I.rawLoad a
  I.rawStore a (wrappingAdd I.C.arch w shiftBy)

/-- The loop of `correct_ptrs` — ser_raw/src/pos.rs:232-236. -/
def correctLoop (storagePtr shiftBy : Nat) : List Nat → M σ Unit
  | [] => pure ()
  | p :: ps => do
    correctPtr I storagePtr shiftBy p
    correctLoop storagePtr shiftBy ps

/-- `PtrGroup::correct_ptrs` — ser_raw/src/pos.rs:222-237. -/
def correctPtrs (g : PtrGroup) (storagePtr : Nat) : M σ Unit :=
  correctLoop I storagePtr (wrappingSub I.C.arch storagePtr g.addr) g.positions

/-- The loop of `do_finalize` over past groups — ser_raw/src/serializer_traits/complete.rs:94-98. -/
def correctPast (storagePtr : Nat) : List PtrGroup → M σ Unit
  | [] => pure ()
  | g :: gs => do
    (if g.addr ≠ storagePtr then correctPtrs I g storagePtr else pure ())
    correctPast storagePtr gs

/-- `Complete::do_finalize` — ser_raw/src/serializer_traits/complete.rs:83-102. -/
def finalize : M (CSer σ) Unit := do
  let s ← M.get
  let storagePtr := I.asPtr s.sto
  let p := s.ptrs
  (if p.current.addr ≠ storagePtr ∧ p.current.isEmpty = false then lift (correctPtrs I p.current storagePtr) else pure ())
  lift (correctPast I storagePtr p.past)

end CSer

/-- Run the calls of a `Serialize` implementation (Model/Script.lean) — ser_raw/src/serializer.rs:282-486. -/
def Script.runC {σ : Type} (I : ContigImpl σ) (im : Mem) : Script → M (CSer σ) Unit
  | .done => pure ()
  | .pushProcess L len src ptr inner rest => do
    let _ ← CSer.pushAndProcessSlice I ⟨L, len, src, fun i => im (src + i)⟩ ptr (inner.runC I im)
    rest.runC I im
  | .push L len src ptr rest => do
    let _ ← CSer.pushSlice I ⟨L, len, src, fun i => im (src + i)⟩ ptr
    rest.runC I im
  | .pushRaw L len src rest => do
    let _ ← CSer.pushRawSlice I ⟨L, len, src, fun i => im (src + i)⟩
    rest.runC I im
  | .overwrite addr L data rest => do
    CSer.overwrite I addr L data
    rest.runC I im

/-- Several `serialize_value` calls on values with hand-written implementations (Model/UserImpl.lean) — ser_raw/src/serializer.rs:260-269. -/
def cValues {σ : Type} (I : ContigImpl σ) : List UserRoot → M (CSer σ) (List Nat)
  | [] => pure []
  | v :: vs => do
    let p ← CSer.serializeValue I v.L v.a (fun i => v.im (v.a + i)) (v.sc.runC I v.im)
    let ps ← cValues I vs
    pure (p :: ps)

/-- The calls above, then `finalize` — ser_raw/src/serializer.rs:491-493. -/
def cUserSession {σ : Type} (I : ContigImpl σ) (vs : List UserRoot) : M (CSer σ) (List Nat) := do
  let ps ← cValues I vs
  CSer.finalize I
  pure ps

/-! ### `serialize_data` of the crate's own types -/

section
variable {σ : Type} (I : ContigImpl σ) (P : Prog) (im : Mem)

/-- `serialize_data` on each element / field in turn (cf. `serEach`) — ser_raw/src/serialize_impls/ptrs.rs:69-71, ser_raw/src/serialize_impls/multiples.rs:9-11, 23-25,
ser_raw_derive/src/structs.rs:27, ser_raw_derive/src/enums.rs:70,101. -/
def cEach (rec : TyId → Nat → M (CSer σ) Unit) (a : Nat) : List Field → M (CSer σ) Unit
  | [] => pure ()
  | f :: fs => do
    rec f.2 (a + f.1)
    cEach rec a fs

/-- `Box<T>::serialize_data` — ser_raw/src/serialize_impls/ptrs.rs:12-29. -/
def cBox (rec : TyId → Nat → M (CSer σ) Unit) (t : TyId) (a : Nat) : M (CSer σ) Unit := do
  if (P.layout t).size = 0 then pure ()
  else
    let target ← readIn I.C.arch im a
    let _ ← CSer.pushAndProcessSlice I (Slice.fromRef (P.layout t) target (inputAt im target)) a (rec t target)
    pure ()

/-- `overwrite_capacity_and_ptr_for_empty_vec` / `…_string` — ser_raw/src/serialize_impls/ptrs.rs:220-242, 255-276. -/
def cFixEmpty (off : VecOffsets) (dangle : Nat) (a : Nat) : M (CSer σ) Unit := do
  let W := I.C.arch.ptrBytes
  let word2 : Layout := ⟨2 * W, W⟩
  let word1 : Layout := ⟨W, W⟩
  if off.cap = 0 ∧ off.ptr = W then
    CSer.overwrite I a word2 (twoWords I.C.arch 0 dangle)
  else if off.cap = W ∧ off.ptr = 0 then
    CSer.overwrite I a word2 (twoWords I.C.arch dangle 0)
  else if off.cap = W ∧ off.ptr = W * 2 then
    let x ← uadd I.C.arch a W
    CSer.overwrite I x word2 (twoWords I.C.arch 0 dangle)
  else if off.cap = W * 2 ∧ off.ptr = W then
    let x ← uadd I.C.arch a W
    CSer.overwrite I x word2 (twoWords I.C.arch dangle 0)
  else
    let x ← uadd I.C.arch a off.cap
    CSer.overwrite I x word1 (wordCells I.C.arch 0)
    let y ← uadd I.C.arch a off.ptr
    CSer.overwrite I y word1 (wordCells I.C.arch dangle)

/-- The correction of the capacity of a non-empty `Vec` / `String` — ser_raw/src/serialize_impls/ptrs.rs:57-63, 93-99. -/
def cFixCap (off : VecOffsets) (cap len : Nat) (a : Nat) : M (CSer σ) Unit :=
  if cap ≠ len then do
    let capAddr ← uadd I.C.arch a off.cap
    CSer.overwrite I capAddr ⟨I.C.arch.ptrBytes, I.C.arch.ptrBytes⟩ (wordCells I.C.arch len)
  else pure ()

/-- `Vec<T>::serialize_data` — ser_raw/src/serialize_impls/ptrs.rs:37-73. -/
def cVec (rec : TyId → Nat → M (CSer σ) Unit) (t : TyId) (a : Nat) : M (CSer σ) Unit := do
  let L := P.layout t
  let o := P.vecOrder t
  let W := I.C.arch.ptrBytes
  if L.size = 0 then pure ()
  else
    let len ← readIn I.C.arch im (a + o.lenIx * W)
    let cap ← readIn I.C.arch im (a + o.capIx * W)
    let ptr ← readIn I.C.arch im (a + o.ptrIx * W)
    let off ← constEval (vecOffsets W o L.align)
    if len = 0 then
      (if cap ≠ 0 then cFixEmpty I off L.align a else pure ())
    else
      cFixCap I off cap len a
      let ptrAddr ← uadd I.C.arch a off.ptr
      let _ ← CSer.pushAndProcessSlice I ⟨L, len, ptr, inputAt im ptr⟩ ptrAddr (cEach rec ptr (elems P t len))
      pure ()

/-- `String::serialize_data` — ser_raw/src/serialize_impls/ptrs.rs:79-104. -/
def cString (a : Nat) : M (CSer σ) Unit := do
  let o := P.stringOrder
  let W := I.C.arch.ptrBytes
  let len ← readIn I.C.arch im (a + o.lenIx * W)
  let cap ← readIn I.C.arch im (a + o.capIx * W)
  let ptr ← readIn I.C.arch im (a + o.ptrIx * W)
  let off ← constEval (vecOffsets W o 1)
  if len = 0 then
    (if cap ≠ 0 then cFixEmpty I off 1 a else pure ())
  else
    cFixCap I off cap len a
    let ptrAddr ← uadd I.C.arch a off.ptr
    let _ ← CSer.pushSlice I ⟨⟨1, 1⟩, len, ptr, inputAt im ptr⟩ ptrAddr
    pure ()

/-- `Option<T>` and derived enums — ser_raw/src/serialize_impls/other.rs:8-12, ser_raw_derive/src/enums.rs:36-41, 68-72, 99-103. -/
def cEnum (rec : TyId → Nat → M (CSer σ) Unit) (tag : Tag) (variants : List (List Field)) (a : Nat) : M (CSer σ) Unit :=
  match activeVariant I.C.arch im a tag with
  | none => M.ub
  | some i =>
    match variants[i]? with
    | none => M.ub
    | some fs => cEach rec a fs

/-- `BigInt::serialize_data` — ser_raw/src/serialize_impls/bigint.rs:44-52. -/
def cBigInt (rec : TyId → Nat → M (CSer σ) Unit) (u : TyId) (a : Nat) : M (CSer σ) Unit :=
  match P.defn u with
  | .bigUint usize => do
    let off ← bigintDataOffset I.C.arch P usize
    rec u (a + off)
  | _ => M.ub

end

/-- `value.serialize_data(serializer)` (cf. `serData`) — ser_raw/src/serialize_impls/*.rs; `BigUint` is a `Vec<usize>` (ser_raw/src/serialize_impls/bigint.rs:23-30).
`fuel` bounds the depth of recursion. -/
def cData {σ : Type} (I : ContigImpl σ) (P : Prog) (im : Mem) : Nat → TyId → Nat → M (CSer σ) Unit
  | 0, _, _ => M.outOfFuel
  | f + 1, t, a =>
    match P.defn t with
    | .prim => pure ()
    | .box u => cBox I P im (cData I P im f) u a
    | .vec u => cVec I P im (cData I P im f) u a
    | .string => cString I P im a
    | .array u n => cEach (cData I P im f) a (elems P u n)
    | .struct fs => cEach (cData I P im f) a fs
    | .enum tag vs => cEnum I im (cData I P im f) tag vs a
    | .bigUint u => cVec I P im (cData I P im f) u a
    | .bigInt u => cBigInt I P (cData I P im f) u a

/-- `serialize_value` on each value — ser_raw/src/serializer.rs:260-269. -/
def cRoots {σ : Type} (I : ContigImpl σ) (P : Prog) (fuel : Nat) : List Root → M (CSer σ) (List Nat)
  | [] => pure []
  | r :: rs => do
    let p ← CSer.serializeValue I (P.layout r.t) r.a (inputAt r.im r.a) (cData I P r.im fuel r.t r.a)
    let ps ← cRoots I P fuel rs
    pure (p :: ps)

/-- A serializer of kind `complete` over a custom storage, used for several values: `serialize_value` on each (ser_raw/src/serializer.rs:260-269), then
`finalize` (ser_raw/src/serializer.rs:491-493). Cf. `session`. -/
def cSession {σ : Type} (I : ContigImpl σ) (P : Prog) (fuel : Nat) (rs : List Root) : M (CSer σ) (List Nat) := do
  let ps ← cRoots I P fuel rs
  CSer.finalize I
  pure ps

/-- `CReach I P s`: a custom contiguous storage created by `new` or `with_capacity` (ser_raw/src/storage/mod.rs:186, 196-215), used through its safe
methods and by derived serializers of all four kinds (`from_storage`, ser_raw/src/serializers/complete.rs:138-144, ser_raw/src/serializers/ptr_offset.rs:110-115), some calls
panicking and being caught, is in state `s`. -/
inductive CReach {σ : Type} (I : ContigImpl σ) (P : Prog) : σ → Prop
  | new : CReach I P I.new
  | withCapacity {c s} : c < I.C.arch.usizeMod → I.withCapacity c I.new = .ok () s → CReach I P s
  | op {s o p s'} : CReach I P s → KOp.Legal I.toStorageImpl s o → o.run I.toStorageImpl s = .ok p s' → CReach I P s'
  | opPanic {s o k s'} : CReach I P s → KOp.Legal I.toStorageImpl s o → o.run I.toStorageImpl s = .panic k s' → CReach I P s'
  | session {s k fuel rs ps s'} : CReach I P s → (∀ r ∈ rs, Valid I.C.arch P r) →
      gSession I.toRandomImpl k P fuel rs (GSer.fromStorage s) = .ok ps s' → CReach I P s'.sto
  | sessionPanic {s k fuel rs pk s'} : CReach I P s → (∀ r ∈ rs, Valid I.C.arch P r) →
      gSession I.toRandomImpl k P fuel rs (GSer.fromStorage s) = .panic pk s' → CReach I P s'.sto
  | complete {s fuel rs ps s'} : CReach I P s → (∀ r ∈ rs, Valid I.C.arch P r) →
      cSession I P fuel rs (CSer.fromStorage s) = .ok ps s' → CReach I P s'.sto
  | completePanic {s fuel rs pk s'} : CReach I P s → (∀ r ∈ rs, Valid I.C.arch P r) →
      cSession I P fuel rs (CSer.fromStorage s) = .panic pk s' → CReach I P s'.sto

/-- `AlignedVec` as an implementation of `ContiguousStorage` — ser_raw/src/storage/aligned_vec.rs:474-506; memory as in Model/Storage.lean
(ser_raw/src/pos.rs:234-235). -/
def alignedVecContig (C : Cfg) : ContigImpl Sto where
  toRandomImpl := alignedVecRandom C
  asPtr := Sto.asPtr
  rawAdd := ptrAdd
  rawLoad a := do
    let cells ← memRef a C.arch.ptrBytes C.arch.ptrBytes
    match readWord C.arch cells 0 with
    | none => M.ub
    | some w => pure w
  rawStore a w := memWrite a C.arch.ptrBytes C.arch.ptrBytes (wordCells C.arch w)

end SerRaw
