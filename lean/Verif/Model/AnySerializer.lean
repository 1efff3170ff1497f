import Verif.Model.Impls
import Verif.Model.Session
import Verif.Model.CustomComplete
/-
The trait `Serializer` (ser_raw/src/serializer.rs:177-520) as an interface, and the crate's `Serialize` implementations
(ser_raw/src/serialize_impls/*.rs), which are generic in it: `impl<S: Serializer> Serialize<S> for …`.

The other models of `serialize_data` (Model/Impls.lean, CustomSerializer.lean, CustomComplete.lean) are this one with the crate's own
serializers put in for `S` (`C68_own_serializers`, `C68_derived_serializers`, `C68_derived_complete`).
-/
namespace SerRaw

/-- An implementation of `Serializer`, with states `τ` and addresses `α` (`S::Addr`, ser_raw/src/pos.rs:76-82): what each method does, whether it is the
default or overridden. Methods take `&mut self` and are functions in `M τ`; a closure argument is the action it performs on the serializer
(`FnOnce`; a method may call it or not). `process` and `write` closures of the crate's types do not panic by themselves. Not included:
`storage`, `storage_mut`, `into_storage`, `capacity`, `pos`, `push_empty*`, which no implementation of `Serialize` in the crate calls. -/
structure SerializerImpl (τ α : Type) where
  /-- The target (sizes of pointers; arithmetic). -/
  A : Arch
  /-- `S::Addr::from_ref(value)` for a value at the given address — ser_raw/src/pos.rs:77 -/
  fromRef : Nat → α
  /-- `S::Addr::from_ref_offset(value, offset)` — ser_raw/src/pos.rs:80 -/
  fromRefOffset : Nat → Nat → M τ α
  /-- `serialize_value(value)`, given the value's layout, address, bytes and `serialize_data` — ser_raw/src/serializer.rs:260 -/
  serializeValue : Layout → Nat → (Nat → Cell) → M τ Unit → M τ Nat
  /-- `push(value, ptr_addr)` — ser_raw/src/serializer.rs:282 -/
  push : Layout → Nat → (Nat → Cell) → α → M τ Nat
  /-- `push_slice(slice, ptr_addr)` — ser_raw/src/serializer.rs:297 -/
  pushSlice : Slice → α → M τ Nat
  /-- `push_and_process(value, ptr_addr, process)` — ser_raw/src/serializer.rs:312 -/
  pushAndProcess : Layout → Nat → (Nat → Cell) → α → M τ Unit → M τ Nat
  /-- `push_and_process_slice(slice, ptr_addr, process)` — ser_raw/src/serializer.rs:333 -/
  pushAndProcessSlice : Slice → α → M τ Unit → M τ Nat
  /-- `push_raw(value)` — ser_raw/src/serializer.rs:352 -/
  pushRaw : Layout → Nat → (Nat → Cell) → M τ Nat
  /-- `push_raw_slice(slice)` — ser_raw/src/serializer.rs:365 -/
  pushRawSlice : Slice → M τ Nat
  /-- `push_raw_bytes(bytes)` — ser_raw/src/serializer.rs:406 -/
  pushRawBytes : Nat → (Nat → Cell) → M τ Nat
  /-- `overwrite(addr, value)` — ser_raw/src/serializer.rs:455 -/
  overwrite : α → Layout → (Nat → Cell) → M τ Unit
  /-- `overwrite_with(write)` — ser_raw/src/serializer.rs:486 -/
  overwriteWith : M τ Unit → M τ Unit
  /-- `finalize()` — ser_raw/src/serializer.rs:491 -/
  finalize : M τ Unit

section
variable {τ α : Type} (S : SerializerImpl τ α) (P : Prog) (im : Mem)

/-- `serialize_data` on each element / field in turn — ser_raw/src/serialize_impls/ptrs.rs:69-71, ser_raw/src/serialize_impls/multiples.rs:9-11, 23-25,
ser_raw_derive/src/structs.rs:27, ser_raw_derive/src/enums.rs:70,101. -/
def aEach (rec : TyId → Nat → M τ Unit) (a : Nat) : List Field → M τ Unit
  | [] => pure ()
  | f :: fs => do
    rec f.2 (a + f.1)
    aEach rec a fs

/-- `Box<T>::serialize_data` — ser_raw/src/serialize_impls/ptrs.rs:12-29. -/
def aBox (rec : TyId → Nat → M τ Unit) (t : TyId) (a : Nat) : M τ Unit := do
  if (P.layout t).size = 0 then pure ()
  else
    let target ← readIn S.A im a
    let _ ← S.pushAndProcess (P.layout t) target (inputAt im target) (S.fromRef a) (rec t target)
    pure ()

/-- `overwrite_capacity_and_ptr_for_empty_vec` / `…_string` — ser_raw/src/serialize_impls/ptrs.rs:220-242, 255-276. -/
def aFixEmpty (off : VecOffsets) (dangle : Nat) (a : Nat) : M τ Unit := do
  let W := S.A.ptrBytes
  let word2 : Layout := ⟨2 * W, W⟩
  let word1 : Layout := ⟨W, W⟩
  if off.cap = 0 ∧ off.ptr = W then
    S.overwrite (S.fromRef a) word2 (twoWords S.A 0 dangle)
  else if off.cap = W ∧ off.ptr = 0 then
    S.overwrite (S.fromRef a) word2 (twoWords S.A dangle 0)
  else if off.cap = W ∧ off.ptr = W * 2 then
    let x ← S.fromRefOffset a W
    S.overwrite x word2 (twoWords S.A 0 dangle)
  else if off.cap = W * 2 ∧ off.ptr = W then
    let x ← S.fromRefOffset a W
    S.overwrite x word2 (twoWords S.A dangle 0)
  else
    let x ← S.fromRefOffset a off.cap
    S.overwrite x word1 (wordCells S.A 0)
    let y ← S.fromRefOffset a off.ptr
    S.overwrite y word1 (wordCells S.A dangle)

/-- The correction of the capacity of a non-empty `Vec` / `String` — ser_raw/src/serialize_impls/ptrs.rs:57-63, 93-99. -/
def aFixCap (off : VecOffsets) (cap len : Nat) (a : Nat) : M τ Unit :=
  if cap ≠ len then do
    let capAddr ← S.fromRefOffset a off.cap
    S.overwrite capAddr ⟨S.A.ptrBytes, S.A.ptrBytes⟩ (wordCells S.A len)
  else pure ()

/-- `Vec<T>::serialize_data` — ser_raw/src/serialize_impls/ptrs.rs:37-73. -/
def aVec (rec : TyId → Nat → M τ Unit) (t : TyId) (a : Nat) : M τ Unit := do
  let L := P.layout t
  let o := P.vecOrder t
  let W := S.A.ptrBytes
  if L.size = 0 then pure ()
  else
    let len ← readIn S.A im (a + o.lenIx * W)
    let cap ← readIn S.A im (a + o.capIx * W)
    let ptr ← readIn S.A im (a + o.ptrIx * W)
    let off ← constEval (vecOffsets W o L.align)
    if len = 0 then
      S.overwriteWith (if cap ≠ 0 then aFixEmpty S off L.align a else pure ())
    else
      S.overwriteWith (aFixCap S off cap len a)
      let ptrAddr ← S.fromRefOffset a off.ptr
      let _ ← S.pushAndProcessSlice ⟨L, len, ptr, inputAt im ptr⟩ ptrAddr (aEach rec ptr (elems P t len))
      pure ()

/-- `String::serialize_data` — ser_raw/src/serialize_impls/ptrs.rs:79-104. -/
def aString (a : Nat) : M τ Unit := do
  let o := P.stringOrder
  let W := S.A.ptrBytes
  let len ← readIn S.A im (a + o.lenIx * W)
  let cap ← readIn S.A im (a + o.capIx * W)
  let ptr ← readIn S.A im (a + o.ptrIx * W)
  let off ← constEval (vecOffsets W o 1)
  if len = 0 then
    S.overwriteWith (if cap ≠ 0 then aFixEmpty S off 1 a else pure ())
  else
    S.overwriteWith (aFixCap S off cap len a)
    let ptrAddr ← S.fromRefOffset a off.ptr
    let _ ← S.pushSlice ⟨⟨1, 1⟩, len, ptr, inputAt im ptr⟩ ptrAddr
    pure ()

/-- `Option<T>` and derived enums — ser_raw/src/serialize_impls/other.rs:8-12, ser_raw_derive/src/enums.rs:36-41, 68-72, 99-103. -/
def aEnum (rec : TyId → Nat → M τ Unit) (tag : Tag) (variants : List (List Field)) (a : Nat) : M τ Unit :=
  match activeVariant S.A im a tag with
  | none => M.ub
  | some i =>
    match variants[i]? with
    | none => M.ub
    | some fs => aEach rec a fs

/-- `BigInt::serialize_data` — ser_raw/src/serialize_impls/bigint.rs:44-52. -/
def aBigInt (rec : TyId → Nat → M τ Unit) (u : TyId) (a : Nat) : M τ Unit :=
  match P.defn u with
  | .bigUint usize => do
    let off ← bigintDataOffset S.A P usize
    rec u (a + off)
  | _ => M.ub

end

/-- `value.serialize_data(serializer)` on any serializer — ser_raw/src/serialize_impls/*.rs; `BigUint` is a `Vec<usize>` (ser_raw/src/serialize_impls/bigint.rs:23-30).
`fuel` bounds the depth of recursion. -/
def aData {τ α : Type} (S : SerializerImpl τ α) (P : Prog) (im : Mem) : Nat → TyId → Nat → M τ Unit
  | 0, _, _ => M.outOfFuel
  | f + 1, t, a =>
    match P.defn t with
    | .prim => pure ()
    | .box u => aBox S P im (aData S P im f) u a
    | .vec u => aVec S P im (aData S P im f) u a
    | .string => aString S P im a
    | .array u n => aEach (aData S P im f) a (elems P u n)
    | .struct fs => aEach (aData S P im f) a fs
    | .enum tag vs => aEnum S im (aData S P im f) tag vs a
    | .bigUint u => aVec S P im (aData S P im f) u a
    | .bigInt u => aBigInt S P (aData S P im f) u a

/-- `serialize_value` on each value — ser_raw/src/serializer.rs:260-269. -/
def aRoots {τ α : Type} (S : SerializerImpl τ α) (P : Prog) (fuel : Nat) : List Root → M τ (List Nat)
  | [] => pure []
  | r :: rs => do
    let p ← S.serializeValue (P.layout r.t) r.a (inputAt r.im r.a) (aData S P r.im fuel r.t r.a)
    let ps ← aRoots S P fuel rs
    pure (p :: ps)

/-- `serialize_value` on each value, then `finalize` — ser_raw/src/serializer.rs:260-269, 491-493. -/
def aSession {τ α : Type} (S : SerializerImpl τ α) (P : Prog) (fuel : Nat) (rs : List Root) : M τ (List Nat) := do
  let ps ← aRoots S P fuel rs
  S.finalize
  pure ps

/-- Run the calls of a hand-written `Serialize` implementation (Model/Script.lean) — ser_raw/src/serializer.rs:297-486. -/
def Script.runA {τ α : Type} (S : SerializerImpl τ α) (im : Mem) : Script → M τ Unit
  | .done => pure ()
  | .pushProcess L len src ptr inner rest => do
    let _ ← S.pushAndProcessSlice ⟨L, len, src, fun i => im (src + i)⟩ (S.fromRef ptr) (inner.runA S im)
    rest.runA S im
  | .push L len src ptr rest => do
    let _ ← S.pushSlice ⟨L, len, src, fun i => im (src + i)⟩ (S.fromRef ptr)
    rest.runA S im
  | .pushRaw L len src rest => do
    let _ ← S.pushRawSlice ⟨L, len, src, fun i => im (src + i)⟩
    rest.runA S im
  | .overwrite addr L data rest => do
    S.overwriteWith (S.overwrite (S.fromRef addr) L data)
    rest.runA S im

/-- Several `serialize_value` calls on values with hand-written implementations (Model/UserImpl.lean) — ser_raw/src/serializer.rs:260-269. -/
def aValues {τ α : Type} (S : SerializerImpl τ α) : List UserRoot → M τ (List Nat)
  | [] => pure []
  | v :: vs => do
    let p ← S.serializeValue v.L v.a (fun i => v.im (v.a + i)) (v.sc.runA S v.im)
    let ps ← aValues S vs
    pure (p :: ps)

/-- The crate's serializers and derived serializers over `AlignedVec`, as implementations of the trait — ser_raw/src/serializers/*.rs,
ser_raw_derive_serializer/src/ser_types/*.rs; methods as in Model/Serializer.lean. -/
def ownSerializer (C : Cfg) (k : Kind) : SerializerImpl Ser Nat where
  A := C.arch
  fromRef := addrFromRef k
  fromRefOffset := addrFromRefOffset C.arch k
  serializeValue := SerRaw.serializeValue C k
  push := SerRaw.push C k
  pushSlice := SerRaw.pushSlice C k
  pushAndProcess := SerRaw.pushAndProcess C k
  pushAndProcessSlice := SerRaw.pushAndProcessSlice C k
  pushRaw := SerRaw.pushRaw C
  pushRawSlice := SerRaw.pushRawSlice C
  pushRawBytes := SerRaw.pushRawBytes C
  overwrite := SerRaw.overwrite C k
  overwriteWith := SerRaw.overwriteWith k
  finalize := SerRaw.finalize C k

/-- A serializer of one of the other kinds derived over any storage (Model/CustomSerializer.lean) —
ser_raw_derive_serializer/src/ser_types/pure_copy.rs, pos_tracking.rs, ptr_offset.rs; methods not named there are the defaults,
ser_raw/src/serializer.rs:282-493. -/
def derivedSerializer {σ : Type} (I : RandomImpl σ) (k : DKind) : SerializerImpl (GSer σ) Nat where
  A := I.C.arch
  fromRef := addrFromRef k.kind
  fromRefOffset := addrFromRefOffset I.C.arch k.kind
  serializeValue := GSer.serializeValue I k
  push L a d p := GSer.pushSlice I k (Slice.fromRef L a d) p
  pushSlice := GSer.pushSlice I k
  pushAndProcess L a d p process := GSer.pushAndProcessSlice I k (Slice.fromRef L a d) p process
  pushAndProcessSlice := GSer.pushAndProcessSlice I k
  pushRaw L a d := GSer.pushRawSlice I (Slice.fromRef L a d)
  pushRawSlice := GSer.pushRawSlice I
  pushRawBytes n d := GSer.lift (I.pushBytes n d)
  overwrite _ _ _ := pure ()
  overwriteWith _ := pure ()
  finalize := pure ()

/-- A serializer of kind `complete` derived over any contiguous storage (Model/CustomComplete.lean) —
ser_raw_derive_serializer/src/ser_types/complete.rs; `overwrite_with` calls its closure (ser_raw/src/serializer_traits/complete.rs:31-33). -/
def derivedComplete {σ : Type} (I : ContigImpl σ) : SerializerImpl (CSer σ) Nat where
  A := I.C.arch
  fromRef a := a
  fromRefOffset a off := uadd I.C.arch a off
  serializeValue := CSer.serializeValue I
  push L a d p := CSer.pushSlice I (Slice.fromRef L a d) p
  pushSlice := CSer.pushSlice I
  pushAndProcess L a d p process := CSer.pushAndProcessSlice I (Slice.fromRef L a d) p process
  pushAndProcessSlice := CSer.pushAndProcessSlice I
  pushRaw L a d := CSer.pushRawSlice I (Slice.fromRef L a d)
  pushRawSlice := CSer.pushRawSlice I
  pushRawBytes n d := CSer.lift (I.pushBytes n d)
  overwrite := CSer.overwrite I
  overwriteWith write := write
  finalize := CSer.finalize I

/-- How a hand-written serializer with states `τ` holds its storage: `storage` reads it, `storage_mut` gives access to it —
ser_raw/src/serializer.rs:507-511. -/
structure StorageField (τ σ : Type) where
  get : τ → σ
  set : σ → τ → τ

/-- Run a storage operation through `storage_mut()` — ser_raw/src/serializer.rs:511. -/
def StorageField.lift {τ σ β : Type} (F : StorageField τ σ) (x : M σ β) : M τ β := fun s =>
  match x (F.get s) with
  | .ok a t => .ok a (F.set t s)
  | .panic k t => .panic k (F.set t s)
  | .abort => .abort
  | .ub => .ub
  | .fuel => .fuel

/-- The methods a hand-written serializer has without writing any but `storage`, `storage_mut` and `into_storage`: the defaults of the trait —
ser_raw/src/serializer.rs:260-269 (`serialize_value`), 282-299 (`push`, `push_slice`), 312-342 (`push_and_process`, `push_and_process_slice`), 352-408
(`push_raw`, `push_raw_slice`, `push_raw_bytes`), 455 (`overwrite`), 486 (`overwrite_with`), 491-493 (`finalize`). `fromRef` and
`fromRefOffset` are those of its `Addr` (ser_raw/src/pos.rs:76-82). -/
def manualSerializer {τ σ α : Type} (I : StorageImpl σ) (F : StorageField τ σ) (fromRef : Nat → α) (fromRefOffset : Nat → Nat → M τ α) :
    SerializerImpl τ α :=
  let pushRawSlice (sl : Slice) : M τ Nat := F.lift (I.pushSlice sl.L sl.len sl.data)
  let pushRaw (L : Layout) (a : Nat) (d : Nat → Cell) : M τ Nat := pushRawSlice (Slice.fromRef L a d)
  let pushAndProcessSlice (sl : Slice) (_ : α) (process : M τ Unit) : M τ Nat := do
    let pos ← pushRawSlice sl
    process
    pure pos
  let pushSlice (sl : Slice) (p : α) : M τ Nat := pushAndProcessSlice sl p (pure ())
  { A := I.C.arch
    fromRef := fromRef
    fromRefOffset := fromRefOffset
    serializeValue := fun L a d serializeData => do
      let pos ← pushRaw L a d
      serializeData
      pure pos
    push := fun L a d p => pushSlice (Slice.fromRef L a d) p
    pushSlice := pushSlice
    pushAndProcess := fun L a d p process => pushAndProcessSlice (Slice.fromRef L a d) p process
    pushAndProcessSlice := pushAndProcessSlice
    pushRaw := pushRaw
    pushRawSlice := pushRawSlice
    pushRawBytes := fun n d => F.lift (I.pushBytes n d)
    overwrite := fun _ _ _ => pure ()
    overwriteWith := fun _ => pure ()
    finalize := pure () }

end SerRaw
