import Verif.Model.Serializer
import Verif.Model.Types
/-
Model of ser_raw/src/serialize_impls/*.rs: `serialize_data` of every type the crate supports, run on input values in
an arbitrary byte memory `im`. The input is only read (`&self`), and is separate from the storage's heap blocks
(Rust's borrow rules: the storage is exclusively borrowed while the value is shared).
Reading an uninitialised word of the input is undefined behaviour.
-/
namespace SerRaw

/-- Read a `usize` field of an input value — e.g. `self.len()`, ser_raw/src/serialize_impls/ptrs.rs:45. -/
def readIn {σ} (A : Arch) (im : Mem) (a : Nat) : M σ Nat :=
  match readWord A im a with
  | some w => pure w
  | none => M.ub

/-! ### Offsets of `Vec`'s fields, computed at compile time -/

/-- Three words by index — indexing `bytes`, ser_raw/src/serialize_impls/ptrs.rs:135. -/
def nth3 (w : Nat × Nat × Nat) : Nat → Nat
  | 0 => w.1
  | 1 => w.2.1
  | _ => w.2.2

/-- The words of a `Vec` with given field values, as the compiler lays it out: `mem::transmute::<Vec<T>, [usize; 3]>` —
ser_raw/src/serialize_impls/ptrs.rs:133. -/
def Order.words (o : Order) (ptr cap len : Nat) : Nat × Nat × Nat :=
  let f (i : Nat) := if i = o.ptrIx then ptr else if i = o.capIx then cap else len
  (f 0, f 1, f 2)

/-- `VecOffsets::PTR_INDEX` — ser_raw/src/serialize_impls/ptrs.rs:129-147; and `STRING_PTR_INDEX`, 176-194, with `dangle = 1`.
`none` is a compile-time panic. -/
def ptrIndex (bytes : Nat × Nat × Nat) (dangle : Nat) : Option Nat :=
  if bytes.1 = dangle then
    if bytes.2.1 = 0 ∧ bytes.2.2 = 0 then some 0 else none
  else if bytes.2.1 = dangle then
    if bytes.1 = 0 ∧ bytes.2.2 = 0 then some 1 else none
  else if bytes.2.2 = dangle then
    if bytes.1 = 0 ∧ bytes.2.1 = 0 then some 2 else none
  else none

/-- The words of `OFFSETS_VEC` — ser_raw/src/serialize_impls/ptrs.rs:158-167; and `OFFSETS_STRING`, 197-206. -/
def offsetsWords (ptrSize dangle : Nat) : Nat → Option (Nat × Nat × Nat)
  | 0 => some (dangle, ptrSize, ptrSize * 2)
  | 1 => some (0, dangle, ptrSize * 2)
  | 2 => some (0, ptrSize, dangle)
  | _ => none

/-- `PTR_OFFSET`, `OFFSETS_VEC.capacity()`, `OFFSETS_VEC.len()` — ser_raw/src/serialize_impls/ptrs.rs:116-168, 170-206. -/
structure VecOffsets where
  ptr : Nat
  cap : Nat
  len : Nat
  deriving DecidableEq, Repr

/-- The compile-time computation of `VecOffsets::<T>` — ser_raw/src/serialize_impls/ptrs.rs:128-168 (`String`: 170-206) for a compiler which orders
the fields of the type by `o`. `Vec::new()` has `ptr = dangle`, `cap = 0`, `len = 0`. -/
def vecOffsets (ptrSize : Nat) (o : Order) (dangle : Nat) : Option VecOffsets := do
  let idx ← ptrIndex (o.words dangle 0 0) dangle
  let ow ← offsetsWords ptrSize dangle idx
  -- `OFFSETS_VEC` is `ow` reinterpreted as a `Vec<T>`: its `capacity()` and `len()` are the words at the real places
  pure ⟨idx * ptrSize, nth3 ow o.capIx, nth3 ow o.lenIx⟩

/-- A constant whose evaluation panics at compile time: no program — ser_raw/src/serialize_impls/ptrs.rs:129-168. -/
def constEval {σ α} (x : Option α) : M σ α :=
  match x with
  | some a => pure a
  | none => M.throw .assertion

/-! ### `serialize_data`, one level. `rec` is `serialize_data` of the component types. -/

section
variable (C : Cfg) (k : Kind) (P : Prog) (im : Mem)

/-- The input memory from address `a` — e.g. `self.as_slice()`, ser_raw/src/serialize_impls/ptrs.rs:67. -/
def inputAt (a : Nat) : Nat → Cell := fun i => im (a + i)

/-- Two adjacent words, as the array `[usize; 2]` — ser_raw/src/serialize_impls/ptrs.rs:231-237. -/
def twoWords (A : Arch) (x y : Nat) : Nat → Cell := fun i => (encWord A x ++ encWord A y)[i]?

/-- `overwrite_capacity_and_ptr_for_empty_vec` — ser_raw/src/serialize_impls/ptrs.rs:220-242; with `dangle = 1` and `String`'s offsets also
`overwrite_capacity_and_ptr_for_empty_string` — ser_raw/src/serialize_impls/ptrs.rs:255-276. `a` is the address of the `Vec`. -/
def overwriteCapAndPtrForEmpty (off : VecOffsets) (dangle : Nat) (a : Nat) : M Ser Unit := do
  let W := C.arch.ptrBytes
  let word2 : Layout := ⟨2 * W, W⟩
  let word1 : Layout := ⟨W, W⟩
  if off.cap = 0 ∧ off.ptr = W then
    overwrite C k (addrFromRef k a) word2 (twoWords C.arch 0 dangle)
  else if off.cap = W ∧ off.ptr = 0 then
    overwrite C k (addrFromRef k a) word2 (twoWords C.arch dangle 0)
  else if off.cap = W ∧ off.ptr = W * 2 then
    let x ← addrFromRefOffset C.arch k a W
    overwrite C k x word2 (twoWords C.arch 0 dangle)
  else if off.cap = W * 2 ∧ off.ptr = W then
    let x ← addrFromRefOffset C.arch k a W
    overwrite C k x word2 (twoWords C.arch dangle 0)
  else
    let x ← addrFromRefOffset C.arch k a off.cap
    overwrite C k x word1 (wordCells C.arch 0)
    let y ← addrFromRefOffset C.arch k a off.ptr
    overwrite C k y word1 (wordCells C.arch dangle)

/-- Call `serialize_data` on each element / field in turn: the loops at ser_raw/src/serialize_impls/ptrs.rs:69-71 and ser_raw/src/serialize_impls/multiples.rs:9-11, the
statement lists at ser_raw/src/serialize_impls/multiples.rs:23-25, ser_raw_derive/src/structs.rs:27 and ser_raw_derive/src/enums.rs:70,101. -/
def serEach (rec : TyId → Nat → M Ser Unit) (a : Nat) : List Field → M Ser Unit
  | [] => pure ()
  | f :: fs => do
    rec f.2 (a + f.1)
    serEach rec a fs

/-- `Box<T>::serialize_data` — ser_raw/src/serialize_impls/ptrs.rs:12-29 (the compile-time check of line 15 holds as `Box<T>` is one word). -/
def serBox (rec : TyId → Nat → M Ser Unit) (t : TyId) (a : Nat) : M Ser Unit := do
  if (P.layout t).size = 0 then pure ()
  else
    let target ← readIn C.arch im a
    let _ ← pushAndProcess C k (P.layout t) target (inputAt im target) (addrFromRef k a) (rec t target)
    pure ()

/-- `Vec<T>::serialize_data` — ser_raw/src/serialize_impls/ptrs.rs:37-73. -/
def serVec (rec : TyId → Nat → M Ser Unit) (t : TyId) (a : Nat) : M Ser Unit := do
  let L := P.layout t
  let o := P.vecOrder t
  let W := C.arch.ptrBytes
  if L.size = 0 then pure ()
  else
    -- `self.len()`, `self.capacity()` and `self.as_ptr()` read the real fields (all three read up front here)
    let len ← readIn C.arch im (a + o.lenIx * W)
    let cap ← readIn C.arch im (a + o.capIx * W)
    let ptr ← readIn C.arch im (a + o.ptrIx * W)
    let off ← constEval (vecOffsets W o L.align)
    if len = 0 then
      overwriteWith k (if cap ≠ 0 then overwriteCapAndPtrForEmpty C k off L.align a else pure ())
    else
      overwriteWith k (if cap ≠ len then do
          let capAddr ← addrFromRefOffset C.arch k a off.cap
          overwrite C k capAddr ⟨W, W⟩ (wordCells C.arch len)
        else pure ())
      let ptrAddr ← addrFromRefOffset C.arch k a off.ptr
      let _ ← pushAndProcessSlice C k ⟨L, len, ptr, inputAt im ptr⟩ ptrAddr (serEach rec ptr (elems P t len))
      pure ()

/-- `String::serialize_data` — ser_raw/src/serialize_impls/ptrs.rs:79-104. -/
def serString (a : Nat) : M Ser Unit := do
  let o := P.stringOrder
  let W := C.arch.ptrBytes
  let len ← readIn C.arch im (a + o.lenIx * W)
  let cap ← readIn C.arch im (a + o.capIx * W)
  let ptr ← readIn C.arch im (a + o.ptrIx * W)
  let off ← constEval (vecOffsets W o 1)
  if len = 0 then
    overwriteWith k (if cap ≠ 0 then overwriteCapAndPtrForEmpty C k off 1 a else pure ())
  else
    overwriteWith k (if cap ≠ len then do
        let capAddr ← addrFromRefOffset C.arch k a off.cap
        overwrite C k capAddr ⟨W, W⟩ (wordCells C.arch len)
      else pure ())
    let ptrAddr ← addrFromRefOffset C.arch k a off.ptr
    let _ ← pushSlice C k ⟨⟨1, 1⟩, len, ptr, inputAt im ptr⟩ ptrAddr
    pure ()

/-! ### `BigInt` -/

/-- The bytes of a `BigInt` made by `create_bigint_bytes(sign)` — ser_raw/src/serialize_impls/bigint.rs:99-113: the (illegal) `BigUint`
with `len = 1` written through the computed `len` offset, next to the sign byte; other bytes are padding.
`Sign::Minus` is byte 0, `NoSign` 1, `Plus` 2. `BigInt::from_biguint` keeps the sign iff the digit vector's `len` is not 0. -/
def createBigIntBytes (A : Arch) (P : Prog) (usize : TyId) (sign : UInt8) : Option (Nat → Cell) := do
  let o := P.vecOrder usize
  let W := A.ptrBytes
  let off ← vecOffsets W o W
  -- `BigUint::default()` is an empty vec; then word number `len_offset` is set to 1
  let set (i old : Nat) := if i = off.len / W then 1 else old
  let w0 := o.words W 0 0
  let w := (set 0 w0.1, set 1 w0.2.1, set 2 w0.2.2)
  let len := nth3 w o.lenIx
  let s : UInt8 := if len = 0 then 1 else sign
  let dataBytes := encWord A w.1 ++ encWord A w.2.1 ++ encWord A w.2.2
  pure fun i =>
    if P.bigIntDataOff A ≤ i ∧ i < P.bigIntDataOff A + 3 * W then dataBytes[i - P.bigIntDataOff A]?
    else if i = P.bigIntSignOff A then some s
    else none

/-- `bigint_data_offset` — ser_raw/src/serialize_impls/bigint.rs:66-96. `assume_init` of a padding byte is undefined behaviour. -/
def bigintDataOffset {σ} (A : Arch) (P : Prog) (usize : TyId) : M σ Nat := do
  let pos ← constEval (createBigIntBytes A P usize 2)
  let neg ← constEval (createBigIntBytes A P usize 0)
  match pos 0, neg 0, pos (A.ptrBytes * 3), neg (A.ptrBytes * 3) with
  | some p0, some n0, some p3, some n3 =>
    let startMatch := p0 == n0
    let endMatch := p3 == n3
    if startMatch then do
      M.assert .assertion (!endMatch)
      pure 0
    else do
      M.assert .assertion (!startMatch)
      pure A.ptrBytes
  | _, _, _, _ => M.ub

/-- `BigUint::serialize_data` — ser_raw/src/serialize_impls/bigint.rs:23-30: the value reinterpreted as `Vec<usize>`. -/
def serBigUint (rec : TyId → Nat → M Ser Unit) (usize : TyId) (a : Nat) : M Ser Unit :=
  serVec C k P im rec usize a

/-- `BigInt::serialize_data` — ser_raw/src/serialize_impls/bigint.rs:44-52; `u` is the type `BigUint`. -/
def serBigInt (rec : TyId → Nat → M Ser Unit) (u : TyId) (a : Nat) : M Ser Unit :=
  match P.defn u with
  | .bigUint usize => do
    let off ← bigintDataOffset C.arch P usize
    rec u (a + off)
  | _ => M.ub

/-- `serialize_data` of `Option<T>` — ser_raw/src/serialize_impls/other.rs:8-12 — and of derived enums —
ser_raw_derive/src/enums.rs:36-41, 68-72, 99-103 (see Model/Derive.lean for the expansion itself). -/
def serEnum (rec : TyId → Nat → M Ser Unit) (tag : Tag) (variants : List (List Field)) (a : Nat) : M Ser Unit :=
  match activeVariant C.arch im a tag with
  | none => M.ub
  | some i =>
    match variants[i]? with
    | none => M.ub
    | some fs => serEach rec a fs

end

/-- `value.serialize_data(serializer)` for the value of type `t` at input address `a`.
`fuel` bounds the depth of recursion (values are finite, so some fuel suffices) — ser_raw/src/serialize.rs:101, serialize_impls/*.rs. -/
def serData (C : Cfg) (k : Kind) (P : Prog) (im : Mem) : Nat → TyId → Nat → M Ser Unit
  | 0, _, _ => M.outOfFuel
  | f + 1, t, a =>
    match P.defn t with
    | .prim => pure ()
    | .box u => serBox C k P im (serData C k P im f) u a
    | .vec u => serVec C k P im (serData C k P im f) u a
    | .string => serString C k P im a
    | .array u n => serEach (serData C k P im f) a (elems P u n)
    | .struct fs => serEach (serData C k P im f) a fs
    | .enum tag vs => serEnum C im (serData C k P im f) tag vs a
    | .bigUint u => serBigUint C k P im (serData C k P im f) u a
    | .bigInt u => serBigInt C P (serData C k P im f) u a

/-- `serializer.serialize_value(&value)` for the value of type `t` at address `a` — ser_raw/src/serializer.rs:260-269. -/
def serValue (C : Cfg) (k : Kind) (P : Prog) (im : Mem) (fuel : Nat) (t : TyId) (a : Nat) : M Ser Nat :=
  serializeValue C k (P.layout t) a (inputAt im a) (serData C k P im fuel t a)

/-- `serializer.serialize(&value)` for the value of type `t` at address `a` — ser_raw/src/serializer.rs:217-221. -/
def serTop (C : Cfg) (k : Kind) (P : Prog) (im : Mem) (fuel : Nat) (t : TyId) (a : Nat) : M Ser Nat :=
  serialize C k (P.layout t) a (inputAt im a) (serData C k P im fuel t a)

end SerRaw
