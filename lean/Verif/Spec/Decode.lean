import Verif.Model.Types
/-
What a typed address in a byte memory *means*. `decode` is a reader that interprets memory according to Rust's layout
rules and validity invariants; it knows nothing about serializers. It returns `none` if the bytes do not form a valid
value: a read byte is uninitialised (or outside the memory), an address is misaligned or out of the address space, a
pointer is null, a length exceeds a capacity, ...

Applied to the input memory it says "this is a valid value, and which one"; applied to a serializer's output it says
what a consumer of the buffer sees.
-/
namespace SerRaw

/-- Abstract values. -/
inductive Val
  /-- plain data: its bytes -/
  | prim (bytes : List UInt8)
  | box (v : Val)
  | vec (vs : List Val)
  | str (bytes : List UInt8)
  /-- arrays, tuples and structs: elements / fields in order -/
  | struct (vs : List Val)
  | enum (variant : Nat) (vs : List Val)
  /-- sign byte and magnitude -/
  | bigInt (sign : UInt8) (magnitude : Val)

/-- Optional requirements on `Vec`s and `String`s with non-zero-sized elements. -/
structure Flags where
  /-- capacity 0 implies the canonical dangling pointer (`ptr == align_of::<T>()`), as std guarantees -/
  canon : Bool
  /-- capacity equals length -/
  tight : Bool

/-- A `Vec`/`String` header with elements of layout `L`. -/
structure Header where
  ptr : Nat
  cap : Nat
  len : Nat
  deriving DecidableEq, Repr

/-- Read the three words of a `Vec`/`String` whose fields are ordered by `o`. -/
def readHeader (A : Arch) (m : Mem) (o : Order) (a : Nat) : Option Header := do
  let ptr ← readWord A m (a + o.ptrIx * A.ptrBytes)
  let cap ← readWord A m (a + o.capIx * A.ptrBytes)
  let len ← readWord A m (a + o.lenIx * A.ptrBytes)
  pure ⟨ptr, cap, len⟩

/-- Validity of a header: the pointer is non-null and aligned; with non-zero-sized elements, the length is within the
capacity, the allocation is within `isize::MAX` bytes, and the elements are within the address space. -/
def Header.Valid (A : Arch) (fl : Flags) (L : Layout) (h : Header) : Prop :=
  h.ptr ≠ 0 ∧ h.ptr % L.align = 0 ∧
  (L.size ≠ 0 → h.len ≤ h.cap ∧ h.cap * L.size ≤ A.isizeMax ∧ h.ptr + h.len * L.size < A.usizeMod ∧
    (fl.canon = true → h.cap = 0 → h.ptr = L.align) ∧ (fl.tight = true → h.cap = h.len))

instance (A : Arch) (fl : Flags) (L : Layout) (h : Header) : Decidable (h.Valid A fl L) := by
  unfold Header.Valid; infer_instance

/-- Decode fields / elements in order. -/
def decodeEach (rec : TyId → Nat → Option Val) (a : Nat) : List Field → Option (List Val)
  | [] => some []
  | f :: fs => do
    let v ← rec f.2 (a + f.1)
    let vs ← decodeEach rec a fs
    pure (v :: vs)

/-- A `Vec<T>` at address `a`. -/
def decodeVec (A : Arch) (P : Prog) (fl : Flags) (m : Mem) (rec : TyId → Nat → Option Val) (u : TyId) (a : Nat) : Option Val := do
  let h ← readHeader A m (P.vecOrder u) a
  if h.Valid A fl (P.layout u) then
    let vs ← decodeEach rec h.ptr (elems P u h.len)
    pure (.vec vs)
  else none

/-- A `String` at address `a`. -/
def decodeStr (A : Arch) (P : Prog) (fl : Flags) (m : Mem) (a : Nat) : Option Val := do
  let h ← readHeader A m P.stringOrder a
  if h.Valid A fl ⟨1, 1⟩ then
    let bs ← readBytes m h.ptr h.len
    pure (.str bs)
  else none

/-- The value of type `t` at address `a`, following pointers (at most `n` levels deep). -/
def decode (A : Arch) (P : Prog) (fl : Flags) (m : Mem) : Nat → TyId → Nat → Option Val
  | 0, _, _ => none
  | n + 1, t, a =>
    if a % (P.layout t).align = 0 ∧ a + (P.layout t).size < A.usizeMod then
      match P.defn t with
      | .prim => (readBytes m a (P.layout t).size).map .prim
      | .box u => do
        let p ← readWord A m a
        if p ≠ 0 then
          let v ← decode A P fl m n u p
          pure (.box v)
        else none
      | .vec u => decodeVec A P fl m (decode A P fl m n) u a
      | .string => decodeStr A P fl m a
      | .array u k => do
        let vs ← decodeEach (decode A P fl m n) a (elems P u k)
        pure (.struct vs)
      | .struct fs => do
        let vs ← decodeEach (decode A P fl m n) a fs
        pure (.struct vs)
      | .enum tag vs => do
        let i ← activeVariant A m a tag
        let fs ← vs[i]?
        let xs ← decodeEach (decode A P fl m n) a fs
        pure (.enum i xs)
      | .bigUint u => decodeVec A P fl m (decode A P fl m n) u a
      | .bigInt u => do
        let s ← m (a + P.bigIntSignOff A)
        let v ← decode A P fl m n u (a + P.bigIntDataOff A)
        pure (.bigInt s v)
    else none

/-- `v` is the value of type `t` at address `a` of memory `m`. -/
def Denotes (A : Arch) (P : Prog) (fl : Flags) (m : Mem) (t : TyId) (a : Nat) (v : Val) : Prop :=
  ∃ n, decode A P fl m n t a = some v

end SerRaw
