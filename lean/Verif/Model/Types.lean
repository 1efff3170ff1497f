import Verif.Model.Arch
/-
Rust types as the serializer sees them. A program is a table of types (indexed by `TyId`, so recursive types are allowed),
each with a definition and a layout. The compiler's freedom is left open: field offsets, padding, enum tag placement
(separate tag, niche in plain data, null-pointer niche, capacity niche), order of `Vec`'s and `String`'s three words,
order of `BigInt`'s two fields. `Prog.WF` states rustc's rules for layouts.
-/
namespace SerRaw

/-- Stands for the `T` of `Serialize` impls, ser_raw/src/serialize.rs:97. -/
abbrev TyId := Nat

/-- How the compiler orders the three words of `Vec<T>` (`RawVec {ptr, cap}` and `len`):
the index (0, 1, 2) of each. Names list the fields in memory order — ser_raw/src/serialize_impls/ptrs.rs:132-146. -/
inductive Order
  | pcl | plc | cpl | clp | lpc | lcp
  deriving DecidableEq, Repr

/-- `PTR_INDEX`, ser_raw/src/serialize_impls/ptrs.rs:129-147. -/
def Order.ptrIx : Order → Nat
  | pcl | plc => 0
  | cpl | lpc => 1
  | clp | lcp => 2

/-- ser_raw/src/serialize_impls/ptrs.rs:158-167. -/
def Order.capIx : Order → Nat
  | cpl | clp => 0
  | pcl | lcp => 1
  | plc | lpc => 2

/-- ser_raw/src/serialize_impls/ptrs.rs:158-167. -/
def Order.lenIx : Order → Nat
  | lpc | lcp => 0
  | plc | clp => 1
  | pcl | cpl => 2

/-- How the active variant of an enum is determined — the `match self` of ser_raw_derive/src/enums.rs:36-40 and ser_raw/src/serialize_impls/other.rs:9. -/
inductive Tag
  /-- one inhabited variant only: nothing stored -/
  | single
  /-- the `len` bytes at offset `off` (a separate tag, or a niche in plain data such as `bool`) determine the variant -/
  | bytes (off len : Nat) (sel : List UInt8 → Option Nat)
  /-- the machine word at `off` determines the variant (e.g. null-pointer niche, or `Vec` capacity niche) -/
  | word (off : Nat) (sel : Nat → Option Nat)

/-- Which variant of an enum the value at address `a` is in: what `match self` does —
ser_raw_derive/src/enums.rs:36-40, ser_raw/src/serialize_impls/other.rs:9. -/
def activeVariant (A : Arch) (m : Mem) (a : Nat) : Tag → Option Nat
  | .single => some 0
  | .bytes off len sel => (readBytes m (a + off) len).bind sel
  | .word off sel => (readWord A m (a + off)).bind sel

/-- A struct field, tuple field or enum variant field: offset in the enclosing value, and type —
ser_raw/src/serialize_impls/multiples.rs:24, ser_raw_derive/src/structs.rs:68, ser_raw_derive/src/enums.rs:111. -/
abbrev Field := Nat × TyId

/-- Definition of a type: which `Serialize` impl it has — ser_raw/src/serialize_impls/*.rs. -/
inductive TyDef
  /-- types with an empty `serialize_data` — ser_raw/src/serialize_impls/primitives.rs:5-48 -/
  | prim
  /-- `Box<T>` — ser_raw/src/serialize_impls/ptrs.rs:7-30 -/
  | box (t : TyId)
  /-- `Vec<T>` — ser_raw/src/serialize_impls/ptrs.rs:32-74 -/
  | vec (t : TyId)
  /-- `String` — ser_raw/src/serialize_impls/ptrs.rs:76-105 -/
  | string
  /-- `[T; n]` — ser_raw/src/serialize_impls/multiples.rs:3-13 -/
  | array (t : TyId) (n : Nat)
  /-- tuples — ser_raw/src/serialize_impls/multiples.rs:15-62 — and structs with `#[derive(Serialize)]` — ser_raw_derive/src/structs.rs;
      fields in serialization (declaration) order -/
  | struct (fields : List Field)
  /-- `Option<T>` — ser_raw/src/serialize_impls/other.rs:3-13 — and enums with `#[derive(Serialize)]` — ser_raw_derive/src/enums.rs -/
  | enum (tag : Tag) (variants : List (List Field))
  /-- `BigUint` — ser_raw/src/serialize_impls/bigint.rs:17-31; the argument is the type `usize` of its digits -/
  | bigUint (usize : TyId)
  /-- `BigInt` — ser_raw/src/serialize_impls/bigint.rs:37-53; the argument is the type `BigUint` -/
  | bigInt (bigUint : TyId)

/-- The types of ser_raw/src/serialize_impls/*.rs and the layouts rustc gives them. -/
structure Prog where
  defn : TyId → TyDef
  layout : TyId → Layout
  /-- field order of `Vec<T>` for element type `T` -/
  vecOrder : TyId → Order
  stringOrder : Order
  /-- does `BigInt` store `data` before `sign`? -/
  bigIntDataFirst : Bool

/-- The elements of `n` consecutive `T`s, seen as fields: element `i` at offset `i * size_of::<T>()` —
ser_raw/src/serialize_impls/ptrs.rs:69-71, ser_raw/src/serialize_impls/multiples.rs:9-11. -/
def elems (P : Prog) (t : TyId) (n : Nat) : List Field :=
  (List.range n).map fun i => (i * (P.layout t).size, t)

/-- Offset of `data : BigUint` in `BigInt` — ser_raw/src/serialize_impls/bigint.rs:55-58, 66-95. -/
def Prog.bigIntDataOff (P : Prog) (A : Arch) : Nat := if P.bigIntDataFirst then 0 else A.ptrBytes
/-- Offset of `sign : Sign` (one byte) in `BigInt` — ser_raw/src/serialize_impls/bigint.rs:55-58, 66-95. -/
def Prog.bigIntSignOff (P : Prog) (A : Arch) : Nat := if P.bigIntDataFirst then 3 * A.ptrBytes else 0

/-- Kinds of machine words inside a value which serializers may rewrite — ser_raw/src/serialize_impls/ptrs.rs:60-61, 66. -/
inductive SlotKind
  | ptr | cap
  deriving DecidableEq, Repr

/-- The values such a word can hold in a valid value: pointers are non-null, capacities at most `isize::MAX` —
what std guarantees of `Box`, `Vec` and `String`; ser_raw/src/serialize_impls/ptrs.rs:45-67. -/
def SlotKind.valid (A : Arch) : SlotKind → Nat → Prop
  | .ptr, w => w ≠ 0
  | .cap, w => w ≤ A.isizeMax

/-- `Slot P t k o`: a value of type `t` may contain, inline at offset `o`, a word of kind `k` belonging to a
`Box`/`Vec`/`String` with non-zero-sized contents — ser_raw/src/serialize_impls/ptrs.rs:12-104, ser_raw/src/serialize_impls/bigint.rs:23-52. -/
inductive Prog.Slot (A : Arch) (P : Prog) : TyId → SlotKind → Nat → Prop
  | box {t u} : P.defn t = .box u → (P.layout u).size ≠ 0 → Slot A P t .ptr 0
  | vecPtr {t u} : P.defn t = .vec u → (P.layout u).size ≠ 0 → Slot A P t .ptr ((P.vecOrder u).ptrIx * A.ptrBytes)
  | vecCap {t u} : P.defn t = .vec u → (P.layout u).size ≠ 0 → Slot A P t .cap ((P.vecOrder u).capIx * A.ptrBytes)
  | strPtr {t} : P.defn t = .string → Slot A P t .ptr (P.stringOrder.ptrIx * A.ptrBytes)
  | strCap {t} : P.defn t = .string → Slot A P t .cap (P.stringOrder.capIx * A.ptrBytes)
  | bigPtr {t u} : P.defn t = .bigUint u → Slot A P t .ptr ((P.vecOrder u).ptrIx * A.ptrBytes)
  | bigCap {t u} : P.defn t = .bigUint u → Slot A P t .cap ((P.vecOrder u).capIx * A.ptrBytes)
  | array {t u n i k o} : P.defn t = .array u n → i < n → Slot A P u k o → Slot A P t k (i * (P.layout u).size + o)
  | field {t fs f k o} : P.defn t = .struct fs → f ∈ fs → Slot A P f.2 k o → Slot A P t k (f.1 + o)
  | variant {t tag vs fs f k o} : P.defn t = .enum tag vs → fs ∈ vs → f ∈ fs → Slot A P f.2 k o → Slot A P t k (f.1 + o)
  | bigInt {t u k o} : P.defn t = .bigInt u → Slot A P u k o → Slot A P t k (P.bigIntDataOff A + o)

/-- Fields placed by the compiler inside a value of layout `L`: in bounds, aligned, not overlapping —
rustc; ser_raw/src/serialize_impls/multiples.rs:24, ser_raw_derive/src/structs.rs:68. -/
structure FieldsWF (P : Prog) (L : Layout) (fs : List Field) : Prop where
  inBounds : ∀ f ∈ fs, f.1 + (P.layout f.2).size ≤ L.size
  aligned : ∀ f ∈ fs, (P.layout f.2).align ∣ f.1
  alignLe : ∀ f ∈ fs, (P.layout f.2).align ∣ L.align
  disjoint : fs.Pairwise fun f g => DisjRange f.1 (P.layout f.2).size g.1 (P.layout g.2).size

/-- An enum tag never shares bytes with a rewritable word, except that a word tag may be the niche of exactly such a
word, and then all valid values of that word select the same variant — rustc; ser_raw_derive/src/enums.rs:36-40. -/
def TagWF (A : Arch) (P : Prog) (t : TyId) (size : Nat) : Tag → Prop
  | .single => True
  | .bytes off len _ => off + len ≤ size ∧ ∀ k o, P.Slot A t k o → DisjRange o A.ptrBytes off len
  | .word off sel => off + A.ptrBytes ≤ size ∧ ∀ k o, P.Slot A t k o →
      DisjRange o A.ptrBytes off A.ptrBytes ∨
      (o = off ∧ ∀ w w', k.valid A w → k.valid A w' → sel w = sel w')

/-- What the compiler guarantees about one type —
rustc; checked in part at ser_raw/src/serialize_impls/ptrs.rs:15, 133 and ser_raw/src/serialize_impls/bigint.rs:25, 46. -/
def TyWF (A : Arch) (P : Prog) (t : TyId) : Prop :=
  let L := P.layout t
  let W := A.ptrBytes
  (∃ e, L.align = 2 ^ e) ∧ L.align ∣ L.size ∧ L.size ≤ A.isizeMax ∧
  match P.defn t with
  | .prim => True
  | .box _ => L = ⟨W, W⟩
  | .vec _ => L = ⟨3 * W, W⟩
  | .string => L = ⟨3 * W, W⟩
  | .array u n => L.size = n * (P.layout u).size ∧ L.align = (P.layout u).align
  | .struct fs => FieldsWF P L fs
  | .enum tag vs => (∀ fs ∈ vs, FieldsWF P L fs) ∧ TagWF A P t L.size tag
  | .bigUint u => L = ⟨3 * W, W⟩ ∧ P.defn u = .prim ∧ P.layout u = ⟨W, W⟩
  | .bigInt u => L = ⟨4 * W, W⟩ ∧ (∃ d, P.defn u = .bigUint d) ∧ P.layout u = ⟨3 * W, W⟩

/-- A program whose types are laid out according to rustc's rules — rustc; checked in part at ser_raw/src/serialize_impls/ptrs.rs:15, 133 and ser_raw/src/serialize_impls/bigint.rs:25, 46. -/
def Prog.WF (A : Arch) (P : Prog) : Prop := ∀ t, TyWF A P t

end SerRaw
