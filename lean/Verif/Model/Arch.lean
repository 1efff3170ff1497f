/-
Machine model: `usize` arithmetic for both pointer widths and both build modes,
outcomes of Rust code (return / panic / abort / undefined behaviour), bytes and words in memory.

Everything in the crate is compiled for a target and a build profile; `Arch` makes both parameters,
so that theorems hold for 32/64-bit, little/big endian, debug and release.
-/
namespace SerRaw

/-- Compilation target and build profile.
`ptrBytes` is `mem::size_of::<usize>()` (`PTR_SIZE`, ser_raw/src/storage/aligned_vec.rs:15,
ser_raw/src/serialize_impls/ptrs.rs:5); `debug` says whether `debug_assert!` and arithmetic overflow
checks are compiled in (they are in dev builds, not in release builds). -/
structure Arch where
  ptrBytes : Nat
  bigEndian : Bool
  debug : Bool
  deriving DecidableEq, Repr

/-- The targets considered: 32-bit and 64-bit (the two the crate documents,
ser_raw/src/storage/mod.rs:73-89). -/
structure Arch.Valid (A : Arch) : Prop where
  width : A.ptrBytes = 4 ∨ A.ptrBytes = 8

/-- Number of bits of `usize` — `usize` throughout, e.g. ser_raw/src/util.rs:15-18. -/
def Arch.usizeBits (A : Arch) : Nat := 8 * A.ptrBytes
/-- `usize::MAX + 1` — `usize` throughout, e.g. ser_raw/src/util.rs:15-18. -/
def Arch.usizeMod (A : Arch) : Nat := 2 ^ A.usizeBits
/-- `isize::MAX as usize` — ser_raw/src/util.rs:56. -/
def Arch.isizeMax (A : Arch) : Nat := 2 ^ (A.usizeBits - 1) - 1
/-- `u32::MAX as usize` — ser_raw/src/util.rs:90, 98. -/
def u32Max : Nat := 2 ^ 32 - 1

/-! ### Outcomes -/

/-- Why a Rust panic happened —
`.capacity`: ser_raw/src/storage/aligned_vec.rs:281, 286 and ser_raw/src/storage/mod.rs:206; `.assertion`: ser_raw/src/serialize_impls/ptrs.rs:136-146; `.arith` and `.debugAssert`: debug builds; `.user`: ser_raw/src/serialize.rs:97-102. -/
inductive PanicKind
  /-- `"Cannot grow AlignedVec further"` (ser_raw/src/storage/aligned_vec.rs:281,286) and
      `"capacity cannot exceed MAX_CAPACITY"` (ser_raw/src/storage/mod.rs:206-209) -/
  | capacity
  /-- an `assert!` on arguments (ser_raw/src/util.rs:47-55, 84-92; ser_raw/src/serialize_impls/bigint.rs:89,92) -/
  | assertion
  /-- a failed `debug_assert!` (debug builds only) -/
  | debugAssert
  /-- arithmetic overflow (debug builds only) -/
  | arith
  /-- a panic raised by user code (a hand-written `Serialize` implementation, ser_raw/src/serialize.rs:97-102) -/
  | user
  deriving DecidableEq, Repr

/-- Outcome of running Rust code from some state.
`panic` carries the state left behind: a panic can be caught, and `Drop` runs on it.
`abort` is `handle_alloc_error` (process ends). `ub`: the safety contract of a std primitive was broken.
`fuel`: the model's recursion bound was too small (never an outcome of the real program) — no single place in the source. -/
inductive Out (σ α : Type) where
  | ok (a : α) (s : σ)
  | panic (k : PanicKind) (s : σ)
  | abort
  | ub
  | fuel

/-- State-passing computations: a Rust function taking `&mut σ` and returning `α` — e.g. `&mut self` in ser_raw/src/storage/aligned_vec.rs:223. -/
def M (σ α : Type) : Type := σ → Out σ α

namespace M
variable {σ α β : Type}

/-- Returning a value — e.g. ser_raw/src/storage/aligned_vec.rs:150-152. -/
def pure (a : α) : M σ α := fun s => .ok a s

/-- Sequencing of Rust statements: a panic, abort or undefined behaviour ends the rest — e.g. ser_raw/src/storage/aligned_vec.rs:223-230. -/
def bind (x : M σ α) (f : α → M σ β) : M σ β := fun s =>
  match x s with
  | .ok a s' => f a s'
  | .panic k s' => .panic k s'
  | .abort => .abort
  | .ub => .ub
  | .fuel => .fuel

instance : Monad (M σ) where
  pure := M.pure
  bind := M.bind

/-- Reading `&self` — e.g. ser_raw/src/storage/aligned_vec.rs:150-152. -/
def get : M σ σ := fun s => .ok s s
/-- Writing `*self` — e.g. ser_raw/src/storage/aligned_vec.rs:164-169. -/
def set (s' : σ) : M σ Unit := fun _ => .ok () s'
/-- Writing `*self` — e.g. ser_raw/src/storage/aligned_vec.rs:164-169. -/
def modify (f : σ → σ) : M σ Unit := fun s => .ok () (f s)
/-- `panic!` — e.g. ser_raw/src/storage/aligned_vec.rs:281, 286. -/
def throw (k : PanicKind) : M σ α := fun s => .panic k s
/-- `handle_alloc_error`, ser_raw/src/storage/aligned_vec.rs:321. -/
def abort : M σ α := fun _ => .abort
/-- Undefined behaviour, e.g. breaking the contract of ser_raw/src/storage/aligned_vec.rs:383. -/
def ub : M σ α := fun _ => .ub
/-- Artefact of the model: Rust has no such outcome. It bounds the recursion of `serialize_data` (ser_raw/src/serialize.rs:97-102) into values; C33 shows that enough fuel always exists. -/
def outOfFuel : M σ α := fun _ => .fuel

/-- `assert!(b)`: panics with reason `k` if `b` is false — e.g. ser_raw/src/storage/aligned_vec.rs:286. -/
def assert (k : PanicKind) (b : Bool) : M σ Unit := fun s =>
  if b then .ok () s else .panic k s

/-- `debug_assert!(b)`: compiled out unless the build is a debug build — e.g. ser_raw/src/storage/aligned_vec.rs:165. -/
def debugAssert (A : Arch) (b : Bool) : M σ Unit := fun s =>
  if A.debug && !b then .panic .debugAssert s else .ok () s

/-- Safety precondition of an unsafe std primitive — e.g. ser_raw/src/storage/aligned_vec.rs:319. -/
def require (b : Bool) : M σ Unit := fun s => if b then .ok () s else .ub

end M

/-! ### `usize` arithmetic (values are `Nat`s below `usizeMod`) -/

/-- `a + b` on `usize`: overflow panics in debug builds and wraps in release builds —
e.g. ser_raw/src/util.rs:17, ser_raw/src/storage/aligned_vec.rs:206. -/
def uadd {σ} (A : Arch) (a b : Nat) : M σ Nat := fun s =>
  if a + b < A.usizeMod then .ok (a + b) s
  else if A.debug then .panic .arith s
  else .ok ((a + b) % A.usizeMod) s

/-- `a - b` on `usize` — e.g. ser_raw/src/util.rs:17, ser_raw/src/pos.rs:44. -/
def usub {σ} (A : Arch) (a b : Nat) : M σ Nat := fun s =>
  if b ≤ a then .ok (a - b) s
  else if A.debug then .panic .arith s
  else .ok ((a + A.usizeMod - b) % A.usizeMod) s

/-- `a * b` on `usize` — e.g. ser_raw/src/storage/mod.rs:273. -/
def umul {σ} (A : Arch) (a b : Nat) : M σ Nat := fun s =>
  if a * b < A.usizeMod then .ok (a * b) s
  else if A.debug then .panic .arith s
  else .ok ((a * b) % A.usizeMod) s

/-- `!x` on `usize` — ser_raw/src/util.rs:17. -/
def unot (A : Arch) (x : Nat) : Nat := (A.usizeMod - 1) ^^^ x

/-- `a.wrapping_sub(b)` — ser_raw/src/storage/aligned_vec.rs:226, ser_raw/src/pos.rs:231. -/
def wrappingSub (A : Arch) (a b : Nat) : Nat := (a + A.usizeMod - b) % A.usizeMod
/-- `a.wrapping_add(b)` — ser_raw/src/pos.rs:235. -/
def wrappingAdd (A : Arch) (a b : Nat) : Nat := (a + b) % A.usizeMod

/-- `usize::is_power_of_two` — e.g. ser_raw/src/util.rs:16. -/
def isPow2 (n : Nat) : Bool := n != 0 && (n &&& (n - 1)) == 0

/-- `usize::next_power_of_two` as a number: the smallest power of two `≥ n`
(std computes it as one more than the all-ones mask below the leading bit of `n - 1`) — ser_raw/src/storage/aligned_vec.rs:283, 290. -/
def nextPow2 (n : Nat) : Nat := if n ≤ 1 then 1 else 2 ^ (Nat.log2 (n - 1) + 1)

/-- `usize::next_power_of_two` with its overflow behaviour (panic in debug, 0 in release) — ser_raw/src/storage/aligned_vec.rs:283, 290. -/
def unextPow2 {σ} (A : Arch) (n : Nat) : M σ Nat := fun s =>
  if nextPow2 n < A.usizeMod then .ok (nextPow2 n) s
  else if A.debug then .panic .arith s
  else .ok 0 s

/-! ### Memory -/

/-- A byte of memory; `none` is uninitialised (or, when reading a partial memory, not readable) —
`MaybeUninit<u8>`; what `copy_nonoverlapping` copies, ser_raw/src/storage/aligned_vec.rs:398. -/
abbrev Cell := Option UInt8

/-- Byte-addressed memory, total function: address to cell — what the raw pointers of ser_raw/src/storage/aligned_vec.rs:394-398 point to. -/
abbrev Mem := Nat → Cell

/-- Memory after copying `n` cells, `src 0 … src (n-1)`, to address `at_` — `copy_nonoverlapping`, ser_raw/src/storage/aligned_vec.rs:398. -/
def Mem.blit (m : Mem) (at_ n : Nat) (src : Nat → Cell) : Mem := fun i =>
  if at_ ≤ i ∧ i < at_ + n then src (i - at_) else m i

/-- Read `n` consecutive initialised bytes — reading a value through a reference, e.g. ser_raw/src/storage/aligned_vec.rs:412. -/
def readBytes (m : Mem) (a : Nat) : Nat → Option (List UInt8)
  | 0 => some []
  | n + 1 =>
    match m a, readBytes m (a + 1) n with
    | some b, some bs => some (b :: bs)
    | _, _ => none

/-- The `k` little-endian bytes of `n` — writing an integer, e.g. ser_raw/src/serializer_traits/ptr_offset.rs:27. -/
def encLE : Nat → Nat → List UInt8
  | 0, _ => []
  | k + 1, n => UInt8.ofNat (n % 256) :: encLE k (n / 256)

/-- Value of little-endian bytes — reading an integer, e.g. ser_raw/src/pos.rs:235. -/
def decLE : List UInt8 → Nat
  | [] => 0
  | b :: bs => b.toNat + 256 * decLE bs

/-- Native bytes of a `usize` — e.g. ser_raw/src/serializer_traits/ptr_offset.rs:27. -/
def encWord (A : Arch) (n : Nat) : List UInt8 :=
  if A.bigEndian then (encLE A.ptrBytes n).reverse else encLE A.ptrBytes n

/-- `usize` from its native bytes — e.g. ser_raw/src/pos.rs:235. -/
def decWord (A : Arch) (bs : List UInt8) : Nat :=
  if A.bigEndian then decLE bs.reverse else decLE bs

/-- A `usize` as memory cells — e.g. `&target_pos` in ser_raw/src/serializer_traits/ptr_offset.rs:27. -/
def wordCells (A : Arch) (n : Nat) : Nat → Cell := fun i => (encWord A n)[i]?

/-- Read an initialised `usize` from memory — e.g. ser_raw/src/pos.rs:235. -/
def readWord (A : Arch) (m : Mem) (a : Nat) : Option Nat :=
  (readBytes m a A.ptrBytes).map (decWord A)

/-- `mem::size_of::<T>()` and `mem::align_of::<T>()` — e.g. ser_raw/src/storage/mod.rs:263. -/
structure Layout where
  size : Nat
  align : Nat
  deriving DecidableEq, Repr

/-- `[a, a+m)` and `[b, b+n)` share no byte — used in specifications only (two fields of a struct, ser_raw_derive/src/structs.rs:33-54). -/
def DisjRange (a m b n : Nat) : Prop := a + m ≤ b ∨ b + n ≤ a

end SerRaw
