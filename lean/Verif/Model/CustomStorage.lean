import Verif.Model.Storage
import Verif.Model.History
/-
The trait `Storage` as something a user implements: "You could also build your own implementation of `Storage` with different
properties … you'd only need to implement the methods which don't have a default method already provided"
(ser_raw/src/storage/mod.rs:13-14, 93-95).

`StorageImpl σ` is what such a user writes; the definitions after it are the trait's default methods over it.
-/
namespace SerRaw

/-- An implementation of `Storage` whose values are `σ`: the required items of the trait — ser_raw/src/storage/mod.rs:112-467.
The four associated consts and the target are kept in a `Cfg` (its allocator is not used by the default methods). -/
structure StorageImpl (σ : Type) where
  /-- `STORAGE_ALIGNMENT`, `MAX_VALUE_ALIGNMENT`, `VALUE_ALIGNMENT`, `MAX_CAPACITY` — ser_raw/src/storage/mod.rs:113-131 -/
  C : Cfg
  /-- `new` — ser_raw/src/storage/mod.rs:186 -/
  new : σ
  /-- `with_capacity_unchecked` — ser_raw/src/storage/mod.rs:227; run on `new` -/
  withCapacityUnchecked : Nat → M σ Unit
  /-- `capacity` — ser_raw/src/storage/mod.rs:230 -/
  capacity : σ → Nat
  /-- `pos` — ser_raw/src/storage/mod.rs:233 -/
  pos : σ → Nat
  /-- `set_pos` — ser_raw/src/storage/mod.rs:245 -/
  setPos : Nat → M σ Unit
  /-- `push_slice_unchecked` — ser_raw/src/storage/mod.rs:327; layout, length, cells and `size` -/
  pushSliceUnchecked : Layout → Nat → (Nat → Cell) → Nat → M σ Unit
  /-- `reserve` — ser_raw/src/storage/mod.rs:372 -/
  reserve : Nat → M σ Unit
  /-- `shrink_to_fit` — ser_raw/src/storage/mod.rs:466 -/
  shrinkToFit : M σ Unit

namespace StorageImpl
variable {σ : Type} (I : StorageImpl σ)

/-- `self.pos()`, as a step — ser_raw/src/storage/mod.rs:233. -/
def getPos : M σ Nat := fun s => .ok (I.pos s) s

/-- Default `with_capacity` — ser_raw/src/storage/mod.rs:196-215; run on `new`. -/
def withCapacity (capacity : Nat) : M σ Unit := do
  if capacity = 0 then pure ()
  else
    M.assert .capacity (decide (capacity ≤ I.C.maxCapacity))
    let capacity ← alignUpTo I.C.arch capacity I.C.maxValueAlign
    I.withCapacityUnchecked capacity

/-- Default `align` — ser_raw/src/storage/mod.rs:436-453. -/
def align (alignment : Nat) : M σ Unit := do
  M.debugAssert I.C.arch (decide (alignment ≥ I.C.valueAlign))
  M.debugAssert I.C.arch (decide (alignment ≤ I.C.maxValueAlign))
  M.debugAssert I.C.arch (isPow2 alignment)
  let p ← I.getPos
  let newPos ← alignUpTo I.C.arch p alignment
  I.setPos newPos

/-- Default `align_for::<T>` — ser_raw/src/storage/mod.rs:379-395. -/
def alignFor (L : Layout) : M σ Unit :=
  if L.align > I.C.valueAlign then I.align L.align else pure ()

/-- Default `align_after_any` — ser_raw/src/storage/mod.rs:416-419. -/
def alignAfterAny : M σ Unit := I.align I.C.valueAlign

/-- Default `align_after::<T>` — ser_raw/src/storage/mod.rs:400-408. -/
def alignAfter (L : Layout) : M σ Unit :=
  if L.size % I.C.valueAlign > 0 then I.alignAfterAny else pure ()

/-- Default `push_slice` — ser_raw/src/storage/mod.rs:261-291. -/
def pushSlice (L : Layout) (len : Nat) (data : Nat → Cell) : M σ Nat := do
  if L.size = 0 then pure 0
  else
    I.alignFor L
    let size ← umul I.C.arch L.size len
    I.reserve size
    let p ← I.getPos
    I.pushSliceUnchecked L len data size
    I.alignAfter L
    pure p

/-- Default `push` — ser_raw/src/storage/mod.rs:249-251. -/
def push (L : Layout) (data : Nat → Cell) : M σ Nat := I.pushSlice L 1 data

/-- Default `push_bytes` — ser_raw/src/storage/mod.rs:297-299. -/
def pushBytes (n : Nat) (data : Nat → Cell) : M σ Nat := I.pushSlice ⟨1, 1⟩ n data

/-- Default `push_empty_slice` — ser_raw/src/storage/mod.rs:353-363. -/
def pushEmptySlice (L : Layout) (len : Nat) : M σ Nat := do
  I.alignFor L
  let size ← umul I.C.arch L.size len
  I.reserve size
  let p ← I.getPos
  let p' ← I.getPos
  let newPos ← uadd I.C.arch p' size
  I.setPos newPos
  I.alignAfter L
  pure p

/-- Default `push_empty` — ser_raw/src/storage/mod.rs:337-339. -/
def pushEmpty (L : Layout) : M σ Nat := I.pushEmptySlice L 1

/-- Default `clear` — ser_raw/src/storage/mod.rs:460-463. -/
def clear : M σ Unit := I.setPos 0

end StorageImpl

/-- The safe methods of `Storage`, called on a custom implementation. `push`, `push_bytes` and `push_empty` are instances of the
slice versions — ser_raw/src/storage/mod.rs:249-251, 297-299, 337-339. -/
inductive KOp
  | pushSlice (L : Layout) (len : Nat) (data : Nat → Cell)
  | pushEmptySlice (L : Layout) (len : Nat)
  | reserve (n : Nat)
  | alignFor (L : Layout)
  | alignAfter (L : Layout)
  | alignAfterAny
  | clear
  | shrinkToFit

/-- Perform a safe method call (definitions above, ser_raw/src/storage/mod.rs:249-466); the result is the returned position, 0 for methods returning
nothing. -/
def KOp.run {σ : Type} (I : StorageImpl σ) : KOp → M σ Nat
  | .pushSlice L len data => I.pushSlice L len data
  | .pushEmptySlice L len => I.pushEmptySlice L len
  | .reserve n => do I.reserve n; pure 0
  | .alignFor L => do I.alignFor L; pure 0
  | .alignAfter L => do I.alignAfter L; pure 0
  | .alignAfterAny => do I.alignAfterAny; pure 0
  | .clear => do I.clear; pure 0
  | .shrinkToFit => do I.shrinkToFit; pure 0

/-- Calls Rust code can make (cf. `SOp.Legal`): real types, accepted by the compile-time alignment check; slices of at most `isize::MAX` bytes.
Two things the API permits are excluded: an *empty* slice of a type with alignment > 1 pushed to a storage of capacity 0 (cf.
`C05_empty_slice_ub`), and a `push_empty_slice` whose size is not a multiple of `VALUE_ALIGNMENT`, which makes the default method break the
safety contract of `set_pos` (see `C61_push_empty_breaks_contract`) — ser_raw/src/storage/mod.rs:186-466. -/
def KOp.Legal {σ : Type} (I : StorageImpl σ) (s : σ) : KOp → Prop
  | .pushSlice L len _ => L.OK ∧ (L.size ≠ 0 → I.C.accepts L = true) ∧ L.size * len ≤ I.C.arch.isizeMax ∧
      (L.size = 0 ∨ 0 < len ∨ 0 < I.capacity s ∨ L.align = 1)
  | .pushEmptySlice L len => L.OK ∧ I.C.accepts L = true ∧ len < I.C.arch.usizeMod ∧ I.C.valueAlign ∣ L.size * len
  | .reserve n => n < I.C.arch.usizeMod
  | .alignFor L | .alignAfter L => L.OK ∧ I.C.accepts L = true
  | .alignAfterAny | .clear | .shrinkToFit => True

/-- One call of a history and its result (`none`: it panicked and the panic was caught) — ser_raw/src/storage/mod.rs:186-466. -/
structure KEvent where
  op : KOp
  res : Option Nat

/-- `KHist I es s`: a storage created by `new` or `with_capacity`, on which the calls `es` were made, some of them panicking, is in state `s` —
ser_raw/src/storage/mod.rs:186-466. -/
inductive KHist {σ : Type} (I : StorageImpl σ) : List KEvent → σ → Prop
  | new : KHist I [] I.new
  | withCapacity {c s} : c < I.C.arch.usizeMod → I.withCapacity c I.new = .ok () s → KHist I [] s
  | ok {es s op p s'} : KHist I es s → op.Legal I s → op.run I s = .ok p s' → KHist I (es ++ [⟨op, some p⟩]) s'
  | panic {es s op k s'} : KHist I es s → op.Legal I s → op.run I s = .panic k s' → KHist I (es ++ [⟨op, none⟩]) s'

/-- `AlignedVec` as an implementation of the trait — ser_raw/src/storage/aligned_vec.rs:82-258. -/
def alignedVecImpl (C : Cfg) : StorageImpl Sto where
  C := C
  new := Sto.new
  withCapacityUnchecked := Sto.withCapacityUnchecked C
  capacity := Sto.capacity
  pos := Sto.pos
  setPos := Sto.setPos C
  pushSliceUnchecked := Sto.pushSliceUnchecked C
  reserve := Sto.reserve C
  shrinkToFit := Sto.shrinkToFit C

end SerRaw
