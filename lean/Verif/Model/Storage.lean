import Verif.Model.Util
/-
Model of ser_raw/src/storage/mod.rs (trait `Storage` and its default methods) and
ser_raw/src/storage/aligned_vec.rs (`AlignedVec`), together with the contract of the global allocator
(`std::alloc::{alloc, realloc, dealloc}`) and of the raw-memory primitives they rely on.

A generic `T` is its `Layout`; a slice `&[T]` is its layout, length, and cells (raw bytes, `none` for padding).
Compile-time assertions (`ASSERT_ALIGNMENTS_VALID`, `ASSERT_ALIGNMENT_DOES_NOT_EXCEED`) are
predicates (`Cfg.assertAlignmentsValid`, `Cfg.accepts`): code that fails them does not exist.
-/
namespace SerRaw

/-- `debug_assert!(e)` where evaluating `e` may itself panic: `e` is only evaluated in debug builds — e.g. ser_raw/src/storage/aligned_vec.rs:196. -/
def M.debugAssertM {σ} (A : Arch) (e : M σ Bool) : M σ Unit :=
  if A.debug then do
    let b ← e
    M.debugAssert A b
  else pure ()

/-- The behaviour of the global allocator: the address returned by the `n`-th call
(`alloc` or `realloc`) for the given layout; `0` is a null pointer (allocation failure) — ser_raw/src/storage/aligned_vec.rs:319, 338. -/
abbrev Oracle := Nat → Layout → Nat

/-- Const parameters of a storage type (ser_raw/src/storage/aligned_vec.rs:62-67), the target it is
compiled for, and the allocator it runs against. -/
structure Cfg where
  arch : Arch
  storageAlign : Nat
  maxValueAlign : Nat
  valueAlign : Nat
  maxCapacity : Nat
  alloc : Oracle

/-- `ASSERT_ALIGNMENTS_VALID` — ser_raw/src/storage/mod.rs:140-183. Evaluated at compile time;
a storage type for which this is `false` cannot be constructed.
`aligned_max_capacity(STORAGE_ALIGNMENT)` (line 176) is inlined as `isize::MAX - (alignment - 1)`,
its own assertions being implied by the preceding ones. -/
def Cfg.assertAlignmentsValid (C : Cfg) : Bool :=
  decide (C.storageAlign > 0) &&
  decide (C.storageAlign < C.arch.isizeMax) &&
  isPow2 C.storageAlign &&
  decide (C.maxValueAlign > 0) &&
  decide (C.maxValueAlign ≤ C.storageAlign) &&
  isPow2 C.maxValueAlign &&
  decide (C.valueAlign > 0) &&
  decide (C.valueAlign ≤ C.maxValueAlign) &&
  isPow2 C.valueAlign &&
  decide (C.maxCapacity > 0) &&
  decide (C.maxCapacity ≤ C.arch.isizeMax - (C.storageAlign - 1)) &&
  (C.maxCapacity % C.maxValueAlign == 0)

/-- `AlignmentCheck::<T, S>::ASSERT_ALIGNMENT_DOES_NOT_EXCEED` — ser_raw/src/storage/mod.rs:575-583,
evaluated at compile time by `align_for` (ser_raw/src/storage/mod.rs:382). -/
def Cfg.accepts (C : Cfg) (L : Layout) : Bool := decide (L.align ≤ C.maxValueAlign)

/-! ### The heap -/

/-- A live heap block. `data i` is the byte at `addr + i` — what ser_raw/src/storage/aligned_vec.rs:319 returns. -/
structure Block where
  addr : Nat
  size : Nat
  align : Nat
  data : Mem

/-- The part of the heap owned by the storage, and the number of allocator calls made so far — ser_raw/src/storage/aligned_vec.rs:319-355. -/
structure World where
  live : List Block
  calls : Nat

/-- An `AlignedVec` — ser_raw/src/storage/aligned_vec.rs:62-71. -/
structure AVec where
  ptr : Nat
  capacity : Nat
  pos : Nat
  deriving DecidableEq, Repr

/-- A storage together with the heap it allocates from — ser_raw/src/storage/aligned_vec.rs:62-71. -/
structure Sto where
  vec : AVec
  w : World

/-- `Layout::from_size_align` validity: power-of-two alignment and size, rounded up to the alignment, at most `isize::MAX` —
the contract of ser_raw/src/storage/aligned_vec.rs:318. -/
def layoutValid (A : Arch) (L : Layout) : Bool :=
  isPow2 L.align && decide ((L.size + L.align - 1) / L.align * L.align ≤ A.isizeMax)

/-- `std::alloc::alloc`: undefined behaviour for a zero size or invalid layout; otherwise null or a new, uninitialised block —
called at ser_raw/src/storage/aligned_vec.rs:319. -/
def heapAlloc (C : Cfg) (L : Layout) : M Sto Nat := fun s =>
  if L.size = 0 ∨ layoutValid C.arch L = false then .ub
  else
    let a := C.alloc s.w.calls L
    if a = 0 then .ok 0 { s with w := { s.w with calls := s.w.calls + 1 } }
    else .ok a { s with w := { live := ⟨a, L.size, L.align, fun _ => none⟩ :: s.w.live, calls := s.w.calls + 1 } }

/-- Does the live block `b` start at `p` with layout `L`? — the contract of ser_raw/src/storage/aligned_vec.rs:338, 355. -/
def Block.matches (b : Block) (p : Nat) (L : Layout) : Bool :=
  b.addr == p && b.size == L.size && b.align == L.align

/-- `std::alloc::realloc`: the pointer must be a live block with exactly the given layout and the new size non-zero and valid.
On success the old block is gone, the new one holds the first `min(old, new)` bytes — called at ser_raw/src/storage/aligned_vec.rs:338. -/
def heapRealloc (C : Cfg) (p : Nat) (L : Layout) (newSize : Nat) : M Sto Nat := fun s =>
  if newSize = 0 ∨ layoutValid C.arch ⟨newSize, L.align⟩ = false then .ub
  else match s.w.live.find? (·.matches p L) with
    | none => .ub
    | some b =>
      let a := C.alloc s.w.calls ⟨newSize, L.align⟩
      if a = 0 then .ok 0 { s with w := { s.w with calls := s.w.calls + 1 } }
      else
        .ok a { s with w := {
          live := ⟨a, newSize, L.align, fun i => if i < min b.size newSize then b.data i else none⟩
                    :: s.w.live.eraseP (·.matches p L),
          calls := s.w.calls + 1 } }

/-- `std::alloc::dealloc`: the pointer must be a live block with exactly the given layout — called at ser_raw/src/storage/aligned_vec.rs:355. -/
def heapDealloc (p : Nat) (L : Layout) : M Sto Unit := fun s =>
  match s.w.live.find? (·.matches p L) with
  | none => .ub
  | some _ => .ok () { s with w := { s.w with live := s.w.live.eraseP (·.matches p L) } }

/-- Does block `b` contain the `n` bytes from address `a`? — the contract of ser_raw/src/storage/aligned_vec.rs:394. -/
def Block.contains (b : Block) (a n : Nat) : Bool :=
  decide (b.addr ≤ a) && decide (a + n ≤ b.addr + b.size)

/-- `ptr.add(off)`: in bounds of one live block (or a zero offset) — ser_raw/src/storage/aligned_vec.rs:394. -/
def ptrAdd (p off : Nat) : M Sto Nat := fun s =>
  if off = 0 then .ok p s
  else if s.w.live.any (·.contains p off) then .ok (p + off) s
  else .ub

/-- Update the first block containing the range — ser_raw/src/storage/aligned_vec.rs:398. -/
def writeLive (a n : Nat) (src : Nat → Cell) : List Block → List Block
  | [] => []
  | b :: bs =>
    if b.contains a n then { b with data := b.data.blit (a - b.addr) n src } :: bs
    else b :: writeLive a n src bs

/-- `ptr::copy_nonoverlapping(src, dst, count)` for elements of alignment `align`, `n` bytes in total:
`dst` must be non-null and aligned *even when `n = 0`*, and valid for `n` bytes — ser_raw/src/storage/aligned_vec.rs:398. -/
def memWrite (a align n : Nat) (src : Nat → Cell) : M Sto Unit := fun s =>
  if a = 0 ∨ a % align ≠ 0 then .ub
  else if n = 0 then .ok () s
  else if s.w.live.any (·.contains a n) then
    .ok () { s with w := { s.w with live := writeLive a n src s.w.live } }
  else .ub

/-- The byte of the heap at an address, if it belongs to a live block — ser_raw/src/storage/aligned_vec.rs:412. -/
def World.load (w : World) (a : Nat) : Cell :=
  match w.live.find? (·.contains a 1) with
  | some b => b.data (a - b.addr)
  | none => none

/-- Creating `&T` / reading a `T` at an address: non-null, aligned and, for `n > 0` bytes, inside a live block —
ser_raw/src/storage/aligned_vec.rs:411-412. -/
def memRef (a align n : Nat) : M Sto (Nat → Cell) := fun s =>
  if a = 0 ∨ a % align ≠ 0 then .ub
  else if n = 0 then .ok (fun _ => none) s
  else if s.w.live.any (·.contains a n) then .ok (fun i => s.w.load (a + i)) s
  else .ub

/-! ### `AlignedVec` -/

namespace Sto

/-- `NonNull::<u8>::dangling()`: the address `align_of::<u8>() = 1` — ser_raw/src/storage/aligned_vec.rs:107. -/
def dangling : Nat := 1

/-- `AlignedVec::new` — ser_raw/src/storage/aligned_vec.rs:102-111. -/
def newVec : AVec := ⟨dangling, 0, 0⟩

/-- A freshly constructed storage: `AlignedVec::new()` — ser_raw/src/storage/aligned_vec.rs:102-111. -/
def new : Sto := ⟨newVec, ⟨[], 0⟩⟩

/-- `capacity` — ser_raw/src/storage/aligned_vec.rs:144-146. -/
def capacity (s : Sto) : Nat := s.vec.capacity
/-- `pos` — ser_raw/src/storage/aligned_vec.rs:150-152. -/
def pos (s : Sto) : Nat := s.vec.pos

/-- `self.pos`, ser_raw/src/storage/aligned_vec.rs:150-152. -/
def getPos : M Sto Nat := fun s => .ok s.vec.pos s
/-- `self.capacity`, ser_raw/src/storage/aligned_vec.rs:144-146. -/
def getCapacity : M Sto Nat := fun s => .ok s.vec.capacity s
/-- `self.ptr`, ser_raw/src/storage/aligned_vec.rs:68. -/
def getPtr : M Sto Nat := fun s => .ok s.vec.ptr s
/-- `self.pos = …`, ser_raw/src/storage/aligned_vec.rs:168. -/
def putPos (p : Nat) : M Sto Unit := fun s => .ok () { s with vec := { s.vec with pos := p } }
/-- `self.capacity = …`, ser_raw/src/storage/aligned_vec.rs:305. -/
def putCapacity (c : Nat) : M Sto Unit := fun s => .ok () { s with vec := { s.vec with capacity := c } }
/-- `self.ptr = …`, ser_raw/src/storage/aligned_vec.rs:294. -/
def putPtr (p : Nat) : M Sto Unit := fun s => .ok () { s with vec := { s.vec with ptr := p } }

/-- `AlignedVec::alloc` — ser_raw/src/storage/aligned_vec.rs:314-324. -/
def alloc (C : Cfg) (capacity : Nat) : M Sto Nat := do
  M.debugAssert C.arch (decide (capacity > 0))
  M.debugAssertM C.arch (do let m ← alignedMaxCapacity C.arch C.storageAlign; pure (decide (capacity ≤ m)))
  let p ← heapAlloc C ⟨capacity, C.storageAlign⟩
  if p = 0 then M.abort else pure p

/-- `AlignedVec::layout` — ser_raw/src/storage/aligned_vec.rs:359-363. -/
def layout (C : Cfg) (s : Sto) : Layout := ⟨s.vec.capacity, C.storageAlign⟩

/-- `AlignedVec::realloc` — ser_raw/src/storage/aligned_vec.rs:333-346. -/
def realloc (C : Cfg) (newCap : Nat) : M Sto Nat := do
  let s ← M.get
  M.debugAssert C.arch (decide (s.vec.capacity > 0))
  M.debugAssert C.arch (decide (newCap > 0))
  M.debugAssertM C.arch (do let m ← alignedMaxCapacity C.arch C.storageAlign; pure (decide (newCap ≤ m)))
  let p ← heapRealloc C s.vec.ptr (layout C s) newCap
  if p = 0 then M.abort else pure p

/-- `AlignedVec::dealloc` — ser_raw/src/storage/aligned_vec.rs:353-356. -/
def dealloc (C : Cfg) : M Sto Unit := do
  let s ← M.get
  M.debugAssert C.arch (decide (s.vec.capacity > 0))
  heapDealloc s.vec.ptr (layout C s)

/-- `with_capacity_unchecked` — ser_raw/src/storage/aligned_vec.rs:124-140. The storage under construction is modelled
as an unallocated one (`new`) whose fields are then filled in. -/
def withCapacityUnchecked (C : Cfg) (capacity : Nat) : M Sto Unit := do
  M.debugAssert C.arch (decide (capacity > 0))
  M.debugAssert C.arch (decide (capacity ≤ C.maxCapacity))
  M.debugAssertM C.arch (isAlignedTo C.arch capacity C.maxValueAlign)
  let p ← alloc C capacity
  putPtr p
  putCapacity capacity
  putPos 0

/-- `Storage::with_capacity` — ser_raw/src/storage/mod.rs:196-215; run on `Sto.new`. -/
def withCapacity (C : Cfg) (capacity : Nat) : M Sto Unit := do
  if capacity = 0 then pure ()
  else
    M.assert .capacity (decide (capacity ≤ C.maxCapacity))
    let capacity ← alignUpTo C.arch capacity C.maxValueAlign
    withCapacityUnchecked C capacity

/-- `set_pos` — ser_raw/src/storage/aligned_vec.rs:164-169. -/
def setPos (C : Cfg) (newPos : Nat) : M Sto Unit := do
  let cap ← getCapacity
  M.debugAssert C.arch (decide (newPos ≤ cap))
  M.debugAssertM C.arch (isAlignedTo C.arch newPos C.valueAlign)
  putPos newPos

/-- `Storage::align` — ser_raw/src/storage/mod.rs:436-453. -/
def align (C : Cfg) (alignment : Nat) : M Sto Unit := do
  M.debugAssert C.arch (decide (alignment ≥ C.valueAlign))
  M.debugAssert C.arch (decide (alignment ≤ C.maxValueAlign))
  M.debugAssert C.arch (isPow2 alignment)
  let p ← getPos
  let newPos ← alignUpTo C.arch p alignment
  setPos C newPos

/-- `align_for::<T>` — ser_raw/src/storage/mod.rs:379-395 (the compile-time check of line 382 is `Cfg.accepts`). -/
def alignFor (C : Cfg) (L : Layout) : M Sto Unit :=
  if L.align > C.valueAlign then align C L.align else pure ()

/-- `align_after_any` — ser_raw/src/storage/mod.rs:416-419. -/
def alignAfterAny (C : Cfg) : M Sto Unit := align C C.valueAlign

/-- `align_after::<T>` — ser_raw/src/storage/mod.rs:400-408. -/
def alignAfter (C : Cfg) (L : Layout) : M Sto Unit :=
  if L.size % C.valueAlign > 0 then alignAfterAny C else pure ()

/-- `grow_for_reserve` — ser_raw/src/storage/aligned_vec.rs:271-306. -/
def growForReserve (C : Cfg) (additional : Nat) : M Sto Unit := do
  M.debugAssert C.arch (decide (additional > 0))
  let p ← getPos
  -- `checked_add(..).expect(..)`
  M.assert .capacity (decide (p + additional < C.arch.usizeMod))
  let newCap := p + additional
  let mp ← unextPow2 C.arch C.maxCapacity
  let newCap ← (if newCap > mp / 2 then do
      M.assert .capacity (decide (newCap ≤ C.maxCapacity))
      pure C.maxCapacity
    else unextPow2 C.arch newCap : M Sto Nat)
  let cap ← getCapacity
  if cap = 0 then
    let newCap := max newCap C.maxValueAlign
    let q ← alloc C newCap
    putPtr q
    putCapacity newCap
  else
    let q ← realloc C newCap
    putPtr q
    putCapacity newCap

/-- `reserve` — ser_raw/src/storage/aligned_vec.rs:223-230. -/
def reserve (C : Cfg) (additional : Nat) : M Sto Unit := do
  let cap ← getCapacity
  let p ← getPos
  let remaining := wrappingSub C.arch cap p
  if additional > remaining then growForReserve C additional else pure ()

/-- `write_slice` — ser_raw/src/storage/aligned_vec.rs:383-400. `len` elements of layout `L` with contents `data`. -/
def writeSlice (C : Cfg) (p : Nat) (L : Layout) (len : Nat) (data : Nat → Cell) : M Sto Unit := do
  let cap ← getCapacity
  M.debugAssert C.arch (decide (p ≤ cap))
  M.debugAssertM C.arch (do
    let r ← usub C.arch cap p
    let n ← umul C.arch L.size len
    pure (decide (r ≥ n)))
  M.debugAssertM C.arch (isAlignedTo C.arch p L.align)
  if L.size = 0 then pure ()
  else
    let base ← getPtr
    let dst ← ptrAdd base p
    memWrite dst L.align (L.size * len) data

/-- `RandomAccessStorage::write` — ser_raw/src/storage/mod.rs:485-487. -/
def write (C : Cfg) (p : Nat) (L : Layout) (data : Nat → Cell) : M Sto Unit :=
  writeSlice C p L 1 data

/-- `push_slice_unchecked` — ser_raw/src/storage/aligned_vec.rs:195-207. -/
def pushSliceUnchecked (C : Cfg) (L : Layout) (len : Nat) (data : Nat → Cell) (size : Nat) : M Sto Unit := do
  let cap ← getCapacity
  let p ← getPos
  M.debugAssertM C.arch (do let r ← usub C.arch cap p; pure (decide (r ≥ size)))
  M.debugAssertM C.arch (do let n ← umul C.arch L.size len; pure (size == n))
  M.debugAssertM C.arch (isAlignedTo C.arch p L.align)
  if L.size = 0 then pure ()
  else
    writeSlice C p L len data
    let newPos ← uadd C.arch p size
    putPos newPos

/-- `Storage::push_slice` — ser_raw/src/storage/mod.rs:261-291. -/
def pushSlice (C : Cfg) (L : Layout) (len : Nat) (data : Nat → Cell) : M Sto Nat := do
  if L.size = 0 then pure 0
  else
    alignFor C L
    let size ← umul C.arch L.size len
    reserve C size
    let p ← getPos
    pushSliceUnchecked C L len data size
    alignAfter C L
    pure p

/-- `Storage::push` — ser_raw/src/storage/mod.rs:249-251. -/
def push (C : Cfg) (L : Layout) (data : Nat → Cell) : M Sto Nat := pushSlice C L 1 data

/-- `Storage::push_bytes` — ser_raw/src/storage/mod.rs:297-299. -/
def pushBytes (C : Cfg) (n : Nat) (data : Nat → Cell) : M Sto Nat := pushSlice C ⟨1, 1⟩ n data

/-- `Storage::push_empty_slice` — ser_raw/src/storage/mod.rs:353-363. -/
def pushEmptySlice (C : Cfg) (L : Layout) (len : Nat) : M Sto Nat := do
  alignFor C L
  let size ← umul C.arch L.size len
  reserve C size
  let p ← getPos
  let newPos ← uadd C.arch p size
  setPos C newPos
  alignAfter C L
  pure p

/-- `Storage::push_empty` — ser_raw/src/storage/mod.rs:337-339. -/
def pushEmpty (C : Cfg) (L : Layout) : M Sto Nat := pushEmptySlice C L 1

/-- `Storage::clear` — ser_raw/src/storage/mod.rs:460-463. -/
def clear (C : Cfg) : M Sto Unit := setPos C 0

/-- `shrink_to_fit` — ser_raw/src/storage/aligned_vec.rs:238-253. -/
def shrinkToFit (C : Cfg) : M Sto Unit := do
  let p ← getPos
  let newCap ← alignUpTo C.arch p C.maxValueAlign
  let cap ← getCapacity
  if newCap ≠ cap then
    if newCap = 0 then
      dealloc C
      putPtr dangling
    else
      let q ← realloc C newCap
      putPtr q
    putCapacity newCap
  else pure ()

/-- `read::<T>` — ser_raw/src/storage/aligned_vec.rs:407-413 (and `read_mut`, 421-427): the cells of the `T` at `pos`. -/
def read (C : Cfg) (p : Nat) (L : Layout) : M Sto (Nat → Cell) := do
  let sp ← getPos
  M.debugAssertM C.arch (do let e ← uadd C.arch p L.size; pure (decide (e ≤ sp)))
  M.debugAssertM C.arch (isAlignedTo C.arch p L.align)
  let base ← getPtr
  let a ← ptrAdd base p
  memRef a L.align L.size

/-- `ptr` — ser_raw/src/storage/aligned_vec.rs:444-449 (and `mut_ptr`, 466-471). -/
def ptrAt (C : Cfg) (p : Nat) : M Sto Nat := do
  let cap ← getCapacity
  M.debugAssert C.arch (decide (cap > 0))
  M.debugAssert C.arch (decide (p ≤ cap))
  let base ← getPtr
  ptrAdd base p

/-- `as_ptr` — ser_raw/src/storage/aligned_vec.rs:490-492 (and `as_mut_ptr`, 503-505). -/
def asPtr (s : Sto) : Nat := s.vec.ptr

/-- `Drop::drop` — ser_raw/src/storage/aligned_vec.rs:516-520. -/
def drop (C : Cfg) : M Sto Unit := do
  let cap ← getCapacity
  if cap > 0 then dealloc C else pure ()

end Sto
end SerRaw
