import Verif.Model.Storage
/-
Histories of a storage: construction followed by any number of operations of its API, each of which may panic; a panic can
be caught and the storage used further.
-/
namespace SerRaw

/-- Operations of `Storage` / `RandomAccessStorage` — ser_raw/src/storage/mod.rs:249-500. `push`, `push_bytes`, `push_empty`
and `write` are the instances with one element (or layout `⟨1, 1⟩`) — ser_raw/src/storage/mod.rs:249-251, 297-299, 337-339, 485-487. -/
inductive SOp
  | pushSlice (L : Layout) (len : Nat) (data : Nat → Cell)
  | pushEmptySlice (L : Layout) (len : Nat)
  | reserve (n : Nat)
  | alignFor (L : Layout)
  | alignAfter (L : Layout)
  | alignAfterAny
  | clear
  | shrinkToFit
  | writeSlice (p : Nat) (L : Layout) (len : Nat) (data : Nat → Cell)

/-- Perform an operation; the result is the returned position, or 0 for operations that return nothing.
Definitions: Model/Storage.lean — ser_raw/src/storage/mod.rs:186-520. -/
def SOp.run (C : Cfg) : SOp → M Sto Nat
  | .pushSlice L len data => Sto.pushSlice C L len data
  | .pushEmptySlice L len => Sto.pushEmptySlice C L len
  | .reserve n => do Sto.reserve C n; pure 0
  | .alignFor L => do Sto.alignFor C L; pure 0
  | .alignAfter L => do Sto.alignAfter C L; pure 0
  | .alignAfterAny => do Sto.alignAfterAny C; pure 0
  | .clear => do Sto.clear C; pure 0
  | .shrinkToFit => do Sto.shrinkToFit C; pure 0
  | .writeSlice p L len data => do Sto.writeSlice C p L len data; pure 0

/-- Layouts of Rust types: power-of-two alignment dividing the size —
what rustc guarantees of `mem::size_of` and `mem::align_of`, e.g. ser_raw/src/storage/mod.rs:263, 391. -/
def Layout.OK (L : Layout) : Prop := (∃ e, L.align = 2 ^ e) ∧ L.align ∣ L.size

/-- Calls that Rust code can make: types are real and (except for zero-sized ones, which are not stored) accepted by the
storage's compile-time alignment check; slices have at most `isize::MAX` bytes; `usize` arguments are in range;
`write_slice` is called within its documented safety contract (ser_raw/src/storage/mod.rs:489-499).
The last condition of `pushSlice` and `writeSlice` excludes one thing the API permits: passing an *empty* slice of a type
with alignment > 1 to a storage that owns no memory (see `C05_empty_slice_ub`); `L.align ≤ C.storageAlign` in `writeSlice` is
likewise missing from the documented contract (see `C19_overaligned_ub`). -/
def SOp.Legal (C : Cfg) (s : Sto) : SOp → Prop
  | .pushSlice L len _ => L.OK ∧ (L.size ≠ 0 → C.accepts L = true) ∧ L.size * len ≤ C.arch.isizeMax ∧
      (L.size = 0 ∨ 0 < len ∨ 0 < s.vec.capacity ∨ L.align = 1)
  | .pushEmptySlice L len => L.OK ∧ C.accepts L = true ∧ len < C.arch.usizeMod
  | .reserve n => n < C.arch.usizeMod
  | .alignFor L | .alignAfter L => L.OK ∧ C.accepts L = true
  | .alignAfterAny | .clear | .shrinkToFit => True
  | .writeSlice p L len _ => L.OK ∧ p + L.size * len ≤ s.vec.capacity ∧ L.align ∣ p ∧
      (L.size = 0 ∨ (L.align ≤ C.storageAlign ∧ (0 < s.vec.capacity ∨ L.align = 1)))

/-- One operation of a history and its result (`none`: it panicked) — ser_raw/src/storage/mod.rs:186-520. -/
structure SEvent where
  op : SOp
  res : Option Nat

/-- `Hist C es s`: a storage created by `new` or `with_capacity`, on which the operations `es` were then performed, some of
them panicking, is now in state `s`. (An allocation failure aborts the process, so it ends a history.) — ser_raw/src/storage/mod.rs:186-520. -/
inductive Hist (C : Cfg) : List SEvent → Sto → Prop
  | new : Hist C [] Sto.new
  | withCapacity {c s} : c < C.arch.usizeMod → Sto.withCapacity C c Sto.new = .ok () s → Hist C [] s
  | ok {es s op p s'} : Hist C es s → op.Legal C s → op.run C s = .ok p s' → Hist C (es ++ [⟨op, some p⟩]) s'
  | panic {es s op k s'} : Hist C es s → op.Legal C s → op.run C s = .panic k s' → Hist C (es ++ [⟨op, none⟩]) s'

end SerRaw
