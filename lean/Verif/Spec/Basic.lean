import Verif.Model.Storage
/-
Small specification vocabulary: rounding up, powers of two, a storage's contents, legal configurations, and what the
global allocator promises. Nothing here refers to how the crate computes anything.
-/
namespace SerRaw

/-- The least multiple of `a` that is `≥ n` (for `a > 0`). -/
def roundUp (n a : Nat) : Nat := (n + (a - 1)) / a * a

/-- Powers of two. -/
def Pow2 (n : Nat) : Prop := ∃ e, n = 2 ^ e

/-- The contents of a storage: the cell at every position below the capacity. -/
def Sto.view (s : Sto) : Mem := fun i =>
  match s.w.live with
  | [] => none
  | b :: _ => if i < b.size then b.data i else none

/-- The global allocator's promise: a non-null result is aligned and the block does not reach the end of the address
space (`base + size ≤ usize::MAX`, std's "allocated object" rule). Failures (null) may happen at any time. -/
def Cfg.AllocOK (C : Cfg) : Prop :=
  ∀ n L, C.alloc n L ≠ 0 → C.alloc n L % L.align = 0 ∧ C.alloc n L + L.size < C.arch.usizeMod

/-- The allocator never fails a request the storage type can make. -/
def Cfg.NeverFails (C : Cfg) : Prop :=
  ∀ n size, 0 < size → size ≤ C.maxCapacity → C.alloc n ⟨size, C.storageAlign⟩ ≠ 0

/-- A storage type that compiles, on a supported target, with an allocator that keeps its promise. -/
structure Cfg.OK (C : Cfg) : Prop where
  arch : C.arch.Valid
  valid : C.assertAlignmentsValid = true
  alloc : C.AllocOK

end SerRaw
