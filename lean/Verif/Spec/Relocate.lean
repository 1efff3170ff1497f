import Verif.Spec.Size
/-
Moving a finished output to another place: a plain copy of the bytes in which the pointer words are adjusted. Nothing here refers
to serializers or storages.
-/
namespace SerRaw

/-- The pointer words of several values of an output, each value with the position it is at. -/
def pointersOf (A : Arch) (P : Prog) (va : Nat) : List ((TyId × Val) × Nat) → List (Nat × Nat)
  | [] => []
  | ((t, v), p) :: xs => v.pointersAt A P va t p ++ pointersOf A P va xs

/-- `dm` has at address `B` a copy of the positions `lo..hi` of the output `out` in which the words at the positions `ptrs` are
adjusted: what pointed `d` bytes behind `old` now points `d` bytes behind `B`. -/
structure MovedTo (A : Arch) (out dm : Mem) (lo hi old B : Nat) (ptrs : List (Nat × Nat)) : Prop where
  /-- Pointer words are adjusted. -/
  word : ∀ x ∈ ptrs, ∀ w, readWord A out x.1 = some w → readWord A dm (B + x.1) = some (w - old + B)
  /-- All other bytes are copied. -/
  same : ∀ i, lo ≤ i → i < hi → (∀ x ∈ ptrs, i < x.1 ∨ x.1 + A.ptrBytes ≤ i) → dm (B + i) = out i

/-- `dm` has at address `B` a copy of the positions `lo..hi` of the output `out` in which the pointer words, whatever they held, are filled
in from the list. -/
structure FilledAt (A : Arch) (out dm : Mem) (lo hi B : Nat) (ptrs : List (Nat × Nat)) : Prop where
  /-- Pointer words are filled in. -/
  word : ∀ x ∈ ptrs, readWord A dm (B + x.1) = some (B + x.2)
  /-- All other bytes are copied. -/
  same : ∀ i, lo ≤ i → i < hi → (∀ x ∈ ptrs, i < x.1 ∨ x.1 + A.ptrBytes ≤ i) → dm (B + i) = out i

/-- Adjust the pointer at `B + q`. -/
def rebaseWord (A : Arch) (old B : Nat) (m : Mem) (q : Nat) : Mem :=
  match readWord A m (B + q) with
  | some w => m.blit (B + q) A.ptrBytes (wordCells A (w - old + B))
  | none => m

/-- A program that moves an output in place: after copying it to `B`, adjust its pointers one after the other. -/
def rebase (A : Arch) (old B : Nat) : List (Nat × Nat) → Mem → Mem
  | [], m => m
  | x :: l, m => rebase A old B l (rebaseWord A old B m x.1)

end SerRaw
