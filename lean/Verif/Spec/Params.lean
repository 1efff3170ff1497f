import Verif.Spec.Basic
/-
The rules the documentation of `Storage` gives for the four const parameters (ser_raw/src/storage/mod.rs:16-89).
-/
namespace SerRaw

/-- As documented: the alignments are powers of two, each at most the one before; the maximum capacity is not 0, is a multiple of the greatest alignment
of values, and at most `isize::MAX + 1` less the alignment of the storage. -/
structure DocumentedParams (A : Arch) (sa mva va max : Nat) : Prop where
  storage : Pow2 sa
  maxValue : Pow2 mva ∧ mva ≤ sa
  value : Pow2 va ∧ va ≤ mva
  max_pos : max ≠ 0
  max_le : max ≤ A.isizeMax + 1 - sa
  max_dvd : mva ∣ max

end SerRaw
