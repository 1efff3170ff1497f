import Verif.Spec.Decode
/-
Parts of an output: what is left of a file after a crash. Nothing here refers to serializers or storages.
-/
namespace SerRaw

/-- The first `n` bytes of an output. -/
def Mem.upTo (m : Mem) (n : Nat) : Mem := fun i => if i < n then m i else none

/-- `part` has some of the bytes of `m` and no others: some bytes were lost, none was altered. -/
def Mem.PartOf (part m : Mem) : Prop := ∀ i, part i = none ∨ part i = m i

end SerRaw
