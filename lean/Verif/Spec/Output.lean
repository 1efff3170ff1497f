import Verif.Spec.Layout
/-
What the user of a finished storage sees, and where the parts of a value belong. Nothing here refers to serializers.
-/
namespace SerRaw

/-- The only memory a consumer of a storage may touch: the addresses `as_ptr() .. as_ptr() + pos()`. -/
def Sto.buffer (s : Sto) : Mem := fun addr =>
  if s.vec.ptr ≤ addr ∧ addr < s.vec.ptr + s.vec.pos then s.w.load addr else none

/-- The bytes of a storage indexed by position, as they would be written to a file. -/
def Sto.bytes (s : Sto) : Mem := fun i => if i < s.vec.pos then s.w.load (s.vec.ptr + i) else none

/-- The blocks a value of layout `L` owning the allocations `as` consists of: itself (unless zero-sized), then its
allocations in depth-first order. -/
def blocksOf (L : Layout) (as : List Own) : List Shape := (if L.size = 0 then [] else [⟨L, 1⟩]) ++ as.map Own.shape

/-- `xs` are the blocks of the value of type `t` at `a`. -/
def Blocks (A : Arch) (P : Prog) (m : Mem) (t : TyId) (a : Nat) (xs : List Shape) : Prop :=
  ∃ n as, owned A P m n t a = some as ∧ xs = blocksOf (P.layout t) as

/-- Position `i` is inside one of the blocks placed from `p` on (and not in the gap between two blocks). -/
def InBlock (va p : Nat) (xs : List Shape) (i : Nat) : Prop :=
  ∃ z ∈ xs.zip (place va p xs), z.2 ≤ i ∧ i < z.2 + z.1.bytes

/-- In-order reading of a whole value when the output so far ends at `p`: value and new end. -/
def seqRoot (A : Arch) (P : Prog) (va : Nat) (m : Mem) (n : Nat) (t : TyId) (p : Nat) : Option (Val × Nat) :=
  if (P.layout t).size = 0 then decodeSeq A P va m n t 0 p
  else decodeSeq A P va m n t (nextBlock va p ⟨P.layout t, 1⟩).1 (nextBlock va p ⟨P.layout t, 1⟩).2

/-- In-order reading of several values. -/
def seqRoots (A : Arch) (P : Prog) (va : Nat) (m : Mem) (n : Nat) : List TyId → Nat → Option (List Val × Nat)
  | [], p => some ([], p)
  | t :: ts, p => do
    let (v, p1) ← seqRoot A P va m n t p
    let (vs, p2) ← seqRoots A P va m n ts p1
    pure (v :: vs, p2)

end SerRaw
