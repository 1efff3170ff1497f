import Verif.Model.Script
import Verif.Spec.Basic
/-
The rules a hand-written `Serialize` implementation has to follow (ser_raw/src/serialize.rs:30-96 and the safety sections of
ser_raw/src/serializer.rs:270-486): push real slices, give addresses inside the value being processed, and rewrite nothing twice.
-/
namespace SerRaw

/-! ### Well-formed scripts -/

/-- The allocation being processed: input address, size and alignment. -/
structure Ctx where
  ia : Nat
  sz : Nat
  al : Nat

/-- A pushed slice is a real slice (possibly empty) of non-zero-sized elements that the storage accepts. Its address is not
restricted: an address `≥ 2^bits` cannot be that of anything in `im`'s program, and so can stand for a temporary. -/
structure PushOK (C : Cfg) (L : Layout) (len src : Nat) : Prop where
  size_ne : L.size ≠ 0
  pow2 : Pow2 L.align
  align_le : L.align ≤ C.maxValueAlign
  size_le : L.size * len ≤ C.arch.isizeMax

/-- `n` bytes at input address `x` are inside the current allocation, at a word-aligned offset. -/
structure TouchOK (C : Cfg) (c : Ctx) (x n : Nat) : Prop where
  lo : c.ia ≤ x
  hi : x + n ≤ c.ia + c.sz
  al : C.arch.ptrBytes ∣ c.al
  off : C.arch.ptrBytes ∣ x - c.ia

/-- The byte ranges of the current allocation a script rewrites. -/
def Script.touch (A : Arch) : Script → List (Nat × Nat)
  | .done => []
  | .pushProcess _ _ _ ptr _ rest => (ptr, A.ptrBytes) :: rest.touch A
  | .push _ _ _ ptr rest => (ptr, A.ptrBytes) :: rest.touch A
  | .pushRaw _ _ _ rest => rest.touch A
  | .overwrite a L _ rest => (a, L.size) :: rest.touch A

/-- A correction: a non-zero-sized value, inside the current allocation, at an offset aligned for its type. -/
structure OverOK (c : Ctx) (x : Nat) (L : Layout) : Prop where
  size_ne : L.size ≠ 0
  pow2 : Pow2 L.align
  lo : c.ia ≤ x
  hi : x + L.size ≤ c.ia + c.sz
  al : L.align ∣ c.al
  off : L.align ∣ x - c.ia

/-- Well-formed scripts: slices are real, pointers and overwrites are inside the current allocation, and no pointer is
rewritten after it was written (neither as a pointer nor by an overwrite; other bytes may be overwritten repeatedly). -/
def Script.WF (C : Cfg) : Script → Ctx → Prop
  | .done, _ => True
  | .pushProcess L len src ptr inner rest, c =>
    PushOK C L len src ∧ TouchOK C c ptr C.arch.ptrBytes ∧
    (∀ t ∈ rest.touch C.arch, DisjRange ptr C.arch.ptrBytes t.1 t.2) ∧
    inner.WF C ⟨src, L.size * len, L.align⟩ ∧ rest.WF C c
  | .push L len src ptr rest, c =>
    PushOK C L len src ∧ TouchOK C c ptr C.arch.ptrBytes ∧
    (∀ t ∈ rest.touch C.arch, DisjRange ptr C.arch.ptrBytes t.1 t.2) ∧ rest.WF C c
  | .pushRaw L len src rest, c => PushOK C L len src ∧ rest.WF C c
  | .overwrite a L _ rest, c => OverOK c a L ∧ rest.WF C c

end SerRaw
