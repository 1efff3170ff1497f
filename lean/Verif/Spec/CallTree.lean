import Verif.Model.AnySerializer
import Verif.Model.Script
/-
What a `Serialize` implementation of the crate asks of a serializer: a fixed tree of method calls with their arguments. `CallTree.run` makes the
calls on a given implementation of the trait.
-/
namespace SerRaw

/-- `serializer.overwrite(S::Addr::from_ref(x), &value)` for an `x` at `a` (`off = none`), or with `from_ref_offset(x, off)`; the value has layout
`L` and bytes `data`. -/
structure Correction where
  a : Nat
  off : Option Nat
  L : Layout
  data : Nat → Cell

/-- The address the correction applies to. -/
def Correction.addr (c : Correction) : Nat := c.a + c.off.getD 0

inductive CallTree
  | done
  /-- `push_and_process(value, from_ref(x), |s| inner)`, `value` of layout `L` at `target`, `x` at `a` -/
  | process (L : Layout) (target a : Nat) (inner rest : CallTree)
  /-- `push_and_process_slice(slice, from_ref_offset(x, off), |s| inner)`, `slice` of `len` elements of layout `L` at `src`, `x` at `a` -/
  | processSlice (L : Layout) (len src a off : Nat) (inner rest : CallTree)
  /-- `push_slice(slice, from_ref_offset(x, off))` -/
  | pushSlice (L : Layout) (len src a off : Nat) (rest : CallTree)
  /-- `overwrite_with(|s| …)`, the closure making the given corrections in order -/
  | overwriteWith (cs : List Correction) (rest : CallTree)

section
variable {τ α : Type} (S : SerializerImpl τ α)

/-- Make a correction on a serializer. -/
def Correction.run (c : Correction) : M τ Unit :=
  match c.off with
  | none => S.overwrite (S.fromRef c.a) c.L c.data
  | some off => do
    let x ← S.fromRefOffset c.a off
    S.overwrite x c.L c.data

/-- Make some corrections on a serializer, in order. -/
def corrections : List Correction → M τ Unit
  | [] => pure ()
  | c :: cs => do
    c.run S
    corrections cs

/-- Make the calls on a serializer; the values are in memory `im`. -/
def CallTree.run (im : Mem) : CallTree → M τ Unit
  | .done => pure ()
  | .process L target a inner rest => do
    let _ ← S.pushAndProcess L target (fun i => im (target + i)) (S.fromRef a) (inner.run im)
    rest.run im
  | .processSlice L len src a off inner rest => do
    let x ← S.fromRefOffset a off
    let _ ← S.pushAndProcessSlice ⟨L, len, src, fun i => im (src + i)⟩ x (inner.run im)
    rest.run im
  | .pushSlice L len src a off rest => do
    let x ← S.fromRefOffset a off
    let _ ← S.pushSlice ⟨L, len, src, fun i => im (src + i)⟩ x
    rest.run im
  | .overwriteWith cs rest => do
    S.overwriteWith (corrections S cs)
    rest.run im

end

/-- No `from_ref_offset` goes past the end of the address space. -/
def CallTree.InRange (A : Arch) : CallTree → Prop
  | .done => True
  | .process _ _ _ inner rest => inner.InRange A ∧ rest.InRange A
  | .processSlice _ _ _ a off inner rest => a + off < A.usizeMod ∧ inner.InRange A ∧ rest.InRange A
  | .pushSlice _ _ _ a off rest => a + off < A.usizeMod ∧ rest.InRange A
  | .overwriteWith cs rest => (∀ c ∈ cs, c.addr < A.usizeMod) ∧ rest.InRange A

/-- The calls as a script (Model/Script.lean): the same calls up to the choice between `push_and_process` and a slice of one element, and
between `from_ref` and `from_ref_offset`. -/
def CallTree.toScript : CallTree → Script
  | .done => .done
  | .process L target a inner rest => .pushProcess L 1 target a inner.toScript rest.toScript
  | .processSlice L len src a off inner rest => .pushProcess L len src (a + off) inner.toScript rest.toScript
  | .pushSlice L len src a off rest => .push L len src (a + off) rest.toScript
  | .overwriteWith cs rest => cs.foldr (fun c sc => .overwrite c.addr c.L c.data sc) rest.toScript

end SerRaw
