import Verif.Model.Script
import Verif.Spec.Basic
/-
Reference serializer: what the output of a script should be, described without buffers that move, pointer records,
debug checks or failure. Output is a byte memory indexed by position; allocations are laid out in depth-first pre-order;
each is placed at the current end rounded up to its alignment, and the end is then rounded up to `va`.
-/
namespace SerRaw

/-- What a serializer does to the copies it makes: write pointers as `base + position` (or leave them), and apply the
`overwrite` calls (or ignore them). -/
structure Mode where
  ptrBase : Option Nat
  fixup : Bool

/-- The mode of each kind; `B` is the address of the buffer (only relevant to `complete`). -/
def Kind.mode (B : Nat) : Kind → Mode
  | .pureCopy | .posTracking => ⟨none, false⟩
  | .ptrOffset => ⟨some 0, false⟩
  | .complete => ⟨some B, true⟩

/-- Write pointer `B + target` at position `x`, if the mode writes pointers. -/
def Mode.putPtr (A : Arch) (md : Mode) (m : Mem) (x target : Nat) : Mem :=
  match md.ptrBase with
  | none => m
  | some B => m.blit x A.ptrBytes (wordCells A (B + target))

/-- Apply an overwrite, if the mode does. -/
def Mode.putValue (md : Mode) (m : Mem) (x n : Nat) (data : Nat → Cell) : Mem :=
  if md.fixup then m.blit x n data else m

/-- Position of the copy of input address `x`, in an allocation that starts at `ia` and was copied to `op`. -/
def outPos (ia op x : Nat) : Nat := op + (x - ia)

/-- Reference output: contents and end position after running a script in the context of an allocation with input
address `ia` and output position `op`, from contents and end position `st`. -/
def Script.ideal (A : Arch) (va : Nat) (md : Mode) (im : Mem) : Script → (ia op : Nat) → Mem × Nat → Mem × Nat
  | .done, _, _, st => st
  | .pushProcess L len src ptr inner rest, ia, op, st =>
    let pos := roundUp st.2 L.align
    let m1 := st.1.blit pos (L.size * len) fun i => im (src + i)
    let m2 := md.putPtr A m1 (outPos ia op ptr) pos
    let st3 := inner.ideal A va md im src pos (m2, roundUp (pos + L.size * len) va)
    rest.ideal A va md im ia op st3
  | .push L len src ptr rest, ia, op, st =>
    let pos := roundUp st.2 L.align
    let m1 := st.1.blit pos (L.size * len) fun i => im (src + i)
    let m2 := md.putPtr A m1 (outPos ia op ptr) pos
    rest.ideal A va md im ia op (m2, roundUp (pos + L.size * len) va)
  | .pushRaw L len src rest, ia, op, st =>
    let pos := roundUp st.2 L.align
    let m1 := st.1.blit pos (L.size * len) fun i => im (src + i)
    rest.ideal A va md im ia op (m1, roundUp (pos + L.size * len) va)
  | .overwrite a L data rest, ia, op, st =>
    rest.ideal A va md im ia op (md.putValue st.1 (outPos ia op a) L.size data, st.2)

/-- Position returned by `serialize_value` for a value of layout `L` when the output ends at `pos` (0 for zero-sized values). -/
def rootPos (L : Layout) (pos : Nat) : Nat := if L.size = 0 then 0 else roundUp pos L.align

/-- Reference output of one `serialize_value`. -/
def rootIdeal (A : Arch) (va : Nat) (md : Mode) (L : Layout) (im : Mem) (a : Nat) (sc : Script) (st : Mem × Nat) : Mem × Nat :=
  if L.size = 0 then st
  else sc.ideal A va md im a (roundUp st.2 L.align)
    (st.1.blit (roundUp st.2 L.align) L.size (fun i => im (a + i)), roundUp (roundUp st.2 L.align + L.size) va)

end SerRaw
