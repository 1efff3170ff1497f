import Verif.Model.HandKit
import Verif.Spec.HandNested
/-
What the values of the types in Model/HandKit.lean are, in the input and in the output.
-/
namespace SerRaw

/-- A struct: its fields `gs`. -/
def fieldsView (gs : List Field) : HandView := fun rd _ a => (decodeEach rd a gs).map .struct

/-- A boxed slice: a pointer to the first element and the number of elements. -/
def sliceView (A : Arch) (P : Prog) (u : TyId) : HandView := fun rd m a => do
  let ptr ← readWord A m a
  let len ← readWord A m (a + A.ptrBytes)
  if ptr ≠ 0 ∧ ptr % (P.layout u).align = 0 ∧ (P.layout u).size * len ≤ A.isizeMax ∧ ptr + (P.layout u).size * len < A.usizeMod then
    let vs ← decodeEach rd ptr (elems P u len)
    pure (.vec vs)
  else none

/-- `MyString` as the deserializer of ser_raw/src/serializer.rs:385-387 finds it: where the pointer points there is the length, and after it the
bytes. -/
def inlineStrView (A : Arch) (P : Prog) : HandView := fun _ m a => do
  let ptr ← readWord A m (a + P.stringOrder.ptrIx * A.ptrBytes)
  if ptr ≠ 0 ∧ ptr % A.ptrBytes = 0 then
    let len ← readWord A m ptr
    let bs ← readBytes m (ptr + A.ptrBytes) len
    pure (.str bs)
  else none

end SerRaw
