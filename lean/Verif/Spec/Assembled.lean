import Verif.Model.Assembled
import Verif.Spec.Discipline
import Verif.Spec.Ideal
/-
What a deserializer does with recorded corrections, and when it makes no difference that they are applied last.
-/
namespace SerRaw

/-- Apply corrections to an output, in order. -/
def applyFixes (fs : List Fix) (m : Mem) : Mem := fs.foldl (fun m f => m.blit f.pos f.size f.data) m

/-- The addresses of the pointers of the current allocation that a script has rewritten. -/
def Script.slots : Script → List Nat
  | .done => []
  | .pushProcess _ _ _ ptr _ rest => ptr :: rest.slots
  | .push _ _ _ ptr rest => ptr :: rest.slots
  | .pushRaw _ _ _ rest => rest.slots
  | .overwrite _ _ _ rest => rest.slots

/-- No correction covers a pointer that is written after it: corrections may be applied after everything else. -/
def Script.Deferrable (A : Arch) : Script → Prop
  | .done => True
  | .pushProcess _ _ _ _ inner rest => inner.Deferrable A ∧ rest.Deferrable A
  | .push _ _ _ _ rest => rest.Deferrable A
  | .pushRaw _ _ _ rest => rest.Deferrable A
  | .overwrite a L _ rest => (∀ p ∈ rest.slots, DisjRange a L.size p A.ptrBytes) ∧ rest.Deferrable A

/-- The reference mode of a combination as the consumer sees it: corrections have been applied unless they are ignored. -/
def Kit.mode (K : Kit) : Mode := ⟨if K.offsets then some 0 else none, decide (K.fix ≠ .drop)⟩

/-- The reference mode of a combination as far as the storage is concerned: corrections are applied only if the serializer applies them. -/
def Kit.storeMode (K : Kit) : Mode := ⟨if K.offsets then some 0 else none, decide (K.fix = .apply)⟩

end SerRaw
