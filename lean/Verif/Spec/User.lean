import Verif.Model.UserPanic
import Verif.Spec.Ideal
import Verif.Spec.Discipline
/-
What is required of hand-written `Serialize` implementations, and the reference output of sessions that use them.
-/
namespace SerRaw

/-- The value is real (non-zero-sized, accepted by the storage) and its `serialize_data` follows the rules. -/
def UserRoot.OK (C : Cfg) (r : UserRoot) : Prop := PushOK C r.L 1 r.a ∧ r.sc.WF C ⟨r.a, r.L.size, r.L.align⟩

/-- Reference output of `serialize_value` on each value in turn. -/
def userIdeal (A : Arch) (va : Nat) (md : Mode) : List UserRoot → Mem × Nat → Mem × Nat
  | [], st => st
  | r :: rs, st => userIdeal A va md rs (rootIdeal A va md r.L r.im r.a r.sc st)

/-- Positions at which the values themselves are put. -/
def userPositions (A : Arch) (va : Nat) : List UserRoot → Nat → List Nat
  | [], _ => []
  | r :: rs, p => roundUp p r.L.align :: userPositions A va rs (rootIdeal A va ⟨none, false⟩ r.L r.im r.a r.sc (fun _ => none, p)).2

/-- The calls made before the panic. -/
def Stop.script : Stop → Script
  | .here => .done
  | .after sc rest => sc.app rest.script
  | .inside L len src ptr inner => .pushProcess L len src ptr inner.script .done

/-- The calls made. -/
def Body.script : Body → Script
  | .returns sc => sc
  | .panics st => st.script

/-- The same value with an implementation that makes the same calls and then returns. -/
def UserCall.quiet (r : UserCall) : UserRoot := ⟨r.im, r.L, r.a, r.body.script⟩

/-- What a caught call gives: the position, or nothing if the implementation panicked. -/
def Body.result (p : Nat) : Body → Option Nat
  | .returns _ => some p
  | .panics _ => none

/-- The calls follow the rules, as far as they go. -/
def UserCall.OK (C : Cfg) (r : UserCall) : Prop := r.quiet.OK C

end SerRaw
