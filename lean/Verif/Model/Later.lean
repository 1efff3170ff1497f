import Verif.Model.Reach
/-
What can happen to a storage after something was written to it: further operations and further serializer sessions on the same
storage (`from_storage(storage)` or `from_storage(&mut storage)`, ser_raw/src/serializers/complete.rs:138-144).
-/
namespace SerRaw

/-- The operation does not touch the first `n` bytes by design: it is not `clear`, and not a random-access write below `n` —
ser_raw/src/storage/mod.rs:186-520. -/
def SOp.Spares (n : Nat) : SOp → Prop
  | .clear => False
  | .writeSlice p _ _ _ => n ≤ p
  | _ => True

/-- `Later C P t t'`: further storage operations (other than `clear` and writes into what `t` holds) and serializer sessions of any
kind, any of them possibly panicking, lead from `t` to `t'`. Storage operations: Model/History.lean. Sessions: Model/Session.lean,
Model/Caught.lean — ser_raw/src/storage/mod.rs:186-520, ser_raw/src/serializer.rs:217-269. -/
inductive Later (C : Cfg) (P : Prog) (t : Sto) : Sto → Prop
  | refl : Later C P t t
  | op {u o p u'} : Later C P t u → SOp.Legal C u o → o.Spares t.vec.pos → SOp.run C o u = .ok p u' → Later C P t u'
  | opPanic {u o k u'} : Later C P t u → SOp.Legal C u o → o.Spares t.vec.pos → SOp.run C o u = .panic k u' → Later C P t u'
  | session {u k fuel rs ps s'} : Later C P t u → (∀ r ∈ rs, Valid C.arch P r) →
      SerRaw.session C k P fuel rs (Ser.fromStorage u) = .ok ps s' → Later C P t s'.sto
  | sessionPanic {u k fuel rs pk s'} : Later C P t u → (∀ r ∈ rs, Valid C.arch P r) →
      SerRaw.session C k P fuel rs (Ser.fromStorage u) = .panic pk s' → Later C P t s'.sto
  | caught {u k fuel rs ps s'} : Later C P t u → (∀ r ∈ rs, Valid C.arch P r) →
      sessionCaught C k P fuel rs (Ser.fromStorage u) = .ok ps s' → Later C P t s'.sto
  | dropped {u k fuel rs ps s'} : Later C P t u → (∀ r ∈ rs, Valid C.arch P r) →
      serValuesCaught C k P fuel rs (Ser.fromStorage u) = .ok ps s' → Later C P t s'.sto

end SerRaw
