import Verif.Model.Reach
import Verif.Model.UserPanic
import Verif.Spec.User
/-
One serializer used for everything at once, between creation and `finalize`: `serialize_value` on values with the crate's own and
derived implementations, `serialize_value` on values with hand-written implementations (which may panic), and direct storage
operations through `storage_mut()` (ser_raw/src/serializer.rs:260-269, 508-511), in any order, with panics caught by the caller.
-/
namespace SerRaw

/-- Something done with a serializer — ser_raw/src/serializer.rs:260-436. -/
inductive Act
  /-- `serializer.serialize_value(&v)` with the crate's own and derived implementations — ser_raw/src/serializer.rs:260-269 -/
  | typed (r : Root)
  /-- the same with a hand-written implementation -/
  | user (r : UserCall)
  /-- `serializer.storage_mut().op(…)` — ser_raw/src/serializer.rs:511 -/
  | sto (o : SOp)

/-- Do it — Model/Impls.lean, Model/UserPanic.lean, Model/History.lean. The result is the returned position, if there is one —
ser_raw/src/serializer.rs:260-436. -/
def Act.run (C : Cfg) (k : Kind) (P : Prog) (fuel : Nat) : Act → M Ser Nat
  | .typed r => serValue C k P r.im fuel r.t r.a
  | .user r => r.ser C k
  | .sto o => Ser.lift (o.run C)

/-- It is a `serialize_value` call — ser_raw/src/serializer.rs:260-269. -/
def Act.IsValue : Act → Prop
  | .typed _ | .user _ => True
  | .sto _ => False

/-- What was done, the result (`none`: it panicked, and the panic was caught), and the storage's position before and after —
ser_raw/src/serializer.rs:260-436. -/
structure Ev where
  act : Act
  res : Option Nat
  lo : Nat
  hi : Nat

/-- Byte `i` is written by the event, a random-access write — ser_raw/src/storage/mod.rs:485-520. -/
def Ev.Writes (e : Ev) (i : Nat) : Prop :=
  ∃ p L len d, e.act = .sto (.writeSlice p L len d) ∧ p ≤ i ∧ i < p + L.size * len

/-- What is permitted after `es`: valid values; hand-written implementations that follow the rules; storage operations within their
contract, but no `clear`, and no random-access write over the output of a `serialize_value` call. (Reserving a header with
`push_empty` and writing it later is permitted.) — ser_raw/src/serializer.rs:260-436. -/
def Act.Legal (C : Cfg) (P : Prog) (es : List Ev) (s : Ser) : Act → Prop
  | .typed r => Valid C.arch P r
  | .user r => r.OK C
  | .sto o => o.Legal C s.sto ∧ o ≠ .clear ∧
      ∀ p L len d, o = .writeSlice p L len d → ∀ e ∈ es, e.act.IsValue → e.hi ≤ p ∨ p + L.size * len ≤ e.lo

/-- `Sess C k P t es s`: a serializer of kind `k` created from the storage `t` (`from_storage`, ser_raw/src/serializers/complete.rs:138-144), after `es`. -/
inductive Sess (C : Cfg) (k : Kind) (P : Prog) (t : Sto) : List Ev → Ser → Prop
  | start : Sess C k P t [] (Ser.fromStorage t)
  | step {es s a fuel r s'} : Sess C k P t es s → a.Legal C P es s → M.caught (a.run C k P fuel) s = .ok r s' →
      Sess C k P t (es ++ [⟨a, r, s.sto.vec.pos, s'.sto.vec.pos⟩]) s'

/-- `GReach C P t`: storage operations and serializers of any kinds used in any of the ways above, finished or dropped, lead to `t` —
ser_raw/src/serializer.rs:186-520. -/
inductive GReach (C : Cfg) (P : Prog) : Sto → Prop
  | new : GReach C P Sto.new
  | withCapacity {c t} : c < C.arch.usizeMod → Sto.withCapacity C c Sto.new = .ok () t → GReach C P t
  | op {t o p t'} : GReach C P t → SOp.Legal C t o → SOp.run C o t = .ok p t' → GReach C P t'
  | opPanic {t o k t'} : GReach C P t → SOp.Legal C t o → SOp.run C o t = .panic k t' → GReach C P t'
  /-- `serializer.finalize()` — ser_raw/src/serializer.rs:491-493 -/
  | finished {t k es s s'} : GReach C P t → Sess C k P t es s → finalize C k s = .ok () s' → GReach C P s'.sto
  /-- a serializer on a borrowed storage dropped without `finalize` -/
  | dropped {t k es s} : GReach C P t → Sess C k P t es s → GReach C P s.sto

end SerRaw
