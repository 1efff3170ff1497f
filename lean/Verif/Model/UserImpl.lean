import Verif.Model.Script
import Verif.Model.History
/-
Serializers used with hand-written implementations of `Serialize`: the calls each one makes are a `Script`
(Model/Script.lean). Sessions as in Model/Session.lean: any number of `serialize_value` calls, then `finalize`
(ser_raw/src/serializer.rs:167-187, 217-221, 260-269, 491-493).
-/
namespace SerRaw

/-- A value of layout `L` at address `a` of memory `im`, whose `serialize_data` makes the calls `sc` — ser_raw/src/serialize.rs:97-102. -/
structure UserRoot where
  im : Mem
  L : Layout
  a : Nat
  sc : Script

/-- `serializer.serialize_value(&v)` — ser_raw/src/serializer.rs:260-269. -/
def UserRoot.ser (C : Cfg) (k : Kind) (r : UserRoot) : M Ser Nat :=
  serializeValue C k r.L r.a (fun i => r.im (r.a + i)) (r.sc.run C k r.im)

/-- `serialize_value` on each value in turn — ser_raw/src/serializer.rs:260-269. -/
def userValues (C : Cfg) (k : Kind) : List UserRoot → M Ser (List Nat)
  | [] => pure []
  | r :: rs => do
    let p ← r.ser C k
    let ps ← userValues C k rs
    pure (p :: ps)

/-- The calls above followed by `serializer.finalize()` — ser_raw/src/serializer.rs:491-493. -/
def userSession (C : Cfg) (k : Kind) (rs : List UserRoot) : M Ser (List Nat) := do
  let ps ← userValues C k rs
  finalize C k
  pure ps

end SerRaw
