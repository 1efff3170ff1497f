import Verif.Model.UserImpl
import Verif.Model.Caught
/-
Hand-written `Serialize` implementations (ser_raw/src/serialize.rs:97-102) that panic, at any point of their sequence of calls and at any
depth of `push_and_process*` closures, under a caller that catches the panic and goes on with the same serializer.
-/
namespace SerRaw

/-- A sequence of calls that ends in a panic of the implementation — ser_raw/src/serialize.rs:97-102. -/
inductive Stop
  /-- the panic -/
  | here
  /-- the calls of `sc`, all of which return, and then the rest -/
  | after (sc : Script) (rest : Stop)
  /-- `serializer.push_and_process_slice(slice, ptr_addr, |s| inner)`, and `push_and_process` with `len = 1`, where the closure
      panics — ser_raw/src/serializer.rs:312-342 -/
  | inside (L : Layout) (len src ptr : Nat) (inner : Stop)

/-- Run the calls on a serializer of kind `k` — the methods are those of Model/Serializer.lean — ser_raw/src/serialize.rs:97-102. -/
def Stop.run (C : Cfg) (k : Kind) (im : Mem) : Stop → M Ser Unit
  | .here => M.throw .user
  | .after sc rest => do
    sc.run C k im
    rest.run C k im
  | .inside L len src ptr inner => do
    let _ ← pushAndProcessSlice C k ⟨L, len, src, fun i => im (src + i)⟩ (addrFromRef k ptr) (inner.run C k im)
    pure ()

/-- What an implementation does on a given value: calls, and then it returns or panics — ser_raw/src/serialize.rs:97-102. -/
inductive Body
  | returns (sc : Script)
  | panics (st : Stop)

/-- `value.serialize_data(serializer)` — ser_raw/src/serialize.rs:97-102. -/
def Body.run (C : Cfg) (k : Kind) (im : Mem) : Body → M Ser Unit
  | .returns sc => sc.run C k im
  | .panics st => st.run C k im

/-- A value of layout `L` at address `a` of memory `im`, and what its `serialize_data` does — ser_raw/src/serialize.rs:97-102. -/
structure UserCall where
  im : Mem
  L : Layout
  a : Nat
  body : Body

/-- `serializer.serialize_value(&v)` — ser_raw/src/serializer.rs:260-269. -/
def UserCall.ser (C : Cfg) (k : Kind) (r : UserCall) : M Ser Nat :=
  serializeValue C k r.L r.a (fun i => r.im (r.a + i)) (r.body.run C k r.im)

/-- `catch_unwind(|| serializer.serialize_value(&v₁)); catch_unwind(|| serializer.serialize_value(&v₂)); …` —
ser_raw/src/serializer.rs:260-269. -/
def userCallsCaught (C : Cfg) (k : Kind) : List UserCall → M Ser (List (Option Nat))
  | [] => pure []
  | r :: rs => do
    let p ← M.caught (r.ser C k)
    let ps ← userCallsCaught C k rs
    pure (p :: ps)

/-- The calls above followed by `serializer.finalize()` — ser_raw/src/serializer.rs:491-493. -/
def userSessionCaught (C : Cfg) (k : Kind) (rs : List UserCall) : M Ser (List (Option Nat)) := do
  let ps ← userCallsCaught C k rs
  finalize C k
  pure ps

end SerRaw
