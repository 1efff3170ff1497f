import Verif.Model.Script
import Verif.Model.Caught
/-
Hand-written `Serialize` implementations (ser_raw/src/serialize.rs:97-102) that catch panics themselves, in the middle of
`serialize_data`, and go on with other calls on the same serializer — `catch_unwind(AssertUnwindSafe(|| …))`, which is safe code. The panics are
their own (at any depth of `push_and_process*` closures) and those of the storage when its capacity limit is reached
(ser_raw/src/storage/aligned_vec.rs:271-306).
-/
namespace SerRaw

/-- What an implementation does on a given value — ser_raw/src/serialize.rs:97-102. -/
inductive ACalls
  | done
  /-- the implementation panics -/
  | panic
  /-- `serializer.push_and_process_slice(slice, ptr_addr, |s| inner)`, and `push_and_process` with `len = 1`
      — ser_raw/src/serializer.rs:312-342 -/
  | pushProcess (L : Layout) (len src ptr : Nat) (inner rest : ACalls)
  /-- `serializer.push_slice(slice, ptr_addr)`, and `push` with `len = 1` — ser_raw/src/serializer.rs:282-299 -/
  | push (L : Layout) (len src ptr : Nat) (rest : ACalls)
  /-- `serializer.push_raw_slice(slice)`, `push_raw` and `push_raw_bytes` — ser_raw/src/serializer.rs:352-408 -/
  | pushRaw (L : Layout) (len src : Nat) (rest : ACalls)
  /-- `serializer.overwrite_with(|s| s.overwrite(addr, &value))` — ser_raw/src/serializer.rs:455-486 -/
  | overwrite (addr : Nat) (L : Layout) (data : Nat → Cell) (rest : ACalls)
  /-- `match catch_unwind(|| inner) { Ok(_) => ifOk, Err(_) => ifPanicked }`. With `restore`, the implementation keeps a copy of
      `serializer.pos_mapping()` and puts it back with `set_pos_mapping` after a panic — ser_raw/src/serializer_traits/pos_tracking.rs:12-15
      (there is nothing to put back in a `PureCopySerializer`). -/
  | attempt (restore : Bool) (inner ifOk ifPanicked : ACalls)

/-- What runs after a panic was caught: `set_pos_mapping(saved)` — ser_raw/src/serializer_traits/pos_tracking.rs:15, and then the rest. -/
def afterPanic (k : Kind) (restore : Bool) (saved : PosMapping) (rest : M Ser Unit) : M Ser Unit := do
  (if restore = true ∧ k ≠ .pureCopy then Ser.setMap saved else pure ())
  rest

/-- Run the calls on a serializer of kind `k` — the methods are those of Model/Serializer.lean — ser_raw/src/serialize.rs:97-102. -/
def ACalls.run (C : Cfg) (k : Kind) (im : Mem) : ACalls → M Ser Unit
  | .done => pure ()
  | .panic => M.throw .user
  | .pushProcess L len src ptr inner rest => do
    let _ ← pushAndProcessSlice C k ⟨L, len, src, fun i => im (src + i)⟩ (addrFromRef k ptr) (inner.run C k im)
    rest.run C k im
  | .push L len src ptr rest => do
    let _ ← pushSlice C k ⟨L, len, src, fun i => im (src + i)⟩ (addrFromRef k ptr)
    rest.run C k im
  | .pushRaw L len src rest => do
    let _ ← pushRawSlice C ⟨L, len, src, fun i => im (src + i)⟩
    rest.run C k im
  | .overwrite addr L data rest => do
    overwriteWith k (SerRaw.overwrite C k (addrFromRef k addr) L data)
    rest.run C k im
  | .attempt restore inner ifOk ifPanicked => do
    let saved ← Ser.getMap
    let r ← M.caught (inner.run C k im)
    if r.isSome then ifOk.run C k im else afterPanic k restore saved (ifPanicked.run C k im)

/-- A value of layout `L` at address `a` of memory `im`, and what its `serialize_data` does — ser_raw/src/serialize.rs:97-102. -/
structure ACall where
  im : Mem
  L : Layout
  a : Nat
  calls : ACalls

/-- `serializer.serialize_value(&v)` — ser_raw/src/serializer.rs:260-269. -/
def ACall.ser (C : Cfg) (k : Kind) (r : ACall) : M Ser Nat :=
  serializeValue C k r.L r.a (fun i => r.im (r.a + i)) (r.calls.run C k r.im)

/-- `catch_unwind(|| serializer.serialize_value(&v₁)); catch_unwind(|| serializer.serialize_value(&v₂)); …` —
ser_raw/src/serializer.rs:260-269. -/
def attemptsCaught (C : Cfg) (k : Kind) : List ACall → M Ser (List (Option Nat))
  | [] => pure []
  | r :: rs => do
    let p ← M.caught (r.ser C k)
    let ps ← attemptsCaught C k rs
    pure (p :: ps)

/-- The calls above followed by `serializer.finalize()` — ser_raw/src/serializer.rs:491-493. -/
def attemptSession (C : Cfg) (k : Kind) (rs : List ACall) : M Ser (List (Option Nat)) := do
  let ps ← attemptsCaught C k rs
  finalize C k
  pure ps

end SerRaw
