import Verif.Model.Caught
import Verif.Model.Serializer
/-
Hand-written `Serialize` implementations that push temporaries: values which exist only while the call that pushes them runs, such as
`&bytes.len()` and `bytes.as_slice()` in the example of `SerializeWith` (ser_raw/src/serialize.rs:111-136). Two temporaries can have
the same address and different contents, so every call carries the bytes its slice has at that moment (in Model/Script.lean
all slices are parts of one memory that does not change).
-/
namespace SerRaw

/-- The calls made by an implementation on a given value — ser_raw/src/serialize.rs:97-136. -/
inductive TCalls
  | done
  /-- `serializer.push_and_process_slice(slice, ptr_addr, |s| inner)`, and `push_and_process` with `len = 1`
      — ser_raw/src/serializer.rs:312-342. The slice is at `src` and its bytes are `data`. -/
  | pushProcess (L : Layout) (len src : Nat) (data : Nat → Cell) (ptr : Nat) (inner rest : TCalls)
  /-- `serializer.push_slice(slice, ptr_addr)`, and `push` with `len = 1` — ser_raw/src/serializer.rs:282-299 -/
  | push (L : Layout) (len src : Nat) (data : Nat → Cell) (ptr : Nat) (rest : TCalls)
  /-- `serializer.push_raw_slice(slice)`, and `push_raw` with `len = 1` — ser_raw/src/serializer.rs:352-367 -/
  | pushRaw (L : Layout) (len src : Nat) (data : Nat → Cell) (rest : TCalls)
  /-- `serializer.push_raw_bytes(bytes)` — ser_raw/src/serializer.rs:406-408 -/
  | pushRawBytes (len : Nat) (data : Nat → Cell) (rest : TCalls)
  /-- `serializer.overwrite_with(|s| s.overwrite(addr, &value))` — ser_raw/src/serializer.rs:455-486 -/
  | overwrite (addr : Nat) (L : Layout) (data : Nat → Cell) (rest : TCalls)

/-- Run the calls on a serializer of kind `k` — the methods are those of Model/Serializer.lean — ser_raw/src/serialize.rs:97-136. -/
def TCalls.run (C : Cfg) (k : Kind) : TCalls → M Ser Unit
  | .done => pure ()
  | .pushProcess L len src data ptr inner rest => do
    let _ ← pushAndProcessSlice C k ⟨L, len, src, data⟩ (addrFromRef k ptr) (inner.run C k)
    rest.run C k
  | .push L len src data ptr rest => do
    let _ ← pushSlice C k ⟨L, len, src, data⟩ (addrFromRef k ptr)
    rest.run C k
  | .pushRaw L len src data rest => do
    let _ ← pushRawSlice C ⟨L, len, src, data⟩
    rest.run C k
  | .pushRawBytes len data rest => do
    let _ ← SerRaw.pushRawBytes C len data
    rest.run C k
  | .overwrite addr L data rest => do
    overwriteWith k (SerRaw.overwrite C k (addrFromRef k addr) L data)
    rest.run C k

/-- A value of layout `L` at address `a` whose bytes are `data`, and the calls its `serialize_data` makes. The value itself may be a
temporary — ser_raw/src/serialize.rs:97-136. -/
structure TRoot where
  L : Layout
  a : Nat
  data : Nat → Cell
  calls : TCalls

/-- `serializer.serialize_value(&v)` — ser_raw/src/serializer.rs:260-269. -/
def TRoot.ser (C : Cfg) (k : Kind) (r : TRoot) : M Ser Nat := serializeValue C k r.L r.a r.data (r.calls.run C k)

/-- `serialize_value` on each value in turn — ser_raw/src/serializer.rs:260-269. -/
def tempValues (C : Cfg) (k : Kind) : List TRoot → M Ser (List Nat)
  | [] => pure []
  | r :: rs => do
    let p ← r.ser C k
    let ps ← tempValues C k rs
    pure (p :: ps)

/-- The calls above followed by `serializer.finalize()` — ser_raw/src/serializer.rs:491-493. -/
def tempSession (C : Cfg) (k : Kind) (rs : List TRoot) : M Ser (List Nat) := do
  let ps ← tempValues C k rs
  finalize C k
  pure ps

end SerRaw
