import Verif.Model.Serializer
import Verif.Model.History
/-
What safe code can do with a serializer: any nesting of the safe methods of `Serializer`
(ser_raw/src/serializer.rs:260-511), with any addresses and any data, and with panics caught at any point
(`std::panic::catch_unwind`) and the serializer used further. `overwrite` (ser_raw/src/serializer.rs:455) and the methods of
`RandomAccessStorage` are `unsafe` and not included. Rust references guarantee only that slices are real.
-/
namespace SerRaw

/-- ser_raw/src/serializer.rs:260-436. -/
inductive SafeCalls
  | done
  /-- `serializer.push_slice(slice, addr)`; `push` with `len = 1` — ser_raw/src/serializer.rs:282-299 -/
  | push (sl : Slice) (addr : Nat) (rest : SafeCalls)
  /-- `serializer.push_and_process_slice(slice, addr, |s| inner)`; `push_and_process` with `len = 1` — ser_raw/src/serializer.rs:312-342 -/
  | pushProcess (sl : Slice) (addr : Nat) (inner rest : SafeCalls)
  /-- a storage operation: `push_raw`, `push_raw_slice`, `push_raw_bytes`, `push_empty`, `push_empty_slice`
      (ser_raw/src/serializer.rs:352-436), or a safe method of `serializer.storage_mut()` (ser_raw/src/serializer.rs:511) -/
  | sto (op : SOp) (rest : SafeCalls)
  /-- `serializer.overwrite_with(|s| inner)` — ser_raw/src/serializer.rs:486 -/
  | overwriteWith (inner rest : SafeCalls)
  /-- `serializer.serialize_value(&v)`, where `v.serialize_data` makes the calls `inner` — ser_raw/src/serializer.rs:260-269 -/
  | serializeValue (L : Layout) (addr : Nat) (data : Nat → Cell) (inner rest : SafeCalls)
  /-- `serializer.set_pos_mapping(m)`, a safe method of the public trait `PosTracking` — ser_raw/src/serializer_traits/pos_tracking.rs:15 -/
  | setMapping (m : PosMapping) (rest : SafeCalls)
  /-- `*serializer.ptrs_mut() = p`, a safe method of the public trait `Complete` — ser_raw/src/serializer_traits/complete.rs:23 -/
  | setPtrs (p : Ptrs) (rest : SafeCalls)
  /-- `catch_unwind(|| inner)` -/
  | catchUnwind (inner rest : SafeCalls)

/-- `catch_unwind`: a panic of `x` is dropped and execution goes on in the state it left — around any method of ser_raw/src/serializer.rs. -/
def catchPanic {σ} (x : M σ Unit) : M σ Unit := fun s =>
  match x s with
  | .panic _ s' => .ok () s'
  | o => o

/-- Make the calls. Addresses are `Addr` values obtained from references (ser_raw/src/serializer.rs:26-50, ser_raw/src/pos.rs:92-140), which the
kinds without tracking ignore. -/
def SafeCalls.run (C : Cfg) (k : Kind) : SafeCalls → M Ser Unit
  | .done => pure ()
  | .push sl addr rest => do
    let _ ← pushSlice C k sl (addrFromRef k addr)
    rest.run C k
  | .pushProcess sl addr inner rest => do
    let _ ← pushAndProcessSlice C k sl (addrFromRef k addr) (inner.run C k)
    rest.run C k
  | .sto op rest => do
    let _ ← Ser.lift (op.run C)
    rest.run C k
  | .overwriteWith inner rest => do
    SerRaw.overwriteWith k (inner.run C k)
    rest.run C k
  | .serializeValue L addr data inner rest => do
    let _ ← SerRaw.serializeValue C k L addr data (inner.run C k)
    rest.run C k
  | .setMapping m rest => do
    Ser.setMap m
    rest.run C k
  | .setPtrs p rest => do
    M.modify fun s => { s with ptrs := p }
    rest.run C k
  | .catchUnwind inner rest => do
    catchPanic (inner.run C k)
    rest.run C k

/-- A `&[T]` for which the call compiles: `T` is a real type, accepted by the storage's compile-time check unless zero-sized;
the slice has at most `isize::MAX` bytes. Empty slices of types with alignment > 1 are left out (see `C05_empty_slice_ub`) —
the `&[T]` of ser_raw/src/serializer.rs:297, 365. -/
def SafeSlice (C : Cfg) (L : Layout) (len : Nat) : Prop :=
  L.OK ∧ (L.size ≠ 0 → C.accepts L = true) ∧ L.size * len ≤ C.arch.isizeMax ∧ (L.size = 0 ∨ 0 < len ∨ L.align = 1)

/-- Safe storage operations: as `SOp.Legal` (Model/History.lean), without the `unsafe` `write_slice` — ser_raw/src/storage/mod.rs:186-470. -/
def SOp.Safe (C : Cfg) : SOp → Prop
  | .pushSlice L len _ => SafeSlice C L len
  | .pushEmptySlice L len => L.OK ∧ C.accepts L = true ∧ len < C.arch.usizeMod
  | .reserve n => n < C.arch.usizeMod
  | .alignFor L | .alignAfter L => L.OK ∧ C.accepts L = true
  | .alignAfterAny | .clear | .shrinkToFit => True
  | .writeSlice _ _ _ _ => False

/-- The calls compile — ser_raw/src/storage/mod.rs:575-583. -/
def SafeCalls.Compiles (C : Cfg) : SafeCalls → Prop
  | .done => True
  | .push sl _ rest => SafeSlice C sl.L sl.len ∧ rest.Compiles C
  | .pushProcess sl _ inner rest => SafeSlice C sl.L sl.len ∧ inner.Compiles C ∧ rest.Compiles C
  | .sto op rest => op.Safe C ∧ rest.Compiles C
  | .overwriteWith inner rest => inner.Compiles C ∧ rest.Compiles C
  | .serializeValue L _ _ inner rest => SafeSlice C L 1 ∧ inner.Compiles C ∧ rest.Compiles C
  | .setMapping _ rest | .setPtrs _ rest => rest.Compiles C
  | .catchUnwind inner rest => inner.Compiles C ∧ rest.Compiles C

end SerRaw
