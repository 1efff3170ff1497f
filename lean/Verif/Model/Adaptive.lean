import Verif.Model.Temporaries
/-
Hand-written `Serialize` implementations that decide what to do next by what they were told: every `push*` method returns the position
at which it put its slice (ser_raw/src/serializer.rs:282-408), and the serializer can be inspected (`capacity`, `pos`, `storage`, ser_raw/src/serializer.rs:497-508) at any time.
Typical use: pushing several strings, then a table of the positions at which they are, or offsets relative to a field (`pos_for`). Likewise callers of `serialize_value`, who learn
the position of each value (ser_raw/src/serializer.rs:260-269).
-/
namespace SerRaw

/-- `push_and_process_slice` with a closure that leaves a result `r` in variables it has captured (the closure is `FnOnce(&mut Self)`, without a
result of its own) — ser_raw/src/serializer.rs:326-342, ser_raw/src/serializer_traits/pos_tracking.rs:43-66, ser_raw/src/serializer_traits/ptr_writing.rs:44-69.
For closures that leave nothing, this is the method of Model/Serializer.lean (`C77_captured`). -/
def pushAndProcessCapturing (C : Cfg) (k : Kind) {α : Type} (sl : Slice) (ptrAddr : Nat) (process : M Ser α) : M Ser (Nat × α) :=
  match k with
  | .pureCopy => do
    let pos ← pushRawSlice C sl
    let r ← process
    pure (pos, r)
  | .posTracking => do
    let before ← Ser.getMap
    let pos ← Ser.lift (Sto.pushSlice C sl.L sl.len sl.data)
    Ser.setMap ⟨sl.addr, pos⟩
    let r ← process
    Ser.setMap before
    pure (pos, r)
  | .ptrOffset | .complete => do
    let before ← Ser.getMap
    let pos ← Ser.lift (Sto.pushSlice C sl.L sl.len sl.data)
    let ptrPos ← before.posForAddr C.arch ptrAddr
    overwritePtr C k ptrPos pos
    Ser.setMap ⟨sl.addr, pos⟩
    let r ← process
    Ser.setMap before
    pure (pos, r)

/-- An implementation, on a given value — ser_raw/src/serialize.rs:97-136. Each method is followed by what the implementation does with the
answer. -/
inductive Adaptive
  /-- return; `out`: what was left in captured variables -/
  | done (out : List Nat)
  /-- look at the serializer (position, capacity, contents, addresses, the position mapping) — ser_raw/src/serializer.rs:497-508 -/
  | look (f : Ser → Adaptive)
  /-- `serializer.pos()` — ser_raw/src/serializer.rs:503-505 -/
  | lookPos (f : Nat → Adaptive)
  /-- `serializer.pos_for(value)` for the value at address `x` (`PureCopySerializer` has no such method) —
      ser_raw/src/serializer_traits/pos_tracking.rs:19-21 -/
  | lookFor (x : Nat) (f : Nat → Adaptive)
  /-- `push_and_process_slice(slice, ptr_addr, |s| inner)`, and `push_and_process` with `len = 1`; then it knows the position, and what
      `inner` left in captured variables — ser_raw/src/serializer.rs:312-342 -/
  | pushProcess (L : Layout) (len src : Nat) (data : Nat → Cell) (ptr : Nat) (inner : Adaptive)
      (rest : Nat → List Nat → Adaptive)
  /-- `push_slice(slice, ptr_addr)`, and `push` with `len = 1` — ser_raw/src/serializer.rs:282-299 -/
  | push (L : Layout) (len src : Nat) (data : Nat → Cell) (ptr : Nat) (rest : Nat → Adaptive)
  /-- `push_raw_slice(slice)`, and `push_raw` with `len = 1` — ser_raw/src/serializer.rs:352-367 -/
  | pushRaw (L : Layout) (len src : Nat) (data : Nat → Cell) (rest : Nat → Adaptive)
  /-- `push_raw_bytes(bytes)` — ser_raw/src/serializer.rs:406-408 -/
  | pushRawBytes (len : Nat) (data : Nat → Cell) (rest : Nat → Adaptive)
  /-- `overwrite_with(|s| s.overwrite(addr, &value))` — ser_raw/src/serializer.rs:455-486 -/
  | overwrite (addr : Nat) (L : Layout) (data : Nat → Cell) (rest : Adaptive)

/-- Run it on a serializer of kind `k` — the methods are those of Model/Serializer.lean — ser_raw/src/serialize.rs:97-136. -/
def Adaptive.run (C : Cfg) (k : Kind) : Adaptive → M Ser (List Nat)
  | .done out => pure out
  | .look f => fun s => (f s).run C k s
  | .lookPos f => fun s => (f s.sto.vec.pos).run C k s
  | .lookFor x f => do
    let m ← Ser.getMap
    let p ← m.posForAddr C.arch x
    (f p).run C k
  | .pushProcess L len src data ptr inner rest => do
    let r ← pushAndProcessCapturing C k ⟨L, len, src, data⟩ (addrFromRef k ptr) (inner.run C k)
    (rest r.1 r.2).run C k
  | .push L len src data ptr rest => do
    let p ← pushSlice C k ⟨L, len, src, data⟩ (addrFromRef k ptr)
    (rest p).run C k
  | .pushRaw L len src data rest => do
    let p ← pushRawSlice C ⟨L, len, src, data⟩
    (rest p).run C k
  | .pushRawBytes len data rest => do
    let p ← SerRaw.pushRawBytes C len data
    (rest p).run C k
  | .overwrite addr L data rest => do
    overwriteWith k (SerRaw.overwrite C k (addrFromRef k addr) L data)
    rest.run C k

/-- A caller of `serialize_value`, who can choose each value after having seen where the ones before were put — ser_raw/src/serializer.rs:260-269. -/
inductive Caller
  | finish
  | value (L : Layout) (a : Nat) (data : Nat → Cell) (body : Adaptive) (rest : Nat → Caller)

/-- The calls of `serialize_value`, and the positions returned — ser_raw/src/serializer.rs:260-269. -/
def Caller.run (C : Cfg) (k : Kind) : Caller → M Ser (List Nat)
  | .finish => pure []
  | .value L a data body rest => do
    let p ← serializeValue C k L a data (do let _ ← body.run C k; pure ())
    let ps ← (rest p).run C k
    pure (p :: ps)

/-- The calls above followed by `serializer.finalize()` — ser_raw/src/serializer.rs:491-493. -/
def callerSession (C : Cfg) (k : Kind) (c : Caller) : M Ser (List Nat) := do
  let ps ← c.run C k
  finalize C k
  pure ps

end SerRaw
