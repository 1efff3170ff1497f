import Verif.Model.Attempt
import Verif.Model.Adaptive
import Verif.Spec.Adaptive
/-
Implementations of `serialize_data` that do all of it: they decide by what they are told and look at the serializer (Model/Adaptive.lean), push temporaries
(Model/Temporaries.lean), panic (Model/UserPanic.lean), and catch panics — their own and those of a storage that is full — and go on
(Model/Attempt.lean), at any depth.
-/
namespace SerRaw

/-- An implementation, on a given value — ser_raw/src/serialize.rs:97-136. Each method is followed by what the implementation does with the
answer. -/
inductive Catching
  /-- return; `out`: what was left in captured variables -/
  | done (out : List Nat)
  /-- `panic!()`, an `unwrap` that fails, … -/
  | panic
  /-- look at the serializer (position, capacity, contents, addresses, the position mapping) — ser_raw/src/serializer.rs:497-508 -/
  | look (f : Ser → Catching)
  /-- `serializer.pos()` — ser_raw/src/serializer.rs:503-505 -/
  | lookPos (f : Nat → Catching)
  /-- `serializer.pos_for(value)` for the value at address `x` (`PureCopySerializer` has no such method) —
      ser_raw/src/serializer_traits/pos_tracking.rs:19-21 -/
  | lookFor (x : Nat) (f : Nat → Catching)
  /-- `push_and_process_slice(slice, ptr_addr, |s| inner)`, and `push_and_process` with `len = 1`; then it knows the position, and what
      `inner` left in captured variables — ser_raw/src/serializer.rs:312-342 -/
  | pushProcess (L : Layout) (len src : Nat) (data : Nat → Cell) (ptr : Nat) (inner : Catching)
      (rest : Nat → List Nat → Catching)
  /-- `push_slice(slice, ptr_addr)`, and `push` with `len = 1` — ser_raw/src/serializer.rs:282-299 -/
  | push (L : Layout) (len src : Nat) (data : Nat → Cell) (ptr : Nat) (rest : Nat → Catching)
  /-- `push_raw_slice(slice)`, and `push_raw` with `len = 1` — ser_raw/src/serializer.rs:352-367 -/
  | pushRaw (L : Layout) (len src : Nat) (data : Nat → Cell) (rest : Nat → Catching)
  /-- `push_raw_bytes(bytes)` — ser_raw/src/serializer.rs:406-408 -/
  | pushRawBytes (len : Nat) (data : Nat → Cell) (rest : Nat → Catching)
  /-- `overwrite_with(|s| s.overwrite(addr, &value))` — ser_raw/src/serializer.rs:455-486 -/
  | overwrite (addr : Nat) (L : Layout) (data : Nat → Cell) (rest : Catching)
  /-- `match catch_unwind(|| inner) { Ok(out) => rest (some out), Err(_) => rest none }`. With `restore`, the implementation keeps a copy of
      `serializer.pos_mapping()` and puts it back with `set_pos_mapping` after a panic — ser_raw/src/serializer_traits/pos_tracking.rs:12-15 -/
  | attempt (restore : Bool) (inner : Catching) (rest : Option (List Nat) → Catching)

/-- The serializer after the attempt: with `restore`, `set_pos_mapping(saved)` if it panicked — ser_raw/src/serializer_traits/pos_tracking.rs:15 (there is
nothing to put back in a `PureCopySerializer`). -/
def restored (k : Kind) (restore : Bool) (saved : PosMapping) (r : Option (List Nat)) (s : Ser) : Ser :=
  if r.isNone = true ∧ restore = true ∧ k ≠ .pureCopy then { s with map := saved } else s

/-- The same as an action — ser_raw/src/serializer_traits/pos_tracking.rs:15. -/
def restoreMap (k : Kind) (restore : Bool) (saved : PosMapping) (r : Option (List Nat)) : M Ser Unit := fun s => .ok () (restored k restore saved r s)

/-- Run it on a serializer of kind `k` — the methods are those of Model/Serializer.lean — ser_raw/src/serialize.rs:97-136. -/
def Catching.run (C : Cfg) (k : Kind) : Catching → M Ser (List Nat)
  | .done out => pure out
  | .panic => M.throw .user
  | .look f => fun s => (f s).run C k s
  | .lookPos f => fun s => (f s.sto.vec.pos).run C k s
  | .lookFor x f => do
    let m ← Ser.getMap
    let p ← m.posForAddr C.arch x
    (f p).run C k
  | .pushProcess L len src data ptr inner rest => do
    let r ← pushAndProcessCapturing C k ⟨L, len, src, data⟩ (addrFromRef k ptr) (inner.run C k)
    (rest r.1 r.2).run C k
  | .push L len src data ptr rest => do
    let p ← pushSlice C k ⟨L, len, src, data⟩ (addrFromRef k ptr)
    (rest p).run C k
  | .pushRaw L len src data rest => do
    let p ← pushRawSlice C ⟨L, len, src, data⟩
    (rest p).run C k
  | .pushRawBytes len data rest => do
    let p ← SerRaw.pushRawBytes C len data
    (rest p).run C k
  | .overwrite addr L data rest => do
    overwriteWith k (SerRaw.overwrite C k (addrFromRef k addr) L data)
    rest.run C k
  | .attempt restore inner rest => do
    let saved ← Ser.getMap
    let r ← M.caught (inner.run C k)
    restoreMap k restore saved r
    (rest r).run C k

/-- The calls `c` and then `d` — ser_raw/src/serialize.rs:97-136. -/
def TCalls.app : TCalls → TCalls → TCalls
  | .done, d => d
  | .pushProcess L len src data ptr inner rest, d => .pushProcess L len src data ptr inner (rest.app d)
  | .push L len src data ptr rest, d => .push L len src data ptr (rest.app d)
  | .pushRaw L len src data rest, d => .pushRaw L len src data (rest.app d)
  | .pushRawBytes len data rest, d => .pushRawBytes len data (rest.app d)
  | .overwrite a L data rest, d => .overwrite a L data (rest.app d)

/-- The plain calls that the implementation amounts to in a run that starts in `s`, up to the end or an uncaught panic: a panic ends the calls up to the
next `catch_unwind`, and a push that does not fit (ser_raw/src/storage/aligned_vec.rs:271-306) does nothing but align the position for
its type — ser_raw/src/storage/mod.rs:396-420. -/
def Catching.made (C : Cfg) (k : Kind) : Catching → Ser → TCalls
  | .done _, _ => .done
  | .panic, _ => .done
  | .look f, s => (f s).made C k s
  | .lookPos f, s => (f s.sto.vec.pos).made C k s
  | .lookFor x f, s => (match s.map.posForAddr C.arch x s with
      | .ok p _ => (f p).made C k s
      | _ => .done)
  | .pushProcess L len src data ptr inner rest, s =>
    match pushAndProcessSlice C k ⟨L, len, src, data⟩ (addrFromRef k ptr) (M.throw .user) s with
      | .panic .user s1 => .pushProcess L len src data ptr (inner.made C k s1)
        (match pushAndProcessCapturing C k ⟨L, len, src, data⟩ (addrFromRef k ptr) (inner.run C k) s with
          | .ok r s1 => (rest r.1 r.2).made C k s1
          | _ => .done)
      | .panic .capacity _ => .pushRaw L 0 src data .done
      | _ => .pushProcess L len src data ptr .done .done
  | .push L len src data ptr rest, s =>
    match pushSlice C k ⟨L, len, src, data⟩ (addrFromRef k ptr) s with
      | .ok p s1 => .push L len src data ptr ((rest p).made C k s1)
      | .panic .capacity _ => .pushRaw L 0 src data .done
      | _ => .push L len src data ptr .done
  | .pushRaw L len src data rest, s =>
    match pushRawSlice C ⟨L, len, src, data⟩ s with
      | .ok p s1 => .pushRaw L len src data ((rest p).made C k s1)
      | .panic .capacity _ => .pushRaw L 0 src data .done
      | _ => .pushRaw L len src data .done
  | .pushRawBytes len data rest, s =>
    match SerRaw.pushRawBytes C len data s with
      | .ok p s1 => .pushRawBytes len data ((rest p).made C k s1)
      | .panic .capacity _ => .done
      | _ => .pushRawBytes len data .done
  | .overwrite addr L data rest, s =>
    .overwrite addr L data (match overwriteWith k (SerRaw.overwrite C k (addrFromRef k addr) L data) s with
      | .ok _ s1 => rest.made C k s1
      | _ => .done)
  | .attempt restore inner rest, s => (inner.made C k s).app (match M.caught (inner.run C k) s with
      | .ok r s1 => (rest r).made C k (restored k restore s.map r s1)
      | _ => .done)

/-- The calls made for the value of layout `L` at `a`, when `serialize_value` is called in the state `s` — ser_raw/src/serializer.rs:260-269. -/
def Catching.callsFrom (C : Cfg) (k : Kind) (L : Layout) (a : Nat) (data : Nat → Cell) (body : Catching) (s : Ser) : TCalls :=
  match serializeValue C k L a data (M.throw .user) s with
  | .panic .user s1 => body.made C k s1
  | _ => .done

end SerRaw
