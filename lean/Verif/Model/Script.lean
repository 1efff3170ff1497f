import Verif.Model.Serializer
/-
A `Serialize` implementation, seen from the serializer, is the sequence of serializer methods it calls on a given value
(trait `Serialize`, ser_raw/src/serialize.rs:97-102; the methods it may call are listed at ser_raw/src/serialize.rs:58-67).
`Script` is such a sequence, with nesting for `push_and_process*`. It covers user-written implementations; the crate's own
implementations (Model/Impls.lean) are shown to be scripts in Lemmas/TypedScript.lean.
All slices live in the input memory `im` (temporaries, which may share addresses: Model/Temporaries.lean).
-/
namespace SerRaw

/-- ser_raw/src/serialize.rs:58-102. -/
inductive Script
  | done
  /-- `serializer.push_and_process_slice(slice, ptr_addr, |s| inner)`, and `push_and_process` with `len = 1`
      — ser_raw/src/serializer.rs:312-342 -/
  | pushProcess (L : Layout) (len src ptr : Nat) (inner rest : Script)
  /-- `serializer.push_slice(slice, ptr_addr)`, and `push` with `len = 1` — ser_raw/src/serializer.rs:282-299 -/
  | push (L : Layout) (len src ptr : Nat) (rest : Script)
  /-- `serializer.push_raw_slice(slice)`, and `push_raw` with `len = 1`, and `push_raw_bytes` with layout `⟨1,1⟩`
      — ser_raw/src/serializer.rs:352-408 -/
  | pushRaw (L : Layout) (len src : Nat) (rest : Script)
  /-- `serializer.overwrite_with(|s| s.overwrite(addr, &value))` for a value of layout `L` whose bytes are `data`
      — ser_raw/src/serializer.rs:455-486 (calling `overwrite` directly is the same: the serializers that implement one implement both) -/
  | overwrite (addr : Nat) (L : Layout) (data : Nat → Cell) (rest : Script)

/-- The bytes of an array of `usize`s — e.g. ser_raw/src/serialize_impls/ptrs.rs:231-237. -/
def wordsCells (A : Arch) (ws : List Nat) : Nat → Cell := fun i => (ws.flatMap (encWord A))[i]?

/-- Run the calls of a script on a serializer of kind `k` — the methods are those of Model/Serializer.lean — ser_raw/src/serialize.rs:97-102. -/
def Script.run (C : Cfg) (k : Kind) (im : Mem) : Script → M Ser Unit
  | .done => pure ()
  | .pushProcess L len src ptr inner rest => do
    let _ ← pushAndProcessSlice C k ⟨L, len, src, fun i => im (src + i)⟩ (addrFromRef k ptr) (inner.run C k im)
    rest.run C k im
  | .push L len src ptr rest => do
    let _ ← pushSlice C k ⟨L, len, src, fun i => im (src + i)⟩ (addrFromRef k ptr)
    rest.run C k im
  | .pushRaw L len src rest => do
    let _ ← pushRawSlice C ⟨L, len, src, fun i => im (src + i)⟩
    rest.run C k im
  | .overwrite addr L data rest => do
    overwriteWith k (SerRaw.overwrite C k (addrFromRef k addr) L data)
    rest.run C k im

/-- Sequencing of scripts — ser_raw/src/serialize.rs:97-102. -/
def Script.app : Script → Script → Script
  | .done, y => y
  | .pushProcess L len src ptr inner rest, y => .pushProcess L len src ptr inner (rest.app y)
  | .push L len src ptr rest, y => .push L len src ptr (rest.app y)
  | .pushRaw L len src rest, y => .pushRaw L len src (rest.app y)
  | .overwrite a L data rest, y => .overwrite a L data (rest.app y)

end SerRaw
