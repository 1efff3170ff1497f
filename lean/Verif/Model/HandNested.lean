import Verif.Model.UserImpl
import Verif.Model.Session
/-
Types with a hand-written `Serialize` implementation used inside other types, and the other way round: a hand-written
`serialize_data` calls serializer methods and the `serialize_data` of values of other types, in any order and nesting
(ser_raw/src/serialize.rs:58-90), and its type may occur as a field, element or pointee of the types with the crate's own
implementations (or those made by `#[derive(Serialize)]`, including fields that are given another implementation with
`#[ser_with(..)]`, ser_raw_derive/src/structs.rs:27-106: such a field is a field of a type of its own).
-/
namespace SerRaw

/-- The calls made by a hand-written `serialize_data` — ser_raw/src/serialize.rs:97-102. -/
inductive HCalls
  | done
  /-- `value.serialize_data(serializer)` for the value of type `t` at address `a` — ser_raw/src/serialize.rs:83-86, 97-102 -/
  | data (t : TyId) (a : Nat) (rest : HCalls)
  /-- `serializer.push_and_process_slice(slice, ptr_addr, |s| inner)`, and `push_and_process` with `len = 1`
      — ser_raw/src/serializer.rs:312-342 -/
  | pushProcess (L : Layout) (len src ptr : Nat) (inner rest : HCalls)
  /-- `serializer.push_slice(slice, ptr_addr)`, and `push` with `len = 1` — ser_raw/src/serializer.rs:282-299 -/
  | push (L : Layout) (len src ptr : Nat) (rest : HCalls)
  /-- `serializer.push_raw_slice(slice)`, `push_raw` and `push_raw_bytes` — ser_raw/src/serializer.rs:352-408 -/
  | pushRaw (L : Layout) (len src : Nat) (rest : HCalls)
  /-- `serializer.overwrite_with(|s| s.overwrite(addr, &value))` — ser_raw/src/serializer.rs:455-486 -/
  | overwrite (addr : Nat) (L : Layout) (bytes : Nat → Cell) (rest : HCalls)

/-- A hand-written implementation: the calls it makes for the value at a given address of the memory (`none`: it reads something
that is not there, undefined behaviour) — ser_raw/src/serialize.rs:97-102. -/
abbrev HandImpl := Mem → Nat → Option HCalls

/-- Run the calls on a serializer of kind `k` — the methods are those of Model/Serializer.lean; `rec` is `serialize_data` of the
other types — ser_raw/src/serialize.rs:97-102. -/
def HCalls.run (C : Cfg) (k : Kind) (im : Mem) (rec : TyId → Nat → M Ser Unit) : HCalls → M Ser Unit
  | .done => pure ()
  | .data t a rest => do
    rec t a
    rest.run C k im rec
  | .pushProcess L len src ptr inner rest => do
    let _ ← pushAndProcessSlice C k ⟨L, len, src, fun i => im (src + i)⟩ (addrFromRef k ptr) (inner.run C k im rec)
    rest.run C k im rec
  | .push L len src ptr rest => do
    let _ ← pushSlice C k ⟨L, len, src, fun i => im (src + i)⟩ (addrFromRef k ptr)
    rest.run C k im rec
  | .pushRaw L len src rest => do
    let _ ← pushRawSlice C ⟨L, len, src, fun i => im (src + i)⟩
    rest.run C k im rec
  | .overwrite addr L bytes rest => do
    overwriteWith k (SerRaw.overwrite C k (addrFromRef k addr) L bytes)
    rest.run C k im rec

/-- One level of `serialize_data` for the types with the crate's own (or derived) implementations, as in `serData`
(Model/Impls.lean); `rec` is `serialize_data` of the component types — ser_raw/src/serialize_impls/*.rs, as in Model/Impls.lean. -/
def serStep (C : Cfg) (k : Kind) (P : Prog) (im : Mem) (rec : TyId → Nat → M Ser Unit) (t : TyId) (a : Nat) : M Ser Unit :=
  match P.defn t with
  | .prim => pure ()
  | .box u => serBox C k P im rec u a
  | .vec u => serVec C k P im rec u a
  | .string => serString C k P im a
  | .array u n => serEach rec a (elems P u n)
  | .struct fs => serEach rec a fs
  | .enum tag vs => serEnum C im rec tag vs a
  | .bigUint u => serBigUint C k P im rec u a
  | .bigInt u => serBigInt C P rec u a

/-- `value.serialize_data(serializer)`: the types `t` with `X t = some I` have the hand-written implementation `I` (their definition
in `P` is then only their layout); the others have the crate's own or a derived one —
ser_raw/src/serialize.rs:97-102 and ser_raw/src/serialize_impls/*.rs. -/
def hSerData (C : Cfg) (k : Kind) (P : Prog) (X : TyId → Option HandImpl) (im : Mem) : Nat → TyId → Nat → M Ser Unit
  | 0, _, _ => M.outOfFuel
  | f + 1, t, a =>
    match X t with
    | none => serStep C k P im (hSerData C k P X im f) t a
    | some I =>
      match I im a with
      | none => M.ub
      | some cs => cs.run C k im (hSerData C k P X im f)

/-- `serializer.serialize_value(&v)` for each value in turn — ser_raw/src/serializer.rs:260-269. Returns the positions. -/
def hValues (C : Cfg) (k : Kind) (P : Prog) (X : TyId → Option HandImpl) (fuel : Nat) : List Root → M Ser (List Nat)
  | [] => pure []
  | r :: rs => do
    let p ← serializeValue C k (P.layout r.t) r.a (inputAt r.im r.a) (hSerData C k P X r.im fuel r.t r.a)
    let ps ← hValues C k P X fuel rs
    pure (p :: ps)

/-- The calls above followed by `serializer.finalize()` — ser_raw/src/serializer.rs:491-493. -/
def hSession (C : Cfg) (k : Kind) (P : Prog) (X : TyId → Option HandImpl) (fuel : Nat) (rs : List Root) : M Ser (List Nat) := do
  let ps ← hValues C k P X fuel rs
  finalize C k
  pure ps

end SerRaw
