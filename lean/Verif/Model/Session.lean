import Verif.Model.Impls
/-
A serializer used for several values: any number of `serialize_value` calls followed by one `finalize`
(ser_raw/src/serializer.rs:167-187 documents this use; methods at 217-221, 260-269, 491-493).
Each value has its own input memory: between two calls the input may be changed or dropped.
-/
namespace SerRaw

/-- A value to serialize: type `t`, address `a` in memory `im` — the `&T` of ser_raw/src/serializer.rs:260. -/
structure Root where
  im : Mem
  t : TyId
  a : Nat

/-- `serializer.serialize_value(&v₁); serializer.serialize_value(&v₂); …` — ser_raw/src/serializer.rs:260-269. Returns the positions. -/
def serValues (C : Cfg) (k : Kind) (P : Prog) (fuel : Nat) : List Root → M Ser (List Nat)
  | [] => pure []
  | r :: rs => do
    let p ← serValue C k P r.im fuel r.t r.a
    let ps ← serValues C k P fuel rs
    pure (p :: ps)

/-- The calls above followed by `serializer.finalize()` — ser_raw/src/serializer.rs:491-493. With one value this is `serialize`
(ser_raw/src/serializer.rs:217-221). -/
def session (C : Cfg) (k : Kind) (P : Prog) (fuel : Nat) (rs : List Root) : M Ser (List Nat) := do
  let ps ← serValues C k P fuel rs
  finalize C k
  pure ps

end SerRaw
