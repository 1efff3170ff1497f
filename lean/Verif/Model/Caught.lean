import Verif.Model.Session
/-
Sessions in which the caller catches panics (`std::panic::catch_unwind`) and goes on with the same serializer. A capacity panic
unwinds out of `serialize_value` (ser_raw/src/storage/aligned_vec.rs:271-306, reached from ser_raw/src/serializer.rs:260-269 at any depth), leaving the
serializer in whatever state it was in: partly written output, `PosMapping` not restored (ser_raw/src/serializer_traits/pos_tracking.rs:46-68),
pointers recorded for a value that is incomplete (ser_raw/src/serializer_traits/complete.rs:44-76).
-/
namespace SerRaw

/-- `catch_unwind(|| x)`: `None` if it panicked. Aborts are not caught — around any method of ser_raw/src/serializer.rs. -/
def M.caught {σ α} (x : M σ α) : M σ (Option α) := fun s =>
  match x s with
  | .ok a s' => .ok (some a) s'
  | .panic _ s' => .ok none s'
  | .abort => .abort
  | .ub => .ub
  | .fuel => .fuel

/-- `catch_unwind(|| serializer.serialize_value(&v₁)); catch_unwind(|| serializer.serialize_value(&v₂)); …` —
ser_raw/src/serializer.rs:260-269. -/
def serValuesCaught (C : Cfg) (k : Kind) (P : Prog) (fuel : Nat) : List Root → M Ser (List (Option Nat))
  | [] => pure []
  | r :: rs => do
    let p ← M.caught (serValue C k P r.im fuel r.t r.a)
    let ps ← serValuesCaught C k P fuel rs
    pure (p :: ps)

/-- The calls above followed by `serializer.finalize()` — ser_raw/src/serializer.rs:491-493. -/
def sessionCaught (C : Cfg) (k : Kind) (P : Prog) (fuel : Nat) (rs : List Root) : M Ser (List (Option Nat)) := do
  let ps ← serValuesCaught C k P fuel rs
  finalize C k
  pure ps

end SerRaw
