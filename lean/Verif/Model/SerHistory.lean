import Verif.Model.History
import Verif.Model.Serializer
/-
Histories of a `CompleteSerializer` between creation and `finalize`, at the level of its primitive actions: storage
operations through `storage_mut()` (ser_raw/src/serializer.rs:511) and pointer writes (`overwrite_ptr`,
ser_raw/src/serializer_traits/ptr_writing.rs:28, ser_raw/src/serializer_traits/complete.rs:44-76). Every method of the serializer is a sequence of these.
The allocator may move the buffer at any growth or shrink.
-/
namespace SerRaw

/-- A primitive action — ser_raw/src/serializer_traits/complete.rs:44-102. -/
inductive POp
  /-- any storage operation, on `serializer.storage_mut()` -/
  | sto (op : SOp)
  /-- `serializer.overwrite_ptr(ptr_pos, target_pos)` -/
  | ptr (slot target : Nat)

/-- Perform the action — ser_raw/src/serializer.rs:511; ser_raw/src/serializer_traits/complete.rs:44-76. -/
def POp.run (C : Cfg) : POp → M Ser Nat
  | .sto op => Ser.lift (op.run C)
  | .ptr x t => do overwritePtr C .complete x t; pure 0

/-- An action and its result (`none`: it panicked and the panic was caught) — ser_raw/src/serializer_traits/complete.rs:44-102. -/
structure PEvent where
  op : POp
  res : Option Nat

/-- The pointers written in a history: slot position and target position — ser_raw/src/serializer_traits/complete.rs:44-62. -/
def slots (es : List PEvent) : List (Nat × Nat) :=
  es.filterMap fun e =>
    match e.op, e.res with
    | .ptr x t, some _ => some (x, t)
    | _, _ => none

/-- Permitted actions: storage operations within their contract that neither rewind the storage nor write over a pointer
slot; pointer writes to an aligned slot inside the output (of a storage that can hold pointers at all) not overlapping an
earlier slot, and to a target inside the output — ser_raw/src/serializer_traits/ptr_writing.rs:14-26. -/
def POp.Legal (C : Cfg) (es : List PEvent) (s : Ser) : POp → Prop
  | .sto op => op.Legal C s.sto ∧ op ≠ .clear ∧
      ∀ p L len d, op = .writeSlice p L len d → ∀ x ∈ slots es, DisjRange x.1 C.arch.ptrBytes p (L.size * len)
  | .ptr x t => C.arch.ptrBytes ∣ x ∧ x + C.arch.ptrBytes ≤ s.sto.vec.pos ∧ t ≤ s.sto.vec.pos ∧
      C.accepts ⟨C.arch.ptrBytes, C.arch.ptrBytes⟩ = true ∧
      ∀ y ∈ slots es, DisjRange y.1 C.arch.ptrBytes x C.arch.ptrBytes

/-- `PHist C es s`: a serializer created from a storage with any history (`from_storage`, `new`, `with_capacity`) on which
the actions `es` were performed is in state `s` — ser_raw/src/serializers/complete.rs:138-144. -/
inductive PHist (C : Cfg) : List PEvent → Ser → Prop
  | start {es t} : Hist C es t → PHist C [] (Ser.fromStorage t)
  | ok {es s op p s'} : PHist C es s → op.Legal C es s → op.run C s = .ok p s' → PHist C (es ++ [⟨op, some p⟩]) s'
  | panic {es s op k s'} : PHist C es s → op.Legal C es s → op.run C s = .panic k s' → PHist C (es ++ [⟨op, none⟩]) s'

end SerRaw
