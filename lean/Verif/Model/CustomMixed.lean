import Verif.Model.CustomSerializer
import Verif.Model.UserPanic
import Verif.Spec.User
import Verif.Spec.Discipline
import Verif.Spec.CustomSerializer
/-
One serializer derived over a custom storage (kinds `PureCopy`, `PosTracking`, `PtrOffset`), used for everything at once: `serialize_value` on values
with the crate's own and derived implementations, `serialize_value` on values with hand-written implementations (which may panic), and
direct storage operations through `storage_mut()` (ser_raw/src/serializer.rs:260-269, 508-511), in any order, with panics caught by the
caller. Model/Mixed.lean is the same for `AlignedVec`.
-/
namespace SerRaw

variable {σ : Type}

/-- Calls that end in a panic of the implementation (cf. `Stop.run`) — the methods are those of Model/CustomSerializer.lean; ser_raw/src/serializer.rs:312-342. -/
def Stop.runG (I : RandomImpl σ) (k : DKind) (im : Mem) : Stop → M (GSer σ) Unit
  | .here => M.throw .user
  | .after sc rest => do
    sc.runG I k im
    rest.runG I k im
  | .inside L len src ptr inner => do
    let _ ← GSer.pushAndProcessSlice I k ⟨L, len, src, fun i => im (src + i)⟩ (addrFromRef k.kind ptr) (inner.runG I k im)
    pure ()

/-- `value.serialize_data(serializer)` — ser_raw/src/serialize.rs:97-102. -/
def Body.runG (I : RandomImpl σ) (k : DKind) (im : Mem) : Body → M (GSer σ) Unit
  | .returns sc => sc.runG I k im
  | .panics st => st.runG I k im

/-- `serializer.serialize_value(&v)` with a hand-written implementation — ser_raw/src/serializer.rs:260-269. -/
def UserCall.serG (I : RandomImpl σ) (k : DKind) (r : UserCall) : M (GSer σ) Nat :=
  GSer.serializeValue I k r.L r.a (fun i => r.im (r.a + i)) (r.body.runG I k r.im)

/-- `serializer.serialize_value(&v)` with the crate's own and derived implementations — ser_raw/src/serializer.rs:260-269. -/
def gSerValue (I : RandomImpl σ) (k : DKind) (P : Prog) (fuel : Nat) (r : Root) : M (GSer σ) Nat :=
  GSer.serializeValue I k (P.layout r.t) r.a (inputAt r.im r.a) (gData I k P r.im fuel r.t r.a)

/-- Something done with a serializer over a custom storage — ser_raw/src/serializer.rs:260-269 (values), ser_raw/src/serializer.rs:352-436 (raw pushes). -/
inductive GAct
  /-- `serializer.serialize_value(&v)` with the crate's own and derived implementations — ser_raw/src/serializer.rs:260-269 -/
  | typed (r : Root)
  /-- the same with a hand-written implementation -/
  | user (r : UserCall)
  /-- `serializer.storage_mut().op(…)`, a safe method of `Storage` — ser_raw/src/serializer.rs:511 -/
  | sto (o : KOp)
  /-- `serializer.storage_mut().write_slice(pos, slice)` — ser_raw/src/serializer.rs:511, ser_raw/src/storage/mod.rs:500 -/
  | write (p : Nat) (L : Layout) (len : Nat) (data : Nat → Cell)

/-- Do it. The result is the returned position (0 if nothing is returned) — ser_raw/src/serializer.rs:260-269, 511. -/
def GAct.run (I : RandomImpl σ) (k : DKind) (P : Prog) (fuel : Nat) : GAct → M (GSer σ) Nat
  | .typed r => gSerValue I k P fuel r
  | .user r => r.serG I k
  | .sto o => GSer.lift (o.run I.toStorageImpl)
  | .write p L len data => do GSer.lift (I.writeSlice p L len data); pure 0

/-- It is a `serialize_value` call (ser_raw/src/serializer.rs:260-269). -/
def GAct.IsValue : GAct → Prop
  | .typed _ | .user _ => True
  | .sto _ | .write .. => False

/-- What was done (ser_raw/src/serializer.rs:260-269, 511), the result (`none`: it panicked, and the panic was caught), and the storage's position before and after. -/
structure GEv where
  act : GAct
  res : Option Nat
  lo : Nat
  hi : Nat

/-- Byte `i` is written by the event, a random-access write (ser_raw/src/storage/mod.rs:500). -/
def GEv.Writes (e : GEv) (i : Nat) : Prop :=
  ∃ p L len d, e.act = .write p L len d ∧ p ≤ i ∧ i < p + L.size * len

/-- What is permitted after `es`: valid values; hand-written implementations for real types that follow the rules; storage operations within their
contract (ser_raw/src/storage/mod.rs:488-500 for `write_slice`), but no `clear`, and no random-access write over the output of a `serialize_value` call. -/
def GAct.Legal (I : RandomImpl σ) (P : Prog) (es : List GEv) (s : GSer σ) : GAct → Prop
  | .typed r => Valid I.C.arch P r
  | .user r => r.OK I.C ∧ r.L.OK ∧ r.body.script.RealTypes
  | .sto o => o.Legal I.toStorageImpl s.sto ∧ o ≠ .clear
  | .write p L len _ => L.OK ∧ L.size ≠ 0 ∧ I.C.accepts L = true ∧ 0 < len ∧ p + L.size * len ≤ I.capacity s.sto ∧ L.align ∣ p ∧
      ∀ e ∈ es, e.act.IsValue → e.hi ≤ p ∨ p + L.size * len ≤ e.lo

/-- `GSess I k P t es s`: a serializer of kind `k` created from the storage `t` (`from_storage`, ser_raw/src/serializers/ptr_offset.rs:110-115), after `es`. `finalize` only
hands out the storage for these kinds (ser_raw/src/serializer.rs:491-493). -/
inductive GSess (I : RandomImpl σ) (k : DKind) (P : Prog) (t : σ) : List GEv → GSer σ → Prop
  | start : GSess I k P t [] (GSer.fromStorage t)
  | step {es s a fuel r s'} : GSess I k P t es s → a.Legal I P es s → M.caught (a.run I k P fuel) s = .ok r s' →
      GSess I k P t (es ++ [⟨a, r, I.pos s.sto, I.pos s'.sto⟩]) s'

/-- `LReach I P t`: a custom storage created by `new` or `with_capacity` (ser_raw/src/storage/mod.rs:186, 196-215), used directly and by serializers of any of the kinds
in any of the ways above, is in state `t`. -/
inductive LReach (I : RandomImpl σ) (P : Prog) : σ → Prop
  | new : LReach I P I.new
  | withCapacity {c t} : c < I.C.arch.usizeMod → I.withCapacity c I.new = .ok () t → LReach I P t
  | op {t o p t'} : LReach I P t → KOp.Legal I.toStorageImpl t o → o.run I.toStorageImpl t = .ok p t' → LReach I P t'
  | opPanic {t o k t'} : LReach I P t → KOp.Legal I.toStorageImpl t o → o.run I.toStorageImpl t = .panic k t' → LReach I P t'
  | session {t k es s} : LReach I P t → GSess I k P t es s → LReach I P s.sto

end SerRaw
