import Verif.Model.CustomMixed
import Verif.Model.CustomComplete
import Verif.Spec.CustomComplete
/-
One serializer of kind `complete` derived over a custom contiguous storage, used for everything at once (Model/CustomMixed.lean is the same for the other
kinds): values with the crate's own and derived implementations, values with hand-written implementations (which may panic), and direct
storage operations through `storage_mut()` (ser_raw/src/serializer.rs:260-269, 508-511), in any order, with panics caught by the caller;
then `finalize` (ser_raw/src/serializer.rs:491-493), or the serializer is dropped.
-/
namespace SerRaw

variable {σ : Type}

/-- Calls that end in a panic of the implementation (cf. `Stop.run`) — the methods are those of Model/CustomComplete.lean; ser_raw/src/serializer.rs:312-342. -/
def Stop.runC (I : ContigImpl σ) (im : Mem) : Stop → M (CSer σ) Unit
  | .here => M.throw .user
  | .after sc rest => do
    sc.runC I im
    rest.runC I im
  | .inside L len src ptr inner => do
    let _ ← CSer.pushAndProcessSlice I ⟨L, len, src, fun i => im (src + i)⟩ ptr (inner.runC I im)
    pure ()

/-- `value.serialize_data(serializer)` — ser_raw/src/serialize.rs:97-102. -/
def Body.runC (I : ContigImpl σ) (im : Mem) : Body → M (CSer σ) Unit
  | .returns sc => sc.runC I im
  | .panics st => st.runC I im

/-- `serializer.serialize_value(&v)` with a hand-written implementation — ser_raw/src/serializer.rs:260-269. -/
def UserCall.serC (I : ContigImpl σ) (r : UserCall) : M (CSer σ) Nat :=
  CSer.serializeValue I r.L r.a (fun i => r.im (r.a + i)) (r.body.runC I r.im)

/-- `serializer.serialize_value(&v)` with the crate's own and derived implementations — ser_raw/src/serializer.rs:260-269. -/
def cSerValue (I : ContigImpl σ) (P : Prog) (fuel : Nat) (r : Root) : M (CSer σ) Nat :=
  CSer.serializeValue I (P.layout r.t) r.a (inputAt r.im r.a) (cData I P r.im fuel r.t r.a)

/-- Do something with the serializer. The result is the returned position (0 if nothing is returned) — ser_raw/src/serializer.rs:260-269, 511. -/
def GAct.runC (I : ContigImpl σ) (P : Prog) (fuel : Nat) : GAct → M (CSer σ) Nat
  | .typed r => cSerValue I P fuel r
  | .user r => r.serC I
  | .sto o => CSer.lift (o.run I.toStorageImpl)
  | .write p L len data => do CSer.lift (I.writeSlice p L len data); pure 0

/-- What is permitted after `es` (cf. `GAct.Legal`; corrections of hand-written implementations are values of real types too) — ser_raw/src/storage/mod.rs:488-500. -/
def GAct.CLegal (I : ContigImpl σ) (P : Prog) (es : List GEv) (s : CSer σ) : GAct → Prop
  | .typed r => Valid I.C.arch P r
  | .user r => r.OK I.C ∧ r.L.OK ∧ r.body.script.RealTypes ∧ r.body.script.RealOverwrites
  | .sto o => o.Legal I.toStorageImpl s.sto ∧ o ≠ .clear
  | .write p L len _ => L.OK ∧ L.size ≠ 0 ∧ I.C.accepts L = true ∧ 0 < len ∧ p + L.size * len ≤ I.capacity s.sto ∧ L.align ∣ p ∧
      ∀ e ∈ es, e.act.IsValue → e.hi ≤ p ∨ p + L.size * len ≤ e.lo

/-- `CSess I P t es s`: a serializer of kind `complete` created from the storage `t` (`from_storage`, ser_raw/src/serializers/complete.rs:138-144), after `es`. -/
inductive CSess (I : ContigImpl σ) (P : Prog) (t : σ) : List GEv → CSer σ → Prop
  | start : CSess I P t [] (CSer.fromStorage t)
  | step {es s a fuel r s'} : CSess I P t es s → a.CLegal I P es s → M.caught (a.runC I P fuel) s = .ok r s' →
      CSess I P t (es ++ [⟨a, r, I.pos s.sto, I.pos s'.sto⟩]) s'

/-- `QReach I P t`: a custom contiguous storage created by `new` or `with_capacity` (ser_raw/src/storage/mod.rs:186, 196-215), used directly and by serializers of all
four kinds in any of the ways above — finalized (ser_raw/src/serializer.rs:491-493) or dropped — is in state `t`. -/
inductive QReach (I : ContigImpl σ) (P : Prog) : σ → Prop
  | new : QReach I P I.new
  | withCapacity {c t} : c < I.C.arch.usizeMod → I.withCapacity c I.new = .ok () t → QReach I P t
  | op {t o p t'} : QReach I P t → KOp.Legal I.toStorageImpl t o → o.run I.toStorageImpl t = .ok p t' → QReach I P t'
  | opPanic {t o k t'} : QReach I P t → KOp.Legal I.toStorageImpl t o → o.run I.toStorageImpl t = .panic k t' → QReach I P t'
  | session {t k es s} : QReach I P t → GSess I.toRandomImpl k P t es s → QReach I P s.sto
  | dropped {t es s} : QReach I P t → CSess I P t es s → QReach I P s.sto
  | finalized {t es s s'} : QReach I P t → CSess I P t es s → CSer.finalize I s = .ok () s' → QReach I P s'.sto

end SerRaw
