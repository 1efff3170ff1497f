import Verif.Model.History
import Verif.Model.Caught
import Verif.Spec.Decode
/-
Storages a program can have: created, used directly, and handed to serializers (`from_storage` takes a storage or `&mut`
storage, ser_raw/src/serializers/complete.rs:138-144; it comes back from `finalize`, or after a caught panic, or when the
serializer is dropped).
-/
namespace SerRaw

/-- The values to serialize are valid — the `&T` of ser_raw/src/serializer.rs:217, 260. -/
def Valid (A : Arch) (P : Prog) (r : Root) : Prop := ∃ fl v, Denotes A P fl r.im r.t r.a v

/-- The input values `x.1` denote `x.2` — the `&T` of ser_raw/src/serializer.rs:217, 260. -/
def Inputs (A : Arch) (P : Prog) (fl : Flags) (rs : List (Root × Val)) : Prop :=
  ∀ x ∈ rs, Denotes A P fl x.1.im x.1.t x.1.a x.2

/-- `Reach C P t`: some sequence of storage operations and serializer sessions, some of them panicking, leads to `t`.
Storage operations: Model/History.lean. Sessions: Model/Session.lean — ser_raw/src/serializer.rs:186-269, ser_raw/src/storage/mod.rs:186-520. -/
inductive Reach (C : Cfg) (P : Prog) : Sto → Prop
  | new : Reach C P Sto.new
  | withCapacity {c t} : c < C.arch.usizeMod → Sto.withCapacity C c Sto.new = .ok () t → Reach C P t
  | op {t o p t'} : Reach C P t → SOp.Legal C t o → SOp.run C o t = .ok p t' → Reach C P t'
  | opPanic {t o k t'} : Reach C P t → SOp.Legal C t o → SOp.run C o t = .panic k t' → Reach C P t'
  | session {t k fuel rs ps s'} : Reach C P t → (∀ r ∈ rs, Valid C.arch P r) →
      SerRaw.session C k P fuel rs (Ser.fromStorage t) = .ok ps s' → Reach C P s'.sto
  | sessionPanic {t k fuel rs pk s'} : Reach C P t → (∀ r ∈ rs, Valid C.arch P r) →
      SerRaw.session C k P fuel rs (Ser.fromStorage t) = .panic pk s' → Reach C P s'.sto
  /-- a session that went on after caught panics -/
  | caught {t k fuel rs ps s'} : Reach C P t → (∀ r ∈ rs, Valid C.arch P r) →
      sessionCaught C k P fuel rs (Ser.fromStorage t) = .ok ps s' → Reach C P s'.sto
  /-- a serializer on a borrowed storage (`from_storage(&mut storage)`) dropped without `finalize` -/
  | dropped {t k fuel rs ps s'} : Reach C P t → (∀ r ∈ rs, Valid C.arch P r) →
      serValuesCaught C k P fuel rs (Ser.fromStorage t) = .ok ps s' → Reach C P s'.sto

end SerRaw
