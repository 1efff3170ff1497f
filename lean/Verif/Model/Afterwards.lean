import Verif.Model.Mixed
/-
What can happen to a storage after a serializer has finished with it, at its most general: storage operations, and further serializers
of any kinds used in any of the ways of Model/Mixed.lean, finished or dropped.
-/
namespace SerRaw

/-- `Afterwards C P K t t'`: storage operations other than `clear`, and serializers of any kinds used for anything (values of the crate's own,
derived and hand-written implementations, direct storage operations, panics caught), finished or dropped, lead from `t` to `t'`, without a
random-access write to a byte of the set `K` — ser_raw/src/storage/mod.rs:186-520, ser_raw/src/serializer.rs:217-520. -/
inductive Afterwards (C : Cfg) (P : Prog) (K : Nat → Prop) (t : Sto) : Sto → Prop
  | now : Afterwards C P K t t
  | op {u o p u'} : Afterwards C P K t u → SOp.Legal C u o → o ≠ .clear →
      (∀ p L len d, o = .writeSlice p L len d → ∀ i, K i → ¬ (p ≤ i ∧ i < p + L.size * len)) → SOp.run C o u = .ok p u' → Afterwards C P K t u'
  | opPanic {u o k u'} : Afterwards C P K t u → SOp.Legal C u o → o ≠ .clear →
      (∀ p L len d, o = .writeSlice p L len d → ∀ i, K i → ¬ (p ≤ i ∧ i < p + L.size * len)) → SOp.run C o u = .panic k u' → Afterwards C P K t u'
  /-- a serializer on the storage, finished — ser_raw/src/serializer.rs:491-493 -/
  | finished {u k es s s'} : Afterwards C P K t u → Sess C k P u es s → (∀ e ∈ es, ∀ i, K i → ¬ e.Writes i) → finalize C k s = .ok () s' →
      Afterwards C P K t s'.sto
  /-- a serializer on the borrowed storage, dropped without `finalize` -/
  | dropped {u k es s} : Afterwards C P K t u → Sess C k P u es s → (∀ e ∈ es, ∀ i, K i → ¬ e.Writes i) → Afterwards C P K t s.sto

end SerRaw
