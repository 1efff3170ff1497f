import Verif.Model.Programs
/-
A serializer of Model/Programs.lean — used for values with any programs as `serialize_data`, and everything else — at one moment and at a later one, and
what can happen to its storage after it has finished.
-/
namespace SerRaw

/-- `XGoes C k P xs s more s'`: a serializer that has done `xs` and is in the state `s` goes on with the events `more` to the state `s'` —
ser_raw/src/serializer.rs:217-493. -/
inductive XGoes (C : Cfg) (k : Kind) (P : Prog) (xs : List XEv) (s : Ser) : List XEv → Ser → Prop
  | here : XGoes C k P xs s [] s
  | step {more u a fuel r u'} : XGoes C k P xs s more u → a.Legal C k P (xs ++ more) u → M.caught (a.run C k P fuel) u = .ok r u' →
      XGoes C k P xs s (more ++ [⟨a, a.callsFrom C k u, r, u.sto.vec.pos, u'.sto.vec.pos⟩]) u'

/-- `XAfter C P K t t'`: storage operations other than `clear`, and serializers of any kinds used for anything, programs among it, finished or dropped, lead from
`t` to `t'`, without a random-access write to a byte of the set `K` — ser_raw/src/storage/mod.rs:186-520, ser_raw/src/serializer.rs:217-520. -/
inductive XAfter (C : Cfg) (P : Prog) (K : Nat → Prop) (t : Sto) : Sto → Prop
  | now : XAfter C P K t t
  | op {u o p u'} : XAfter C P K t u → SOp.Legal C u o → o ≠ .clear →
      (∀ p L len d, o = .writeSlice p L len d → ∀ i, K i → ¬ (p ≤ i ∧ i < p + L.size * len)) → SOp.run C o u = .ok p u' → XAfter C P K t u'
  | opPanic {u o k u'} : XAfter C P K t u → SOp.Legal C u o → o ≠ .clear →
      (∀ p L len d, o = .writeSlice p L len d → ∀ i, K i → ¬ (p ≤ i ∧ i < p + L.size * len)) → SOp.run C o u = .panic k u' → XAfter C P K t u'
  /-- a serializer on the storage, finished — ser_raw/src/serializer.rs:491-493 -/
  | finished {u k xs s s'} : XAfter C P K t u → XSess C k P u xs s → (∀ x ∈ xs, ∀ i, K i → ¬ x.Writes i) → finalize C k s = .ok () s' →
      XAfter C P K t s'.sto
  /-- a serializer on the borrowed storage, dropped without `finalize` -/
  | dropped {u k xs s} : XAfter C P K t u → XSess C k P u xs s → (∀ x ∈ xs, ∀ i, K i → ¬ x.Writes i) → XAfter C P K t s.sto

end SerRaw
