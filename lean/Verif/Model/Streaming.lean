import Verif.Model.Mixed
/-
A serializer at one moment of a session and at a later one.
-/
namespace SerRaw

/-- `Goes C k P es s more s'`: a serializer that has done `es` and is in the state `s` goes on with the events `more` (values of the crate's own, derived and
hand-written implementations, direct storage operations, panics caught) to the state `s'` — ser_raw/src/serializer.rs:217-493. -/
inductive Goes (C : Cfg) (k : Kind) (P : Prog) (es : List Ev) (s : Ser) : List Ev → Ser → Prop
  | here : Goes C k P es s [] s
  | step {more u a fuel r u'} : Goes C k P es s more u → a.Legal C P (es ++ more) u → M.caught (a.run C k P fuel) u = .ok r u' →
      Goes C k P es s (more ++ [⟨a, r, u.sto.vec.pos, u'.sto.vec.pos⟩]) u'

end SerRaw
