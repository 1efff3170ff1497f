import Verif.Model.Programs
/-
Programs that follow the rules whatever they are told.
-/
namespace SerRaw

/-- With some answers, the program rewrites the `t.2` bytes at `t.1` of the value being processed. -/
def Program.MayTouch (A : Arch) : Program → Nat × Nat → Prop
  | .done _, _ => False
  | .panic, _ => False
  | .look f, t => ∃ s, (f s).MayTouch A t
  | .lookPos f, t => ∃ p, (f p).MayTouch A t
  | .lookFor _ f, t => ∃ p, (f p).MayTouch A t
  | .pushProcess _ _ _ _ ptr _ rest, t => t = (ptr, A.ptrBytes) ∨ ∃ p r, (rest p r).MayTouch A t
  | .push _ _ _ _ ptr rest, t => t = (ptr, A.ptrBytes) ∨ ∃ p, (rest p).MayTouch A t
  | .pushRaw _ _ _ _ rest, t => ∃ p, (rest p).MayTouch A t
  | .pushRawBytes _ _ rest, t => ∃ p, (rest p).MayTouch A t
  | .overwrite a L _ rest, t => t = (a, L.size) ∨ rest.MayTouch A t

/-- The rules of Spec/Temporaries.lean (`TCalls.WF`), whatever the answers are. -/
def Program.Follows (C : Cfg) : Program → Ctx → Prop
  | .done _, _ => True
  | .panic, _ => True
  | .look f, c => ∀ s, (f s).Follows C c
  | .lookPos f, c => ∀ p, (f p).Follows C c
  | .lookFor _ f, c => ∀ p, (f p).Follows C c
  | .pushProcess L len src _ ptr inner rest, c =>
    PushOK C L len src ∧ TouchOK C c ptr C.arch.ptrBytes ∧
    (∀ p r t, (rest p r).MayTouch C.arch t → DisjRange ptr C.arch.ptrBytes t.1 t.2) ∧
    inner.Follows C ⟨src, L.size * len, L.align⟩ ∧ ∀ p r, (rest p r).Follows C c
  | .push L len src _ ptr rest, c =>
    PushOK C L len src ∧ TouchOK C c ptr C.arch.ptrBytes ∧
    (∀ p t, (rest p).MayTouch C.arch t → DisjRange ptr C.arch.ptrBytes t.1 t.2) ∧ ∀ p, (rest p).Follows C c
  | .pushRaw L len src _ rest, c => PushOK C L len src ∧ ∀ p, (rest p).Follows C c
  | .pushRawBytes len _ rest, c => len ≤ C.arch.isizeMax ∧ ∀ p, (rest p).Follows C c
  | .overwrite a L _ rest, c => OverOK c a L ∧ rest.Follows C c

end SerRaw
