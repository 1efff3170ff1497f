import Verif.Model.SharedHeap
/-
What a storage or serializer is like that has a heap of its own: the histories of Model/Mixed.lean, in which the heap holds nothing else.
-/
namespace SerRaw

/-- `w`, if it were alone with an allocator of its own, could be a storage (or a serializer with a storage) whose fields and blocks are `t`,
after the same recorded uses. -/
def Owner.Alone (C : Cfg) (P : Prog) : Owner → Sto → Prop
  | .absent, t => t = Sto.new
  | .storage v, t => GReach C P t ∧ t.vec = v
  | .serializer k v m p es, t => t.vec = v ∧ ∃ t0, GReach C P t0 ∧ Sess C k P t0 es ⟨t, m, p⟩

/-- The same outcome: the same result and fields (as `f` gives them), the same panic, or an abort; in any case not undefined behaviour. -/
def SameOutcome {σ β α : Type} (f : σ → β) : Out σ α → Out σ α → Prop
  | .ok r s, .ok r' t => r = r' ∧ f s = f t
  | .panic k s, .panic k' t => k = k' ∧ f s = f t
  | .abort, .abort => True
  | .fuel, .fuel => True
  | _, _ => False

end SerRaw
