import Verif.Lemmas.Parametric
import Verif.Model.Storage
/-
Transition relations kept by actions, whatever they return: if each piece of an action only makes steps in a reflexive and transitive
relation, so does the action, whether it returns or panics.
-/
namespace SerRaw

/-- A reflexive and transitive relation on states. -/
structure StepRel (σ : Type) where
  R : σ → σ → Prop
  refl : ∀ s, R s s
  trans : ∀ {s t u}, R s t → R t u → R s u

/-- The outcome, if it is a return or a panic, is a step away from `s`. -/
def Out.After {σ α : Type} (W : StepRel σ) (s : σ) : Out σ α → Prop
  | .ok _ t => W.R s t
  | .panic _ t => W.R s t
  | _ => True

/-- The state after a return or a panic satisfies `Q`. -/
def Out.Post {σ α : Type} (Q : σ → Prop) : Out σ α → Prop
  | .ok _ t => Q t
  | .panic _ t => Q t
  | _ => True

theorem bind_eq_ok {σ α β : Type} {x : M σ α} {f : α → M σ β} {s u : σ} {b : β} (h : (x >>= f) s = .ok b u) :
    ∃ a t, x s = .ok a t ∧ f a t = .ok b u := by
  rw [bind_def] at h
  cases hx : x s with
  | ok a t => rw [hx] at h; exact ⟨a, t, rfl, h⟩
  | _ => rw [hx] at h; cases h

/-- The action makes only steps of `W`. -/
def StepRel.Holds {σ α : Type} (W : StepRel σ) (x : M σ α) : Prop := ∀ s, (x s).After W s

section
variable {σ α β : Type} {W : StepRel σ}

namespace StepRel.Holds

theorem h_pure (a : α) : W.Holds (Pure.pure a : M σ α) := fun s => W.refl s

theorem h_bind {x : M σ α} {f : α → M σ β} (hx : W.Holds x) (hf : ∀ a, W.Holds (f a)) : W.Holds (x >>= f) := by
  intro s
  rw [bind_def]
  have h := hx s
  cases hxs : x s with
  | ok a t =>
    rw [hxs] at h
    have h2 := hf a t
    cases hft : f a t with
    | ok b u => simp only [hft]; rw [hft] at h2; exact W.trans h h2
    | panic k u => simp only [hft]; rw [hft] at h2; exact W.trans h h2
    | _ => simp only [hft]; trivial
  | panic k t => rw [hxs] at h; exact h
  | _ => trivial

theorem h_ub : W.Holds (M.ub : M σ α) := fun _ => trivial
theorem h_abort : W.Holds (M.abort : M σ α) := fun _ => trivial
theorem h_outOfFuel : W.Holds (M.outOfFuel : M σ α) := fun _ => trivial
theorem h_throw (k : PanicKind) : W.Holds (M.throw k : M σ α) := fun s => W.refl s
theorem h_get : W.Holds (M.get : M σ σ) := fun s => W.refl s

theorem h_ite {c : Prop} [Decidable c] {x y : M σ α} (h1 : W.Holds x) (h2 : W.Holds y) : W.Holds (if c then x else y) := by
  split <;> assumption

theorem h_assert (k : PanicKind) (b : Bool) : W.Holds (M.assert k b) := by
  intro s; unfold M.assert; split <;> exact W.refl s

theorem h_debugAssert (A : Arch) (b : Bool) : W.Holds (M.debugAssert A b : M σ Unit) := by
  intro s; unfold M.debugAssert; split <;> exact W.refl s

theorem h_debugAssertM (A : Arch) {e : M σ Bool} (h : W.Holds e) : W.Holds (M.debugAssertM A e) :=
  h_ite (h_bind h fun _ => h_debugAssert _ _) (h_pure _)

theorem h_uadd (A : Arch) (a b : Nat) : W.Holds (SerRaw.uadd A a b) := by
  intro s; unfold SerRaw.uadd; split
  · exact W.refl s
  · split <;> exact W.refl s

theorem h_usub (A : Arch) (a b : Nat) : W.Holds (SerRaw.usub A a b) := by
  intro s; unfold SerRaw.usub; split
  · exact W.refl s
  · split <;> exact W.refl s

theorem h_umul (A : Arch) (a b : Nat) : W.Holds (SerRaw.umul A a b) := by
  intro s; unfold SerRaw.umul; split
  · exact W.refl s
  · split <;> exact W.refl s

theorem h_unextPow2 (A : Arch) (n : Nat) : W.Holds (SerRaw.unextPow2 A n) := by
  intro s; unfold SerRaw.unextPow2; split
  · exact W.refl s
  · split <;> exact W.refl s

theorem h_alignUpTo (A : Arch) (p a : Nat) : W.Holds (SerRaw.alignUpTo A p a) :=
  h_bind (h_debugAssert _ _) fun _ => h_bind (h_uadd _ _ _) fun _ => h_bind (h_usub _ _ _) fun _ => h_bind (h_usub _ _ _) fun _ => h_pure _

theorem h_isAlignedTo (A : Arch) (p a : Nat) : W.Holds (SerRaw.isAlignedTo A p a) :=
  h_bind (h_debugAssert _ _) fun _ => h_bind (h_usub _ _ _) fun _ => h_pure _

theorem h_alignedMaxCapacity (A : Arch) (a : Nat) : W.Holds (SerRaw.alignedMaxCapacity A a) :=
  h_bind (h_assert _ _) fun _ => h_bind (h_assert _ _) fun _ => h_bind (h_assert _ _) fun _ => h_bind (h_usub _ _ _) fun _ => h_usub _ _ _

theorem h_posForAddr (A : Arch) (m : PosMapping) (a : Nat) : W.Holds (m.posForAddr A a) :=
  h_bind (h_usub _ _ _) fun _ => h_uadd _ _ _

/-- A panic that is caught is a return. -/
theorem h_caught {x : M σ α} (h : W.Holds x) : W.Holds (M.caught x) := by
  intro s
  have h := h s
  unfold M.caught
  cases hx : x s <;> rw [hx] at h <;> first | exact h | trivial

end StepRel.Holds

/-- Making only steps of `W`, as a relation on actions (Lemmas/Parametric.lean). -/
def StepRel.actRel (W : StepRel σ) : ActRel σ σ where
  rel x _ := W.Holds x
  pure b := StepRel.Holds.h_pure b
  bind hx hf := StepRel.Holds.h_bind hx hf
  ub := StepRel.Holds.h_ub
  fuel := StepRel.Holds.h_outOfFuel
  throw k := StepRel.Holds.h_throw k

end

/-! ### When the buffer moves -/

/-- The buffer moves only when the allocator is called. -/
def moveSteps : StepRel Sto where
  R s t := s.w.calls ≤ t.w.calls ∧ (t.vec.ptr = s.vec.ptr ∨ s.w.calls < t.w.calls)
  refl _ := ⟨Nat.le_refl _, Or.inl rfl⟩
  trans := by
    rintro s t u ⟨h1, h2⟩ ⟨h3, h4⟩
    refine ⟨by omega, ?_⟩
    rcases h2 with h2 | h2
    · rcases h4 with h4 | h4
      · exact Or.inl (h4.trans h2)
      · exact Or.inr (by omega)
    · exact Or.inr (by omega)

/-- The allocator is never un-called. -/
def callSteps : StepRel Sto where
  R s t := s.w.calls ≤ t.w.calls
  refl _ := Nat.le_refl _
  trans h1 h2 := Nat.le_trans h1 h2

section
variable {C : Cfg} {α β : Type}

/-- The allocator was called. -/
def Counts (x : M Sto α) : Prop :=
  moveSteps.Holds x ∧ ∀ s a t, x s = .ok a t → s.w.calls < t.w.calls

theorem Counts.bind {x : M Sto α} {f : α → M Sto β} (hx : Counts x) (hf : ∀ a, callSteps.Holds (f a)) : moveSteps.Holds (x >>= f) := by
  intro s
  rw [bind_def]
  have h := hx.1 s
  cases hxs : x s with
  | ok a t =>
    have h1 := hx.2 s a t hxs
    have h2 := hf a t
    cases hft : f a t with
    | ok b u =>
      simp only [hft]; rw [hft] at h2
      have h2 : t.w.calls ≤ u.w.calls := h2
      exact ⟨by omega, Or.inr (by omega)⟩
    | panic k u =>
      simp only [hft]; rw [hft] at h2
      have h2 : t.w.calls ≤ u.w.calls := h2
      exact ⟨by omega, Or.inr (by omega)⟩
    | _ => simp only [hft]; trivial
  | panic k t => rw [hxs] at h; exact h
  | _ => trivial

theorem Counts.after {x : M Sto α} {f : α → M Sto β} (hx : moveSteps.Holds x) (hf : ∀ a, Counts (f a)) : Counts (x >>= f) := by
  refine ⟨hx.h_bind fun a => (hf a).1, ?_⟩
  intro s b u h
  rw [bind_def] at h
  have h0 := hx s
  cases hxs : x s with
  | ok a t =>
    rw [hxs] at h h0
    have h1 := (hf a).2 t b u h
    have h0 : s.w.calls ≤ t.w.calls ∧ _ := h0
    omega
  | _ => rw [hxs] at h; cases h

open StepRel.Holds in
theorem counts_alloc (n : Nat) : Counts (Sto.alloc C n) := by
  refine Counts.after (h_debugAssert _ _) fun _ => Counts.after (h_debugAssertM _ (h_bind (h_alignedMaxCapacity _ _) fun _ => h_pure _)) fun _ => ?_
  have h : Counts (heapAlloc C ⟨n, C.storageAlign⟩) := by
    constructor
    · intro s; unfold heapAlloc; split
      · trivial
      · dsimp only; split <;> exact ⟨Nat.le_succ _, Or.inr (Nat.lt_succ_self _)⟩
    · intro s a t h
      unfold heapAlloc at h; split at h
      · cases h
      · dsimp only at h; split at h <;> cases h <;> exact Nat.lt_succ_self _
  refine ⟨h.1.h_bind fun _ => h_ite h_abort (h_pure _), ?_⟩
  intro s a t hr
  rw [bind_def] at hr
  cases hx : heapAlloc C ⟨n, C.storageAlign⟩ s with
  | ok p u =>
    have := h.2 s p u hx
    rw [hx] at hr
    dsimp only at hr
    split at hr <;> cases hr
    exact this
  | _ => rw [hx] at hr; cases hr

open StepRel.Holds in
theorem counts_realloc (n : Nat) : Counts (Sto.realloc C n) := by
  refine Counts.after h_get fun s0 => Counts.after (h_debugAssert _ _) fun _ => Counts.after (h_debugAssert _ _) fun _ =>
    Counts.after (h_debugAssertM _ (h_bind (h_alignedMaxCapacity _ _) fun _ => h_pure _)) fun _ => ?_
  have h : Counts (heapRealloc C s0.vec.ptr (Sto.layout C s0) n) := by
    constructor
    · intro s; unfold heapRealloc; split
      · trivial
      · split
        · trivial
        · dsimp only; split <;> exact ⟨Nat.le_succ _, Or.inr (Nat.lt_succ_self _)⟩
    · intro s a t h
      unfold heapRealloc at h; split at h
      · cases h
      · split at h
        · cases h
        · dsimp only at h; split at h <;> cases h <;> exact Nat.lt_succ_self _
  refine ⟨h.1.h_bind fun _ => h_ite h_abort (h_pure _), ?_⟩
  intro s a t hr
  rw [bind_def] at hr
  cases hx : heapRealloc C s0.vec.ptr (Sto.layout C s0) n s with
  | ok p u =>
    have := h.2 s p u hx
    rw [hx] at hr
    dsimp only at hr
    split at hr <;> cases hr
    exact this
  | _ => rw [hx] at hr; cases hr

theorem moves_getPos : moveSteps.Holds Sto.getPos := fun s => moveSteps.refl s
theorem moves_getCapacity : moveSteps.Holds Sto.getCapacity := fun s => moveSteps.refl s
theorem moves_getPtr : moveSteps.Holds Sto.getPtr := fun s => moveSteps.refl s
theorem moves_putPos (p : Nat) : moveSteps.Holds (Sto.putPos p) := fun _ => ⟨Nat.le_refl _, Or.inl rfl⟩
theorem moves_putCapacity (p : Nat) : moveSteps.Holds (Sto.putCapacity p) := fun _ => ⟨Nat.le_refl _, Or.inl rfl⟩
theorem calls_putPtr (p : Nat) : callSteps.Holds (Sto.putPtr p) := fun _ => Nat.le_refl _
theorem calls_putCapacity (p : Nat) : callSteps.Holds (Sto.putCapacity p) := fun _ => Nat.le_refl _

theorem moves_ptrAdd (p off : Nat) : moveSteps.Holds (ptrAdd p off) := by
  intro s; unfold ptrAdd; split
  · exact moveSteps.refl s
  · split
    · exact moveSteps.refl s
    · trivial

theorem moves_memRef (a al n : Nat) : moveSteps.Holds (memRef a al n) := by
  intro s; unfold memRef; split
  · trivial
  · split
    · exact moveSteps.refl s
    · split
      · exact moveSteps.refl s
      · trivial

theorem moves_memWrite (a al n : Nat) (d : Nat → Cell) : moveSteps.Holds (memWrite a al n d) := by
  intro s; unfold memWrite; split
  · trivial
  · split
    · exact moveSteps.refl s
    · split
      · exact ⟨Nat.le_refl _, Or.inl rfl⟩
      · trivial

open StepRel.Holds

theorem moves_setPos (p : Nat) : moveSteps.Holds (Sto.setPos C p) :=
  h_bind moves_getCapacity fun _ => h_bind (h_debugAssert _ _) fun _ => h_bind (h_debugAssertM _ (h_isAlignedTo _ _ _)) fun _ => moves_putPos _

theorem moves_align (a : Nat) : moveSteps.Holds (Sto.align C a) :=
  h_bind (h_debugAssert _ _) fun _ => h_bind (h_debugAssert _ _) fun _ => h_bind (h_debugAssert _ _) fun _ => h_bind moves_getPos fun _ =>
    h_bind (h_alignUpTo _ _ _) fun _ => moves_setPos _

theorem moves_alignFor (L : Layout) : moveSteps.Holds (Sto.alignFor C L) := h_ite (moves_align _) (h_pure _)
theorem moves_alignAfter (L : Layout) : moveSteps.Holds (Sto.alignAfter C L) := h_ite (moves_align _) (h_pure _)

theorem moves_growForReserve (n : Nat) : moveSteps.Holds (Sto.growForReserve C n) :=
  h_bind (h_debugAssert _ _) fun _ => h_bind moves_getPos fun _ => h_bind (h_assert _ _) fun _ => h_bind (h_unextPow2 _ _) fun _ =>
    h_bind (h_ite (h_bind (h_assert _ _) fun _ => h_pure _) (h_unextPow2 _ _)) fun _ => h_bind moves_getCapacity fun _ =>
      h_ite ((counts_alloc _).bind fun _ => h_bind (calls_putPtr _) fun _ => calls_putCapacity _)
        ((counts_realloc _).bind fun _ => h_bind (calls_putPtr _) fun _ => calls_putCapacity _)

theorem moves_reserve (n : Nat) : moveSteps.Holds (Sto.reserve C n) :=
  h_bind moves_getCapacity fun _ => h_bind moves_getPos fun _ => h_ite (moves_growForReserve _) (h_pure _)

theorem moves_writeSlice (p : Nat) (L : Layout) (len : Nat) (d : Nat → Cell) : moveSteps.Holds (Sto.writeSlice C p L len d) :=
  h_bind moves_getCapacity fun _ => h_bind (h_debugAssert _ _) fun _ => h_bind (h_debugAssertM _ (h_bind (h_usub _ _ _) fun _ => h_bind (h_umul _ _ _) fun _ => h_pure _)) fun _ =>
    h_bind (h_debugAssertM _ (h_isAlignedTo _ _ _)) fun _ => h_ite (h_pure _) (h_bind moves_getPtr fun _ => h_bind (moves_ptrAdd _ _) fun _ => moves_memWrite _ _ _ _)

theorem moves_pushSlice (L : Layout) (len : Nat) (d : Nat → Cell) : moveSteps.Holds (Sto.pushSlice C L len d) :=
  h_ite (h_pure _) (h_bind (moves_alignFor _) fun _ => h_bind (h_umul _ _ _) fun _ => h_bind (moves_reserve _) fun _ => h_bind moves_getPos fun _ =>
    h_bind (h_bind moves_getCapacity fun _ => h_bind moves_getPos fun _ => h_bind (h_debugAssertM _ (h_bind (h_usub _ _ _) fun _ => h_pure _)) fun _ =>
      h_bind (h_debugAssertM _ (h_bind (h_umul _ _ _) fun _ => h_pure _)) fun _ => h_bind (h_debugAssertM _ (h_isAlignedTo _ _ _)) fun _ =>
        h_ite (h_pure _) (h_bind (moves_writeSlice _ _ _ _) fun _ => h_bind (h_uadd _ _ _) fun _ => moves_putPos _)) fun _ =>
    h_bind (moves_alignAfter _) fun _ => h_pure _)

theorem moves_pushEmptySlice (L : Layout) (len : Nat) : moveSteps.Holds (Sto.pushEmptySlice C L len) :=
  h_bind (moves_alignFor _) fun _ => h_bind (h_umul _ _ _) fun _ => h_bind (moves_reserve _) fun _ => h_bind moves_getPos fun _ => h_bind (h_uadd _ _ _) fun _ =>
    h_bind (moves_setPos _) fun _ => h_bind (moves_alignAfter _) fun _ => h_pure _

theorem moves_correctLoop (A : Arch) (b sh : Nat) (ps : List Nat) : moveSteps.Holds (correctLoop A b sh ps) := by
  induction ps with
  | nil => exact h_pure _
  | cons p ps ih =>
    refine h_bind (h_bind (moves_ptrAdd _ _) fun _ => h_bind (moves_memRef _ _ _) fun _ => ?_) fun _ => ih
    split
    · exact h_ub
    · exact moves_memWrite _ _ _ _

theorem moves_correctPast (A : Arch) (b : Nat) (gs : List PtrGroup) : moveSteps.Holds (Complete.correctPast A b gs) := by
  induction gs with
  | nil => exact h_pure _
  | cons g gs ih => exact h_bind (h_ite (moves_correctLoop _ _ _ _) (h_pure _)) fun _ => ih

end
end SerRaw
