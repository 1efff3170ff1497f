import Verif.Model.Session
import Verif.Lemmas.Basic
/-
The recursion bound of the model does not matter: once a run does not hit it, a larger bound gives the same run.
-/
namespace SerRaw

/-- `y` does what `x` does, except where `x` ran out of fuel. -/
def FLe {σ α} (x y : M σ α) : Prop := ∀ s, x s = .fuel ∨ x s = y s

theorem FLe.refl {σ α} (x : M σ α) : FLe x x := fun _ => .inr rfl

theorem FLe.bind {σ α β} {x y : M σ α} {f g : α → M σ β} (h : FLe x y) (hf : ∀ a, FLe (f a) (g a)) : FLe (x >>= f) (y >>= g) := by
  intro s
  rw [bind_def, bind_def]
  rcases h s with h | h
  · rw [h]; exact .inl rfl
  · rw [← h]
    cases x s with
    | ok a s' => exact hf a s'
    | _ => exact .inr rfl

theorem FLe.ite {σ α} {c : Prop} [Decidable c] {x y x' y' : M σ α} (h1 : FLe x x') (h2 : FLe y y') :
    FLe (if c then x else y) (if c then x' else y') := by split <;> assumption

section
variable {C : Cfg} {k : Kind} {P : Prog} {im : Mem}

theorem FLe.pushAndProcessSlice {sl : Slice} {p : Nat} {x y : M Ser Unit} (h : FLe x y) :
    FLe (SerRaw.pushAndProcessSlice C k sl p x) (SerRaw.pushAndProcessSlice C k sl p y) := by
  cases k with
  | pureCopy => exact (FLe.refl _).bind fun _ => h.bind fun _ => FLe.refl _
  | posTracking =>
    exact (FLe.refl _).bind fun _ => (FLe.refl _).bind fun _ => (FLe.refl _).bind fun _ => h.bind fun _ => FLe.refl _
  | ptrOffset =>
    exact (FLe.refl _).bind fun _ => (FLe.refl _).bind fun _ => (FLe.refl _).bind fun _ => (FLe.refl _).bind fun _ =>
      (FLe.refl _).bind fun _ => h.bind fun _ => FLe.refl _
  | complete =>
    exact (FLe.refl _).bind fun _ => (FLe.refl _).bind fun _ => (FLe.refl _).bind fun _ => (FLe.refl _).bind fun _ =>
      (FLe.refl _).bind fun _ => h.bind fun _ => FLe.refl _

theorem FLe.serEach {r r' : TyId → Nat → M Ser Unit} (h : ∀ t a, FLe (r t a) (r' t a)) (a : Nat) (fs : List Field) :
    FLe (SerRaw.serEach r a fs) (SerRaw.serEach r' a fs) := by
  induction fs with
  | nil => exact FLe.refl _
  | cons f fs ih => exact (h _ _).bind fun _ => ih

theorem FLe.serVec {r r' : TyId → Nat → M Ser Unit} (h : ∀ t a, FLe (r t a) (r' t a)) (t a : Nat) :
    FLe (SerRaw.serVec C k P im r t a) (SerRaw.serVec C k P im r' t a) := by
  unfold SerRaw.serVec
  refine FLe.ite (FLe.refl _) ?_
  refine (FLe.refl _).bind fun _ => (FLe.refl _).bind fun _ => (FLe.refl _).bind fun _ => (FLe.refl _).bind fun _ => ?_
  refine FLe.ite (FLe.refl _) ?_
  exact (FLe.refl _).bind fun _ => (FLe.refl _).bind fun _ => (FLe.pushAndProcessSlice (FLe.serEach h _ _)).bind fun _ => FLe.refl _

theorem serData_fle (n : Nat) (t a : Nat) : FLe (serData C k P im n t a) (serData C k P im (n + 1) t a) := by
  induction n generalizing t a with
  | zero => intro s; exact .inl rfl
  | succ n ih =>
    rw [serData, serData]
    cases P.defn t with
    | prim => exact FLe.refl _
    | box u =>
      refine FLe.ite (FLe.refl _) ?_
      exact (FLe.refl _).bind fun _ => (FLe.pushAndProcessSlice (ih _ _)).bind fun _ => FLe.refl _
    | vec u => exact FLe.serVec ih _ _
    | string => exact FLe.refl _
    | array u k => exact FLe.serEach ih _ _
    | struct fs => exact FLe.serEach ih _ _
    | enum tag vs =>
      simp only [serEnum]
      split
      · exact FLe.refl _
      · split
        · exact FLe.refl _
        · exact FLe.serEach ih _ _
    | bigUint u => exact FLe.serVec ih _ _
    | bigInt u =>
      simp only [serBigInt]
      split
      · exact (FLe.refl _).bind fun _ => ih _ _
      · exact FLe.refl _

theorem serializeValue_fle {L : Layout} {a : Nat} {d : Nat → Cell} {x y : M Ser Unit} (h : FLe x y) :
    FLe (serializeValue C k L a d x) (serializeValue C k L a d y) := by
  cases k with
  | pureCopy => exact (FLe.refl _).bind fun _ => h.bind fun _ => FLe.refl _
  | _ => exact (FLe.refl _).bind fun _ => (FLe.refl _).bind fun _ => h.bind fun _ => FLe.refl _

theorem serValues_fle (n : Nat) (rs : List Root) : FLe (serValues C k P n rs) (serValues C k P (n + 1) rs) := by
  induction rs with
  | nil => exact FLe.refl _
  | cons r rs ih => exact (serializeValue_fle (serData_fle _ _ _)).bind fun _ => ih.bind fun _ => FLe.refl _

theorem session_fle (n : Nat) (rs : List Root) : FLe (session C k P n rs) (session C k P (n + 1) rs) :=
  (serValues_fle n rs).bind fun _ => FLe.refl _

/-- A run that did not hit the bound is the run for every larger bound. -/
theorem session_fuel {n m : Nat} (h : n ≤ m) (rs : List Root) (s : Ser) (hn : session C k P n rs s ≠ .fuel) :
    session C k P m rs s = session C k P n rs s := by
  induction h with
  | refl => rfl
  | step _ ih =>
    rcases session_fle (C := C) (k := k) (P := P) _ rs s with h | h
    · rw [ih] at h; exact absurd h hn
    · rw [← h, ih]

theorem serValues_fuel {n m : Nat} (h : n ≤ m) (rs : List Root) (s : Ser) (hn : serValues C k P n rs s ≠ .fuel) :
    serValues C k P m rs s = serValues C k P n rs s := by
  induction h with
  | refl => rfl
  | step _ ih =>
    rcases serValues_fle (C := C) (k := k) (P := P) _ rs s with h | h
    · rw [ih] at h; exact absurd h hn
    · rw [← h, ih]

end
end SerRaw
