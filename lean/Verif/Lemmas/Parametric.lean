import Verif.Model.AnySerializer
import Verif.Lemmas.Basic
/-
The crate's `Serialize` implementations are parametric in the serializer: related serializers give related runs.
-/
namespace SerRaw

/-- A relation between actions that the building blocks of actions preserve. -/
structure ActRel (τ τ' : Type) where
  rel : ∀ {β : Type}, M τ β → M τ' β → Prop
  pure : ∀ {β : Type} (b : β), rel (Pure.pure b) (Pure.pure b)
  bind : ∀ {β γ : Type} {x : M τ β} {y : M τ' β} {f : β → M τ γ} {g : β → M τ' γ}, rel x y → (∀ b, rel (f b) (g b)) → rel (x >>= f) (y >>= g)
  ub : ∀ {β : Type}, rel (M.ub : M τ β) M.ub
  fuel : ∀ {β : Type}, rel (M.outOfFuel : M τ β) M.outOfFuel
  throw : ∀ {β : Type} (k : PanicKind), rel (M.throw k : M τ β) (M.throw k)

/-- Two serializers whose methods do related things. -/
structure SerRel {τ τ' α : Type} (T : ActRel τ τ') (S : SerializerImpl τ α) (S' : SerializerImpl τ' α) : Prop where
  A : S.A = S'.A
  fromRef : S.fromRef = S'.fromRef
  fromRefOffset : ∀ a off, T.rel (S.fromRefOffset a off) (S'.fromRefOffset a off)
  serializeValue : ∀ L a d {x y}, T.rel x y → T.rel (S.serializeValue L a d x) (S'.serializeValue L a d y)
  pushSlice : ∀ sl p, T.rel (S.pushSlice sl p) (S'.pushSlice sl p)
  pushAndProcess : ∀ L a d p {x y}, T.rel x y → T.rel (S.pushAndProcess L a d p x) (S'.pushAndProcess L a d p y)
  pushAndProcessSlice : ∀ sl p {x y}, T.rel x y → T.rel (S.pushAndProcessSlice sl p x) (S'.pushAndProcessSlice sl p y)
  pushRawSlice : ∀ sl, T.rel (S.pushRawSlice sl) (S'.pushRawSlice sl)
  overwrite : ∀ x L d, T.rel (S.overwrite x L d) (S'.overwrite x L d)
  overwriteWith : ∀ {x y}, T.rel x y → T.rel (S.overwriteWith x) (S'.overwriteWith y)
  finalize : T.rel S.finalize S'.finalize

section
variable {τ τ' α : Type} {T : ActRel τ τ'} {S : SerializerImpl τ α} {S' : SerializerImpl τ' α} {P : Prog} {im : Mem}

namespace ActRel

theorem ite (T : ActRel τ τ') {β : Type} {c : Prop} [Decidable c] {x x' : M τ β} {y y' : M τ' β} (h : T.rel x y) (h' : T.rel x' y') :
    T.rel (if c then x else x') (if c then y else y') := by split <;> assumption

theorem readIn (T : ActRel τ τ') (A : Arch) (a : Nat) : T.rel (SerRaw.readIn A im a) (SerRaw.readIn A im a) := by
  unfold SerRaw.readIn
  split
  · exact T.pure _
  · exact T.ub

theorem constEval (T : ActRel τ τ') {β : Type} (x : Option β) : T.rel (SerRaw.constEval x) (SerRaw.constEval x) := by
  cases x
  · exact T.throw _
  · exact T.pure _

theorem assert (T : ActRel τ τ') (k : PanicKind) (b : Bool) : T.rel (M.assert k b) (M.assert k b) := by
  unfold M.assert
  cases b
  · exact T.throw _
  · exact T.pure _

theorem bigintOffset (T : ActRel τ τ') (A : Arch) (u : TyId) : T.rel (bigintDataOffset A P u) (bigintDataOffset A P u) := by
  unfold bigintDataOffset
  refine T.bind (T.constEval _) fun _ => T.bind (T.constEval _) fun _ => ?_
  split
  · refine T.ite ?_ ?_
    · exact T.bind (T.assert _ _) fun _ => T.pure _
    · exact T.bind (T.assert _ _) fun _ => T.pure _
  · exact T.ub

end ActRel

theorem aEach_rel {r : TyId → Nat → M τ Unit} {r' : TyId → Nat → M τ' Unit} (h : ∀ t a, T.rel (r t a) (r' t a)) (a : Nat) (fs : List Field) :
    T.rel (aEach r a fs) (aEach r' a fs) := by
  induction fs with
  | nil => exact T.pure _
  | cons f fs ih => exact T.bind (h _ _) fun _ => ih

theorem aFixEmpty_rel (hS : SerRel T S S') (off : VecOffsets) (dangle a : Nat) : T.rel (aFixEmpty S off dangle a) (aFixEmpty S' off dangle a) := by
  unfold aFixEmpty
  simp only [hS.A, hS.fromRef]
  refine T.ite (hS.overwrite _ _ _) (T.ite (hS.overwrite _ _ _) (T.ite ?_ (T.ite ?_ ?_)))
  · exact T.bind (hS.fromRefOffset _ _) fun _ => hS.overwrite _ _ _
  · exact T.bind (hS.fromRefOffset _ _) fun _ => hS.overwrite _ _ _
  · exact T.bind (hS.fromRefOffset _ _) fun _ => T.bind (hS.overwrite _ _ _) fun _ => T.bind (hS.fromRefOffset _ _) fun _ => hS.overwrite _ _ _

theorem aFixCap_rel (hS : SerRel T S S') (off : VecOffsets) (cap len a : Nat) : T.rel (aFixCap S off cap len a) (aFixCap S' off cap len a) := by
  unfold aFixCap
  rw [hS.A]
  exact T.ite (T.bind (hS.fromRefOffset _ _) fun _ => hS.overwrite _ _ _) (T.pure _)

theorem aVec_rel (hS : SerRel T S S') {r : TyId → Nat → M τ Unit} {r' : TyId → Nat → M τ' Unit} (h : ∀ t a, T.rel (r t a) (r' t a)) (t a : Nat) :
    T.rel (aVec S P im r t a) (aVec S' P im r' t a) := by
  unfold aVec
  simp only [hS.A]
  refine T.ite (T.pure _) ?_
  refine T.bind (T.readIn _ _) fun _ => T.bind (T.readIn _ _) fun _ => T.bind (T.readIn _ _) fun _ => T.bind (T.constEval _) fun _ => ?_
  refine T.ite (hS.overwriteWith (T.ite (aFixEmpty_rel hS _ _ _) (T.pure _))) ?_
  exact T.bind (hS.overwriteWith (aFixCap_rel hS _ _ _ _)) fun _ => T.bind (hS.fromRefOffset _ _) fun _ =>
    T.bind (hS.pushAndProcessSlice _ _ (aEach_rel h _ _)) fun _ => T.pure _

theorem aString_rel (hS : SerRel T S S') (a : Nat) : T.rel (aString S P im a) (aString S' P im a) := by
  unfold aString
  simp only [hS.A]
  refine T.bind (T.readIn _ _) fun _ => T.bind (T.readIn _ _) fun _ => T.bind (T.readIn _ _) fun _ => T.bind (T.constEval _) fun _ => ?_
  refine T.ite (hS.overwriteWith (T.ite (aFixEmpty_rel hS _ _ _) (T.pure _))) ?_
  exact T.bind (hS.overwriteWith (aFixCap_rel hS _ _ _ _)) fun _ => T.bind (hS.fromRefOffset _ _) fun _ =>
    T.bind (hS.pushSlice _ _) fun _ => T.pure _

/-- One level of `serialize_data`. -/
theorem aData_step (hS : SerRel T S S') {n n' : Nat} (h : ∀ t a, T.rel (aData S P im n t a) (aData S' P im n' t a)) (t a : Nat) :
    T.rel (aData S P im (n + 1) t a) (aData S' P im (n' + 1) t a) := by
  rw [aData, aData]
  cases P.defn t with
  | prim => exact T.pure _
  | box u =>
    simp only [aBox, hS.A, hS.fromRef]
    exact T.ite (T.pure _) (T.bind (T.readIn _ _) fun _ => T.bind (hS.pushAndProcess _ _ _ _ (h _ _)) fun _ => T.pure _)
  | vec u => exact aVec_rel hS h _ _
  | string => exact aString_rel hS _
  | array u m => exact aEach_rel h _ _
  | struct fs => exact aEach_rel h _ _
  | enum tag vs =>
    simp only [aEnum, hS.A]
    cases activeVariant S'.A im a tag with
    | none => exact T.ub
    | some i =>
      simp only
      cases vs[i]? with
      | none => exact T.ub
      | some fs => exact aEach_rel h _ _
  | bigUint u => exact aVec_rel hS h _ _
  | bigInt u =>
    simp only [aBigInt, hS.A]
    cases P.defn u with
    | bigUint w => exact T.bind (T.bigintOffset _ _) fun _ => h _ _
    | _ => exact T.ub

theorem aData_rel (hS : SerRel T S S') (n t a : Nat) : T.rel (aData S P im n t a) (aData S' P im n t a) := by
  induction n generalizing t a with
  | zero => exact T.fuel
  | succ n ih => exact aData_step hS ih t a

theorem aRoots_rel (hS : SerRel T S S') {n n' : Nat} (h : ∀ im t a, T.rel (aData S P im n t a) (aData S' P im n' t a)) (rs : List Root) :
    T.rel (aRoots S P n rs) (aRoots S' P n' rs) := by
  induction rs with
  | nil => exact T.pure _
  | cons r rs ih => exact T.bind (hS.serializeValue _ _ _ (h _ _ _)) fun _ => T.bind ih fun _ => T.pure _

/-- Related serializers give related sessions. -/
theorem aSession_rel (hS : SerRel T S S') (n : Nat) (rs : List Root) : T.rel (aSession S P n rs) (aSession S' P n rs) :=
  T.bind (aRoots_rel hS (fun _ => aData_rel hS n) rs) fun _ => T.bind hS.finalize fun _ => T.pure _

theorem runA_rel (hS : SerRel T S S') (sc : Script) : T.rel (sc.runA S im) (sc.runA S' im) := by
  induction sc with
  | done => exact T.pure _
  | pushProcess L len src ptr inner rest ih1 ih2 =>
    simp only [Script.runA, hS.fromRef]
    exact T.bind (hS.pushAndProcessSlice _ _ ih1) fun _ => ih2
  | push L len src ptr rest ih =>
    simp only [Script.runA, hS.fromRef]
    exact T.bind (hS.pushSlice _ _) fun _ => ih
  | pushRaw L len src rest ih => exact T.bind (hS.pushRawSlice _) fun _ => ih
  | overwrite a L data rest ih =>
    simp only [Script.runA, hS.fromRef]
    exact T.bind (hS.overwriteWith (hS.overwrite _ _ _)) fun _ => ih

theorem aValues_rel (hS : SerRel T S S') (vs : List UserRoot) : T.rel (aValues S vs) (aValues S' vs) := by
  induction vs with
  | nil => exact T.pure _
  | cons v vs ih => exact T.bind (hS.serializeValue _ _ _ (runA_rel hS _)) fun _ => T.bind ih fun _ => T.pure _

end

/-! ### More fuel -/

/-- The second action does what the first does, unless the first runs out of fuel. -/
def fuelRel (τ : Type) : ActRel τ τ where
  rel x y := ∀ s, x s ≠ .fuel → y s = x s
  pure _ _ _ := rfl
  bind := by
    intro β γ x y f g hx hf s hs
    rw [bind_def] at hs ⊢
    have h1 : x s ≠ .fuel := by intro h; rw [h] at hs; exact hs rfl
    rw [bind_def, hx s h1]
    cases hxs : x s with
    | ok b s1 => rw [hxs] at hs; exact hf b s1 hs
    | _ => rfl
  ub _ _ := rfl
  fuel _ _ := rfl
  throw _ _ _ := rfl

theorem fuelRel_refl {τ β : Type} (x : M τ β) : (fuelRel τ).rel x x := fun _ _ => rfl

/-- Giving a session more fuel does not change its outcome, for serializers that use their closures only by running them. -/
theorem aSession_fuel {τ α : Type} {S : SerializerImpl τ α} (hS : SerRel (fuelRel τ) S S) {P : Prog} {n n' : Nat} (hn : n ≤ n') (rs : List Root) (s : τ)
    (h : aSession S P n rs s ≠ .fuel) : aSession S P n' rs s = aSession S P n rs s := by
  have hd : ∀ n n', n ≤ n' → ∀ im t a, (fuelRel τ).rel (aData S P im n t a) (aData S P im n' t a) := by
    intro n
    induction n with
    | zero => intro n' _ im t a s hs; exact absurd rfl hs
    | succ n ih =>
      intro n' hn im t a
      obtain ⟨m, rfl⟩ : ∃ m, n' = m + 1 := ⟨n' - 1, by omega⟩
      exact aData_step hS (ih m (by omega) im) t a
  exact (fuelRel τ).bind (aRoots_rel hS (hd n n' hn) rs) (fun _ => (fuelRel τ).bind hS.finalize fun _ => (fuelRel τ).pure _) s h

end SerRaw
