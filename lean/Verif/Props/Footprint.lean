import Verif.Lemmas.Footprint
import Verif.Props.AnySerializer
import Verif.Props.UserImpl
import Verif.Props.SerEx
import Verif.Props.CustomComplete
/-
C73: serializing looks at nothing but the value.
-/
namespace SerRaw

section
variable {P : Prog}

/-- A valid value can be walked to its end. -/
theorem walkable_of_denotes {C : Cfg} {fl : Flags} (hA : C.arch.Valid) (hP : P.WF C.arch) {im : Mem} {t a : Nat} {v : Val}
    (h : Denotes C.arch P fl im t a v) : Walkable C.arch P im t a := by
  obtain ⟨n, hn⟩ := h
  obtain ⟨sc, hs, _⟩ := serData_eq hA.ptr_pos .pureCopy hP hn
  obtain ⟨as, h1, _⟩ := script_own n _ _ _ hs
  exact ⟨n, as, h1⟩

/-- Two lists of values of the same types at the same addresses, in memories which hold the same bytes wherever a byte belongs to the value.
Nothing is said about the rest of the memories: other values, freed or unmapped memory, spare capacity of vectors. -/
def SameValues (A : Arch) (P : Prog) (rs rs' : List Root) : Prop :=
  List.Forall₂ (fun r r' => r'.t = r.t ∧ r'.a = r.a ∧ Walkable A P r.im r.t r.a ∧
    ∀ x, BelongsTo A P r.im r.t r.a x → r'.im x = r.im x) rs rs'

theorem aData_sameValue {τ α : Type} {S : SerializerImpl τ α} (hS : S.Local) (hW : 0 < S.A.ptrBytes) (hP : P.WF S.A) {im im' : Mem}
    {t a : Nat} (hw : Walkable S.A P im t a) (h : ∀ x, BelongsTo S.A P im t a x → im' x = im x) (f : Nat) :
    aData S P im' f t a = aData S P im f t a := by
  obtain ⟨n, as, ho⟩ := hw
  refine aData_same hS hW hP n f t a as ho ?_ ?_
  · intro i hi; exact h _ (Or.inl ⟨by omega, by omega⟩)
  · intro o hm i hi; exact h _ (Or.inr ⟨n, as, ho, o, hm, by omega, by omega⟩)

/-- C73. Every serializer — the crate's, a derived one, or one written by hand — whose own methods look only at the bytes of the slices they are
given does exactly the same from every state (the same outcome and the same state, so the same output) on two lists of values which agree in the
bytes belonging to the values. `serialize_data` of the crate's types therefore reads no byte outside of them. -/
theorem C73_any_serializer {τ α : Type} (S : SerializerImpl τ α) (hS : S.Local) (hW : 0 < S.A.ptrBytes) (hP : P.WF S.A) {rs rs' : List Root}
    (h : SameValues S.A P rs rs') (fuel : Nat) : aSession S P fuel rs' = aSession S P fuel rs := by
  have hr : aRoots S P fuel rs' = aRoots S P fuel rs := by
    induction h with
    | nil => rfl
    | @cons r r' rs rs' hd _ ih =>
      obtain ⟨im, t, a⟩ := r
      obtain ⟨im', t', a'⟩ := r'
      obtain ⟨h1, h2, hw, hb⟩ := hd
      simp only at h1 h2 hw hb
      subst h1 h2
      rw [aRoots, aRoots, ih, aData_sameValue hS hW hP hw hb]
      rw [hS.serializeValue _ _ (inputAt im a') (inputAt im' a') _
        (fun i (hi : i < (P.layout t').size) => hb _ (Or.inl ⟨by omega, by omega⟩))]
  rw [aSession, aSession, hr]

/-- C73. The crate's serializers, on `AlignedVec`: equal outcomes and equal states, whatever the state of the serializer. -/
theorem C73_only_the_value (C : Cfg) (k : Kind) (hA : C.arch.Valid) (hP : P.WF C.arch) {rs rs' : List Root} (h : SameValues C.arch P rs rs')
    (fuel : Nat) (s : Ser) : session C k P fuel rs' s = session C k P fuel rs s := by
  rw [← C68_own_serializers, ← C68_own_serializers]
  exact congrFun (C73_any_serializer (ownSerializer C k) (own_local C k) hA.ptr_pos hP h fuel) s

/-- C73. Valid values may be taken out of their memory: with every byte not belonging to them uninitialised (reading a word there would be
undefined behaviour), a session does exactly the same. -/
theorem C73_isolated (C : Cfg) (k : Kind) (hA : C.arch.Valid) (hP : P.WF C.arch) {fl : Flags} {rs : List (Root × Val)} (hv : Inputs C.arch P fl rs)
    {ims : List Mem} (hi : List.Forall₂ (fun x im' => IsolatedIn C.arch P x.1.im x.1.t x.1.a im') rs ims) (fuel : Nat) (s : Ser) :
    session C k P fuel ((rs.zip ims).map fun x => ⟨x.2, x.1.1.t, x.1.1.a⟩) s = session C k P fuel (rs.map Prod.fst) s := by
  refine C73_only_the_value C k hA hP ?_ fuel s
  induction hi with
  | nil => exact .nil
  | @cons x im' rs ims hd _ ih =>
    refine .cons ⟨rfl, rfl, walkable_of_denotes hA hP (hv x (by simp)), hd.1⟩ (ih fun y hy => hv y (by simp [hy]))

/-- C73. Serializers derived over a storage of the user's which looks only at the bytes of the slices it is given. -/
theorem C73_derived {σ : Type} (I : RandomImpl σ) (hI : I.toStorageImpl.Local) (k : DKind) (hW : 0 < I.C.arch.ptrBytes) (hP : P.WF I.C.arch)
    {rs rs' : List Root} (h : SameValues I.C.arch P rs rs') (fuel : Nat) (s : GSer σ) :
    aSession (derivedSerializer I k) P fuel rs' s = aSession (derivedSerializer I k) P fuel rs s :=
  congrFun (C73_any_serializer (derivedSerializer I k) (derived_local hI k) hW hP h fuel) s

/-- C73. The same for kind `complete` over a contiguous storage of the user's. -/
theorem C73_derived_complete {σ : Type} (I : ContigImpl σ) (hI : I.toStorageImpl.Local)
    (hw : ∀ p L d d', (∀ i < L.size, d' i = d i) → I.writeSlice p L 1 d' = I.writeSlice p L 1 d) (hW : 0 < I.C.arch.ptrBytes)
    (hP : P.WF I.C.arch) {rs rs' : List Root} (h : SameValues I.C.arch P rs rs') (fuel : Nat) (s : CSer σ) :
    aSession (derivedComplete I) P fuel rs' s = aSession (derivedComplete I) P fuel rs s :=
  congrFun (C73_any_serializer (derivedComplete I) (derivedComplete_local hI hw) hW hP h fuel) s

/-- The slices a hand-written `serialize_data` passes to the serializer: address and number of bytes. -/
def Script.passed : Script → List (Nat × Nat)
  | .done => []
  | .pushProcess L len src _ inner rest => (src, L.size * len) :: (inner.passed ++ rest.passed)
  | .push L len src _ rest => (src, L.size * len) :: rest.passed
  | .pushRaw L len src rest => (src, L.size * len) :: rest.passed
  | .overwrite _ _ _ rest => rest.passed

theorem runA_same {τ α : Type} {S : SerializerImpl τ α} (hS : S.Local) {im im' : Mem} (sc : Script)
    (h : ∀ x ∈ sc.passed, SameAt im im' x.1 x.2) : sc.runA S im' = sc.runA S im := by
  induction sc with
  | done => rfl
  | pushProcess L len src ptr inner rest ih1 ih2 =>
    simp only [Script.passed, List.mem_cons, List.mem_append] at h
    rw [Script.runA, Script.runA, ih1 (fun x hx => h x (Or.inr (Or.inl hx))), ih2 (fun x hx => h x (Or.inr (Or.inr hx))),
      hS.pushAndProcessSlice L len src (fun i => im (src + i)) (fun i => im' (src + i)) _ _ (h _ (Or.inl rfl))]
  | push L len src ptr rest ih =>
    simp only [Script.passed, List.mem_cons] at h
    rw [Script.runA, Script.runA, ih (fun x hx => h x (Or.inr hx)),
      hS.pushSlice L len src (fun i => im (src + i)) (fun i => im' (src + i)) _ (h _ (Or.inl rfl))]
  | pushRaw L len src rest ih =>
    simp only [Script.passed, List.mem_cons] at h
    rw [Script.runA, Script.runA, ih (fun x hx => h x (Or.inr hx)),
      hS.pushRawSlice L len src (fun i => im (src + i)) (fun i => im' (src + i)) (h _ (Or.inl rfl))]
  | overwrite addr L data rest ih => rw [Script.runA, Script.runA, ih h]

/-- C73. Values with hand-written implementations: a serializer looks only at the value itself and at the slices `serialize_data` passes to
it, whatever the calls. -/
theorem C73_hand_written {τ α : Type} (S : SerializerImpl τ α) (hS : S.Local) {vs vs' : List UserRoot}
    (h : List.Forall₂ (fun v v' => v'.L = v.L ∧ v'.a = v.a ∧ v'.sc = v.sc ∧ SameAt v.im v'.im v.a v.L.size ∧
      ∀ x ∈ v.sc.passed, SameAt v.im v'.im x.1 x.2) vs vs') : aValues S vs' = aValues S vs := by
  induction h with
  | nil => rfl
  | @cons v v' vs vs' hd _ ih =>
    obtain ⟨im, L, a, sc⟩ := v
    obtain ⟨im', L', a', sc'⟩ := v'
    obtain ⟨h1, h2, h3, h4, h5⟩ := hd
    simp only at h1 h2 h3 h4 h5
    subst h1 h2 h3
    rw [aValues, aValues, ih, runA_same hS sc' h5,
      hS.serializeValue _ _ (fun i => im (a' + i)) (fun i => im' (a' + i)) _ h4]

end

/-! ### Examples -/

/-- The memory of the examples (Props/SerEx.lean), with 255 in every byte which does not belong to the `Node` at 4096: among them the three
bytes of spare capacity after "hello". -/
def exJunk : Mem := fun x => if 4096 ≤ x ∧ x < 4229 then exIm x else some 255

theorem exOwned : (owned x64 exP exIm 6 1 4096).map (List.map fun o => (o.ptr, o.L.size * o.len)) = some [(4136, 40), (4176, 48), (4224, 5)] := rfl

/-- The bytes which belong to the `Node`: itself, the `Node` in the box, the two `String`s, "hello". -/
theorem exFoot (x : Nat) : BelongsTo x64 exP exIm 1 4096 x ↔ 4096 ≤ x ∧ x < 4229 := by
  have e := exOwned
  cases ho6 : owned x64 exP exIm 6 1 4096 with
  | none => rw [ho6] at e; cases e
  | some as6 =>
    rw [ho6, Option.map_some, Option.some.injEq] at e
    constructor
    · rintro (⟨h1, h2⟩ | ⟨n, as, ho, o, hm, h1, h2⟩)
      · have h2 : x < 4096 + 40 := h2
        have h1 : 4096 ≤ x := h1
        omega
      · have : as = as6 := owned_unique ho ho6
        subst this
        have hp : (o.ptr, o.L.size * o.len) ∈ [(4136, 40), (4176, 48), (4224, 5)] := by
          rw [← e]; exact List.mem_map.mpr ⟨o, hm, rfl⟩
        simp only [List.mem_cons, Prod.mk.injEq, List.not_mem_nil, or_false] at hp
        rcases hp with ⟨e1, e2⟩ | ⟨e1, e2⟩ | ⟨e1, e2⟩ <;> omega
    · rintro ⟨h1, h2⟩
      by_cases h3 : x < 4136
      · exact Or.inl ⟨h1, show x < 4096 + 40 by omega⟩
      · have hp : ∀ y ∈ [(4136, 40), (4176, 48), (4224, 5)], ∃ o ∈ as6, o.ptr = y.1 ∧ o.L.size * o.len = y.2 := by
          intro y hy
          rw [← e] at hy
          obtain ⟨o, ho, rfl⟩ := List.mem_map.mp hy
          exact ⟨o, ho, rfl, rfl⟩
        refine Or.inr ⟨6, as6, ho6, ?_⟩
        by_cases h4 : x < 4176
        · obtain ⟨o, ho, e1, e2⟩ := hp (4136, 40) (by simp)
          exact ⟨o, ho, by omega, by omega⟩
        · by_cases h5 : x < 4224
          · obtain ⟨o, ho, e1, e2⟩ := hp (4176, 48) (by simp)
            exact ⟨o, ho, by omega, by omega⟩
          · obtain ⟨o, ho, e1, e2⟩ := hp (4224, 5) (by simp)
            exact ⟨o, ho, by omega, by omega⟩

theorem exSame : SameValues x64 exP [⟨exIm, 1, 4096⟩] [⟨exJunk, 1, 4096⟩] := by
  refine .cons ⟨rfl, rfl, ⟨6, _, rfl⟩, ?_⟩ .nil
  intro x hx
  show exJunk x = exIm x
  unfold exJunk; rw [if_pos ((exFoot x).mp hx)]

/-- The memories differ in the byte after "hello". -/
example : exJunk 4229 ≠ exIm 4229 := by decide

/-- All serializers do the same in both, from any state. -/
example (k : Kind) (s : Ser) : session cfg64 k exP 6 [⟨exJunk, 1, 4096⟩] s = session cfg64 k exP 6 [⟨exIm, 1, 4096⟩] s :=
  C73_only_the_value cfg64 k cfg64_ok.arch exP_wf exSame 6 s

/-- Memory isolating the `Node`. -/
def exAlone : Mem := fun x => if 4096 ≤ x ∧ x < 4229 then exIm x else none

theorem exIsolated : IsolatedIn x64 exP exIm 1 4096 exAlone :=
  ⟨fun x hx => by unfold exAlone; rw [if_pos ((exFoot x).mp hx)], fun x hx => by unfold exAlone; rw [if_neg (fun h => hx ((exFoot x).mpr h))]⟩

example (k : Kind) (s : Ser) : session cfg64 k exP 6 [⟨exAlone, 1, 4096⟩] s = session cfg64 k exP 6 [⟨exIm, 1, 4096⟩] s :=
  C73_isolated cfg64 k cfg64_ok.arch exP_wf (rs := [(⟨exIm, 1, 4096⟩, exNode)]) (fun x hx => exInputs x (by
    simp only [List.mem_cons, List.not_mem_nil, or_false] at hx; subst hx; exact List.mem_cons_self)) (.cons exIsolated .nil) 6 s

/-- A session on the isolated memory returns. -/
example (k : Kind) : ∃ s', session cfg64 k exP 6 [⟨exAlone, 1, 4096⟩] (Ser.fromStorage Sto.new) = .ok [0] s' ∧ s'.sto.vec.pos = 136 := by
  obtain ⟨s', h1, h2, _⟩ := Out.result_ok (show (session cfg64 k exP 6 [⟨exAlone, 1, 4096⟩] (Ser.fromStorage Sto.new)).result = some ([0], 136, 3 * 2 ^ 20) by
    cases k <;> decide +kernel)
  exact ⟨s', h1, h2⟩

/-- The example storages (Props/CustomSerializer.lean, Props/CustomComplete.lean) look only at what they are given. -/
theorem array_local (C : Cfg) : (arrayImpl C).toStorageImpl.Local := by
  intro L len d d' size h
  funext s
  show (if _ then _ else _) = (if _ then _ else _)
  split
  · rename_i hc
    rw [show s.mem.blit s.pos size d' = s.mem.blit s.pos size d from by rw [hc.2.2]; exact blit_congr_src _ _ h]
  · rfl

theorem moving_local (C : Cfg) : (movingImpl C).toStorageImpl.Local ∧
    ∀ p L d d', (∀ i < L.size, d' i = d i) → (movingImpl C).writeSlice p L 1 d' = (movingImpl C).writeSlice p L 1 d := by
  constructor
  · intro L len d d' size h
    funext s
    show (if _ then _ else _) = (if _ then _ else _)
    split
    · rename_i hc
      rw [show s.mem.blit s.pos size d' = s.mem.blit s.pos size d from by rw [hc.2.2]; exact blit_congr_src _ _ h]
    · rfl
  · intro p L d d' h
    funext s
    show (if _ then _ else _) = (if _ then _ else _)
    rw [show s.mem.blit p (L.size * 1) d' = s.mem.blit p (L.size * 1) d from blit_congr_src _ _ (by simpa using h)]

example (k : DKind) (s : GSer ArrayStorage) : aSession (derivedSerializer (arrayImpl cfg64) k) exP 6 [⟨exJunk, 1, 4096⟩] s =
    aSession (derivedSerializer (arrayImpl cfg64) k) exP 6 [⟨exIm, 1, 4096⟩] s :=
  C73_derived (arrayImpl cfg64) (array_local cfg64) k (by decide) exP_wf exSame 6 s

example (s : CSer MovingStorage) : aSession (derivedComplete (movingImpl cfg64)) exP 6 [⟨exJunk, 1, 4096⟩] s =
    aSession (derivedComplete (movingImpl cfg64)) exP 6 [⟨exIm, 1, 4096⟩] s :=
  C73_derived_complete (movingImpl cfg64) (moving_local cfg64).1 (moving_local cfg64).2 (by decide) exP_wf exSame 6 s

/-- The hand-written example (Props/UserImpl.lean) in a memory which has only the value at 4096 and the slices it passes on. -/
def exUserAlone : UserRoot := { exUser with im := fun x =>
  if (4096 ≤ x ∧ x < 4120) ∨ (8192 ≤ x ∧ x < 8224) ∨ (300 ≤ x ∧ x < 305) ∨ (400 ≤ x ∧ x < 412) then exUser.im x else none }

example {τ α : Type} (S : SerializerImpl τ α) (hS : S.Local) : aValues S [exUserAlone] = aValues S [exUser] := by
  refine C73_hand_written S hS (.cons ⟨rfl, rfl, rfl, ?_, ?_⟩ .nil)
  · intro i hi
    have hi : i < 24 := hi
    show (if _ then _ else _) = _
    rw [if_pos (Or.inl ⟨show 4096 ≤ 4096 + i by omega, show 4096 + i < 4120 by omega⟩)]
  · intro x hx i hi
    simp only [exUser, Script.passed, List.mem_cons, List.mem_append, List.not_mem_nil, or_false, List.append_nil, false_or, List.cons_append, List.nil_append] at hx
    show (if _ then _ else _) = _
    rcases hx with rfl | rfl | rfl | rfl <;> simp only at hi ⊢
    · rw [if_pos (by omega)]
    · rw [if_pos (by omega)]
    · rw [if_pos (by omega)]
    · omega

end SerRaw
