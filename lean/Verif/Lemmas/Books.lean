import Verif.Lemmas.StepRel
import Verif.Lemmas.Mixed
import Verif.Props.AnySerializer
/-
How large the record of pointers of a `CompleteSerializer` gets.
-/
namespace SerRaw

open StepRel.Holds

section
variable {C : Cfg} {k : Kind} {P : Prog} {im : Mem}

/-! ### Storage operations -/

theorem moves_write (p : Nat) (L : Layout) (d : Nat → Cell) : moveSteps.Holds (Sto.write C p L d) := moves_writeSlice _ _ _ _

theorem moves_alignAfterAny : moveSteps.Holds (Sto.alignAfterAny C) := moves_align _

/-- Shrinking calls the allocator, or leaves nothing. -/
theorem shrink_moves (hC : C.OK) {s t : Sto} (h : s.Inv C) {x : Unit} (hr : Sto.shrinkToFit C s = .ok x t) :
    moveSteps.R s t ∨ (s.w.calls ≤ t.w.calls ∧ t.vec.capacity = 0) := by
  have F := hC.facts
  have hp := h.pos_le; have hc := h.cap_le; have hm := F.max_lt; have := F.mva_le
  unfold Sto.shrinkToFit at hr
  rw [bind_ok (show Sto.getPos s = .ok s.vec.pos s from rfl), bind_ok (alignUpTo_ok F.mva (by omega) s),
    bind_ok (show Sto.getCapacity s = .ok s.vec.capacity s from rfl)] at hr
  split at hr
  · split at hr
    · rename_i hz
      right
      obtain ⟨_, s1, h1, h2⟩ := bind_eq_ok hr
      obtain ⟨_, s2, h3, h4⟩ := bind_eq_ok h2
      obtain ⟨_, s3, h5, h6⟩ := bind_eq_ok h1
      cases h5
      obtain ⟨_, s4, h7, h8⟩ := bind_eq_ok h6
      have e7 : s4 = s := by
        unfold M.debugAssert at h7
        split at h7
        · cases h7
        · cases h7; rfl
      subst e7
      unfold heapDealloc at h8
      split at h8
      · cases h8
      · cases h8; cases h3; cases h4; exact ⟨Nat.le_refl _, hz⟩
    · left
      have := Counts.bind (counts_realloc (C := C) (roundUp s.vec.pos C.maxValueAlign))
        (f := fun q => Sto.putPtr q >>= fun _ => Sto.putCapacity (roundUp s.vec.pos C.maxValueAlign))
        (fun q => h_bind (calls_putPtr q) fun _ => calls_putCapacity _) s
      simp only at hr
      rw [hr] at this
      exact this
  · cases hr
    exact Or.inl (moveSteps.refl _)

theorem op_moves (hC : C.OK) {s : Sto} (h : s.Inv C) {o : SOp} (hl : o.Legal C s) (ho : o ≠ .clear) :
    (o.run C s).Post fun t => moveSteps.R s t ∨ (s.w.calls ≤ t.w.calls ∧ t.vec.capacity = 0) := by
  have key : ∀ {α : Type} {x : M Sto α}, moveSteps.Holds x → (x s).Post fun t => moveSteps.R s t ∨ (s.w.calls ≤ t.w.calls ∧ t.vec.capacity = 0) := by
    intro α x hx
    have := hx s
    cases hxs : x s <;> rw [hxs] at this <;> first | exact Or.inl this | trivial
  cases o with
  | pushSlice L len d => exact key (moves_pushSlice _ _ _)
  | pushEmptySlice L len => exact key (moves_pushEmptySlice _ _)
  | reserve n => exact key (h_bind (moves_reserve _) fun _ => h_pure _)
  | alignFor L => exact key (h_bind (moves_alignFor _) fun _ => h_pure _)
  | alignAfter L => exact key (h_bind (moves_alignAfter _) fun _ => h_pure _)
  | alignAfterAny => exact key (h_bind moves_alignAfterAny fun _ => h_pure _)
  | clear => exact absurd rfl ho
  | writeSlice p L len d => exact key (h_bind (moves_writeSlice _ _ _ _) fun _ => h_pure _)
  | shrinkToFit =>
    have hs := shrinkToFit_sat hC h (R := fun _ _ => False)
    rw [SOp.run]
    cases hr : Sto.shrinkToFit C s with
    | ok x t => rw [bind_ok hr]; exact shrink_moves hC h hr
    | panic pk t => rw [hr] at hs; exact hs.elim
    | _ => rw [bind_def, hr]; trivial

/-! ### The record -/

/-- The groups put aside are not empty, and for each of them, and for the current one once the buffer has moved, the allocator was called. -/
structure Books (c0 : Nat) (s : Ser) : Prop where
  full : ∀ g ∈ s.ptrs.past, g.positions ≠ []
  past : s.ptrs.past.length + c0 ≤ s.sto.w.calls
  cur : s.ptrs.current.positions = [] ∨ s.ptrs.current.addr = s.sto.vec.ptr ∨ s.ptrs.past.length + 1 + c0 ≤ s.sto.w.calls

theorem Books.moves {c0 : Nat} {s : Ser} (h : Books c0 s) {t : Sto} (hm : moveSteps.R s.sto t) : Books c0 { s with sto := t } := by
  obtain ⟨h1, h2⟩ := hm
  obtain ⟨a, b, c⟩ := h
  refine ⟨a, by simp only; omega, ?_⟩
  rcases c with c | c | c
  · exact Or.inl c
  · rcases h2 with h2 | h2
    · exact Or.inr (Or.inl (c.trans h2.symm))
    · exact Or.inr (Or.inr (by simp only; omega))
  · exact Or.inr (Or.inr (by simp only; omega))

/-- Recording, at an address the buffer had just before. -/
theorem Books.record {c0 : Nat} {s : Ser} (h : Books c0 s) {t : Sto} (hm : moveSteps.R s.sto t) (p : Nat) :
    Books c0 { s with sto := t, ptrs := recordPtr s.ptrs s.sto.vec.ptr p } := by
  obtain ⟨h1, h2⟩ := hm
  obtain ⟨a, b, c⟩ := h
  unfold recordPtr newPtrGroup PtrGroup.pushPos PtrGroup.isEmpty PtrGroup.setAddr PtrGroup.new
  by_cases ha : s.sto.vec.ptr ≠ s.ptrs.current.addr
  · by_cases he : s.ptrs.current.positions = []
    · simp only [if_pos ha, he, List.length_nil, beq_self_eq_true, if_true]
      refine ⟨a, by simp only; omega, ?_⟩
      rcases h2 with h2 | h2
      · exact Or.inr (Or.inl h2.symm)
      · exact Or.inr (Or.inr (by simp only; omega))
    · have hl : (s.ptrs.current.positions.length == 0) = false := by
        cases hp : s.ptrs.current.positions with
        | nil => exact absurd hp he
        | cons x xs => rfl
      simp only [if_pos ha, hl, Bool.false_eq_true, if_false]
      have c' : s.ptrs.past.length + 1 + c0 ≤ s.sto.w.calls := by
        rcases c with c | c | c
        · exact absurd c he
        · exact absurd c.symm ha
        · exact c
      refine ⟨?_, by simp only [List.length_append, List.length_singleton]; omega, ?_⟩
      · intro g hg
        rcases List.mem_append.1 hg with hg | hg
        · exact a g hg
        · rw [List.mem_singleton.1 hg]; exact he
      · rcases h2 with h2 | h2
        · exact Or.inr (Or.inl h2.symm)
        · exact Or.inr (Or.inr (by simp only [List.length_append, List.length_singleton]; omega))
  · simp only [if_neg ha]
    have ha : s.sto.vec.ptr = s.ptrs.current.addr := Decidable.not_not.1 ha
    refine ⟨a, by simp only; omega, ?_⟩
    rcases h2 with h2 | h2
    · exact Or.inr (Or.inl (by simp only; omega))
    · exact Or.inr (Or.inr (by simp only; omega))

/-- Keeping `Books`, as a transition relation. -/
def bookSteps (c0 : Nat) : StepRel Ser where
  R s t := Books c0 s → Books c0 t
  refl _ h := h
  trans h1 h2 h := h2 (h1 h)

theorem books_lift {c0 : Nat} {α : Type} {x : M Sto α} (h : moveSteps.Holds x) : (bookSteps c0).Holds (Ser.lift x) := by
  intro s
  have h := h s.sto
  unfold Ser.lift
  cases hx : x s.sto with
  | ok a t => rw [hx] at h; exact fun hb => hb.moves h
  | panic k t => rw [hx] at h; exact fun hb => hb.moves h
  | _ => trivial

theorem books_getMap {c0 : Nat} : (bookSteps c0).Holds Ser.getMap := fun s => (bookSteps c0).refl s
theorem books_getCapacity {c0 : Nat} : (bookSteps c0).Holds Ser.getCapacity := fun s => (bookSteps c0).refl s
theorem books_setMap {c0 : Nat} (m : PosMapping) : (bookSteps c0).Holds (Ser.setMap m) := fun _ h => ⟨h.1, h.2, h.3⟩

theorem books_checks {c0 : Nat} (p : Nat) (f : Nat → M Ser Unit) (hf : ∀ c, (bookSteps c0).Holds (f c)) :
    (bookSteps c0).Holds (do
      let cap ← Ser.getCapacity
      M.debugAssertM C.arch (do let x ← usub C.arch cap C.arch.ptrBytes; pure (decide (p ≤ x)))
      f cap) :=
  h_bind books_getCapacity fun _ => h_bind (h_debugAssertM _ (h_bind (h_usub _ _ _) fun _ => h_pure _)) fun _ => hf _

theorem books_overwritePtr {c0 : Nat} (p q : Nat) : (bookSteps c0).Holds (overwritePtr C k p q) := by
  unfold overwritePtr
  cases k with
  | pureCopy => exact h_pure _
  | posTracking => exact h_pure _
  | ptrOffset =>
    refine books_checks (C := C) p _ fun _ => h_bind (h_debugAssertM _ (h_isAlignedTo _ _ _)) fun _ => h_bind (h_debugAssert _ _) fun _ => ?_
    exact books_lift (moves_write _ _ _)
  | complete =>
    refine books_checks (C := C) p _ fun _ => h_bind (h_debugAssertM _ (h_isAlignedTo _ _ _)) fun _ => h_bind (h_debugAssert _ _) fun _ => ?_
    intro s
    rw [bind_ok (show (M.get : M Ser Ser) s = .ok s s from rfl)]
    have hu := h_uadd (W := ⟨fun s t => t = s, fun _ => rfl, fun h1 h2 => h2.trans h1⟩) C.arch s.sto.asPtr q s
    rw [bind_def]
    cases hus : uadd C.arch s.sto.asPtr q s with
    | ok a s1 =>
      rw [hus] at hu
      have hu : s1 = s := hu
      subst hu
      simp only
      rw [bind_def]
      have hw := moves_write (C := C) p ⟨C.arch.ptrBytes, C.arch.ptrBytes⟩ (wordCells C.arch a) s1.sto
      unfold Ser.lift
      cases hws : Sto.write C p ⟨C.arch.ptrBytes, C.arch.ptrBytes⟩ (wordCells C.arch a) s1.sto with
      | ok x t => rw [hws] at hw; exact fun hb => hb.record hw p
      | panic pk t => rw [hws] at hw; exact fun hb => hb.moves hw
      | _ => trivial
    | panic pk s1 =>
      rw [hus] at hu
      have hu : s1 = s := hu
      subst hu
      exact (bookSteps c0).refl _
    | _ => trivial

theorem books_pushRawSlice {c0 : Nat} (sl : Slice) : (bookSteps c0).Holds (pushRawSlice C sl) := books_lift (moves_pushSlice _ _ _)

theorem books_pushAndProcessSlice {c0 : Nat} (sl : Slice) (p : Nat) {x : M Ser Unit} (hx : (bookSteps c0).Holds x) :
    (bookSteps c0).Holds (pushAndProcessSlice C k sl p x) := by
  cases k with
  | pureCopy => exact h_bind (books_pushRawSlice _) fun _ => h_bind hx fun _ => h_pure _
  | posTracking =>
    exact h_bind books_getMap fun _ => h_bind (books_lift (moves_pushSlice _ _ _)) fun _ => h_bind (books_setMap _) fun _ => h_bind hx fun _ =>
      h_bind (books_setMap _) fun _ => h_pure _
  | ptrOffset =>
    exact h_bind books_getMap fun _ => h_bind (books_lift (moves_pushSlice _ _ _)) fun _ => h_bind (h_posForAddr _ _ _) fun _ =>
      h_bind (books_overwritePtr _ _) fun _ => h_bind (books_setMap _) fun _ => h_bind hx fun _ => h_bind (books_setMap _) fun _ => h_pure _
  | complete =>
    exact h_bind books_getMap fun _ => h_bind (books_lift (moves_pushSlice _ _ _)) fun _ => h_bind (h_posForAddr _ _ _) fun _ =>
      h_bind (books_overwritePtr _ _) fun _ => h_bind (books_setMap _) fun _ => h_bind hx fun _ => h_bind (books_setMap _) fun _ => h_pure _

theorem books_pushSlice {c0 : Nat} (sl : Slice) (p : Nat) : (bookSteps c0).Holds (pushSlice C k sl p) := by
  cases k with
  | pureCopy => exact books_pushAndProcessSlice (k := .pureCopy) sl p (h_pure _)
  | posTracking => exact books_pushRawSlice _
  | ptrOffset =>
    exact h_bind (books_pushRawSlice _) fun _ => h_bind books_getMap fun _ => h_bind (h_posForAddr _ _ _) fun _ =>
      h_bind (books_overwritePtr _ _) fun _ => h_pure _
  | complete =>
    exact h_bind (books_pushRawSlice _) fun _ => h_bind books_getMap fun _ => h_bind (h_posForAddr _ _ _) fun _ =>
      h_bind (books_overwritePtr _ _) fun _ => h_pure _

theorem books_serializeValue {c0 : Nat} (L : Layout) (a : Nat) (d : Nat → Cell) {x : M Ser Unit} (hx : (bookSteps c0).Holds x) :
    (bookSteps c0).Holds (serializeValue C k L a d x) := by
  cases k with
  | pureCopy => exact h_bind (books_pushRawSlice _) fun _ => h_bind hx fun _ => h_pure _
  | _ => exact h_bind (books_pushRawSlice _) fun _ => h_bind (books_setMap _) fun _ => h_bind hx fun _ => h_pure _

theorem books_overwrite {c0 : Nat} (a : Nat) (L : Layout) (d : Nat → Cell) : (bookSteps c0).Holds (overwrite C k a L d) := by
  cases k with
  | complete => exact h_bind books_getMap fun _ => h_bind (h_posForAddr _ _ _) fun _ => books_lift (moves_write _ _ _)
  | _ => exact h_pure _

theorem books_overwriteWith {c0 : Nat} {x : M Ser Unit} (hx : (bookSteps c0).Holds x) : (bookSteps c0).Holds (overwriteWith k x) := by
  cases k with
  | complete => exact hx
  | _ => exact h_pure _

theorem books_finalize {c0 : Nat} : (bookSteps c0).Holds (finalize C k) := by
  cases k with
  | complete =>
    refine h_bind h_get fun s => h_bind (h_ite (books_lift ?_) (h_pure _)) fun _ => books_lift (moves_correctPast _ _ _)
    exact moves_correctLoop _ _ _ _
  | _ => exact h_pure _

theorem books_fromRefOffset {c0 : Nat} (a off : Nat) : (bookSteps c0).Holds (addrFromRefOffset C.arch k a off) :=
  h_ite (h_uadd _ _ _) (h_pure _)

/-- Every method of the crate's serializers keeps the record in order. -/
theorem books_own (c0 : Nat) : SerRel (bookSteps c0).actRel (ownSerializer C k) (ownSerializer C k) where
  A := rfl
  fromRef := rfl
  fromRefOffset := books_fromRefOffset
  serializeValue L a d _ _ h := books_serializeValue L a d h
  pushSlice := books_pushSlice
  pushAndProcess _ _ _ p _ _ h := books_pushAndProcessSlice _ p h
  pushAndProcessSlice sl p _ _ h := books_pushAndProcessSlice sl p h
  pushRawSlice := books_pushRawSlice
  overwrite := books_overwrite
  overwriteWith h := books_overwriteWith h
  finalize := books_finalize

theorem runA_own (sc : Script) : sc.runA (ownSerializer C k) im = sc.run C k im := by
  induction sc with
  | done => rfl
  | pushProcess L len src ptr inner rest ih1 ih2 => simp only [Script.runA, Script.run, ih1, ih2]; rfl
  | push L len src ptr rest ih => simp only [Script.runA, Script.run, ih]; rfl
  | pushRaw L len src rest ih => simp only [Script.runA, Script.run, ih]; rfl
  | overwrite a L data rest ih => simp only [Script.runA, Script.run, ih]; rfl

theorem books_script {c0 : Nat} (sc : Script) : (bookSteps c0).Holds (sc.run C k im) := by
  rw [← runA_own]
  exact runA_rel (books_own c0) sc

theorem books_stop {c0 : Nat} (st : Stop) : (bookSteps c0).Holds (st.run C k im) := by
  induction st with
  | here => exact h_throw _
  | after sc rest ih => exact h_bind (books_script sc) fun _ => ih
  | inside L len src ptr inner ih => exact h_bind (books_pushAndProcessSlice _ _ ih) fun _ => h_pure _

theorem books_user {c0 : Nat} (r : UserCall) : (bookSteps c0).Holds (r.ser C k) := by
  refine books_serializeValue _ _ _ ?_
  cases r.body with
  | returns sc => exact books_script sc
  | panics st => exact books_stop st

theorem books_typed {c0 : Nat} (n t a : Nat) : (bookSteps c0).Holds (serValue C k P im n t a) := by
  refine books_serializeValue _ _ _ ?_
  rw [← aData_own]
  exact aData_rel (books_own c0) n t a

/-- The record is in order throughout a session. -/
theorem Sess.books (hC : C.OK) (hP : P.WF C.arch) (hacc : P.Accepted C) {t : Sto} (ht : t.Inv C) {es : List Ev} {s : Ser}
    (h : Sess C k P t es s) : Books t.w.calls s := by
  induction h with
  | start => exact ⟨by simp [Ser.fromStorage, Ptrs.new], by simp [Ser.fromStorage, Ptrs.new], Or.inl rfl⟩
  | @step es s a fuel r s' hs hl hr ih =>
    have fin : (bookSteps t.w.calls).Holds (a.run C k P fuel) → Books t.w.calls s' := by
      intro hb
      have := h_caught hb s
      rw [hr] at this
      exact this ih
    cases a with
    | typed r => exact fin (books_typed _ _ _)
    | user r => exact fin (books_user r)
    | sto o =>
      obtain ⟨m, hI⟩ := hs.inv hC hP hacc ht
      obtain ⟨m', hI'⟩ := (Sess.step hs hl hr).inv hC hP hacc ht
      have hop := op_moves hC (hI.rel.1 0).inv hl.1 hl.2.1
      have hm : ∃ u, s' = { s with sto := u } ∧ (moveSteps.R s.sto u ∨ (s.sto.w.calls ≤ u.w.calls ∧ u.vec.capacity = 0)) := by
        unfold M.caught Act.run Ser.lift at hr
        simp only at hr
        cases ho : o.run C s.sto <;> rw [ho] at hr hop <;> simp only at hr <;> cases hr
        · exact ⟨_, rfl, hop⟩
        · exact ⟨_, rfl, hop⟩
      obtain ⟨u, rfl, h1 | ⟨h1, h2⟩⟩ := hm
      · exact ih.moves h1
      · refine ⟨ih.full, Nat.le_trans ih.past h1, Or.inl ?_⟩
        have hI2 := hI'.rel.1 0
        have hp := hI2.inv.pos_le
        simp only at hp
        have hW := hC.arch.ptr_pos
        cases hc : s.ptrs.current.positions with
        | nil => rfl
        | cons x xs =>
          have := (hI2.bound (s.ptrs.current.addr, x) (by simp [Ptrs.entries, hc])).1
          simp only at this
          omega

end
end SerRaw
