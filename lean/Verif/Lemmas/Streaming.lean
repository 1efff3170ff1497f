import Verif.Model.Streaming
import Verif.Spec.Streaming
import Verif.Lemmas.Afterwards
import Mathlib.Data.Nat.ModEq
/-
During a session, bytes below the position do not change.
-/
namespace SerRaw

theorem wrap_cancel {A : Arch} {w w' c : Nat} (h1 : w < A.usizeMod) (h2 : w' < A.usizeMod) (h : wrappingAdd A w c = wrappingAdd A w' c) : w = w' := by
  unfold wrappingAdd at h
  have h3 : w % A.usizeMod = w' % A.usizeMod := by
    have : (w + c) ≡ (w' + c) [MOD A.usizeMod] := h
    exact Nat.ModEq.add_right_cancel' c this
  rwa [Nat.mod_eq_of_lt h1, Nat.mod_eq_of_lt h2] at h3

theorem wrap_same {A : Arch} {w b : Nat} (h : w < A.usizeMod) : wrappingAdd A w (wrappingSub A b b) = w := by
  unfold wrappingAdd wrappingSub
  rw [Nat.add_comm b, Nat.add_sub_cancel, Nat.mod_self, Nat.add_zero, Nat.mod_eq_of_lt h]

theorem upTo_of_lt {m : Mem} {n i : Nat} (h : i < n) : m.upTo n i = m i := if_pos h

section
variable {C : Cfg} {P : Prog} {k : Kind}

/-- A step leaves the bytes below the position as they are, also the pointers that `finalize` will correct. -/
theorem StepPost.view {e : Ev} {s s' : Ser} {m m' : Nat → Mem} (hr : RelAll C k s m) (h : StepPost C k P e s m s' m')
    (hn : ∀ x ∈ s.ptrs.entries, ∀ j < C.arch.ptrBytes, ¬ e.Writes (x.2 + j)) {i : Nat} (hi : i < s.sto.vec.pos) (hw : ¬ e.Writes i) :
    s'.sto.view i = s.sto.view i := by
  have hr' := h.rel
  by_cases hx : ∃ x ∈ s.ptrs.entries, ¬ (i < x.2 ∨ x.2 + C.arch.ptrBytes ≤ i)
  · obtain ⟨x, hx, hin⟩ := hx
    obtain ⟨w, h1, h2⟩ := (hr.1 0).word x hx
    obtain ⟨w', h1', h2'⟩ := (hr'.1 0).word x (h.keep x hx)
    have hb := ((hr.1 0).bound x hx).1
    have hm : readWord C.arch (m' 0) x.2 = readWord C.arch (m 0) x.2 :=
      readWord_congr fun j hj => h.frame 0 _ (by omega) (hn x hx j hj)
    rw [hm, h2] at h2'
    have e1 := readWord_some_iff.1 h1
    have e2 := readWord_some_iff.1 h1'
    have := wrap_cancel e1.1 e2.1 (Option.some.inj h2')
    subst this
    have a1 := e1.2 (i - x.2) (by omega)
    have a2 := e2.2 (i - x.2) (by omega)
    rw [show x.2 + (i - x.2) = i by omega] at a1 a2
    rw [a1, a2]
  · have hout : ∀ x ∈ s.ptrs.entries, i < x.2 ∨ x.2 + C.arch.ptrBytes ≤ i := fun x hx' => Classical.byContradiction fun h => hx ⟨x, hx', h⟩
    rw [(hr.1 0).rest i hout, (hr'.1 0).rest i, h.frame 0 i hi hw]
    intro x hx'
    rcases h.ents x hx' with h1 | ⟨_, h1⟩
    · exact hout x h1
    · exact Or.inl (by omega)

theorem Goes.sess {t : Sto} {es more : List Ev} {s s' : Ser} (h : Sess C k P t es s) (hg : Goes C k P es s more s') : Sess C k P t (es ++ more) s' := by
  induction hg with
  | here => simpa using h
  | step _ hl hr ih => rw [← List.append_assoc]; exact ih.step hl hr

theorem Goes.stays (hC : C.OK) (hP : P.WF C.arch) (hacc : P.Accepted C) {t : Sto} (ht : t.Inv C) {es more : List Ev} {s s' : Ser}
    (h : Sess C k P t es s) (hg : Goes C k P es s more s') :
    s.sto.vec.pos ≤ s'.sto.vec.pos ∧ ∀ i < s.sto.vec.pos, (∀ e ∈ more, ¬ e.Writes i) → s'.sto.view i = s.sto.view i := by
  induction hg with
  | here => exact ⟨Nat.le_refl _, fun _ _ _ => rfl⟩
  | @step more u a fuel r u' hg hl hr ih =>
    obtain ⟨m, h1⟩ := (hg.sess h).inv hC hP hacc ht
    have hs := act_step hC hP hacc h1 hl (fuel := fuel) (by rw [hr]; simp)
    rw [hr] at hs
    obtain ⟨m', hs⟩ := hs
    have hp := hs.pos
    refine ⟨Nat.le_trans ih.1 hp, fun i hi hn => ?_⟩
    rw [hs.view h1.rel ?_ (Nat.lt_of_lt_of_le hi ih.1) (hn _ (by simp)), ih.2 i hi fun e he => hn e (by simp [he])]
    rintro x hx j hj ⟨p, L, len, d, ha, h3, h4⟩
    simp only at ha
    subst ha
    obtain ⟨e, he, hv, h5, h6⟩ := h1.ents x hx
    have := hl.2.2 p L len d rfl e he hv
    omega

/-- What the storage of a serializer holds, before `finalize`, where there is no pointer to correct. -/
theorem SessInv.bytes {t : Sto} {es : List Ev} {s : Ser} {m : Nat → Mem} (h : SessInv C k P t es s m) (hk : k ≠ .complete) {i : Nat}
    (hi : i < s.sto.vec.pos) (B : Nat) : s.sto.bytes i = m B i := by
  have hI := (h.rel.1 0).inv
  have := hI.pos_le
  rw [Sto.bytes, if_pos hi, load_eq_view hI.toWInv (by omega), (h.rel.1 B).rest i]
  intro x hx
  rw [h.rel.2 hk] at hx
  cases hx

/-- The same with pointers to correct: at any place whose contents do not depend on the final address of the buffer. -/
theorem SessInv.bytes_fixed {t : Sto} {es : List Ev} {s : Ser} {m : Nat → Mem} (h : SessInv C k P t es s m) {i : Nat}
    (hi : i < s.sto.vec.pos) (hfix : ∀ B B', m B i = m B' i) (B : Nat) : s.sto.bytes i = m B i := by
  have hI := (h.rel.1 0).inv
  have hle := hI.pos_le
  rw [Sto.bytes, if_pos hi, load_eq_view hI.toWInv (by omega)]
  by_cases hx : ∃ x ∈ s.ptrs.entries, ¬ (i < x.2 ∨ x.2 + C.arch.ptrBytes ≤ i)
  · obtain ⟨x, hx, hin⟩ := hx
    obtain ⟨w, h1, h2⟩ := (h.rel.1 x.1).word x hx
    have e1 := readWord_some_iff.1 h1
    rw [wrap_same e1.1] at h2
    have e2 := readWord_some_iff.1 h2
    have a1 := e1.2 (i - x.2) (by omega)
    have a2 := e2.2 (i - x.2) (by omega)
    rw [show x.2 + (i - x.2) = i by omega] at a1 a2
    rw [a1, ← a2, hfix]
  · exact (h.rel.1 B).rest i fun x hx' => Classical.byContradiction fun h => hx ⟨x, hx', h⟩

theorem PartOf.le {part m : Mem} (h : part.PartOf m) : part.Le m := by
  intro i b hb
  rcases h i with h | h
  · rw [h] at hb; cases hb
  · rw [← h, hb]

theorem upTo_partOf (m : Mem) (n : Nat) : (m.upTo n).PartOf m := by
  intro i
  unfold Mem.upTo
  split
  · exact .inr rfl
  · exact .inl rfl

end
end SerRaw
