import Verif.Props.Pointers
import Verif.Spec.Relocate
/-
Pointer words do not overlap; adjusting them one after the other.
-/
namespace SerRaw

/-- Two pointer words have no byte in common. -/
def Apart (A : Arch) (s t : Nat × Nat) : Prop := s.1 + A.ptrBytes ≤ t.1 ∨ t.1 + A.ptrBytes ≤ s.1

section
variable {C : Cfg} {P : Prog} {fl : Flags}

theorem slotsAt_apart {va : Nat} (hva : 0 < va) (sc : Script) {c : Ctx} (h : sc.WF C c) (op p : Nat) (hop : op + c.sz ≤ p) :
    (sc.slotsAt va c.ia op p).Pairwise (Apart C.arch) := by
  induction sc generalizing c op p with
  | done => exact List.Pairwise.nil
  | pushProcess L len src ptr inner rest ih1 ih2 =>
    obtain ⟨ho, ht, hdj, h1, h2⟩ := h
    have hok := h2.touchOK
    have e1 := le_roundUp p ho.pow2.pos
    have e2 := le_roundUp (roundUp p L.align + L.size * len) hva
    have e3 := le_placeEnd hva (pushes_align inner h1) (roundUp (roundUp p L.align + L.size * len) va)
    have hin : outPos c.ia op ptr + C.arch.ptrBytes ≤ op + c.sz := by
      have := ht.lo; have := ht.hi; unfold outPos; omega
    have hinner : ∀ s ∈ inner.slotsAt va src (roundUp p L.align) (roundUp (roundUp p L.align + L.size * len) va),
        op + c.sz ≤ s.1 ∧ s.1 + C.arch.ptrBytes ≤ placeEnd va (roundUp (roundUp p L.align + L.size * len) va) inner.shapes := by
      intro s hs
      obtain ⟨k1, k2, _⟩ := slotsAt_where hva inner h1 (roundUp p L.align) _ (by simp only; omega) s hs
      refine ⟨?_, k2⟩
      rcases k1 with ⟨x, _, hx⟩ | k1
      · have := outPos_ge src (roundUp p L.align) x
        rw [hx]; simp only; omega
      · omega
    simp only [Script.slotsAt]
    refine List.pairwise_cons.2 ⟨?_, List.pairwise_append.2 ⟨ih1 h1 _ _ (by simp only; omega), ih2 h2 _ _ (by omega), ?_⟩⟩
    · intro s hs
      rcases List.mem_append.1 hs with hs | hs
      · have := hinner s hs
        exact Or.inl (by simp only; omega)
      · obtain ⟨k1, _⟩ := slotsAt_where hva rest h2 op _ (by omega) s hs
        rcases k1 with ⟨x, hx, hx'⟩ | k1
        · have hd := hdj _ hx
          have := ht.lo; have := (hok _ hx).lo
          simp only [Apart, DisjRange, outPos] at *
          omega
        · exact Or.inl (by simp only; omega)
    · intro s hs t htt
      have hi := hinner s hs
      obtain ⟨k1, _⟩ := slotsAt_where hva rest h2 op _ (by omega) t htt
      rcases k1 with ⟨x, hx, hx'⟩ | k1
      · have := (hok _ hx).lo; have := (hok _ hx).hi
        simp only [Apart, outPos] at *
        omega
      · exact Or.inl (by omega)
  | push L len src ptr rest ih =>
    obtain ⟨ho, ht, hdj, h2⟩ := h
    have hok := h2.touchOK
    have e1 := le_roundUp p ho.pow2.pos
    have e2 := le_roundUp (roundUp p L.align + L.size * len) hva
    have hin : outPos c.ia op ptr + C.arch.ptrBytes ≤ op + c.sz := by
      have := ht.lo; have := ht.hi; unfold outPos; omega
    simp only [Script.slotsAt]
    refine List.pairwise_cons.2 ⟨?_, ih h2 _ _ (by omega)⟩
    intro s hs
    obtain ⟨k1, _⟩ := slotsAt_where hva rest h2 op _ (by omega) s hs
    rcases k1 with ⟨x, hx, hx'⟩ | k1
    · have hd := hdj _ hx
      have := ht.lo; have := (hok _ hx).lo
      simp only [Apart, DisjRange, outPos] at *
      omega
    · exact Or.inl (by simp only; omega)
  | pushRaw L len src rest ih =>
    obtain ⟨ho, h2⟩ := h
    have e1 := le_roundUp p ho.pow2.pos
    have e2 := le_roundUp (roundUp p L.align + L.size * len) hva
    exact ih h2 op _ (by omega)
  | overwrite a L data rest ih => exact ih h.2 op p hop

theorem rootSlots_ge {va : Nat} (hva : 0 < va) (hW : 0 < C.arch.ptrBytes) (hP : P.WF C.arch) (hacc : P.Accepted C)
    {n : Nat} {x : Job × Nat} (hj : x.1.OK C P fl n) :
    (rootSlots P va x).Pairwise (Apart C.arch) ∧ ∀ s ∈ rootSlots P va x, x.2 ≤ s.1 := by
  unfold rootSlots
  split
  · exact ⟨List.Pairwise.nil, by intro s hs; cases hs⟩
  · rename_i hz
    have hwf := (script_wf hW hP hacc n _ _ _ _ _ hj.1 hj.2 (placed_root (decode_guard hj.1).1)).1
    have h1 := le_roundUp (jobPos P x + (P.layout x.1.r.t).size) hva
    have h2 : x.2 ≤ jobPos P x := by
      simp only [jobPos, rootPos, if_neg hz]
      exact le_roundUp _ (Pow2.pos (hP _).1)
    have hb : jobPos P x + (P.layout x.1.r.t).size ≤ bodyAt P va x := by
      simp only [bodyAt, if_neg hz]; exact h1
    refine ⟨slotsAt_apart hva x.1.sc hwf _ _ hb, fun s hs => ?_⟩
    obtain ⟨k1, _⟩ := slotsAt_where hva x.1.sc hwf (jobPos P x) (bodyAt P va x) hb s hs
    rcases k1 with ⟨y, _, hy⟩ | k1
    · have := outPos_ge x.1.r.a (jobPos P x) y
      rw [hy]; simp only; omega
    · omega

theorem jobsSlots_apart {va : Nat} (hva : 0 < va) (hW : 0 < C.arch.ptrBytes) (hP : P.WF C.arch) (hacc : P.Accepted C)
    {n : Nat} (js : List Job) (hj : ∀ j ∈ js, j.OK C P fl n) (p : Nat) : (jobsSlots P va p js).Pairwise (Apart C.arch) := by
  induction js generalizing p with
  | nil => exact List.Pairwise.nil
  | cons j js ih =>
    have hsl : jobsSlots P va p (j :: js) = rootSlots P va (j, p) ++ jobsSlots P va (placeEnd va p (j.shapes P)) js := by
      simp [jobsSlots, jobsAt]
    have hj0 := hj j (by simp)
    have hjs : ∀ x ∈ js, x.OK C P fl n := fun x hx => hj x (by simp [hx])
    rw [hsl]
    refine List.pairwise_append.2 ⟨(rootSlots_ge hva hW hP hacc (x := (j, p)) hj0).1, ih hjs _, ?_⟩
    intro s hs t ht
    have h1 := (rootSlots_where hva hW hP hacc (x := (j, p)) hj0 s hs).1
    obtain ⟨y, hy, ht⟩ := List.mem_flatMap.1 ht
    obtain ⟨hym, hle, _⟩ := jobsAt_mem_le hva hW hP hacc hjs y hy
    have h2 := (rootSlots_ge hva hW hP hacc (hjs _ hym)).2 t ht
    simp only at h1
    exact Or.inl (by omega)

/-- The pointer words computed from the values are those of the calls. -/
theorem pointersOf_jobs {va : Nat} {n : Nat} (js : List Job) (hj : ∀ j ∈ js, j.OK C P fl n) (p : Nat) :
    pointersOf C.arch P va ((js.map fun j => (j.r.t, j.v)).zip ((jobsAt P va p js).map (jobPos P))) = jobsSlots P va p js := by
  induction js generalizing p with
  | nil => rfl
  | cons j js ih =>
    have hsl : jobsSlots P va p (j :: js) = rootSlots P va (j, p) ++ jobsSlots P va (placeEnd va p (j.shapes P)) js := by
      simp [jobsSlots, jobsAt]
    rw [hsl, rootSlots_val (hj j (by simp)), ← ih fun x hx => hj x (by simp [hx])]
    rfl

theorem pointersOf_inputs {va : Nat} {n : Nat} {js : List Job} {rs : List (Root × Val)} {ps : List Nat} {p : Nat}
    (hm : js.map (fun j => (j.r, j.v)) = rs) (hj : ∀ j ∈ js, j.OK C P fl n) (hps : ps = (jobsAt P va p js).map (jobPos P)) :
    pointersOf C.arch P va ((rs.map fun y => (y.1.t, y.2)).zip ps) = jobsSlots P va p js := by
  subst hm hps
  rw [List.map_map]
  exact pointersOf_jobs js hj p

end

/-! ### Adjusting words one after the other -/

theorem rebase_out {A : Arch} {old B : Nat} (l : List (Nat × Nat)) (m : Mem) {i : Nat}
    (h : ∀ x ∈ l, i < B + x.1 ∨ B + x.1 + A.ptrBytes ≤ i) : rebase A old B l m i = m i := by
  induction l generalizing m with
  | nil => rfl
  | cons x l ih =>
    simp only [rebase]
    rw [ih _ fun y hy => h y (by simp [hy])]
    unfold rebaseWord
    cases readWord A m (B + x.1) with
    | none => rfl
    | some w => exact blit_out (by have := h x (by simp); omega)

theorem rebase_word {A : Arch} {old B : Nat} (l : List (Nat × Nat)) (hl : l.Pairwise (Apart A)) (m : Mem) {x : Nat × Nat} (hx : x ∈ l)
    {w : Nat} (hw : readWord A m (B + x.1) = some w) (hlt : w - old + B < A.usizeMod) :
    readWord A (rebase A old B l m) (B + x.1) = some (w - old + B) := by
  induction l generalizing m with
  | nil => cases hx
  | cons y l ih =>
    obtain ⟨h1, h2⟩ := List.pairwise_cons.1 hl
    simp only [rebase]
    rcases List.mem_cons.1 hx with rfl | hx
    · rw [readWord_congr (m' := rebaseWord A old B m x.1) (a' := B + x.1) fun i hi => rebase_out l _ fun z hz => by
        have := h1 z hz; unfold Apart at this; omega]
      unfold rebaseWord
      rw [hw]
      simp only
      rw [readWord_blit_same, Nat.mod_eq_of_lt hlt]
    · refine ih h2 _ hx ?_
      unfold rebaseWord
      cases readWord A m (B + y.1) with
      | none => exact hw
      | some u =>
        refine (readWord_blit_disj ?_).trans hw
        have := h1 x hx; unfold Apart at this; omega

theorem rebase_moved {A : Arch} {out dm : Mem} {lo n old B : Nat} {l : List (Nat × Nat)} (hl : l.Pairwise (Apart A))
    (hin : ∀ x ∈ l, x.1 + A.ptrBytes ≤ n ∧ x.2 < n ∧ readWord A out x.1 = some (old + x.2)) (hend : B + n < A.usizeMod)
    (hm : ∀ i < n, dm (B + i) = out i) :
    MovedTo A out (rebase A old B l dm) lo n old B l ∧ ∀ a, (a < B ∨ B + n ≤ a) → rebase A old B l dm a = dm a := by
  refine ⟨⟨fun x hx w hw => ?_, fun i _ hi ho => ?_⟩, fun a ha => ?_⟩
  · obtain ⟨h1, h2, h3⟩ := hin x hx
    refine rebase_word _ hl dm hx ?_ ?_
    · rw [← hw]
      exact readWord_congr fun i hi => by rw [Nat.add_assoc]; exact hm _ (by omega)
    · rw [h3] at hw
      injection hw with hw
      omega
  · rw [rebase_out _ _ fun x hx => by have := ho x hx; omega]
    exact hm i hi
  · exact rebase_out _ _ fun x hx => by have := (hin x hx).1; omega

end SerRaw
