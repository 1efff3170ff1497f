import Verif.Model.Afterwards
import Verif.Props.Mixed
import Verif.Lemmas.Relocate
/-
What stays in a storage, and what a value left in it needs to be readable somewhere else.
-/
namespace SerRaw

section
variable {C : Cfg} {P : Prog} {k : Kind} {K : Nat → Prop}

/-- `u` still holds the bytes of `K` that `t` held. -/
structure StillHolds (C : Cfg) (K : Nat → Prop) (t u : Sto) : Prop where
  inv : u.Inv C
  view : ∀ i < t.vec.pos, K i → u.view i = t.view i
  pos : t.vec.pos ≤ u.vec.pos

theorem StillHolds.op (hC : C.OK) {t u u' : Sto} {o : SOp} (h : StillHolds C K t u) (hl : o.Legal C u) (hcl : o ≠ .clear)
    (hw : ∀ p L len d, o = .writeSlice p L len d → ∀ i, K i → ¬ (p ≤ i ∧ i < p + L.size * len))
    (hrun : (∃ p, o.run C u = .ok p u') ∨ ∃ k, o.run C u = .panic k u') : StillHolds C K t u' := by
  have hst : StepSpec C o u u' := by
    have := step_sat hC h.inv hl
    rcases hrun with ⟨p, h⟩ | ⟨k, h⟩ <;> rw [h] at this <;> exact this
  refine ⟨hst.inv, fun i hi hk => ?_, Nat.le_trans h.pos (hst.pos_mono hcl)⟩
  rw [SOp.view hC h.inv hl hrun (Nat.lt_of_lt_of_le hi h.pos) ?_, h.view i hi hk]
  rintro ⟨p, L, len, d, ho, h1, h2⟩
  exact hw p L len d ho i hk ⟨h1, h2⟩

theorem StillHolds.finished (hC : C.OK) {t u : Sto} {es : List Ev} {s s' : Ser} {m : Nat → Mem} (ih : StillHolds C K t u) (h1 : SessInv C k P u es s m)
    (hw : ∀ e ∈ es, ∀ i, K i → ¬ e.Writes i) (hf : finalize C k s = .ok () s') : StillHolds C K t s'.sto := by
  obtain ⟨s2, e1, e2, e3, e4, _⟩ := finalize_ok hC k (h1.rel.1 s.sto.vec.ptr) h1.rel.2
  rw [hf] at e1
  cases e1
  have hp := h1.pos
  have hp0 := ih.pos
  rw [← e2] at hp
  refine ⟨e3, fun i hi hk => ?_, by omega⟩
  rw [e4, h1.before i (by omega) fun e he => hw e he i hk, ih.view i hi hk]

theorem StillHolds.dropped {t u : Sto} {es : List Ev} {s : Ser} {m : Nat → Mem} (ih : StillHolds C K t u) (h1 : SessInv C k P u es s m)
    (hw : ∀ e ∈ es, ∀ i, K i → ¬ e.Writes i) : StillHolds C K t s.sto := by
  have hp := h1.pos
  have hp0 := ih.pos
  refine ⟨(h1.rel.1 0).inv, fun i hi hk => ?_, by omega⟩
  rw [(h1.rel.1 0).rest i ?_, h1.before i (by omega) fun e he => hw e he i hk, ih.view i hi hk]
  intro x hx
  obtain ⟨e, he, _, h2, _⟩ := h1.ents x hx
  have := (h1.bounds e he).1
  omega

theorem StillHolds.bytes {t t' : Sto} (hI : t.Inv C) (hh : StillHolds C K t t') : t.vec.pos ≤ t'.vec.pos ∧ ∀ i < t.vec.pos, K i → t'.bytes i = t.bytes i := by
  have hp := hh.pos
  refine ⟨hp, fun i hi hk => ?_⟩
  have e1 := hh.inv.pos_le
  have e2 := hI.pos_le
  rw [Sto.bytes, Sto.bytes, if_pos hi, if_pos (by omega), load_eq_view hI.toWInv (by omega), load_eq_view hh.inv.toWInv (by omega), hh.view i hi hk]

theorem Afterwards.holds (hC : C.OK) (hP : P.WF C.arch) (hacc : P.Accepted C) {t t' : Sto} (ht : t.Inv C) (h : Afterwards C P K t t') :
    StillHolds C K t t' := by
  induction h with
  | now => exact ⟨ht, fun _ _ _ => rfl, Nat.le_refl _⟩
  | op _ hl hcl hw hr ih => exact ih.op hC hl hcl hw (.inl ⟨_, hr⟩)
  | opPanic _ hl hcl hw hr ih => exact ih.op hC hl hcl hw (.inr ⟨_, hr⟩)
  | finished _ hs hw hf ih =>
    obtain ⟨m, h1⟩ := hs.inv hC hP hacc ih.inv
    exact ih.finished hC h1 hw hf
  | dropped _ hs hw ih =>
    obtain ⟨m, h1⟩ := hs.inv hC hP hacc ih.inv
    exact ih.dropped h1 hw

/-- What is known of a finished session, and of what is still there afterwards. -/
def Lasting (C : Cfg) (k : Kind) (P : Prog) (K : Nat → Prop) (t : Sto) (es : List Ev) (s s' : Ser) (t' : Sto) : Prop :=
  ∃ m, SessInv C k P t es s m ∧ s'.sto.Inv C ∧ s'.sto.vec = s.sto.vec ∧ t'.Inv C ∧ s'.sto.vec.pos ≤ t'.vec.pos ∧
      (∀ i < s'.sto.vec.pos, K i → t'.bytes i = m s'.sto.vec.ptr i ∧ t'.buffer (t'.vec.ptr + i) = m s'.sto.vec.ptr i)

theorem Ended.lasting {t t' : Sto} {es : List Ev} {s s' : Ser} (h : Ended C k P t es s s') (hh : StillHolds C K s'.sto t') : Lasting C k P K t es s s' t' := by
  obtain ⟨m, h1, h2, h3, h4⟩ := h
  have hp := hh.pos
  refine ⟨m, h1, h2, h3, hh.inv, hp, fun i hi hk => ?_⟩
  have e := (h4 i hi).1
  have e1 := hh.inv.pos_le
  have e2 := h2.pos_le
  rw [Sto.bytes, if_pos hi, load_eq_view h2.toWInv (by omega), ← hh.view i hi hk, ← load_eq_view hh.inv.toWInv (by omega)] at e
  unfold Sto.bytes Sto.buffer
  rw [if_pos (by omega), if_pos (by omega)]
  exact ⟨e, e⟩

/-- A finished session, and what is still there afterwards. -/
theorem Sess.after (hC : C.OK) (hP : P.WF C.arch) (hacc : P.Accepted C) {t t' : Sto} (ht : t.Inv C) {es : List Ev} {s s' : Ser} (h : Sess C k P t es s)
    (hf : finalize C k s = .ok () s') (ha : Afterwards C P K s'.sto t') : Lasting C k P K t es s s' t' := by
  obtain ⟨m, h1, h2, h3, h4⟩ := h.final hC hP hacc ht hf
  exact Ended.lasting ⟨m, h1, h2, h3, h4⟩ (ha.holds hC hP hacc h2)

/-- The pointer words a value left: where they are, and that they do not overlap. -/
theorem Left.slots (hC : C.OK) (hP : P.WF C.arch) (hacc : P.Accepted C) {fl : Flags} {n : Nat} {r : Root} {v : Val} {sc : Script} {m : Nat → Mem}
    {lo hi p : Nat} (hj : Job.OK C P fl n ⟨r, v, sc⟩) (hl : Left C k (P.layout r.t) r.im r.a sc m lo hi p) :
    v.pointersAt C.arch P C.valueAlign r.t p = jobsSlots P C.valueAlign lo [⟨r, v, sc⟩] ∧
    (v.pointersAt C.arch P C.valueAlign r.t p).Pairwise (Apart C.arch) ∧
    ∀ x ∈ v.pointersAt C.arch P C.valueAlign r.t p, lo ≤ x.1 ∧ x.1 + C.arch.ptrBytes ≤ hi ∧ x.2 < hi ∧
      ∀ D, (k.mode D).ptrBase = some D → ∀ j < C.arch.ptrBytes, m D (x.1 + j) = wordCells C.arch (D + x.2) j := by
  have hW := hC.arch.ptr_pos
  have F := hC.facts
  have hj1 : ∀ y ∈ [(⟨r, v, sc⟩ : Job)], y.OK C P fl n := by
    intro y hy; obtain rfl := List.mem_singleton.1 hy; exact hj
  have e : v.pointersAt C.arch P C.valueAlign r.t p = jobsSlots P C.valueAlign lo [⟨r, v, sc⟩] := by
    have := rootSlots_val (va := C.valueAlign) (x := ((⟨r, v, sc⟩ : Job), lo)) hj
    simp only [jobsSlots, jobsAt, List.flatMap_cons, List.flatMap_nil, List.append_nil]
    rw [this, hl.at_]
    rfl
  have hend : placeEnd C.valueAlign lo (jobsShapes P [(⟨r, v, sc⟩ : Job)]) = hi := by
    rw [hl.end_]; simp [jobsShapes, Job.shapes]
  refine ⟨e, e ▸ jobsSlots_apart F.va.pos hW hP hacc _ hj1 lo, fun x hx => ?_⟩
  rw [e] at hx
  have hge : lo ≤ x.1 := by
    obtain ⟨y, hy, hx⟩ := List.mem_flatMap.1 hx
    simp only [jobsAt, List.mem_singleton] at hy
    subst hy
    exact (rootSlots_ge F.va.pos hW hP hacc (x := (⟨r, v, sc⟩, lo)) hj).2 x hx
  obtain ⟨⟨h1, h2⟩, _⟩ := jobs_slots (md := ⟨some 0, true⟩) (m := fun _ => none) F.va.pos hW hP hacc rfl hj1 x hx
  rw [hend] at h1 h2
  refine ⟨hge, h1, h2, fun D hD j hjj => ?_⟩
  obtain ⟨m0, hc⟩ := hl.cells D
  obtain ⟨_, h3⟩ := jobs_slots (md := k.mode D) (m := m0) F.va.pos hW hP hacc hD hj1 x hx
  rw [hc _ (by omega) (by omega)]
  exact h3 j hjj

/-- A value whose bytes, with its pointer words filled in for the address `B`, are at `B`. -/
theorem Left.filled (hC : C.OK) (hP : P.WF C.arch) (hacc : P.Accepted C) {fl : Flags} {n : Nat} {r : Root} {v : Val} {sc : Script} {m : Nat → Mem}
    {lo hi p : Nat} (hj : Job.OK C P fl n ⟨r, v, sc⟩) (hl : Left C k (P.layout r.t) r.im r.a sc m lo hi p) {B D : Nat}
    (hB : (P.layout r.t).size ≠ 0 → C.maxValueAlign ∣ B) (hz : (P.layout r.t).size ≠ 0 ∨ (P.layout r.t).align ∣ B) (hend : B + hi < C.arch.usizeMod) {dm : Mem}
    (hm : FilledAt C.arch (m D) dm lo hi B (v.pointersAt C.arch P C.valueAlign r.t p)) :
    Denotes C.arch P ⟨fl.canon, (k.mode B).fixup⟩ dm r.t (B + p) v := by
  have hW := hC.arch.ptr_pos
  have F := hC.facts
  have hfix : (k.mode D).fixup = (k.mode B).fixup := by cases k <;> rfl
  have hj1 : ∀ y ∈ [(⟨r, v, sc⟩ : Job)], y.OK C P fl n := by
    intro y hy; obtain rfl := List.mem_singleton.1 hy; exact hj
  have e := (hl.slots hC hP hacc hj).1
  obtain ⟨m0, hc⟩ := hl.cells D
  have hpe : placeEnd C.valueAlign lo (Job.shapes P ⟨r, v, sc⟩) = hi := hl.end_.symm
  have h1 := root_read (j := ⟨r, v, sc⟩) (md := ⟨some B, (k.mode B).fixup⟩) (D := B) (m := m0) (p := lo) (dm := dm) F.va.pos hW hP hacc rfl hj
    (fun h0 => hz.resolve_left (fun h => h h0)) (fun hnz u hu => Nat.dvd_trans (Pow2.dvd_of_le (hP u).1 F.mva (accepts_iff.1 (hacc u hu))) (hB hnz))
    (by omega) ?_
  · rw [hl.at_]
    exact ⟨n, h1.1⟩
  · intro i h2 h3
    rw [hpe] at h3
    by_cases hout : OutsideSlots C.arch (jobsSlots P C.valueAlign lo [⟨r, v, sc⟩]) i
    · rw [hm.same i h2 h3 fun x hx => hout x (e ▸ hx), hc i h2 h3]
      exact jobsIdeal_agree (P := P) (md1 := k.mode D) (md2 := ⟨some B, (k.mode B).fixup⟩) hfix [⟨r, v, sc⟩] lo (Or.inl rfl) (Or.inr hout)
    · unfold OutsideSlots at hout
      obtain ⟨s, hs, hn⟩ : ∃ s ∈ jobsSlots P C.valueAlign lo [⟨r, v, sc⟩], ¬ (i < s.1 ∨ s.1 + C.arch.ptrBytes ≤ i) :=
        Classical.byContradiction fun h => hout fun s hs => Classical.byContradiction fun h' => h ⟨s, hs, h'⟩
      have hw := (jobs_slots (md := ⟨some B, (k.mode B).fixup⟩) (m := m0) F.va.pos hW hP hacc rfl hj1 s hs).2 (i - s.1) (by omega)
      have hr := (readWord_some_iff.1 (hm.word s (e ▸ hs))).2 (i - s.1) (by omega)
      rw [show s.1 + (i - s.1) = i by omega] at hw
      rw [show B + s.1 + (i - s.1) = B + i by omega] at hr
      exact hr.trans hw.symm

end
end SerRaw
