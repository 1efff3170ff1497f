import Verif.Lemmas.HandNested
/-
The reference output of values whose types have hand-written implementations (or contain such types), read back.
-/
namespace SerRaw

section
variable {C : Cfg} {P : Prog} {im : Mem} {fl : Flags} {md : Mode} {va D : Nat} {X : TyId → Option HandImpl} {V V' W : TyId → HandView}

theorem decodeEach_zst {r1 r2 : TyId → Nat → Option Val} {a b : Nat} {fs : List Field} {vs : List Val}
    (h : ∀ f ∈ fs, ∀ w, r1 f.2 (a + f.1) = some w → r2 f.2 (b + f.1) = some w) (hd : decodeEach r1 a fs = some vs) :
    decodeEach r2 b fs = some vs := by
  induction fs generalizing vs with
  | nil => exact hd
  | cons f fs ih =>
    simp only [decodeEach, Option.bind_eq_bind, Option.bind_eq_some_iff, Option.pure_def, Option.some.injEq] at hd ⊢
    obtain ⟨v, h1, ws, h2, h3⟩ := hd
    exact ⟨v, h f (by simp) _ h1, ws, ih (fun g hg => h g (by simp [hg])) h2, h3⟩

theorem scriptEach_back (hva : 0 < va) (hP : P.WF C.arch)
    {rd : TyId → Nat → Option Val} {rc : TyId → Nat → Option Script} {rd' : Mem → TyId → Nat → Option Val}
    (hwf : WFClaim C P rd rc) (hrec : RClaim C P im md va D rd rc rd')
    {c : Ctx} {L : Layout} {a op : Nat} (hp : Placed c L a) {fs : List Field} (hf : FieldsWF P L fs) {vs : List Val} {sc : Script}
    (hd : decodeEach rd a fs = some vs) (hs : scriptEach rc a fs = some sc) {m m' : Mem} {p p' : Nat} (hop : op + c.sz ≤ p)
    (hq : L.align ∣ outPos c.ia op a) (hD : L.align ∣ D)
    (hm : ∀ f ∈ fs, ∀ i < (P.layout f.2).size, m (outPos c.ia op a + f.1 + i) = im (a + f.1 + i))
    (hi : sc.ideal C.arch va md im c.ia op (m, p) = (m', p')) (hb : D + p' < C.arch.usizeMod) :
    (∀ f ∈ fs, SlotOK C.arch P im m' f.2 (a + f.1) (outPos c.ia op a + f.1)) ∧
    (∀ i < p, (∀ f ∈ fs, i < outPos c.ia op a + f.1 ∨ outPos c.ia op a + f.1 + (P.layout f.2).size ≤ i) → m' i = m i) ∧
    ∀ dm : Mem, (∀ i, (∃ f ∈ fs, outPos c.ia op a + f.1 ≤ i ∧ i < outPos c.ia op a + f.1 + (P.layout f.2).size) ∨
        (p ≤ i ∧ i < p') → dm (D + i) = m' i) →
      decodeEach (rd' dm) (D + outPos c.ia op a) fs = some vs := by
  induction fs generalizing vs sc m p m' p' with
  | nil =>
    simp only [scriptEach, Option.some.injEq] at hs; subst hs
    simp only [Script.ideal, Prod.mk.injEq] at hi
    obtain ⟨rfl, rfl⟩ := hi
    exact ⟨by simp, fun i _ _ => rfl, fun dm _ => hd⟩
  | cons f fs ih =>
    have hlo := hp.lo; have hhi := hp.hi
    have hinF := hf.inBounds f (by simp)
    have hf' : FieldsWF P L fs := ⟨fun g hg => hf.inBounds g (by simp [hg]), fun g hg => hf.aligned g (by simp [hg]),
      fun g hg => hf.alignLe g (by simp [hg]), (List.pairwise_cons.1 hf.disjoint).2⟩
    have hdj := (List.pairwise_cons.1 hf.disjoint).1
    simp only [decodeEach, Option.bind_eq_bind, Option.bind_eq_some_iff, Option.pure_def, Option.some.injEq] at hd
    simp only [scriptEach, Option.bind_eq_bind, Option.bind_eq_some_iff, Option.pure_def, Option.some.injEq] at hs
    obtain ⟨v, d1, ws, d2, rfl⟩ := hd
    obtain ⟨s1, e1, s2, e2, rfl⟩ := hs
    have hpF : Placed c (P.layout f.2) (a + f.1) := ⟨by omega, by omega, Nat.dvd_trans (hf.alignLe f (by simp)) hp.al, hp.ia⟩
    obtain ⟨w1, t1⟩ := hwf _ _ _ _ c d1 e1 hpF
    obtain ⟨w2, t2⟩ := scriptEach_wf hwf hp hf' d2 e2
    rw [ideal_app] at hi
    obtain ⟨m1, p1, hs1⟩ : ∃ m1 p1, s1.ideal C.arch va md im c.ia op (m, p) = (m1, p1) := ⟨_, _, rfl⟩
    rw [hs1] at hi
    have mono1 : p ≤ p1 := by have := ideal_mono (A := C.arch) (md := md) (im := im) hva s1 w1 c.ia op (m, p); rw [hs1] at this; exact this
    have mono2 : p1 ≤ p' := by have := ideal_mono (A := C.arch) (md := md) (im := im) hva s2 w2 c.ia op (m1, p1); rw [hi] at this; exact this
    have hQ := outPos_add (op := op) hlo
    have hq1 : outPos c.ia op a + L.size ≤ p := by unfold outPos; omega
    -- frames
    have fr1 : ∀ i < p, (i < outPos c.ia op a + f.1 ∨ outPos c.ia op a + f.1 + (P.layout f.2).size ≤ i) → m1 i = m i := by
      intro i hip hif
      have := ideal_frame (md := md) (im := im) hva s1 w1 c.ia op (m, p) (i := i) hip ?_
      · rw [hs1] at this; exact this
      · intro t ht
        obtain ⟨x1, x2⟩ := t1 t ht
        have : t.1 = a + (t.1 - a) := by omega
        rw [this, hQ]; omega
    have fr2 : ∀ i < p1, (∀ g ∈ fs, i < outPos c.ia op a + g.1 ∨ outPos c.ia op a + g.1 + (P.layout g.2).size ≤ i) → m' i = m1 i := by
      intro i hip hif
      have := ideal_frame (md := md) (im := im) hva s2 w2 c.ia op (m1, p1) (i := i) hip ?_
      · rw [hi] at this; exact this
      · intro t ht
        obtain ⟨g, hg, x1, x2⟩ := t2 t ht
        have := hif g hg
        have : t.1 = a + (t.1 - a) := by omega
        rw [this, hQ]; omega
    have hgin : ∀ g ∈ fs, g.1 + (P.layout g.2).size ≤ L.size := hf'.inBounds
    obtain ⟨r1, r2⟩ := hrec _ _ _ _ d1 e1 c op m p m1 p1 hpF hop (by
      rw [hQ]; exact Nat.dvd_add (Nat.dvd_trans (hf.alignLe f (by simp)) hq) (hf.aligned f (by simp)))
      (Nat.dvd_trans (hf.alignLe f (by simp)) hD) (by rw [hQ]; exact hm f (by simp)) hs1 (by omega)
    rw [hQ] at r1 r2
    obtain ⟨r3, r4, r5⟩ := ih hf' d2 e2 (m := m1) (p := p1) (by omega) (by
      intro g hg i hii
      rw [fr1 _ (by have := hgin g hg; omega) (by have := hdj g hg; unfold DisjRange at this; omega)]
      exact hm g (by simp [hg]) i hii) hi hb
    refine ⟨?_, ?_, ?_⟩
    · intro g hg
      rcases List.mem_cons.1 hg with rfl | hg
      · refine SlotOK.congr hP r1 fun i hii => fr2 _ (by omega) fun g hg => ?_
        have := hdj g hg; unfold DisjRange at this; omega
      · exact r3 g hg
    · intro i hip hall
      rw [r4 i (by omega) fun g hg => hall g (by simp [hg]), fr1 i hip (hall f (by simp))]
    · intro dm hdm
      have e1 : rd' dm f.2 (D + outPos c.ia op a + f.1) = some v := by
        rw [Nat.add_assoc]
        refine r2 dm fun i hii => ?_
        rw [← fr2 i (by omega) fun g hg => ?_]
        · refine hdm i ?_
          rcases hii with hii | hii
          · exact Or.inl ⟨f, by simp, hii⟩
          · exact Or.inr (by omega)
        · have := hdj g hg; have := hgin g hg; unfold DisjRange at *; omega
      have e2 := r5 dm (by
        intro i hii
        refine hdm i ?_
        rcases hii with ⟨g, hg, hii⟩ | hii
        · exact Or.inl ⟨g, by simp [hg], hii⟩
        · exact Or.inr (by omega))
      simp only [decodeEach, e1, e2, Option.bind_eq_bind, Option.bind_some, Option.pure_def]

theorem scriptVec_back (hva : 0 < va) (hW : 0 < C.arch.ptrBytes) (hP : P.WF C.arch) (hD : md.ptrBase = some D)
    (hDal : ∀ u, (P.layout u).size ≠ 0 → (P.layout u).align ∣ D)
    {rd : TyId → Nat → Option Val} {rc : TyId → Nat → Option Script} {rd' : Mem → TyId → Nat → Option Val}
    (hzst : ∀ u b w, (P.layout u).size = 0 → rd u b = some w → ∀ dm, rd' dm u b = some w)
    (hwf : WFClaim C P rd rc) (hrec : RClaim C P im md va D rd rc rd')
    {c : Ctx} {u : TyId} {a op : Nat} {v : Val} {sc : Script} (hp : Placed c ⟨3 * C.arch.ptrBytes, C.arch.ptrBytes⟩ a)
    (hd : decodeVec C.arch P fl im rd u a = some v)
    (hs : scriptVec C.arch P im rc u a = some sc)
    {m m' : Mem} {p p' : Nat} (hop : op + c.sz ≤ p)
    (hm : ∀ i < 3 * C.arch.ptrBytes, m (outPos c.ia op a + i) = im (a + i))
    (hi : sc.ideal C.arch va md im c.ia op (m, p) = (m', p')) (hb : D + p' < C.arch.usizeMod) :
    (∀ i < 3 * C.arch.ptrBytes, m' (outPos c.ia op a + i) = im (a + i) ∨ (P.layout u).size ≠ 0 ∧
      ∃ k x, ((k = SlotKind.ptr ∧ x = (P.vecOrder u).ptrIx * C.arch.ptrBytes) ∨ (k = SlotKind.cap ∧ x = (P.vecOrder u).capIx * C.arch.ptrBytes)) ∧
        x ≤ i ∧ i < x + C.arch.ptrBytes ∧
        ∃ w w', readWord C.arch im (a + x) = some w ∧ readWord C.arch m' (outPos c.ia op a + x) = some w' ∧ k.valid C.arch w ∧ k.valid C.arch w') ∧
    ∀ dm : Mem, (∀ i, (outPos c.ia op a ≤ i ∧ i < outPos c.ia op a + 3 * C.arch.ptrBytes) ∨ (p ≤ i ∧ i < p') → dm (D + i) = m' i) →
      decodeVec C.arch P ⟨fl.canon, md.fixup⟩ dm (rd' dm) u (D + outPos c.ia op a) = some v := by
  simp only [decodeVec, Option.bind_eq_bind, Option.bind_eq_some_iff, Option.pure_def, Option.some.injEq,
    Option.ite_none_right_eq_some] at hd ⊢
  obtain ⟨h, h1, hval, vs, h2, rfl⟩ := hd
  unfold scriptVec at hs
  have hlo := hp.lo; have hhi := hp.hi
  have hq1 : outPos c.ia op a + 3 * C.arch.ptrBytes ≤ p := by simp only at hhi; unfold outPos; omega
  split at hs
  · rename_i hz
    simp only [Option.some.injEq] at hs; subst hs
    simp only [Script.ideal, Prod.mk.injEq] at hi
    obtain ⟨rfl, rfl⟩ := hi
    refine ⟨fun i hi => Or.inl (hm i hi), fun dm hdm => ?_⟩
    have hr : readHeader C.arch m (P.vecOrder u) (outPos c.ia op a) = some h := by rw [← h1]; exact readHeader_congr hm
    refine ⟨h, readHeader_of_agree hr hdm, valid_zst hz hval, vs, ?_, rfl⟩
    refine decodeEach_zst (fun f hf => ?_) h2
    obtain ⟨i, _, rfl⟩ := mem_elems.1 hf
    exact fun w hw => hzst _ _ _ hz hw dm
  · rename_i hz
    simp only [Option.bind_eq_bind, Option.bind_eq_some_iff, Option.pure_def, Option.some.injEq] at hs
    obtain ⟨h', h1', inner, e1, rfl⟩ := hs
    rw [h1] at h1'; obtain rfl := Option.some.inj h1'
    have hpal := (hP u).1
    have hinwf : inner.WF C ⟨h.ptr, (P.layout u).size * h.len, (P.layout u).align⟩ :=
      (scriptEach_wf (L := ⟨h.len * (P.layout u).size, (P.layout u).align⟩) hwf
        ⟨Nat.le_refl _, by simp only; rw [Nat.mul_comm], Nat.dvd_refl _, Nat.dvd_of_mod_eq_zero hval.2.1⟩ (elems_wf hP u h.len) h2 e1).1
    obtain ⟨g1, h', g2, g3, g4, g5⟩ := head_ideal hva hW hD hz hpal (hDal u hz) h1 hval hlo hq1 hm (fun _ => hinwf) hi hb
    refine ⟨?_, ?_⟩
    · intro i hii
      rcases slotOK_header h1 g2 g4 hval.1 g3.1 (cap_le_isize hz hval) (cap_le_isize hz g3) i hii with hx | hx
      · exact Or.inl hx
      · exact Or.inr ⟨hz, hx⟩
    · intro dm hdm
      have hrd := readHeader_of_agree g2 hdm
      by_cases hl : h.len = 0
      · refine ⟨h', hrd, g3, vs, ?_, rfl⟩
        rw [g4, hl]; rw [hl] at h2; exact h2
      · obtain ⟨m2, g6, g7, g8⟩ := g5 hl
        have hlop := le_roundUp p (show 0 < (P.layout u).align from Pow2.pos hpal)
        have hrop := le_roundUp (roundUp p (P.layout u).align + (P.layout u).size * h.len) hva
        have hmono := ideal_mono (A := C.arch) (md := md) (im := im) hva inner hinwf h.ptr (roundUp p (P.layout u).align)
          (m2, roundUp (roundUp p (P.layout u).align + (P.layout u).size * h.len) va)
        rw [← g7] at hmono
        simp only at hmono
        have hself : outPos h.ptr (roundUp p (P.layout u).align) h.ptr = roundUp p (P.layout u).align := by simp [outPos]
        obtain ⟨_, _, r3⟩ := scriptEach_back (c := ⟨h.ptr, (P.layout u).size * h.len, (P.layout u).align⟩)
          (L := ⟨h.len * (P.layout u).size, (P.layout u).align⟩) (a := h.ptr) (op := roundUp p (P.layout u).align)
          hva hP hwf hrec
          ⟨Nat.le_refl _, by simp only; rw [Nat.mul_comm], Nat.dvd_refl _, Nat.dvd_of_mod_eq_zero hval.2.1⟩ (elems_wf hP u h.len) h2 e1
          hrop (by simp only [hself]; exact dvd_roundUp _ _) (hDal u hz) (by
            intro f hf i hii
            have := (elems_wf hP u h.len).inBounds f hf
            simp only at this
            have hc := Nat.mul_comm (P.layout u).size h.len
            simp only [hself]
            rw [Nat.add_assoc, Nat.add_assoc]; exact g8 _ (by omega)) g7.symm hb
        simp only [hself] at r3
        have d1 := r3 dm (by
          intro i hii
          refine hdm i (Or.inr ?_)
          rcases hii with ⟨f, hf, hx⟩ | hx
          · have := (elems_wf hP u h.len).inBounds f hf
            simp only at this
            have hc := Nat.mul_comm (P.layout u).size h.len
            omega
          · omega)
        exact ⟨h', hrd, g3, vs, by rw [g6, g4]; exact d1, rfl⟩

theorem step_back (hva : 0 < va) (hW : 0 < C.arch.ptrBytes) (hP : P.WF C.arch) (hacc : P.Accepted C) (hD : md.ptrBase = some D)
    (hDal : ∀ u, (P.layout u).size ≠ 0 → (P.layout u).align ∣ D)
    {rd : TyId → Nat → Option Val} {rc : TyId → Nat → Option Script} {rd' : Mem → TyId → Nat → Option Val}
    (hgd : Guarded C.arch P rd)
    (hzst : ∀ u b w, (P.layout u).size = 0 → rd u b = some w → ∀ dm, rd' dm u b = some w)
    (hwf' : WFClaim C P rd rc) (ih : RClaim C P im md va D rd rc rd')
    {t a : Nat} {v : Val} {sc : Script} (hg : (P.layout t).align ∣ a ∧ a + (P.layout t).size < C.arch.usizeMod)
    (hd : decodeStep C.arch P fl im rd t a = some v) (hs : scriptStep C.arch P im rc t a = some sc) :
    ReadsBack C P im md va D t a v sc fun dm => decodeStep C.arch P ⟨fl.canon, md.fixup⟩ dm (rd' dm) t := by
  intro c op m p m' p' hp hop hqal hDt hm hi hb
  have hw := hP t
  unfold TyWF at hw
  obtain ⟨_, _, _, hw⟩ := hw
  have hwf := step_wf hW hP hacc hgd hwf' hg hd hs hp
  have hmono := ideal_mono (A := C.arch) (md := md) (im := im) hva sc hwf.1 c.ia op (m, p)
  rw [hi] at hmono; simp only at hmono
  have hlo := hp.lo; have hhi := hp.hi
  have hqs : outPos c.ia op a + (P.layout t).size ≤ p := by unfold outPos; omega
  have hagree : ∀ {dm : Mem}, (∀ i, (outPos c.ia op a ≤ i ∧ i < outPos c.ia op a + (P.layout t).size) ∨ (p ≤ i ∧ i < p') → dm (D + i) = m' i) →
      ∀ i < (P.layout t).size, dm (D + outPos c.ia op a + i) = m' (outPos c.ia op a + i) := by
    intro dm hdm i hii; rw [Nat.add_assoc]; exact hdm _ (Or.inl (by omega))
  rw [scriptStep] at hs
  rw [decodeStep] at hd
  simp only [decodeStep]
  cases hdef : P.defn t <;> simp only [hdef] at hd hw hs ⊢
  case prim =>
    simp only [Option.some.injEq] at hs; subst hs
    simp only [Script.ideal, Prod.mk.injEq] at hi
    obtain ⟨rfl, rfl⟩ := hi
    refine ⟨SlotOK.same hm, fun dm hdm => ?_⟩
    rw [← hd, readBytes_congr (m' := im) (a' := a)]
    intro i hii; rw [hagree hdm i hii, hm i hii]
  case box u =>
    simp only [Option.bind_eq_bind, Option.bind_eq_some_iff, Option.pure_def, Option.some.injEq,
      Option.ite_none_right_eq_some] at hd ⊢
    obtain ⟨x, h1, h2, v', h3, rfl⟩ := hd
    rw [hw] at hm hqs hagree ⊢
    simp only at hm hqs hagree ⊢
    split at hs
    · rename_i hz
      simp only [Option.some.injEq] at hs; subst hs
      simp only [Script.ideal, Prod.mk.injEq] at hi
      obtain ⟨rfl, rfl⟩ := hi
      refine ⟨SlotOK.same (by rw [hw]; exact hm), fun dm hdm => ⟨x, ?_, h2, v', ?_, rfl⟩⟩
      · rw [← h1]; refine readWord_congr fun i hii => ?_
        rw [hagree hdm i hii, hm i hii]
      · exact hzst _ _ _ hz h3 dm
    · rename_i hz
      simp only [Option.bind_eq_bind, Option.bind_eq_some_iff, Option.pure_def, Option.some.injEq] at hs
      obtain ⟨x', h1', inner, e1, rfl⟩ := hs
      rw [h1] at h1'; obtain rfl := Option.some.inj h1'
      obtain ⟨g1, g2⟩ := hgd _ _ _ h3
      have hpal := (hP u).1
      have hpx : Placed ⟨x, (P.layout u).size * 1, (P.layout u).align⟩ (P.layout u) x := ⟨Nat.le_refl _, by simp, Nat.dvd_refl _, g1⟩
      obtain ⟨w1, _⟩ := hwf' _ _ _ _ _ h3 e1 hpx
      have hlop := le_roundUp p (show 0 < (P.layout u).align from Pow2.pos hpal)
      have hrop := le_roundUp (roundUp p (P.layout u).align + (P.layout u).size * 1) hva
      simp only [Script.ideal, Mode.putPtr, hD] at hi
      have hmono2 := ideal_mono (A := C.arch) (md := md) (im := im) hva inner w1 x (roundUp p (P.layout u).align) (_, _) |>.trans_eq (congrArg Prod.snd hi)
      simp only at hmono2
      have hself : outPos x (roundUp p (P.layout u).align) x = roundUp p (P.layout u).align := by simp [outPos]
      obtain ⟨r1, r2⟩ := ih _ _ _ _ h3 e1 ⟨x, (P.layout u).size * 1, (P.layout u).align⟩ (roundUp p (P.layout u).align) _ _ _ _ hpx
        hrop (by simp only [hself]; exact dvd_roundUp _ _) (hDal u hz) (by
          intro i hii
          simp only [hself]
          rw [blit_out (by omega), blit_at (by omega)]) hi hb
      simp only [hself] at r1 r2
      have hword : readWord C.arch m' (outPos c.ia op a) = some (D + roundUp p (P.layout u).align) := by
        have hfr : ∀ i < C.arch.ptrBytes, m' (outPos c.ia op a + i) = wordCells C.arch (D + roundUp p (P.layout u).align) i := by
          intro i hii
          have := ideal_frame (md := md) (im := im) hva inner w1 x (roundUp p (P.layout u).align) (_, _) (i := outPos c.ia op a + i)
            (by simp only; exact Nat.lt_of_lt_of_le (by omega) hrop) (by
              intro t _; left
              have := outPos_ge x (roundUp p (P.layout u).align) t.1; omega) |>.symm.trans (congrFun (congrArg Prod.fst hi) _)
          simp only at this
          rw [← this, blit_at hii]
        rw [show readWord C.arch m' (outPos c.ia op a) = readWord C.arch (m.blit (outPos c.ia op a) C.arch.ptrBytes
          (wordCells C.arch (D + roundUp p (P.layout u).align))) (outPos c.ia op a) from
          readWord_congr fun i hii => by rw [hfr i hii, blit_at hii], readWord_blit_same, Nat.mod_eq_of_lt (by omega)]
      have hxne : D + roundUp p (P.layout u).align ≠ 0 := by omega
      refine ⟨?_, ?_⟩
      · intro i hii
        rw [hw] at hii
        exact Or.inr ⟨.ptr, 0, .box hdef hz, Nat.zero_le _, by simpa using hii, x, _, h1, hword, h2, hxne⟩
      · intro dm hdm
        have d1 := r2 dm fun i hii => hdm i (Or.inr (by omega))
        have hw' : readWord C.arch dm (D + outPos c.ia op a) = some (D + roundUp p (P.layout u).align) := by
          rw [← hword]; exact readWord_congr fun i hii => hagree hdm i hii
        exact ⟨_, hw', hxne, v', d1, rfl⟩
  case vec u =>
    rw [hw] at hm hp ⊢
    obtain ⟨r1, r2⟩ := scriptVec_back hva hW hP hD hDal hzst hwf' ih hp hd hs hop hm hi hb
    refine ⟨?_, r2⟩
    intro i hii
    rw [hw] at hii
    rcases r1 i hii with hx | ⟨hz, k, x, hk, h1, h2, h3⟩
    · exact Or.inl hx
    · refine Or.inr ⟨k, x, ?_, h1, h2, h3⟩
      rcases hk with ⟨rfl, rfl⟩ | ⟨rfl, rfl⟩
      · exact .vecPtr hdef hz
      · exact .vecCap hdef hz
  case string =>
    rw [hw] at hm hp hqs ⊢
    simp only [decodeStr, Option.bind_eq_bind, Option.bind_eq_some_iff, Option.pure_def, Option.some.injEq,
      Option.ite_none_right_eq_some] at hd hs ⊢
    obtain ⟨h, h1, hval, bs, h2, rfl⟩ := hd
    obtain ⟨h', h1', rfl⟩ := hs
    rw [h1] at h1'; obtain rfl := Option.some.inj h1'
    rw [headScript_push] at hi
    obtain ⟨g1, h', g2, g3, g4, g5⟩ := head_ideal (L := ⟨1, 1⟩) hva hW hD (by simp) ⟨0, rfl⟩ (Nat.one_dvd _) h1 hval hlo hqs hm
      (inner := .done) (c' := c) (fun _ => trivial) hi hb
    refine ⟨?_, ?_⟩
    · intro i hii
      rw [hw] at hii
      rcases slotOK_header h1 g2 g4 hval.1 g3.1 (cap_le_isize (by simp) hval) (cap_le_isize (by simp) g3) i hii with hx | ⟨k, x, hk, h1, h2, h3⟩
      · exact Or.inl hx
      · refine Or.inr ⟨k, x, ?_, h1, h2, h3⟩
        rcases hk with ⟨rfl, rfl⟩ | ⟨rfl, rfl⟩
        · exact .strPtr hdef
        · exact .strCap hdef
    · intro dm hdm
      have hrd := readHeader_of_agree g2 hdm
      by_cases hl : h.len = 0
      · refine ⟨h', hrd, g3, bs, ?_, rfl⟩
        rw [g4, ← h2, hl]; rfl
      · obtain ⟨m2, g6, g7, g8⟩ := g5 hl
        simp only [Script.ideal, Prod.mk.injEq] at g7
        obtain ⟨rfl, rfl⟩ := g7
        have hlop := le_roundUp p (show 0 < 1 by omega)
        have hrop := le_roundUp (roundUp p 1 + 1 * h.len) hva
        refine ⟨h', hrd, g3, bs, ?_, rfl⟩
        rw [g4, ← h2]
        refine readBytes_congr fun i hii => ?_
        rw [g6, Nat.add_assoc, hdm _ (Or.inr (by simp only; omega)), g8 i (by simp only; omega)]
  case array u k =>
    simp only [Option.bind_eq_bind, Option.bind_eq_some_iff, Option.pure_def, Option.some.injEq] at hd ⊢
    obtain ⟨vs, h1, rfl⟩ := hd
    have hL : P.layout t = ⟨k * (P.layout u).size, (P.layout u).align⟩ := by
      have : P.layout t = ⟨(P.layout t).size, (P.layout t).align⟩ := rfl
      rw [this, hw.1, hw.2]
    have hel := elems_wf hP u k
    rw [← hL] at hel
    obtain ⟨r1, r2, r3⟩ := scriptEach_back hva hP hwf' ih hp hel h1 hs hop hqal hDt (by
      intro f hf i hii
      have := hel.inBounds f hf
      rw [Nat.add_assoc, Nat.add_assoc]; exact hm _ (by omega)) hi hb
    refine ⟨?_, ?_⟩
    · intro i hii
      by_cases hx : ∃ f ∈ elems P u k, f.1 ≤ i ∧ i < f.1 + (P.layout f.2).size
      · obtain ⟨f, hf, hx1, hx2⟩ := hx
        rcases r1 f hf (i - f.1) (by omega) with h3 | ⟨k', o, h3, h4, h5, w, w', h6, h7, h8⟩
        · left
          rw [show outPos c.ia op a + i = outPos c.ia op a + f.1 + (i - f.1) by omega, h3, Nat.add_assoc,
            show f.1 + (i - f.1) = i by omega]
        · obtain ⟨j, hj, rfl⟩ := mem_elems.1 hf
          refine Or.inr ⟨k', _, .array hdef hj h3, ?_, ?_, w, w', ?_, ?_, h8⟩
          · simp only at *; omega
          · simp only at *; omega
          · rw [← Nat.add_assoc]; exact h6
          · rw [← Nat.add_assoc]; exact h7
      · left
        rw [r2 _ (by omega) (by
          intro f hf
          have : ¬ (f.1 ≤ i ∧ i < f.1 + (P.layout f.2).size) := fun y => hx ⟨f, hf, y⟩
          omega), hm i hii]
    · intro dm hdm
      have d1 := r3 dm (by
        intro i hii
        refine hdm i ?_
        rcases hii with ⟨f, hf, hx⟩ | hx
        · have := hel.inBounds f hf; left; omega
        · exact Or.inr hx)
      exact ⟨vs, d1, rfl⟩
  case struct fs =>
    simp only [Option.bind_eq_bind, Option.bind_eq_some_iff, Option.pure_def, Option.some.injEq] at hd ⊢
    obtain ⟨vs, h1, rfl⟩ := hd
    obtain ⟨r1, r2, r3⟩ := scriptEach_back hva hP hwf' ih hp hw h1 hs hop hqal hDt (by
      intro f hf i hii
      have := hw.inBounds f hf
      rw [Nat.add_assoc, Nat.add_assoc]; exact hm _ (by omega)) hi hb
    refine ⟨?_, ?_⟩
    · intro i hii
      by_cases hx : ∃ f ∈ fs, f.1 ≤ i ∧ i < f.1 + (P.layout f.2).size
      · obtain ⟨f, hf, hx1, hx2⟩ := hx
        rcases r1 f hf (i - f.1) (by omega) with h3 | ⟨k', o, h3, h4, h5, w, w', h6, h7, h8⟩
        · left
          rw [show outPos c.ia op a + i = outPos c.ia op a + f.1 + (i - f.1) by omega, h3, Nat.add_assoc,
            show f.1 + (i - f.1) = i by omega]
        · refine Or.inr ⟨k', _, .field hdef hf h3, by omega, by omega, w, w', ?_, ?_, h8⟩
          · rw [← Nat.add_assoc]; exact h6
          · rw [← Nat.add_assoc]; exact h7
      · left
        rw [r2 _ (by omega) (by
          intro f hf
          have : ¬ (f.1 ≤ i ∧ i < f.1 + (P.layout f.2).size) := fun y => hx ⟨f, hf, y⟩
          omega), hm i hii]
    · intro dm hdm
      have d1 := r3 dm (by
        intro i hii
        refine hdm i ?_
        rcases hii with ⟨f, hf, hx⟩ | hx
        · have := hw.inBounds f hf; left; omega
        · exact Or.inr hx)
      exact ⟨vs, d1, rfl⟩
  case enum tag vs =>
    simp only [Option.bind_eq_bind, Option.bind_eq_some_iff, Option.pure_def, Option.some.injEq] at hd hs ⊢
    obtain ⟨iv, h1, fs, h2, xs, h3, rfl⟩ := hd
    obtain ⟨i', h1', fs', h2', hs⟩ := hs
    rw [h1] at h1'; obtain rfl := Option.some.inj h1'
    rw [h2] at h2'; obtain rfl := Option.some.inj h2'
    have hmem := List.mem_of_getElem? h2
    have hf := hw.1 fs hmem
    obtain ⟨r1, r2, r3⟩ := scriptEach_back hva hP hwf' ih hp hf h3 hs hop hqal hDt (by
      intro f hff i hii
      have := hf.inBounds f hff
      rw [Nat.add_assoc, Nat.add_assoc]; exact hm _ (by omega)) hi hb
    have hS : SlotOK C.arch P im m' t a (outPos c.ia op a) := by
      intro i hii
      by_cases hx : ∃ f ∈ fs, f.1 ≤ i ∧ i < f.1 + (P.layout f.2).size
      · obtain ⟨f, hff, hx1, hx2⟩ := hx
        rcases r1 f hff (i - f.1) (by omega) with h3 | ⟨k', o, h3, h4, h5, w, w', h6, h7, h8⟩
        · left
          rw [show outPos c.ia op a + i = outPos c.ia op a + f.1 + (i - f.1) by omega, h3, Nat.add_assoc,
            show f.1 + (i - f.1) = i by omega]
        · refine Or.inr ⟨k', _, .variant hdef hmem hff h3, by omega, by omega, w, w', ?_, ?_, h8⟩
          · rw [← Nat.add_assoc]; exact h6
          · rw [← Nat.add_assoc]; exact h7
      · left
        rw [r2 _ (by omega) (by
          intro f hf
          have : ¬ (f.1 ≤ i ∧ i < f.1 + (P.layout f.2).size) := fun y => hx ⟨f, hf, y⟩
          omega), hm i hii]
    refine ⟨hS, ?_⟩
    intro dm hdm
    have hS' : SlotOK C.arch P im dm t a (D + outPos c.ia op a) := SlotOK.congr hP hS (hagree hdm)
    have d1 := r3 dm (by
      intro i hii
      refine hdm i ?_
      rcases hii with ⟨f, hff, hx⟩ | hx
      · have := hf.inBounds f hff; left; omega
      · exact Or.inr hx)
    have htag : activeVariant C.arch dm (D + outPos c.ia op a) tag = some iv := by rw [tag_same hw.2 hS', h1]
    exact ⟨iv, htag, fs, h2, xs, d1, rfl⟩
  case bigUint u =>
    obtain ⟨hw1, _, hw2⟩ := hw
    rw [hw1] at hm hp ⊢
    obtain ⟨r1, r2⟩ := scriptVec_back hva hW hP hD hDal hzst hwf' ih hp hd hs hop hm hi hb
    refine ⟨?_, r2⟩
    intro i hii
    rw [hw1] at hii
    rcases r1 i hii with hx | ⟨hz, k, x, hk, h1, h2, h3⟩
    · exact Or.inl hx
    · refine Or.inr ⟨k, x, ?_, h1, h2, h3⟩
      rcases hk with ⟨rfl, rfl⟩ | ⟨rfl, rfl⟩
      · exact .bigPtr hdef
      · exact .bigCap hdef
  case bigInt u =>
    simp only [Option.bind_eq_bind, Option.bind_eq_some_iff, Option.pure_def, Option.some.injEq] at hd ⊢
    obtain ⟨sg, hsg, v', h2, rfl⟩ := hd
    obtain ⟨hL, ⟨d, hud⟩, hu⟩ := hw
    have hoff : P.bigIntDataOff C.arch ≤ C.arch.ptrBytes := by unfold Prog.bigIntDataOff; split <;> omega
    have hoffal : C.arch.ptrBytes ∣ P.bigIntDataOff C.arch := by
      unfold Prog.bigIntDataOff; split
      · exact Nat.dvd_zero _
      · exact Nat.dvd_refl _
    have hsoff : P.bigIntSignOff C.arch < 4 * C.arch.ptrBytes ∧ (P.bigIntSignOff C.arch < P.bigIntDataOff C.arch ∨
        P.bigIntDataOff C.arch + 3 * C.arch.ptrBytes ≤ P.bigIntSignOff C.arch) := by
      unfold Prog.bigIntDataOff Prog.bigIntSignOff; split <;> omega
    have hal := hp.al
    rw [hL] at hhi hal hm hqs hqal hDt hagree
    simp only at hhi hal hm hqs hqal hDt hagree
    have hpu : Placed c (P.layout u) (a + P.bigIntDataOff C.arch) := by
      rw [hu]; exact ⟨by omega, by simp only; omega, hal, hp.ia⟩
    obtain ⟨w1, w2⟩ := hwf' _ _ _ _ c h2 hs hpu
    have hQ := outPos_add (op := op) hlo
    obtain ⟨r1, r2⟩ := ih _ _ _ _ h2 hs c op m p m' p' hpu hop
      (by rw [hQ, hu]; exact Nat.dvd_add hqal hoffal) (by rw [hu]; exact hDt) (by
        intro i hii
        rw [hu] at hii
        rw [hQ, Nat.add_assoc, Nat.add_assoc]; exact hm _ (by simp only at hii; omega)) hi hb
    rw [hQ] at r1 r2
    have hout : ∀ i < 4 * C.arch.ptrBytes, (i < P.bigIntDataOff C.arch ∨ P.bigIntDataOff C.arch + 3 * C.arch.ptrBytes ≤ i) →
        m' (outPos c.ia op a + i) = im (a + i) := by
      intro i hii hx
      rw [← hm i hii]
      have := ideal_frame (md := md) (im := im) hva sc w1 c.ia op (m, p) (i := outPos c.ia op a + i) (by simp only; omega) ?_
      · rw [hi] at this; exact this
      · intro x hxt
        obtain ⟨y1, y2⟩ := w2 x hxt
        rw [hu] at y2; simp only at y2
        have : x.1 = a + (x.1 - a) := by omega
        rw [this, hQ]; omega
    refine ⟨?_, ?_⟩
    · intro i hii
      rw [hL] at hii
      by_cases hx : i < P.bigIntDataOff C.arch ∨ P.bigIntDataOff C.arch + 3 * C.arch.ptrBytes ≤ i
      · exact Or.inl (hout i hii hx)
      · rcases r1 (i - P.bigIntDataOff C.arch) (by rw [hu]; simp only; omega) with h3 | ⟨k', o, h3, h4, h5, w, w', h6, h7, h8⟩
        · left
          rw [show outPos c.ia op a + i = outPos c.ia op a + P.bigIntDataOff C.arch + (i - P.bigIntDataOff C.arch) by omega, h3, Nat.add_assoc,
            show P.bigIntDataOff C.arch + (i - P.bigIntDataOff C.arch) = i by omega]
        · refine Or.inr ⟨k', _, .bigInt hdef h3, by omega, by omega, w, w', ?_, ?_, h8⟩
          · rw [← Nat.add_assoc]; exact h6
          · rw [← Nat.add_assoc]; exact h7
    · intro dm hdm
      rw [hL] at hdm
      simp only at hdm
      have d1 := r2 dm (by
        intro i hii
        refine hdm i ?_
        rw [hu] at hii; simp only at hii ⊢; omega)
      rw [← Nat.add_assoc] at d1
      refine ⟨sg, ?_, v', d1, rfl⟩
      · rw [hagree (dm := dm) hdm _ hsoff.1, hout _ hsoff.1 hsoff.2, hsg]


theorem decodeH_succ (hX : AllHandOK C P X V V') {m : Mem} {n t a : Nat} {v : Val} (h : decodeH C.arch P X V fl m n t a = some v) :
    decodeH C.arch P X V fl m (n + 1) t a = some v := by
  induction n generalizing t a v with
  | zero => simp [decodeH] at h
  | succ n ih =>
    have ih' : ∀ t a v, decodeH C.arch P X V fl m n t a = some v → decodeH C.arch P X V fl m (n + 1) t a = some v := fun t a v => ih
    rw [decodeH] at h
    rw [decodeH]
    split at h
    · rename_i hg
      rw [if_pos hg]
      cases hx : X t with
      | some I =>
        simp only [hx] at h ⊢
        exact (hX t I hx).mono ih' h
      | none =>
        simp only [hx] at h ⊢
        unfold decodeStep at h ⊢
        cases hdef : P.defn t <;> simp only [hdef] at h ⊢ <;>
          (try simp only [Option.bind_eq_bind, Option.bind_eq_some_iff, Option.pure_def, Option.some.injEq,
            Option.ite_none_right_eq_some] at h ⊢)
        · exact h
        · obtain ⟨p, h1, h2, v', h3, h4⟩ := h; exact ⟨p, h1, h2, v', ih h3, h4⟩
        · exact decodeVec_mono ih' h
        · exact h
        · obtain ⟨vs, h1, h2⟩ := h; exact ⟨vs, decodeEach_mono ih' _ _ h1, h2⟩
        · obtain ⟨vs, h1, h2⟩ := h; exact ⟨vs, decodeEach_mono ih' _ _ h1, h2⟩
        · obtain ⟨i, h1, fs, h2, vs, h3, h4⟩ := h; exact ⟨i, h1, fs, h2, vs, decodeEach_mono ih' _ _ h3, h4⟩
        · exact decodeVec_mono ih' h
        · obtain ⟨s, h1, v', h2, h3⟩ := h; exact ⟨s, h1, v', ih h2, h3⟩
    · cases h

theorem decodeH_mono (hX : AllHandOK C P X V V') {m : Mem} {n k : Nat} (hk : n ≤ k) {t a : Nat} {v : Val}
    (h : decodeH C.arch P X V fl m n t a = some v) : decodeH C.arch P X V fl m k t a = some v := by
  induction hk with
  | refl => exact h
  | step _ ih => exact decodeH_succ hX ih

/-- A typed address means at most one thing. -/
theorem DenotesH.unique (hX : AllHandOK C P X V V') {m : Mem} {t a : Nat} {v v' : Val} (h : DenotesH C.arch P X V fl m t a v)
    (h' : DenotesH C.arch P X V fl m t a v') : v = v' := by
  obtain ⟨n, hn⟩ := h
  obtain ⟨k, hk⟩ := h'
  have h1 := decodeH_mono hX (Nat.le_max_left n k) hn
  have h2 := decodeH_mono hX (Nat.le_max_right n k) hk
  rw [h1] at h2; exact Option.some.inj h2

/-- Zero-sized values are the same in every memory: none of their types has a hand-written implementation. -/
theorem decodeH_zst (hW : 0 < C.arch.ptrBytes) (hP : P.WF C.arch) (hX : AllHandOK C P X V V') {fl' : Flags} {m m' : Mem} {n t a : Nat}
    (hz : (P.layout t).size = 0) : decodeH C.arch P X W fl m n t a = decode C.arch P fl' m' n t a := by
  induction n generalizing t a with
  | zero => rfl
  | succ n ih =>
    rw [decodeH, decode_zst (m' := m) (fl' := fl) hW hP hz, decode]
    have hw := hP t
    unfold TyWF at hw
    obtain ⟨_, _, _, hw⟩ := hw
    have hx : X t = none := by
      cases hx : X t with
      | none => rfl
      | some I => exact absurd hz (hX t I hx).sized
    simp only [hx, decodeStep]
    have ih' : ∀ {t a}, (P.layout t).size = 0 → decodeH C.arch P X W fl m n t a = decode C.arch P fl m n t a :=
      fun hz => (ih hz).trans (decode_zst hW hP hz)
    split
    · cases hdef : P.defn t <;> simp only [hdef] at hw ⊢
      · rw [hw] at hz; simp only at hz; omega
      · rw [hw] at hz; simp only at hz; omega
      · rename_i u k
        rw [decodeEach_congr]
        intro f hf
        obtain ⟨i, hi, rfl⟩ := mem_elems.1 hf
        refine ih' ?_
        rw [hw.1] at hz
        rcases Nat.mul_eq_zero.1 hz with h | h
        · omega
        · exact h
      · rw [decodeEach_congr]
        intro f hf
        exact ih' (by have := hw.inBounds f hf; omega)
      · rename_i tag vs
        cases activeVariant C.arch m a tag with
        | none => rfl
        | some i =>
          simp only [Option.bind_eq_bind, Option.bind_some]
          cases hv : vs[i]? with
          | none => rfl
          | some fs =>
            simp only [Option.bind_some]
            rw [decodeEach_congr]
            intro f hf
            exact ih' (by have := (hw.1 fs (List.mem_of_getElem? hv)).inBounds f hf; omega)
      · rw [hw.1] at hz; simp only at hz; omega
      · rw [hw.1] at hz; simp only at hz; omega
    · rfl

/-- Every value is read back. -/
theorem hScript_back (hva : 0 < C.valueAlign) (hW : 0 < C.arch.ptrBytes) (hP : P.WF C.arch) (hacc : P.Accepted C) (hX : AllHandOK C P X V V')
    (hD : md.ptrBase = some D) (hDal : ∀ u, (P.layout u).size ≠ 0 → (P.layout u).align ∣ D) (n : Nat) :
    RClaim C P im md C.valueAlign D (decodeH C.arch P X V fl im n) (hScript C.arch P X im n)
      (fun dm => decodeH C.arch P X V' ⟨fl.canon, md.fixup⟩ dm n) := by
  induction n with
  | zero => intro t a v sc hd; simp [decodeH] at hd
  | succ n ih =>
    intro t a v sc hd hs
    have hwf := hScript_wf (fl := fl) (im := im) hW hP hacc hX (n + 1) t a v sc
    have hg := decodeH_guard _ _ _ _ _ _ _ _ _ _ hd
    have hd0 := hd
    have hs0 := hs
    rw [decodeH, if_pos ⟨Nat.dvd_iff_mod_eq_zero.1 hg.1, hg.2⟩] at hd
    rw [hScript] at hs
    have hz : ∀ u b w, (P.layout u).size = 0 → decodeH C.arch P X V fl im n u b = some w →
        ∀ dm, decodeH C.arch P X V' ⟨fl.canon, md.fixup⟩ dm n u b = some w := by
      intro u b w hu h dm
      rw [decodeH_zst hW hP hX (fl' := fl) (m' := im) hu] at h ⊢
      exact h
    intro c op m p m' p' hp hop hqal hDt hm hi hb
    have hmono := ideal_mono (A := C.arch) (md := md) (im := im) hva sc (hwf c hd0 hs0 hp).1 c.ia op (m, p)
    rw [hi] at hmono; simp only at hmono
    have hlo := hp.lo; have hhi := hp.hi
    have hqs : outPos c.ia op a + (P.layout t).size ≤ p := by unfold outPos; omega
    have hguard : (D + outPos c.ia op a) % (P.layout t).align = 0 ∧ D + outPos c.ia op a + (P.layout t).size < C.arch.usizeMod :=
      ⟨Nat.dvd_iff_mod_eq_zero.1 (Nat.dvd_add hDt hqal), by omega⟩
    simp only [decodeH, if_pos hguard]
    cases hx : X t with
    | none =>
      simp only [hx] at hd hs ⊢
      exact step_back hva hW hP hacc hD hDal (decodeH_guard _ _ _ _ _ _ _) hz (hScript_wf hW hP hacc hX n) ih hg hd hs
        c op m p m' p' hp hop hqal hDt hm hi hb
    | some I =>
      simp only [hx] at hd hs ⊢
      obtain ⟨cs, h1, h2⟩ := Option.bind_eq_some_iff.1 hs
      exact (hX t I hx).back hD hDal (decodeH_guard _ _ _ _ _ _ _) hz (hScript_wf hW hP hacc hX n) ih hg.1 hg.2 hd h1 h2
        c op m p m' p' hp hop hqal hDt hm hi hb

end
end SerRaw
