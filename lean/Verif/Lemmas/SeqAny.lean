import Verif.Lemmas.TypedSeq
/-
The in-order reader ignores pointers and capacities, so it also reads output in which they have been rewritten.
-/
namespace SerRaw

/-- Pointers written in this mode fit in a word when the output ends at `p`. -/
def Mode.Fits (md : Mode) (A : Arch) (p : Nat) : Prop := ∀ D, md.ptrBase = some D → D + p < A.usizeMod

theorem Mode.Fits.mono {md : Mode} {A : Arch} {p q : Nat} (h : md.Fits A q) (hpq : p ≤ q) : md.Fits A p :=
  fun D hD => by have := h D hD; omega

/-- The pointer's word afterwards: a word that was not null still is not. -/
theorem putPtr_word {md : Mode} {A : Arch} {m : Mem} {x t w : Nat} (hb : md.Fits A t) (ht : t ≠ 0) (hw : readWord A m x = some w) (h0 : w ≠ 0) :
    ∃ w', readWord A (md.putPtr A m x t) x = some w' ∧ w' ≠ 0 := by
  unfold Mode.putPtr
  cases hD : md.ptrBase with
  | none => exact ⟨w, hw, h0⟩
  | some D =>
    have := hb D hD
    refine ⟨D + t, ?_, by omega⟩
    simp only
    rw [readWord_blit_same, Nat.mod_eq_of_lt this]

section
variable {C : Cfg} {P : Prog} {im : Mem} {fl : Flags} {va : Nat} {md : Mode}

/-- A header in any reference output: the length is kept, the pointer is not null, the capacity is a capacity. -/
theorem head_any (hva : 0 < va) {L : Layout} (hz : L.size ≠ 0) (hal : Pow2 L.align) {o : Order} {ia op a p : Nat} {m : Mem} {h : Header}
    (hh : readHeader C.arch im o a = some h) (hv : h.Valid C.arch fl L) (hia : ia ≤ a)
    (hq : outPos ia op a + 3 * C.arch.ptrBytes ≤ p) (hW : 0 < C.arch.ptrBytes)
    (hm : ∀ i < 3 * C.arch.ptrBytes, m (outPos ia op a + i) = im (a + i))
    {inner : Script} {c' : Ctx} (hin : h.len ≠ 0 → inner.WF C c') {st : Mem × Nat}
    (hst : (headScript C.arch o L.align a h
      (.pushProcess L h.len h.ptr (a + o.ptrIx * C.arch.ptrBytes) inner .done)).ideal C.arch va md im ia op (m, p) = st)
    (hb : md.Fits C.arch st.2) :
    p ≤ st.2 ∧ ∃ h', readHeader C.arch st.1 o (outPos ia op a) = some h' ∧ h'.ptr ≠ 0 ∧ h'.cap ≤ C.arch.isizeMax ∧ h'.len = h.len ∧
      (h.len = 0 → st.2 = p) ∧
      (h.len ≠ 0 → ∃ m2,
        st = inner.ideal C.arch va md im h.ptr (roundUp p L.align) (m2, roundUp (roundUp p L.align + L.size * h.len) va) ∧
        ∀ i < L.size * h.len, m2 (roundUp p L.align + i) = im (h.ptr + i)) := by
  obtain ⟨i1, i2, i3⟩ := o.ix_le C.arch.ptrBytes
  obtain ⟨n1, n2, n3⟩ := o.ix_ne
  have d1 := ix_disj C.arch.ptrBytes n1
  have d2 := ix_disj C.arch.ptrBytes n2
  have d3 := ix_disj C.arch.ptrBytes n3
  have hmh : readHeader C.arch m o (outPos ia op a) = some h := by rw [← hh]; exact readHeader_congr hm
  obtain ⟨r1, r2, r3⟩ := readHeader_iff.1 hmh
  obtain ⟨b1, b2, b3⟩ := Header.Valid.bounds hh
  have hcap := cap_le_isize hz hv
  obtain ⟨v1, v2, v3⟩ := hv
  obtain ⟨v4, v5, v6, v7, v8⟩ := v3 hz
  unfold headScript at hst
  by_cases hl : h.len = 0
  · rw [if_pos hl] at hst
    by_cases hc : h.cap = 0
    · rw [if_neg (by simp [hc])] at hst
      simp only [Script.ideal] at hst
      subst hst
      exact ⟨Nat.le_refl _, h, hmh, v1, hcap, rfl, fun _ => rfl, fun h0 => absurd hl h0⟩
    · rw [if_pos hc, fixEmpty_ideal hia] at hst
      subst hst
      refine ⟨Nat.le_refl _, ?_⟩
      cases hf : md.fixup with
      | false =>
        simp only [Bool.false_eq_true, if_false]
        exact ⟨h, hmh, v1, hcap, rfl, fun _ => trivial, fun h0 => absurd hl h0⟩
      | true =>
        simp only [if_true]
        have hlt : L.align < C.arch.usizeMod := by
          have := Nat.le_of_dvd (by omega) (Nat.dvd_of_mod_eq_zero v2); omega
        refine ⟨⟨L.align, 0, h.len⟩, readHeader_iff.2 ⟨?_, ?_, ?_⟩, ?_, Nat.zero_le _, rfl, fun _ => trivial, fun h0 => absurd hl h0⟩
        · rw [readWord_blit_same, Nat.mod_eq_of_lt hlt]
        · rw [readWord_blit_disj (by omega), readWord_blit_same, Nat.mod_eq_of_lt (usizeMod_pos _)]
        · rw [readWord_blit_disj (by omega), readWord_blit_disj (by omega)]; exact r3
        · have := hal.pos; simp only; omega
  · rw [if_neg hl] at hst
    have hin := hin hl
    have hlo := le_roundUp p hal.pos
    have hro := le_roundUp (roundUp p L.align + L.size * h.len) hva
    obtain ⟨m0, c0, hc0, hst0, hm0⟩ : ∃ m0 c0, c0 ≤ C.arch.isizeMax ∧
        (Script.pushProcess L h.len h.ptr (a + o.ptrIx * C.arch.ptrBytes) inner .done).ideal C.arch va md im ia op (m0, p) = st ∧
        readHeader C.arch m0 o (outPos ia op a) = some ⟨h.ptr, c0, h.len⟩ := by
      by_cases hc : h.cap = h.len
      · rw [if_neg (by simp [hc])] at hst
        exact ⟨m, h.cap, hcap, hst, by rw [hmh]⟩
      · rw [if_pos hc] at hst
        refine ⟨_, if md.fixup then h.len else h.cap, by split <;> omega, hst, ?_⟩
        rw [outPos_add hia]
        unfold Mode.putValue
        cases hf : md.fixup with
        | false => simp only [Bool.false_eq_true, if_false]; exact hmh
        | true =>
          simp only [if_true, List.length_singleton, Nat.one_mul, ← oneWord_eq]
          refine readHeader_iff.2 ⟨?_, ?_, ?_⟩
          · rw [readWord_blit_disj (by omega)]; exact r1
          · rw [readWord_blit_same, Nat.mod_eq_of_lt b3]
          · rw [readWord_blit_disj (by omega)]; exact r3
    obtain ⟨q1, q2, q3⟩ := readHeader_iff.1 hm0
    simp only at q1 q2 q3
    simp only [Script.ideal, outPos_add hia] at hst0
    subst hst0
    have hmono := ideal_mono (A := C.arch) (md := md) (im := im) hva inner hin h.ptr (roundUp p L.align)
      (md.putPtr C.arch (m0.blit (roundUp p L.align) (L.size * h.len) fun i => im (h.ptr + i))
        (outPos ia op a + o.ptrIx * C.arch.ptrBytes) (roundUp p L.align), roundUp (roundUp p L.align + L.size * h.len) va)
    simp only at hmono
    have hframe : ∀ i < roundUp p L.align, (inner.ideal C.arch va md im h.ptr (roundUp p L.align)
      (md.putPtr C.arch (m0.blit (roundUp p L.align) (L.size * h.len) fun i => im (h.ptr + i))
        (outPos ia op a + o.ptrIx * C.arch.ptrBytes) (roundUp p L.align), roundUp (roundUp p L.align + L.size * h.len) va)).1 i =
        (md.putPtr C.arch (m0.blit (roundUp p L.align) (L.size * h.len) fun i => im (h.ptr + i))
        (outPos ia op a + o.ptrIx * C.arch.ptrBytes) (roundUp p L.align)) i := by
      intro i hi
      rw [ideal_frame hva inner hin _ _ _ (by simp only; omega) ?_]
      intro t _; left
      have := outPos_ge h.ptr (roundUp p L.align) t.1; omega
    have hq1 : readWord C.arch (m0.blit (roundUp p L.align) (L.size * h.len) fun i => im (h.ptr + i)) (outPos ia op a + o.ptrIx * C.arch.ptrBytes) =
        some h.ptr := by rw [← q1]; exact readWord_congr fun i hi => blit_out (by omega)
    obtain ⟨w', hw1, hw2⟩ := putPtr_word (md := md) (t := roundUp p L.align) (hb.mono (by omega)) (by omega) hq1 v1
    refine ⟨by omega, ⟨w', c0, h.len⟩, ?_, hw2, hc0, rfl, fun h0 => absurd h0 hl, fun _ => ⟨_, rfl, ?_⟩⟩
    · rw [readHeader_congr (a' := outPos ia op a) (fun i hi => hframe _ (by omega))]
      refine readHeader_iff.2 ⟨hw1, ?_, ?_⟩
      · simp only
        rw [← q2]
        refine readWord_congr fun i hi => ?_
        rw [putPtr_out (by omega), blit_out (by omega)]
      · simp only
        rw [← q3]
        refine readWord_congr fun i hi => ?_
        rw [putPtr_out (by omega), blit_out (by omega)]
    · intro i hi
      rw [putPtr_out (by omega), blit_at hi]

/-- The reference output of a value (already copied), read in order, is the value. -/
def AClaim (C : Cfg) (P : Prog) (im : Mem) (md : Mode) (va : Nat)
    (rd : TyId → Nat → Option Val) (rc : TyId → Nat → Option Script) (rq : Mem → TyId → Nat → Nat → Option (Val × Nat)) : Prop :=
  ∀ t a v sc c op m p m' p', rd t a = some v → rc t a = some sc → Placed c (P.layout t) a → op + c.sz ≤ p →
    (∀ i < (P.layout t).size, m (outPos c.ia op a + i) = im (a + i)) →
    sc.ideal C.arch va md im c.ia op (m, p) = (m', p') → md.Fits C.arch p' →
    SlotOK C.arch P im m' t a (outPos c.ia op a) ∧
    ∀ dm : Mem, (∀ i, (outPos c.ia op a ≤ i ∧ i < outPos c.ia op a + (P.layout t).size) ∨ (p ≤ i ∧ i < p') → dm i = m' i) →
      rq dm t (outPos c.ia op a) p = some (v, p')

theorem scriptEach_any (hva : 0 < va) (hP : P.WF C.arch)
    {rd : TyId → Nat → Option Val} {rc : TyId → Nat → Option Script} {rq : Mem → TyId → Nat → Nat → Option (Val × Nat)}
    (hwf : WFClaim C P rd rc) (hrec : AClaim C P im md va rd rc rq)
    {c : Ctx} {L : Layout} {a op : Nat} (hp : Placed c L a) {fs : List Field} (hf : FieldsWF P L fs) {vs : List Val} {sc : Script}
    (hd : decodeEach rd a fs = some vs) (hs : scriptEach rc a fs = some sc) {m m' : Mem} {p p' : Nat} (hop : op + c.sz ≤ p)
    (hm : ∀ f ∈ fs, ∀ i < (P.layout f.2).size, m (outPos c.ia op a + f.1 + i) = im (a + f.1 + i))
    (hi : sc.ideal C.arch va md im c.ia op (m, p) = (m', p')) (hb : md.Fits C.arch p') :
    (∀ f ∈ fs, SlotOK C.arch P im m' f.2 (a + f.1) (outPos c.ia op a + f.1)) ∧
    (∀ i < p, (∀ f ∈ fs, i < outPos c.ia op a + f.1 ∨ outPos c.ia op a + f.1 + (P.layout f.2).size ≤ i) → m' i = m i) ∧
    ∀ dm : Mem, (∀ i, (∃ f ∈ fs, outPos c.ia op a + f.1 ≤ i ∧ i < outPos c.ia op a + f.1 + (P.layout f.2).size) ∨
        (p ≤ i ∧ i < p') → dm i = m' i) →
      seqEach (rq dm) (outPos c.ia op a) p fs = some (vs, p') := by
  induction fs generalizing vs sc m p m' p' with
  | nil =>
    simp only [scriptEach, Option.some.injEq] at hs; subst hs
    simp only [Script.ideal, Prod.mk.injEq] at hi
    obtain ⟨rfl, rfl⟩ := hi
    simp only [decodeEach, Option.some.injEq] at hd; subst hd
    exact ⟨by simp, fun i _ _ => rfl, fun dm _ => rfl⟩
  | cons f fs ih =>
    have hlo := hp.lo; have hhi := hp.hi
    have hinF := hf.inBounds f (by simp)
    have hf' : FieldsWF P L fs := ⟨fun g hg => hf.inBounds g (by simp [hg]), fun g hg => hf.aligned g (by simp [hg]),
      fun g hg => hf.alignLe g (by simp [hg]), (List.pairwise_cons.1 hf.disjoint).2⟩
    have hdj := (List.pairwise_cons.1 hf.disjoint).1
    simp only [decodeEach, Option.bind_eq_bind, Option.bind_eq_some_iff, Option.pure_def, Option.some.injEq] at hd
    simp only [scriptEach, Option.bind_eq_bind, Option.bind_eq_some_iff, Option.pure_def, Option.some.injEq] at hs
    obtain ⟨v, d1, ws, d2, rfl⟩ := hd
    obtain ⟨s1, e1, s2, e2, rfl⟩ := hs
    have hpF : Placed c (P.layout f.2) (a + f.1) := ⟨by omega, by omega, Nat.dvd_trans (hf.alignLe f (by simp)) hp.al, hp.ia⟩
    obtain ⟨w1, t1⟩ := hwf _ _ _ _ c d1 e1 hpF
    obtain ⟨w2, t2⟩ := scriptEach_wf hwf hp hf' d2 e2
    rw [ideal_app] at hi
    obtain ⟨m1, p1, hs1⟩ : ∃ m1 p1, s1.ideal C.arch va md im c.ia op (m, p) = (m1, p1) := ⟨_, _, rfl⟩
    rw [hs1] at hi
    have mono1 : p ≤ p1 := by have := ideal_mono (A := C.arch) (md := md) (im := im) hva s1 w1 c.ia op (m, p); rw [hs1] at this; exact this
    have mono2 : p1 ≤ p' := by have := ideal_mono (A := C.arch) (md := md) (im := im) hva s2 w2 c.ia op (m1, p1); rw [hi] at this; exact this
    have hQ := outPos_add (op := op) hlo
    have hq1 : outPos c.ia op a + L.size ≤ p := by unfold outPos; omega
    have fr1 : ∀ i < p, (i < outPos c.ia op a + f.1 ∨ outPos c.ia op a + f.1 + (P.layout f.2).size ≤ i) → m1 i = m i := by
      intro i hip hif
      have := ideal_frame (md := md) (im := im) hva s1 w1 c.ia op (m, p) (i := i) hip ?_
      · rw [hs1] at this; exact this
      · intro t ht
        obtain ⟨x1, x2⟩ := t1 t ht
        have : t.1 = a + (t.1 - a) := by omega
        rw [this, hQ]; omega
    have fr2 : ∀ i < p1, (∀ g ∈ fs, i < outPos c.ia op a + g.1 ∨ outPos c.ia op a + g.1 + (P.layout g.2).size ≤ i) → m' i = m1 i := by
      intro i hip hif
      have := ideal_frame (md := md) (im := im) hva s2 w2 c.ia op (m1, p1) (i := i) hip ?_
      · rw [hi] at this; exact this
      · intro t ht
        obtain ⟨g, hg, x1, x2⟩ := t2 t ht
        have := hif g hg
        have : t.1 = a + (t.1 - a) := by omega
        rw [this, hQ]; omega
    have hgin : ∀ g ∈ fs, g.1 + (P.layout g.2).size ≤ L.size := hf'.inBounds
    obtain ⟨r1, r2⟩ := hrec _ _ _ _ c op m p m1 p1 d1 e1 hpF hop (by rw [hQ]; exact hm f (by simp)) hs1 (hb.mono mono2)
    rw [hQ] at r1 r2
    obtain ⟨r3, r4, r5⟩ := ih hf' d2 e2 (m := m1) (p := p1) (by omega) (by
      intro g hg i hii
      rw [fr1 _ (by have := hgin g hg; omega) (by have := hdj g hg; unfold DisjRange at this; omega)]
      exact hm g (by simp [hg]) i hii) hi hb
    refine ⟨?_, ?_, ?_⟩
    · intro g hg
      rcases List.mem_cons.1 hg with rfl | hg
      · refine SlotOK.congr hP r1 fun i hii => fr2 _ (by omega) fun g hg => ?_
        have := hdj g hg; unfold DisjRange at this; omega
      · exact r3 g hg
    · intro i hip hall
      rw [r4 i (by omega) fun g hg => hall g (by simp [hg]), fr1 i hip (hall f (by simp))]
    · intro dm hdm
      have e1 : rq dm f.2 (outPos c.ia op a + f.1) p = some (v, p1) := by
        refine r2 dm fun i hii => ?_
        rw [← fr2 i (by omega) fun g hg => ?_]
        · refine hdm i ?_
          rcases hii with hii | hii
          · exact Or.inl ⟨f, by simp, hii⟩
          · exact Or.inr (by omega)
        · have := hdj g hg; have := hgin g hg; unfold DisjRange at *; omega
      have e2 := r5 dm (by
        intro i hii
        refine hdm i ?_
        rcases hii with ⟨g, hg, hii⟩ | hii
        · exact Or.inl ⟨g, by simp [hg], hii⟩
        · exact Or.inr (by omega))
      simp only [seqEach, e1, e2, Option.bind_eq_bind, Option.bind_some, Option.pure_def]

theorem scriptVec_any (hva : 0 < va) (hW : 0 < C.arch.ptrBytes) (hP : P.WF C.arch) (hacc : P.Accepted C) {n : Nat}
    (hrec : AClaim C P im md va (decode C.arch P fl im n) (script C.arch P im n) (fun dm => decodeSeq C.arch P va dm n))
    {c : Ctx} {u : TyId} {a op : Nat} {v : Val} {sc : Script} (hp : Placed c ⟨3 * C.arch.ptrBytes, C.arch.ptrBytes⟩ a)
    (hd : decodeVec C.arch P fl im (decode C.arch P fl im n) u a = some v)
    (hs : scriptVec C.arch P im (script C.arch P im n) u a = some sc)
    {m m' : Mem} {p p' : Nat} (hop : op + c.sz ≤ p)
    (hm : ∀ i < 3 * C.arch.ptrBytes, m (outPos c.ia op a + i) = im (a + i))
    (hi : sc.ideal C.arch va md im c.ia op (m, p) = (m', p')) (hb : md.Fits C.arch p') :
    (∀ i < 3 * C.arch.ptrBytes, m' (outPos c.ia op a + i) = im (a + i) ∨ (P.layout u).size ≠ 0 ∧
      ∃ k x, ((k = SlotKind.ptr ∧ x = (P.vecOrder u).ptrIx * C.arch.ptrBytes) ∨ (k = SlotKind.cap ∧ x = (P.vecOrder u).capIx * C.arch.ptrBytes)) ∧
        x ≤ i ∧ i < x + C.arch.ptrBytes ∧
        ∃ w w', readWord C.arch im (a + x) = some w ∧ readWord C.arch m' (outPos c.ia op a + x) = some w' ∧ k.valid C.arch w ∧ k.valid C.arch w') ∧
    ∀ dm : Mem, (∀ i, (outPos c.ia op a ≤ i ∧ i < outPos c.ia op a + 3 * C.arch.ptrBytes) ∨ (p ≤ i ∧ i < p') → dm i = m' i) →
      seqVec C.arch P va dm (decodeSeq C.arch P va dm n) u (outPos c.ia op a) p = some (v, p') := by
  simp only [decodeVec, Option.bind_eq_bind, Option.bind_eq_some_iff, Option.pure_def, Option.some.injEq,
    Option.ite_none_right_eq_some] at hd
  obtain ⟨h, h1, hval, vs, h2, rfl⟩ := hd
  have hlo := hp.lo; have hhi := hp.hi
  have hq1 : outPos c.ia op a + 3 * C.arch.ptrBytes ≤ p := by simp only at hhi; unfold outPos; omega
  have hlenOf : ∀ {h' : Header} {dm : Mem}, readHeader C.arch m' (P.vecOrder u) (outPos c.ia op a) = some h' →
      (∀ i, (outPos c.ia op a ≤ i ∧ i < outPos c.ia op a + 3 * C.arch.ptrBytes) ∨ (p ≤ i ∧ i < p') → dm i = m' i) →
      readWord C.arch dm (outPos c.ia op a + (P.vecOrder u).lenIx * C.arch.ptrBytes) = some h'.len := by
    intro h' dm hr hdm
    rw [← (readHeader_iff.1 hr).2.2]
    have := ((P.vecOrder u).ix_le C.arch.ptrBytes).2.2
    exact readWord_congr fun i hii => hdm _ (Or.inl (by omega))
  unfold scriptVec at hs
  split at hs
  · rename_i hz
    simp only [Option.some.injEq] at hs; subst hs
    simp only [Script.ideal, Prod.mk.injEq] at hi
    obtain ⟨rfl, rfl⟩ := hi
    refine ⟨fun i hi => Or.inl (hm i hi), fun dm hdm => ?_⟩
    have hr : readHeader C.arch m (P.vecOrder u) (outPos c.ia op a) = some h := by rw [← h1]; exact readHeader_congr hm
    unfold seqVec
    rw [hlenOf hr hdm]
    simp only [Option.bind_eq_bind, Option.bind_some]
    rw [if_pos (Or.inl hz), seqEach_zst (p := p) (b := 0) ?_ h2]; · rfl
    intro f hf a b v hv
    obtain ⟨i, _, rfl⟩ := mem_elems.1 hf
    exact seq_zst hW hP hz hv
  · rename_i hz
    simp only [Option.bind_eq_bind, Option.bind_eq_some_iff, Option.pure_def, Option.some.injEq] at hs
    obtain ⟨h', h1', inner, e1, rfl⟩ := hs
    rw [h1] at h1'; obtain rfl := Option.some.inj h1'
    have hpal := (hP u).1
    have hinwf : inner.WF C ⟨h.ptr, (P.layout u).size * h.len, (P.layout u).align⟩ :=
      (scriptEach_wf (L := ⟨h.len * (P.layout u).size, (P.layout u).align⟩) (script_wf hW hP hacc n)
        ⟨Nat.le_refl _, by simp only; rw [Nat.mul_comm], Nat.dvd_refl _, Nat.dvd_of_mod_eq_zero hval.2.1⟩ (elems_wf hP u h.len) h2 e1).1
    obtain ⟨g1, h', g2, g3, g3', g4, g0, g5⟩ := head_any hva hz hpal h1 hval hlo hq1 hW hm (fun _ => hinwf) hi hb
    refine ⟨?_, ?_⟩
    · intro i hii
      rcases slotOK_header h1 g2 g4 hval.1 g3 (cap_le_isize hz hval) g3' i hii with hx | hx
      · exact Or.inl hx
      · exact Or.inr ⟨hz, hx⟩
    · intro dm hdm
      unfold seqVec
      rw [hlenOf g2 hdm, g4]
      simp only [Option.bind_eq_bind, Option.bind_some]
      by_cases hl : h.len = 0
      · rw [if_pos (Or.inr hl)]
        have := g0 hl
        simp only at this
        subst this
        rw [hl] at h2 ⊢
        simp only [elems, List.range_zero, List.map_nil, decodeEach, Option.some.injEq, seqEach, Option.bind_some] at h2 ⊢
        subst h2; rfl
      · obtain ⟨m2, g7, g8⟩ := g5 hl
        rw [if_neg (by simp only [not_or]; exact ⟨hz, hl⟩)]
        have hlop := le_roundUp p (show 0 < (P.layout u).align from Pow2.pos hpal)
        have hrop := le_roundUp (roundUp p (P.layout u).align + (P.layout u).size * h.len) hva
        have hmono := ideal_mono (A := C.arch) (md := md) (im := im) hva inner hinwf h.ptr (roundUp p (P.layout u).align)
          (m2, roundUp (roundUp p (P.layout u).align + (P.layout u).size * h.len) va)
        rw [← g7] at hmono
        simp only at hmono
        have hself : outPos h.ptr (roundUp p (P.layout u).align) h.ptr = roundUp p (P.layout u).align := by simp [outPos]
        obtain ⟨_, _, r3⟩ := scriptEach_any (c := ⟨h.ptr, (P.layout u).size * h.len, (P.layout u).align⟩)
          (L := ⟨h.len * (P.layout u).size, (P.layout u).align⟩) (a := h.ptr) (op := roundUp p (P.layout u).align)
          hva hP (script_wf hW hP hacc n) hrec
          ⟨Nat.le_refl _, by simp only; rw [Nat.mul_comm], Nat.dvd_refl _, Nat.dvd_of_mod_eq_zero hval.2.1⟩ (elems_wf hP u h.len) h2 e1
          hrop (by
            intro f hf i hii
            have := (elems_wf hP u h.len).inBounds f hf
            simp only at this
            have hc := Nat.mul_comm (P.layout u).size h.len
            simp only [hself]
            rw [Nat.add_assoc, Nat.add_assoc]; exact g8 _ (by omega)) g7.symm hb
        simp only [hself] at r3
        have r := r3 dm (by
          intro i hii
          refine hdm i (Or.inr ?_)
          rcases hii with ⟨f, hf, hx⟩ | hx
          · have := (elems_wf hP u h.len).inBounds f hf
            simp only at this
            have hc := Nat.mul_comm (P.layout u).size h.len
            omega
          · omega)
        simp only [nextBlock, Shape.bytes, r]
        rfl

/-- From the fields to the whole. -/
theorem slotOK_fields {t : TyId} {a q : Nat} {m m' : Mem} {p : Nat} {fs : List Field}
    (hm : ∀ i < (P.layout t).size, m (q + i) = im (a + i)) (hqs : q + (P.layout t).size ≤ p)
    (hslot : ∀ f ∈ fs, ∀ k o, P.Slot C.arch f.2 k o → P.Slot C.arch t k (f.1 + o))
    (r1 : ∀ f ∈ fs, SlotOK C.arch P im m' f.2 (a + f.1) (q + f.1))
    (r2 : ∀ i < p, (∀ f ∈ fs, i < q + f.1 ∨ q + f.1 + (P.layout f.2).size ≤ i) → m' i = m i) :
    SlotOK C.arch P im m' t a q := by
  intro i hii
  by_cases hx : ∃ f ∈ fs, f.1 ≤ i ∧ i < f.1 + (P.layout f.2).size
  · obtain ⟨f, hf, hx1, hx2⟩ := hx
    rcases r1 f hf (i - f.1) (by omega) with h3 | ⟨k', o, h3, h4, h5, w, w', h6, h7, h8⟩
    · left
      rw [show q + i = q + f.1 + (i - f.1) by omega, h3, Nat.add_assoc, show f.1 + (i - f.1) = i by omega]
    · refine Or.inr ⟨k', _, hslot f hf _ _ h3, by omega, by omega, w, w', ?_, ?_, h8⟩
      · rw [← Nat.add_assoc]; exact h6
      · rw [← Nat.add_assoc]; exact h7
  · left
    rw [r2 _ (by omega) (by
      intro f hf
      have : ¬ (f.1 ≤ i ∧ i < f.1 + (P.layout f.2).size) := fun y => hx ⟨f, hf, y⟩
      omega), hm i hii]

theorem script_any (hva : 0 < va) (hW : 0 < C.arch.ptrBytes) (hP : P.WF C.arch) (hacc : P.Accepted C) (n : Nat) :
    AClaim C P im md va (decode C.arch P fl im n) (script C.arch P im n) (fun dm => decodeSeq C.arch P va dm n) := by
  induction n with
  | zero => intro t a v sc c op m p m' p' hd; simp [decode] at hd
  | succ n ih =>
    intro t a v sc c op m p m' p' hd hs hp hop hm hi hb
    have hw := hP t
    unfold TyWF at hw
    obtain ⟨_, _, _, hw⟩ := hw
    have hwf := (script_wf hW hP hacc (n + 1)) t a v sc c hd hs hp
    have hmono := ideal_mono (A := C.arch) (md := md) (im := im) hva sc hwf.1 c.ia op (m, p)
    rw [hi] at hmono; simp only at hmono
    have hlo := hp.lo; have hhi := hp.hi
    have hqs : outPos c.ia op a + (P.layout t).size ≤ p := by unfold outPos; omega
    have hagree : ∀ {dm : Mem}, (∀ i, (outPos c.ia op a ≤ i ∧ i < outPos c.ia op a + (P.layout t).size) ∨ (p ≤ i ∧ i < p') → dm i = m' i) →
        ∀ i < (P.layout t).size, dm (outPos c.ia op a + i) = m' (outPos c.ia op a + i) := by
      intro dm hdm i hii; exact hdm _ (Or.inl (by omega))
    rw [script] at hs
    rw [decode] at hd
    split at hd
    case isFalse => cases hd
    simp only [decodeSeq]
    cases hdef : P.defn t <;> simp only [hdef] at hd hw hs ⊢
    case prim =>
      simp only [Option.some.injEq] at hs; subst hs
      simp only [Script.ideal, Prod.mk.injEq] at hi
      obtain ⟨rfl, rfl⟩ := hi
      refine ⟨SlotOK.same hm, fun dm hdm => ?_⟩
      rw [readBytes_congr (m' := im) (a' := a) (fun i hii => by rw [hagree hdm i hii, hm i hii])]
      simp only [Option.map_eq_some_iff] at hd ⊢
      obtain ⟨b, b1, rfl⟩ := hd
      exact ⟨b, b1, rfl⟩
    case box u =>
      simp only [Option.bind_eq_bind, Option.bind_eq_some_iff, Option.pure_def, Option.some.injEq,
        Option.ite_none_right_eq_some] at hd
      obtain ⟨x, h1, h2, v', h3, rfl⟩ := hd
      rw [hw] at hm hqs hagree
      simp only at hm hqs hagree
      split at hs
      · rename_i hz
        simp only [Option.some.injEq] at hs; subst hs
        simp only [Script.ideal, Prod.mk.injEq] at hi
        obtain ⟨rfl, rfl⟩ := hi
        refine ⟨SlotOK.same (by rw [hw]; exact hm), fun dm hdm => ?_⟩
        rw [if_pos hz, seq_zst hW hP hz h3]; rfl
      · rename_i hz
        simp only [Option.bind_eq_bind, Option.bind_eq_some_iff, Option.pure_def, Option.some.injEq] at hs
        obtain ⟨x', h1', inner, e1, rfl⟩ := hs
        rw [h1] at h1'; obtain rfl := Option.some.inj h1'
        obtain ⟨g1, g2⟩ := decode_guard h3
        have hpal := (hP u).1
        have hpx : Placed ⟨x, (P.layout u).size * 1, (P.layout u).align⟩ (P.layout u) x := ⟨Nat.le_refl _, by simp, Nat.dvd_refl _, g1⟩
        obtain ⟨w1, _⟩ := script_wf hW hP hacc n _ _ _ _ _ h3 e1 hpx
        have hlop := le_roundUp p (show 0 < (P.layout u).align from Pow2.pos hpal)
        have hrop := le_roundUp (roundUp p (P.layout u).align + (P.layout u).size * 1) hva
        simp only [Script.ideal] at hi
        have hmono2 := ideal_mono (A := C.arch) (md := md) (im := im) hva inner w1 x (roundUp p (P.layout u).align) (_, _) |>.trans_eq (congrArg Prod.snd hi)
        simp only at hmono2
        have hself : outPos x (roundUp p (P.layout u).align) x = roundUp p (P.layout u).align := by simp [outPos]
        obtain ⟨r1, r2⟩ := ih _ _ _ _ ⟨x, (P.layout u).size * 1, (P.layout u).align⟩ (roundUp p (P.layout u).align) _ _ _ _ h3 e1 hpx
          hrop (by
            intro i hii
            simp only [hself]
            rw [putPtr_out (by omega), blit_at (by omega)]) hi hb
        simp only [hself] at r1 r2
        have hfr : ∀ i < C.arch.ptrBytes, m' (outPos c.ia op a + i) =
            md.putPtr C.arch (m.blit (roundUp p (P.layout u).align) ((P.layout u).size * 1) fun i => im (x + i)) (outPos c.ia op a)
              (roundUp p (P.layout u).align) (outPos c.ia op a + i) := by
          intro i hii
          have := ideal_frame (md := md) (im := im) hva inner w1 x (roundUp p (P.layout u).align) (_, _) (i := outPos c.ia op a + i)
            (by simp only; exact Nat.lt_of_lt_of_le (by omega) hrop) (by
              intro t _; left
              have := outPos_ge x (roundUp p (P.layout u).align) t.1; omega) |>.symm.trans (congrFun (congrArg Prod.fst hi) _)
          exact this.symm
        obtain ⟨w', hw1, hw2⟩ := putPtr_word (md := md) (A := C.arch) (x := outPos c.ia op a) (t := roundUp p (P.layout u).align)
          (m := m.blit (roundUp p (P.layout u).align) ((P.layout u).size * 1) fun i => im (x + i)) (w := x)
          (hb.mono (by omega)) (by omega) (by
            rw [← h1]; exact readWord_congr fun i hii => by rw [blit_out (by omega), hm i hii]) h2
        refine ⟨?_, ?_⟩
        · intro i hii
          rw [hw] at hii
          refine Or.inr ⟨.ptr, 0, .box hdef hz, Nat.zero_le _, by simpa using hii, x, w', h1, ?_, h2, hw2⟩
          rw [← hw1]; exact readWord_congr fun i hii => hfr i hii
        · intro dm hdm
          have r := r2 dm fun i hii => hdm i (Or.inr (by omega))
          rw [if_neg hz]
          simp only [nextBlock, Shape.bytes, r]; rfl
    case vec u =>
      rw [hw] at hm hp ⊢
      obtain ⟨r1, r2⟩ := scriptVec_any hva hW hP hacc ih hp hd hs hop hm hi hb
      refine ⟨?_, r2⟩
      intro i hii
      rw [hw] at hii
      rcases r1 i hii with hx | ⟨hz, k, x, hk, h1, h2, h3⟩
      · exact Or.inl hx
      · refine Or.inr ⟨k, x, ?_, h1, h2, h3⟩
        rcases hk with ⟨rfl, rfl⟩ | ⟨rfl, rfl⟩
        · exact .vecPtr hdef hz
        · exact .vecCap hdef hz
    case string =>
      rw [hw] at hm hp hqs ⊢
      simp only [decodeStr, Option.bind_eq_bind, Option.bind_eq_some_iff, Option.pure_def, Option.some.injEq,
        Option.ite_none_right_eq_some] at hd hs
      obtain ⟨h, h1, hval, bs, h2, rfl⟩ := hd
      obtain ⟨h', h1', rfl⟩ := hs
      rw [h1] at h1'; obtain rfl := Option.some.inj h1'
      rw [headScript_push] at hi
      obtain ⟨g1, h', g2, g3, g3', g4, g0, g5⟩ := head_any (L := ⟨1, 1⟩) hva (by simp) ⟨0, rfl⟩ h1 hval hlo hqs hW hm
        (inner := .done) (c' := c) (fun _ => trivial) hi hb
      refine ⟨?_, ?_⟩
      · intro i hii
        rw [hw] at hii
        rcases slotOK_header h1 g2 g4 hval.1 g3 (cap_le_isize (by simp) hval) g3' i hii with hx | ⟨k, x, hk, h1, h2, h3⟩
        · exact Or.inl hx
        · refine Or.inr ⟨k, x, ?_, h1, h2, h3⟩
          rcases hk with ⟨rfl, rfl⟩ | ⟨rfl, rfl⟩
          · exact .strPtr hdef
          · exact .strCap hdef
      · intro dm hdm
        have hlen : readWord C.arch dm (outPos c.ia op a + P.stringOrder.lenIx * C.arch.ptrBytes) = some h.len := by
          rw [← g4, ← (readHeader_iff.1 g2).2.2]
          have := (P.stringOrder.ix_le C.arch.ptrBytes).2.2
          exact readWord_congr fun i hii => hdm _ (Or.inl (by simp only; omega))
        rw [hlen]
        simp only [Option.bind_eq_bind, Option.bind_some]
        by_cases hl : h.len = 0
        · rw [if_pos hl]
          have := g0 hl
          simp only at this
          subst this
          rw [hl] at h2
          simp only [readBytes, Option.some.injEq] at h2
          subst h2; rfl
        · rw [if_neg hl]
          obtain ⟨m2, g7, g8⟩ := g5 hl
          simp only [Script.ideal, Prod.mk.injEq] at g7
          obtain ⟨rfl, rfl⟩ := g7
          have hlop := le_roundUp p (show 0 < 1 by omega)
          have hrop := le_roundUp (roundUp p 1 + 1 * h.len) hva
          simp only [nextBlock, Shape.bytes]
          rw [readBytes_congr (m' := im) (a' := h.ptr), h2]; · rfl
          intro i hii
          rw [hdm _ (Or.inr (by omega))]
          exact g8 i (by show i < 1 * h.len; omega)
    case array u k =>
      simp only [Option.bind_eq_bind, Option.bind_eq_some_iff, Option.pure_def, Option.some.injEq] at hd
      obtain ⟨vs, h1, rfl⟩ := hd
      have hL : P.layout t = ⟨k * (P.layout u).size, (P.layout u).align⟩ := by
        have : P.layout t = ⟨(P.layout t).size, (P.layout t).align⟩ := rfl
        rw [this, hw.1, hw.2]
      have hel := elems_wf hP u k
      rw [← hL] at hel
      obtain ⟨r1, r2, r3⟩ := scriptEach_any hva hP (script_wf hW hP hacc n) ih hp hel h1 hs hop (by
        intro f hf i hii
        have := hel.inBounds f hf
        rw [Nat.add_assoc, Nat.add_assoc]; exact hm _ (by omega)) hi hb
      refine ⟨slotOK_fields hm hqs (fun f hf k o ho => ?_) r1 r2, ?_⟩
      · obtain ⟨j, hj, rfl⟩ := mem_elems.1 hf
        exact .array hdef hj ho
      · intro dm hdm
        have d1 := r3 dm (by
          intro i hii
          refine hdm i ?_
          rcases hii with ⟨f, hf, hx⟩ | hx
          · have := hel.inBounds f hf; left; omega
          · exact Or.inr hx)
        rw [d1]; rfl
    case struct fs =>
      simp only [Option.bind_eq_bind, Option.bind_eq_some_iff, Option.pure_def, Option.some.injEq] at hd
      obtain ⟨vs, h1, rfl⟩ := hd
      obtain ⟨r1, r2, r3⟩ := scriptEach_any hva hP (script_wf hW hP hacc n) ih hp hw h1 hs hop (by
        intro f hf i hii
        have := hw.inBounds f hf
        rw [Nat.add_assoc, Nat.add_assoc]; exact hm _ (by omega)) hi hb
      refine ⟨slotOK_fields hm hqs (fun f hf k o ho => .field hdef hf ho) r1 r2, ?_⟩
      intro dm hdm
      have d1 := r3 dm (by
        intro i hii
        refine hdm i ?_
        rcases hii with ⟨f, hf, hx⟩ | hx
        · have := hw.inBounds f hf; left; omega
        · exact Or.inr hx)
      rw [d1]; rfl
    case enum tag vs =>
      simp only [Option.bind_eq_bind, Option.bind_eq_some_iff, Option.pure_def, Option.some.injEq] at hd hs
      obtain ⟨iv, h1, fs, h2, xs, h3, rfl⟩ := hd
      obtain ⟨i', h1', fs', h2', hs⟩ := hs
      rw [h1] at h1'; obtain rfl := Option.some.inj h1'
      rw [h2] at h2'; obtain rfl := Option.some.inj h2'
      have hmem := List.mem_of_getElem? h2
      have hf := hw.1 fs hmem
      obtain ⟨r1, r2, r3⟩ := scriptEach_any hva hP (script_wf hW hP hacc n) ih hp hf h3 hs hop (by
        intro f hff i hii
        have := hf.inBounds f hff
        rw [Nat.add_assoc, Nat.add_assoc]; exact hm _ (by omega)) hi hb
      have hS : SlotOK C.arch P im m' t a (outPos c.ia op a) :=
        slotOK_fields hm hqs (fun f hff k o ho => .variant hdef hmem hff ho) r1 r2
      refine ⟨hS, ?_⟩
      intro dm hdm
      have hS' : SlotOK C.arch P im dm t a (outPos c.ia op a) := SlotOK.congr hP hS (hagree hdm)
      have d1 := r3 dm (by
        intro i hii
        refine hdm i ?_
        rcases hii with ⟨f, hff, hx⟩ | hx
        · have := hf.inBounds f hff; left; omega
        · exact Or.inr hx)
      rw [tag_same hw.2 hS', h1]
      simp only [Option.bind_eq_bind, Option.bind_some, h2, d1]; rfl
    case bigUint u =>
      obtain ⟨hw1, _, hw2⟩ := hw
      rw [hw1] at hm hp ⊢
      obtain ⟨r1, r2⟩ := scriptVec_any hva hW hP hacc ih hp hd hs hop hm hi hb
      refine ⟨?_, r2⟩
      intro i hii
      rw [hw1] at hii
      rcases r1 i hii with hx | ⟨hz, k, x, hk, h1, h2, h3⟩
      · exact Or.inl hx
      · refine Or.inr ⟨k, x, ?_, h1, h2, h3⟩
        rcases hk with ⟨rfl, rfl⟩ | ⟨rfl, rfl⟩
        · exact .bigPtr hdef
        · exact .bigCap hdef
    case bigInt u =>
      simp only [Option.bind_eq_bind, Option.bind_eq_some_iff, Option.pure_def, Option.some.injEq] at hd
      obtain ⟨sg, hsg, v', h2, rfl⟩ := hd
      obtain ⟨hL, ⟨d, hud⟩, hu⟩ := hw
      have hoff : P.bigIntDataOff C.arch ≤ C.arch.ptrBytes := by unfold Prog.bigIntDataOff; split <;> omega
      have hsoff : P.bigIntSignOff C.arch < 4 * C.arch.ptrBytes ∧ (P.bigIntSignOff C.arch < P.bigIntDataOff C.arch ∨
          P.bigIntDataOff C.arch + 3 * C.arch.ptrBytes ≤ P.bigIntSignOff C.arch) := by
        unfold Prog.bigIntDataOff Prog.bigIntSignOff; split <;> omega
      have hal := hp.al
      rw [hL] at hhi hal hm hqs hagree
      simp only at hhi hal hm hqs hagree
      have hpu : Placed c (P.layout u) (a + P.bigIntDataOff C.arch) := by
        rw [hu]; exact ⟨by omega, by simp only; omega, hal, hp.ia⟩
      obtain ⟨w1, w2⟩ := script_wf hW hP hacc n _ _ _ _ c h2 hs hpu
      have hQ := outPos_add (op := op) hlo
      obtain ⟨r1, r2⟩ := ih _ _ _ _ c op m p m' p' h2 hs hpu hop (by
          intro i hii
          rw [hu] at hii
          rw [hQ, Nat.add_assoc, Nat.add_assoc]; exact hm _ (by simp only at hii; omega)) hi hb
      rw [hQ] at r1 r2
      have hout : ∀ i < 4 * C.arch.ptrBytes, (i < P.bigIntDataOff C.arch ∨ P.bigIntDataOff C.arch + 3 * C.arch.ptrBytes ≤ i) →
          m' (outPos c.ia op a + i) = im (a + i) := by
        intro i hii hx
        rw [← hm i hii]
        have := ideal_frame (md := md) (im := im) hva sc w1 c.ia op (m, p) (i := outPos c.ia op a + i) (by simp only; omega) ?_
        · rw [hi] at this; exact this
        · intro x hxt
          obtain ⟨y1, y2⟩ := w2 x hxt
          rw [hu] at y2; simp only at y2
          have : x.1 = a + (x.1 - a) := by omega
          rw [this, hQ]; omega
      refine ⟨?_, ?_⟩
      · intro i hii
        rw [hL] at hii
        by_cases hx : i < P.bigIntDataOff C.arch ∨ P.bigIntDataOff C.arch + 3 * C.arch.ptrBytes ≤ i
        · exact Or.inl (hout i hii hx)
        · rcases r1 (i - P.bigIntDataOff C.arch) (by rw [hu]; simp only; omega) with h3 | ⟨k', o, h3, h4, h5, w, w', h6, h7, h8⟩
          · left
            rw [show outPos c.ia op a + i = outPos c.ia op a + P.bigIntDataOff C.arch + (i - P.bigIntDataOff C.arch) by omega, h3, Nat.add_assoc,
              show P.bigIntDataOff C.arch + (i - P.bigIntDataOff C.arch) = i by omega]
          · refine Or.inr ⟨k', _, .bigInt hdef h3, by omega, by omega, w, w', ?_, ?_, h8⟩
            · rw [← Nat.add_assoc]; exact h6
            · rw [← Nat.add_assoc]; exact h7
      · intro dm hdm
        rw [hL] at hdm
        simp only at hdm
        have d1 := r2 dm (by
          intro i hii
          refine hdm i ?_
          rw [hu] at hii; simp only at hii ⊢; omega)
        rw [hagree (dm := dm) hdm _ hsoff.1, hout _ hsoff.1 hsoff.2, hsg]
        simp only [Option.bind_eq_bind, Option.bind_some, d1]; rfl

end
end SerRaw
