import Verif.Lemmas.TypedDecode
import Verif.Spec.Jump
/-
Output of a derived serializer over a storage whose `reserve` may move the position forward (a chunked storage): each allocation is placed somewhere
at or after the current end, aligned. Whatever the places are, a reader that takes pointers to be positions finds the values.
-/
namespace SerRaw

theorem laid_app {A : Arch} {w : Bool} {im : Mem} (x y : Script) (ia op : Nat) (st st' : Mem × Nat) :
    (x.app y).Laid A w im ia op st st' ↔ ∃ s1, x.Laid A w im ia op st s1 ∧ y.Laid A w im ia op s1 st' := by
  induction x generalizing ia op st with
  | done => simp [Script.app, Script.Laid]
  | pushProcess L len src ptr inner rest _ ih =>
    simp only [Script.app, Script.Laid, ih]
    constructor
    · rintro ⟨pos, e, st3, h1, h2, h3, h4, s1, h5, h6⟩; exact ⟨s1, ⟨pos, e, st3, h1, h2, h3, h4, h5⟩, h6⟩
    · rintro ⟨s1, ⟨pos, e, st3, h1, h2, h3, h4, h5⟩, h6⟩; exact ⟨pos, e, st3, h1, h2, h3, h4, s1, h5, h6⟩
  | push L len src ptr rest ih =>
    simp only [Script.app, Script.Laid, ih]
    constructor
    · rintro ⟨pos, e, h1, h2, h3, s1, h5, h6⟩; exact ⟨s1, ⟨pos, e, h1, h2, h3, h5⟩, h6⟩
    · rintro ⟨s1, ⟨pos, e, h1, h2, h3, h5⟩, h6⟩; exact ⟨pos, e, h1, h2, h3, s1, h5, h6⟩
  | pushRaw L len src rest ih =>
    simp only [Script.app, Script.Laid, ih]
    constructor
    · rintro ⟨pos, e, h1, h2, h3, s1, h5, h6⟩; exact ⟨s1, ⟨pos, e, h1, h2, h3, h5⟩, h6⟩
    · rintro ⟨s1, ⟨pos, e, h1, h2, h3, h5⟩, h6⟩; exact ⟨pos, e, h1, h2, h3, s1, h5, h6⟩
  | overwrite a L data rest ih => simp only [Script.app, Script.Laid, ih]

theorem laid_mono {A : Arch} {w : Bool} {im : Mem} (sc : Script) {ia op : Nat} {st st' : Mem × Nat} (h : sc.Laid A w im ia op st st') : st.2 ≤ st'.2 := by
  induction sc generalizing ia op st st' with
  | done => rw [show st' = st from h]
  | pushProcess L len src ptr inner rest ih1 ih2 =>
    obtain ⟨pos, e, st3, h1, h2, h3, h4, h5⟩ := h
    have a := ih1 h4; have b := ih2 h5; simp only at a; omega
  | push L len src ptr rest ih =>
    obtain ⟨pos, e, h1, h2, h3, h5⟩ := h
    have b := ih h5; simp only at b; omega
  | pushRaw L len src rest ih =>
    obtain ⟨pos, e, h1, h2, h3, h5⟩ := h
    have b := ih h5; simp only at b; omega
  | overwrite a L data rest ih => exact ih h

/-- Below the end, contents only change inside the words a script rewrites. -/
theorem laid_frame {A : Arch} {w : Bool} {im : Mem} (sc : Script) {ia op : Nat} {st st' : Mem × Nat} (h : sc.Laid A w im ia op st st') {i : Nat}
    (hi : i < st.2) (hd : ∀ t ∈ sc.touch A, i < outPos ia op t.1 ∨ outPos ia op t.1 + t.2 ≤ i) : st'.1 i = st.1 i := by
  induction sc generalizing ia op st st' with
  | done => rw [show st' = st from h]
  | pushProcess L len src ptr inner rest ih1 ih2 =>
    obtain ⟨pos, e, st3, h1, h2, h3, h4, h5⟩ := h
    have mono := laid_mono _ h4
    simp only at mono
    rw [ih2 h5 (by omega) fun t ht => hd t (by simp [Script.touch, ht]), ih1 h4 (by simp only; omega) ?_]
    · simp only
      rw [putPtr_out (hd (ptr, A.ptrBytes) (by simp [Script.touch])), blit_out (by omega)]
    · intro t _; left
      have := outPos_ge src pos t.1; omega
  | push L len src ptr rest ih =>
    obtain ⟨pos, e, h1, h2, h3, h5⟩ := h
    rw [ih h5 (by simp only; omega) fun t ht => hd t (by simp [Script.touch, ht])]
    simp only
    rw [putPtr_out (hd (ptr, A.ptrBytes) (by simp [Script.touch])), blit_out (by omega)]
  | pushRaw L len src rest ih =>
    obtain ⟨pos, e, h1, h2, h3, h5⟩ := h
    rw [ih h5 (by simp only; omega) fun t ht => hd t (by simp [Script.touch, ht])]
    simp only
    rw [blit_out (by omega)]
  | overwrite a L data rest ih => exact ih h hi fun t ht => hd t (by simp [Script.touch, ht])

theorem fixEmpty_laid {A : Arch} {w : Bool} {im : Mem} {o : Order} {dangle a ia op : Nat} {st st' : Mem × Nat}
    (h : (fixEmpty A o dangle a).Laid A w im ia op st st') : st' = st := by
  unfold fixEmpty at h
  cases o <;> exact h

/-- Without corrections, the script of a header is its body, or nothing if there are no elements. -/
theorem headScript_laid {A : Arch} {w : Bool} {im : Mem} {o : Order} {dangle a ia op : Nat} {h : Header} {body : Script} {st st' : Mem × Nat}
    (hl : (headScript A o dangle a h body).Laid A w im ia op st st') : if h.len = 0 then st' = st else body.Laid A w im ia op st st' := by
  unfold headScript at hl
  split at hl
  · rename_i h0
    rw [if_pos h0]
    split at hl
    · exact fixEmpty_laid hl
    · exact hl
  · rename_i h0
    rw [if_neg h0]
    split at hl
    · exact hl
    · exact hl

theorem OwnIn.nil (p p' : Nat) : OwnIn p p' [] := ⟨by simp, by simp, by simp, by simp, .nil⟩

theorem OwnIn.append {p p1 p' : Nat} {x y : List Own} (h1 : OwnIn p p1 x) (h2 : OwnIn p1 p' y) (ha : p ≤ p1) (hb : p1 ≤ p') : OwnIn p p' (x ++ y) := by
  refine ⟨?_, ?_, ?_, ?_, List.pairwise_append.2 ⟨h1.ord, h2.ord, fun a ha b hb => Nat.le_trans (h1.hi a ha) (h2.lo b hb)⟩⟩ <;>
    intro o ho <;> rcases List.mem_append.1 ho with ho | ho
  · exact h1.lo o ho
  · exact Nat.le_trans ha (h2.lo o ho)
  · exact Nat.le_trans (h1.hi o ho) hb
  · exact h2.hi o ho
  · exact h1.al o ho
  · exact h2.al o ho
  · exact h1.fwd o ho
  · exact h2.fwd o ho

theorem OwnIn.cons {p e p' : Nat} {o : Own} {x : List Own} (h : OwnIn e p' x) (h1 : p ≤ o.ptr) (h2 : o.L.align ∣ o.ptr)
    (h3 : o.ptr + o.L.size * o.len ≤ e) (h4 : o.slot < o.ptr) (he : e ≤ p') : OwnIn p p' (o :: x) := by
  refine ⟨?_, ?_, ?_, ?_, List.pairwise_cons.2 ⟨fun b hb => Nat.le_trans h3 (h.lo b hb), h.ord⟩⟩ <;>
    intro q hq <;> rcases List.mem_cons.1 hq with rfl | hq
  · exact h1
  · have := h.lo q hq; omega
  · omega
  · exact h.hi q hq
  · exact h2
  · exact h.al q hq
  · exact h4
  · exact h.fwd q hq

/-! ### Headers -/

theorem putPtr_zero {A : Arch} {m : Mem} {x t : Nat} :
    (Mode.mk (if true then some 0 else none) false).putPtr A m x t = m.blit x A.ptrBytes (wordCells A t) := by
  simp [Mode.putPtr]

theorem head_laid {C : Cfg} (hW : 0 < C.arch.ptrBytes) {fl : Flags}
    {L : Layout} (hz : L.size ≠ 0) {im : Mem} {o : Order} {ia op a p : Nat} {m : Mem} {h : Header}
    (hh : readHeader C.arch im o a = some h) (hv : h.Valid C.arch fl L) (hia : ia ≤ a)
    (hq : outPos ia op a + 3 * C.arch.ptrBytes ≤ p)
    (hm : ∀ i < 3 * C.arch.ptrBytes, m (outPos ia op a + i) = im (a + i))
    {inner : Script} {st : Mem × Nat}
    (hst : (headScript C.arch o L.align a h
      (.pushProcess L h.len h.ptr (a + o.ptrIx * C.arch.ptrBytes) inner .done)).Laid C.arch true im ia op (m, p) st)
    (hb : st.2 < C.arch.usizeMod) :
    p ≤ st.2 ∧ ∃ h', readHeader C.arch st.1 o (outPos ia op a) = some h' ∧ h'.Valid C.arch ⟨fl.canon, false⟩ L ∧ h'.len = h.len ∧
      (h.len ≠ 0 → ∃ m2 e, p ≤ h'.ptr ∧ L.align ∣ h'.ptr ∧ h'.ptr + L.size * h.len ≤ e ∧
        inner.Laid C.arch true im h.ptr h'.ptr (m2, e) st ∧
        ∀ i < L.size * h.len, m2 (h'.ptr + i) = im (h.ptr + i)) := by
  obtain ⟨i1, i2, i3⟩ := o.ix_le C.arch.ptrBytes
  obtain ⟨n1, n2, n3⟩ := o.ix_ne
  have d1 := ix_disj C.arch.ptrBytes n1
  have d2 := ix_disj C.arch.ptrBytes n2
  have d3 := ix_disj C.arch.ptrBytes n3
  have hmh : readHeader C.arch m o (outPos ia op a) = some h := by rw [← hh]; exact readHeader_congr hm
  obtain ⟨r1, r2, r3⟩ := readHeader_iff.1 hmh
  obtain ⟨v1, v2, v3⟩ := hv
  obtain ⟨v4, v5, v6, v7, v8⟩ := v3 hz
  have hst := headScript_laid hst
  by_cases hl : h.len = 0
  · rw [if_pos hl] at hst
    subst hst
    exact ⟨Nat.le_refl _, h, hmh, ⟨v1, v2, fun _ => ⟨v4, v5, v6, v7, fun h0 => by cases h0⟩⟩, rfl, fun h0 => absurd hl h0⟩
  · rw [if_neg hl] at hst
    obtain ⟨pos, e, st3, g1, g2, g3, g4, g5⟩ := hst
    rw [show st = st3 from g5] at hb ⊢
    rw [outPos_add hia, putPtr_zero] at g4
    simp only at g1
    have hmono := laid_mono _ g4
    simp only at hmono
    have hframe : ∀ i < pos, st3.1 i =
        (m.blit (outPos ia op a + o.ptrIx * C.arch.ptrBytes) C.arch.ptrBytes (wordCells C.arch pos)) i := by
      intro i hi
      rw [laid_frame inner g4 (by simp only; omega) ?_]
      · simp only
        by_cases hx : outPos ia op a + o.ptrIx * C.arch.ptrBytes ≤ i ∧ i < outPos ia op a + o.ptrIx * C.arch.ptrBytes + C.arch.ptrBytes
        · rw [blit_in hx.1 hx.2, blit_in hx.1 hx.2]
        · rw [blit_out (by omega), blit_out (by omega), blit_out (by omega)]
      · intro t _; left
        have := outPos_ge h.ptr pos t.1; omega
    refine ⟨by omega, ⟨pos, h.cap, h.len⟩, ?_, ⟨?_, ?_, fun _ => ⟨?_, ?_, ?_, ?_, ?_⟩⟩, rfl, fun _ => ⟨_, e, g1, g2, g3, g4, ?_⟩⟩
    · rw [readHeader_congr (m' := m.blit (outPos ia op a + o.ptrIx * C.arch.ptrBytes) C.arch.ptrBytes
        (wordCells C.arch pos)) (a' := outPos ia op a) (fun i hi => hframe _ (by omega))]
      refine readHeader_iff.2 ⟨?_, ?_, ?_⟩
      · rw [readWord_blit_same, Nat.mod_eq_of_lt (by omega)]
      · rw [readWord_blit_disj (by omega)]; exact r2
      · rw [readWord_blit_disj (by omega)]; exact r3
    · simp only; omega
    · exact Nat.dvd_iff_mod_eq_zero.1 g2
    · exact v4
    · exact v5
    · simp only; rw [Nat.mul_comm]; omega
    · simp only; intro _ h0; omega
    · intro h0; cases h0
    · intro i hi
      simp only
      rw [blit_out (by omega), blit_at hi]

/-! ### Main claim -/

section
variable {C : Cfg} {P : Prog} {im : Mem} {fl : Flags}

/-- The output of a value (already copied to `q`), read back with positions for addresses, is the value, wherever its allocations were placed. -/
def JClaim (C : Cfg) (P : Prog) (im : Mem)
    (rd : TyId → Nat → Option Val) (rc : TyId → Nat → Option Script) (rd' : Mem → TyId → Nat → Option Val)
    (ro : Mem → TyId → Nat → Option (List Own)) : Prop :=
  ∀ t a v sc c op m p m' p', rd t a = some v → rc t a = some sc → Placed c (P.layout t) a → op + c.sz ≤ p →
    (P.layout t).align ∣ outPos c.ia op a →
    (∀ i < (P.layout t).size, m (outPos c.ia op a + i) = im (a + i)) →
    sc.Laid C.arch true im c.ia op (m, p) (m', p') → p' < C.arch.usizeMod →
    SlotOK C.arch P im m' t a (outPos c.ia op a) ∧
    ∀ dm : Mem, (∀ i, (outPos c.ia op a ≤ i ∧ i < outPos c.ia op a + (P.layout t).size) ∨ (p ≤ i ∧ i < p') → dm i = m' i) →
      rd' dm t (outPos c.ia op a) = some v ∧
      ∃ as, ro dm t (outPos c.ia op a) = some as ∧ OwnIn p p' as

theorem scriptEach_laid (hP : P.WF C.arch)
    {rd : TyId → Nat → Option Val} {rc : TyId → Nat → Option Script} {rd' : Mem → TyId → Nat → Option Val}
    {ro : Mem → TyId → Nat → Option (List Own)}
    (hwf : WFClaim C P rd rc) (hrec : JClaim C P im rd rc rd' ro)
    {c : Ctx} {L : Layout} {a op : Nat} (hp : Placed c L a) {fs : List Field} (hf : FieldsWF P L fs) {vs : List Val} {sc : Script}
    (hd : decodeEach rd a fs = some vs) (hs : scriptEach rc a fs = some sc) {m m' : Mem} {p p' : Nat} (hop : op + c.sz ≤ p)
    (hq : L.align ∣ outPos c.ia op a)
    (hm : ∀ f ∈ fs, ∀ i < (P.layout f.2).size, m (outPos c.ia op a + f.1 + i) = im (a + f.1 + i))
    (hi : sc.Laid C.arch true im c.ia op (m, p) (m', p')) (hb : p' < C.arch.usizeMod) :
    (∀ f ∈ fs, SlotOK C.arch P im m' f.2 (a + f.1) (outPos c.ia op a + f.1)) ∧
    (∀ i < p, (∀ f ∈ fs, i < outPos c.ia op a + f.1 ∨ outPos c.ia op a + f.1 + (P.layout f.2).size ≤ i) → m' i = m i) ∧
    ∀ dm : Mem, (∀ i, (∃ f ∈ fs, outPos c.ia op a + f.1 ≤ i ∧ i < outPos c.ia op a + f.1 + (P.layout f.2).size) ∨
        (p ≤ i ∧ i < p') → dm i = m' i) →
      decodeEach (rd' dm) (outPos c.ia op a) fs = some vs ∧
      ∃ as, ownEach (ro dm) (outPos c.ia op a) fs = some as ∧ OwnIn p p' as := by
  induction fs generalizing vs sc m p m' p' with
  | nil =>
    simp only [scriptEach, Option.some.injEq] at hs; subst hs
    simp only [Script.Laid, Prod.mk.injEq] at hi
    obtain ⟨rfl, rfl⟩ := hi
    exact ⟨by simp, fun i _ _ => rfl, fun dm _ => ⟨hd, [], rfl, OwnIn.nil _ _⟩⟩
  | cons f fs ih =>
    have hlo := hp.lo; have hhi := hp.hi
    have hinF := hf.inBounds f (by simp)
    have hf' : FieldsWF P L fs := ⟨fun g hg => hf.inBounds g (by simp [hg]), fun g hg => hf.aligned g (by simp [hg]),
      fun g hg => hf.alignLe g (by simp [hg]), (List.pairwise_cons.1 hf.disjoint).2⟩
    have hdj := (List.pairwise_cons.1 hf.disjoint).1
    simp only [decodeEach, Option.bind_eq_bind, Option.bind_eq_some_iff, Option.pure_def, Option.some.injEq] at hd
    simp only [scriptEach, Option.bind_eq_bind, Option.bind_eq_some_iff, Option.pure_def, Option.some.injEq] at hs
    obtain ⟨v, d1, ws, d2, rfl⟩ := hd
    obtain ⟨s1, e1, s2, e2, rfl⟩ := hs
    have hpF : Placed c (P.layout f.2) (a + f.1) := ⟨by omega, by omega, Nat.dvd_trans (hf.alignLe f (by simp)) hp.al, hp.ia⟩
    obtain ⟨w1, t1⟩ := hwf _ _ _ _ c d1 e1 hpF
    obtain ⟨w2, t2⟩ := scriptEach_wf hwf hp hf' d2 e2
    rw [laid_app] at hi
    obtain ⟨⟨m1, p1⟩, hs1, hi⟩ := hi
    have mono1 : p ≤ p1 := laid_mono _ hs1
    have mono2 : p1 ≤ p' := laid_mono _ hi
    have hQ := outPos_add (op := op) hlo
    have hq1 : outPos c.ia op a + L.size ≤ p := by unfold outPos; omega
    -- frames
    have fr1 : ∀ i < p, (i < outPos c.ia op a + f.1 ∨ outPos c.ia op a + f.1 + (P.layout f.2).size ≤ i) → m1 i = m i := by
      intro i hip hif
      refine laid_frame s1 hs1 (i := i) hip ?_
      · intro t ht
        obtain ⟨x1, x2⟩ := t1 t ht
        have : t.1 = a + (t.1 - a) := by omega
        rw [this, hQ]; omega
    have fr2 : ∀ i < p1, (∀ g ∈ fs, i < outPos c.ia op a + g.1 ∨ outPos c.ia op a + g.1 + (P.layout g.2).size ≤ i) → m' i = m1 i := by
      intro i hip hif
      refine laid_frame s2 hi (i := i) hip ?_
      · intro t ht
        obtain ⟨g, hg, x1, x2⟩ := t2 t ht
        have := hif g hg
        have : t.1 = a + (t.1 - a) := by omega
        rw [this, hQ]; omega
    have hgin : ∀ g ∈ fs, g.1 + (P.layout g.2).size ≤ L.size := hf'.inBounds
    obtain ⟨r1, r2⟩ := hrec _ _ _ _ c op m p m1 p1 d1 e1 hpF hop (by
      rw [hQ]; exact Nat.dvd_add (Nat.dvd_trans (hf.alignLe f (by simp)) hq) (hf.aligned f (by simp)))
      (by rw [hQ]; exact hm f (by simp)) hs1 (by omega)
    rw [hQ] at r1 r2
    obtain ⟨r3, r4, r5⟩ := ih hf' d2 e2 (m := m1) (p := p1) (by omega) (by
      intro g hg i hii
      rw [fr1 _ (by have := hgin g hg; omega) (by have := hdj g hg; unfold DisjRange at this; omega)]
      exact hm g (by simp [hg]) i hii) hi hb
    refine ⟨?_, ?_, ?_⟩
    · intro g hg
      rcases List.mem_cons.1 hg with rfl | hg
      · refine SlotOK.congr hP r1 fun i hii => fr2 _ (by omega) fun g hg => ?_
        have := hdj g hg; unfold DisjRange at this; omega
      · exact r3 g hg
    · intro i hip hall
      rw [r4 i (by omega) fun g hg => hall g (by simp [hg]), fr1 i hip (hall f (by simp))]
    · intro dm hdm
      obtain ⟨e1, x, x1, x2⟩ : rd' dm f.2 (outPos c.ia op a + f.1) = some v ∧
          ∃ as, ro dm f.2 (outPos c.ia op a + f.1) = some as ∧ OwnIn p p1 as := by
        refine r2 dm fun i hii => ?_
        rw [← fr2 i (by omega) fun g hg => ?_]
        · refine hdm i ?_
          rcases hii with hii | hii
          · exact Or.inl ⟨f, by simp, hii⟩
          · exact Or.inr (by omega)
        · have := hdj g hg; have := hgin g hg; unfold DisjRange at *; omega
      obtain ⟨e2, y, y1, y2⟩ := r5 dm (by
        intro i hii
        refine hdm i ?_
        rcases hii with ⟨g, hg, hii⟩ | hii
        · exact Or.inl ⟨g, by simp [hg], hii⟩
        · exact Or.inr (by omega))
      refine ⟨by simp only [decodeEach, e1, e2, Option.bind_eq_bind, Option.bind_some, Option.pure_def], x ++ y, ?_, ?_⟩
      · simp only [ownEach, x1, y1, Option.bind_eq_bind, Option.bind_some, Option.pure_def]
      · exact x2.append y2 mono1 mono2

theorem scriptVec_laid (hW : 0 < C.arch.ptrBytes) (hP : P.WF C.arch) (hacc : P.Accepted C) {n : Nat}
    (hrec : JClaim C P im (decode C.arch P fl im n) (script C.arch P im n)
      (fun dm => decode C.arch P ⟨fl.canon, false⟩ dm n) (fun dm => owned C.arch P dm n))
    {c : Ctx} {u : TyId} {a op : Nat} {v : Val} {sc : Script} (hp : Placed c ⟨3 * C.arch.ptrBytes, C.arch.ptrBytes⟩ a)
    (hd : decodeVec C.arch P fl im (decode C.arch P fl im n) u a = some v)
    (hs : scriptVec C.arch P im (script C.arch P im n) u a = some sc)
    {m m' : Mem} {p p' : Nat} (hop : op + c.sz ≤ p)
    (hm : ∀ i < 3 * C.arch.ptrBytes, m (outPos c.ia op a + i) = im (a + i))
    (hi : sc.Laid C.arch true im c.ia op (m, p) (m', p')) (hb : p' < C.arch.usizeMod) :
    (∀ i < 3 * C.arch.ptrBytes, m' (outPos c.ia op a + i) = im (a + i) ∨ (P.layout u).size ≠ 0 ∧
      ∃ k x, ((k = SlotKind.ptr ∧ x = (P.vecOrder u).ptrIx * C.arch.ptrBytes) ∨ (k = SlotKind.cap ∧ x = (P.vecOrder u).capIx * C.arch.ptrBytes)) ∧
        x ≤ i ∧ i < x + C.arch.ptrBytes ∧
        ∃ w w', readWord C.arch im (a + x) = some w ∧ readWord C.arch m' (outPos c.ia op a + x) = some w' ∧ k.valid C.arch w ∧ k.valid C.arch w') ∧
    ∀ dm : Mem, (∀ i, (outPos c.ia op a ≤ i ∧ i < outPos c.ia op a + 3 * C.arch.ptrBytes) ∨ (p ≤ i ∧ i < p') → dm i = m' i) →
      decodeVec C.arch P ⟨fl.canon, false⟩ dm (decode C.arch P ⟨fl.canon, false⟩ dm n) u (outPos c.ia op a) = some v ∧
      ∃ as, ownVec C.arch P dm (owned C.arch P dm n) u (outPos c.ia op a) = some as ∧ OwnIn p p' as := by
  simp only [decodeVec, Option.bind_eq_bind, Option.bind_eq_some_iff, Option.pure_def, Option.some.injEq,
    Option.ite_none_right_eq_some] at hd ⊢
  obtain ⟨h, h1, hval, vs, h2, rfl⟩ := hd
  unfold scriptVec at hs
  have hlo := hp.lo; have hhi := hp.hi
  have hq1 : outPos c.ia op a + 3 * C.arch.ptrBytes ≤ p := by simp only at hhi; unfold outPos; omega
  have hagree : ∀ {dm : Mem} {h : Header}, readHeader C.arch m' (P.vecOrder u) (outPos c.ia op a) = some h →
      (∀ i, (outPos c.ia op a ≤ i ∧ i < outPos c.ia op a + 3 * C.arch.ptrBytes) ∨ (p ≤ i ∧ i < p') → dm i = m' i) →
      readHeader C.arch dm (P.vecOrder u) (outPos c.ia op a) = some h := by
    intro dm h hr hdm
    rw [← hr]
    exact readHeader_congr fun i hi => hdm _ (Or.inl (by omega))
  split at hs
  · rename_i hz
    simp only [Option.some.injEq] at hs; subst hs
    simp only [Script.Laid, Prod.mk.injEq] at hi
    obtain ⟨rfl, rfl⟩ := hi
    refine ⟨fun i hi => Or.inl (hm i hi), fun dm hdm => ?_⟩
    have hr : readHeader C.arch m' (P.vecOrder u) (outPos c.ia op a) = some h := by rw [← h1]; exact readHeader_congr hm
    refine ⟨⟨h, hagree hr hdm, valid_zst hz hval, vs, ?_, rfl⟩, [], by rw [ownVec, if_pos hz], OwnIn.nil _ _⟩
    rw [← h2]
    refine decodeEach_congr fun f hf => ?_
    obtain ⟨i, _, rfl⟩ := mem_elems.1 hf
    exact decode_zst hW hP hz
  · rename_i hz
    simp only [Option.bind_eq_bind, Option.bind_eq_some_iff, Option.pure_def, Option.some.injEq] at hs
    obtain ⟨h', h1', inner, e1, rfl⟩ := hs
    rw [h1] at h1'; obtain rfl := Option.some.inj h1'
    obtain ⟨g1, h', g2, g3, g4, g5⟩ := head_laid hW hz h1 hval hlo hq1 hm hi hb
    refine ⟨?_, ?_⟩
    · intro i hii
      rcases slotOK_header h1 g2 g4 hval.1 g3.1 (cap_le_isize hz hval) (cap_le_isize hz g3) i hii with hx | hx
      · exact Or.inl hx
      · exact Or.inr ⟨hz, hx⟩
    · intro dm hdm
      have hrd := hagree g2 hdm
      by_cases hl : h.len = 0
      · refine ⟨⟨h', hrd, g3, vs, ?_, rfl⟩, [], ?_, OwnIn.nil _ _⟩
        · rw [g4, hl]; rw [hl] at h2; exact h2
        · rw [ownVec, if_neg hz, hrd]; simp [g4, hl]
      · obtain ⟨m2, e, k1, k2, k3, k4, k5⟩ := g5 hl
        have hmono := laid_mono _ k4
        simp only at hmono
        have hself : outPos h.ptr h'.ptr h.ptr = h'.ptr := by simp [outPos]
        obtain ⟨_, _, r3⟩ := scriptEach_laid (c := ⟨h.ptr, (P.layout u).size * h.len, (P.layout u).align⟩)
          (L := ⟨h.len * (P.layout u).size, (P.layout u).align⟩) (a := h.ptr) (op := h'.ptr)
          hP (script_wf hW hP hacc n) hrec
          ⟨Nat.le_refl _, by simp only; rw [Nat.mul_comm], Nat.dvd_refl _, Nat.dvd_of_mod_eq_zero hval.2.1⟩ (elems_wf hP u h.len) h2 e1
          k3 (by simp only [hself]; exact k2) (by
            intro f hf i hii
            have := (elems_wf hP u h.len).inBounds f hf
            simp only at this
            have hc := Nat.mul_comm (P.layout u).size h.len
            simp only [hself]
            rw [Nat.add_assoc, Nat.add_assoc]; exact k5 _ (by omega)) k4 hb
        simp only [hself] at r3
        obtain ⟨d1, x, x1, x2⟩ := r3 dm (by
          intro i hii
          refine hdm i (Or.inr ?_)
          rcases hii with ⟨f, hf, hx⟩ | hx
          · have := (elems_wf hP u h.len).inBounds f hf
            simp only at this
            have hc := Nat.mul_comm (P.layout u).size h.len
            omega
          · omega)
        refine ⟨⟨h', hrd, g3, vs, by rw [g4]; exact d1, rfl⟩, _, ?_, OwnIn.cons
          (o := ⟨outPos c.ia op a + (P.vecOrder u).ptrIx * C.arch.ptrBytes, P.layout u, h.len, h'.ptr⟩) x2 k1 k2 k3 ?_ (by omega)⟩
        · rw [ownVec, if_neg hz, hrd]
          simp only [Option.bind_eq_bind, Option.bind_some, g4, if_neg hl, x1, Option.pure_def]
        · have := ((P.vecOrder u).ix_le C.arch.ptrBytes).1
          simp only; omega

theorem headScript_laid_push {A : Arch} {o : Order} {dangle a : Nat} {h : Header} {L : Layout} {len src ptr ia op : Nat} {st st' : Mem × Nat}
    (hl : (headScript A o dangle a h (.push L len src ptr .done)).Laid A true im ia op st st') :
    (headScript A o dangle a h (.pushProcess L len src ptr .done .done)).Laid A true im ia op st st' := by
  have key : (Script.push L len src ptr .done).Laid A true im ia op st st' → (Script.pushProcess L len src ptr .done .done).Laid A true im ia op st st' := by
    rintro ⟨pos, e, h1, h2, h3, h4⟩
    exact ⟨pos, e, _, h1, h2, h3, rfl, h4⟩
  unfold headScript at hl ⊢
  split at hl
  · rename_i h0
    rw [if_pos h0]; exact hl
  · rename_i h0
    rw [if_neg h0]
    split at hl
    · rename_i h1
      rw [if_pos h1]; exact key hl
    · rename_i h1
      rw [if_neg h1]; exact key hl

theorem script_laid (hW : 0 < C.arch.ptrBytes) (hP : P.WF C.arch) (hacc : P.Accepted C) (n : Nat) :
    JClaim C P im (decode C.arch P fl im n) (script C.arch P im n)
      (fun dm => decode C.arch P ⟨fl.canon, false⟩ dm n) (fun dm => owned C.arch P dm n) := by
  induction n with
  | zero => intro t a v sc c op m p m' p' hd; simp [decode] at hd
  | succ n ih =>
    intro t a v sc c op m p m' p' hd hs hp hop hqal hm hi hb
    have hw := hP t
    unfold TyWF at hw
    obtain ⟨_, _, _, hw⟩ := hw
    have hwf := (script_wf hW hP hacc (n + 1)) t a v sc c hd hs hp
    have hmono := laid_mono sc hi
    simp only at hmono
    have hlo := hp.lo; have hhi := hp.hi
    have hqs : outPos c.ia op a + (P.layout t).size ≤ p := by unfold outPos; omega
    have hguard : (outPos c.ia op a) % (P.layout t).align = 0 ∧ outPos c.ia op a + (P.layout t).size < C.arch.usizeMod :=
      ⟨Nat.dvd_iff_mod_eq_zero.1 (hqal), by omega⟩
    have hagree : ∀ {dm : Mem}, (∀ i, (outPos c.ia op a ≤ i ∧ i < outPos c.ia op a + (P.layout t).size) ∨ (p ≤ i ∧ i < p') → dm i = m' i) →
        ∀ i < (P.layout t).size, dm (outPos c.ia op a + i) = m' (outPos c.ia op a + i) := by
      intro dm hdm i hii; exact hdm _ (Or.inl (by omega))
    rw [script] at hs
    rw [decode] at hd
    split at hd
    case isFalse => cases hd
    simp only [decode, if_pos hguard, owned]
    cases hdef : P.defn t <;> simp only [hdef] at hd hw hs ⊢
    case prim =>
      simp only [Option.some.injEq] at hs; subst hs
      simp only [Script.Laid, Prod.mk.injEq] at hi
      obtain ⟨rfl, rfl⟩ := hi
      refine ⟨SlotOK.same hm, fun dm hdm => ⟨?_, [], rfl, OwnIn.nil _ _⟩⟩
      rw [← hd, readBytes_congr (m' := im) (a' := a)]
      intro i hii; rw [hagree hdm i hii, hm i hii]
    case box u =>
      simp only [Option.bind_eq_bind, Option.bind_eq_some_iff, Option.pure_def, Option.some.injEq,
        Option.ite_none_right_eq_some] at hd ⊢
      obtain ⟨x, h1, h2, v', h3, rfl⟩ := hd
      rw [hw] at hm hqs hagree ⊢
      simp only at hm hqs hagree ⊢
      split at hs
      · rename_i hz
        simp only [Option.some.injEq] at hs; subst hs
        simp only [Script.Laid, Prod.mk.injEq] at hi
        obtain ⟨rfl, rfl⟩ := hi
        refine ⟨SlotOK.same (by rw [hw]; exact hm), fun dm hdm => ⟨⟨x, ?_, h2, v', ?_, rfl⟩, [], by rw [if_pos hz], OwnIn.nil _ _⟩⟩
        · rw [← h1]; refine readWord_congr fun i hii => ?_
          rw [hagree hdm i hii, hm i hii]
        · rw [← h3]; exact decode_zst hW hP hz
      · rename_i hz
        simp only [Option.bind_eq_bind, Option.bind_eq_some_iff, Option.pure_def, Option.some.injEq] at hs
        obtain ⟨x', h1', inner, e1, rfl⟩ := hs
        rw [h1] at h1'; obtain rfl := Option.some.inj h1'
        obtain ⟨g1, g2⟩ := decode_guard h3
        have hpal := (hP u).1
        have hpx : Placed ⟨x, (P.layout u).size * 1, (P.layout u).align⟩ (P.layout u) x := ⟨Nat.le_refl _, by simp, Nat.dvd_refl _, g1⟩
        obtain ⟨w1, _⟩ := script_wf hW hP hacc n _ _ _ _ _ h3 e1 hpx
        obtain ⟨pos, e, st3, k1, k2, k3, k4, k5⟩ := hi
        rw [putPtr_zero] at k4
        simp only at k1
        obtain rfl : st3 = (m', p') := k5.symm
        have hmono2 := laid_mono _ k4
        simp only at hmono2
        have hself : outPos x pos x = pos := by simp [outPos]
        obtain ⟨r1, r2⟩ := ih _ _ _ _ ⟨x, (P.layout u).size * 1, (P.layout u).align⟩ pos _ _ _ _ h3 e1 hpx
          k3 (by simp only [hself]; exact k2) (by
            intro i hii
            simp only [hself]
            rw [blit_out (by omega), blit_at (by omega)]) k4 hb
        simp only [hself] at r1 r2
        have hword : readWord C.arch m' (outPos c.ia op a) = some pos := by
          have hfr : ∀ i < C.arch.ptrBytes, m' (outPos c.ia op a + i) = wordCells C.arch pos i := by
            intro i hii
            have := laid_frame inner k4 (i := outPos c.ia op a + i) (by simp only; omega) (by
                intro t _; left
                have := outPos_ge x pos t.1; omega)
            simp only at this
            rw [this, blit_at hii]
          rw [show readWord C.arch m' (outPos c.ia op a) = readWord C.arch (m.blit (outPos c.ia op a) C.arch.ptrBytes
            (wordCells C.arch pos)) (outPos c.ia op a) from
            readWord_congr fun i hii => by rw [hfr i hii, blit_at hii], readWord_blit_same, Nat.mod_eq_of_lt (by omega)]
        have hxne : pos ≠ 0 := by omega
        refine ⟨?_, ?_⟩
        · intro i hii
          rw [hw] at hii
          exact Or.inr ⟨.ptr, 0, .box hdef hz, Nat.zero_le _, by simpa using hii, x, _, h1, hword, h2, hxne⟩
        · intro dm hdm
          obtain ⟨d1, y, y1, y2⟩ := r2 dm fun i hii => hdm i (Or.inr (by omega))
          have hw' : readWord C.arch dm (outPos c.ia op a) = some pos := by
            rw [← hword]; exact readWord_congr fun i hii => hagree hdm i hii
          refine ⟨⟨_, hw', hxne, v', d1, rfl⟩, _, ?_, OwnIn.cons (o := ⟨outPos c.ia op a, P.layout u, 1, pos⟩) y2 k1 k2 k3 (by simp only; omega) hmono2⟩
          rw [if_neg hz]; simp only [hw', y1, Option.bind_some]
    case vec u =>
      rw [hw] at hm hp ⊢
      obtain ⟨r1, r2⟩ := scriptVec_laid hW hP hacc ih hp hd hs hop hm hi hb
      refine ⟨?_, r2⟩
      intro i hii
      rw [hw] at hii
      rcases r1 i hii with hx | ⟨hz, k, x, hk, h1, h2, h3⟩
      · exact Or.inl hx
      · refine Or.inr ⟨k, x, ?_, h1, h2, h3⟩
        rcases hk with ⟨rfl, rfl⟩ | ⟨rfl, rfl⟩
        · exact .vecPtr hdef hz
        · exact .vecCap hdef hz
    case string =>
      rw [hw] at hm hp hqs ⊢
      simp only [decodeStr, Option.bind_eq_bind, Option.bind_eq_some_iff, Option.pure_def, Option.some.injEq,
        Option.ite_none_right_eq_some] at hd hs ⊢
      obtain ⟨h, h1, hval, bs, h2, rfl⟩ := hd
      obtain ⟨h', h1', rfl⟩ := hs
      rw [h1] at h1'; obtain rfl := Option.some.inj h1'
      obtain ⟨g1, h', g2, g3, g4, g5⟩ := head_laid (L := ⟨1, 1⟩) hW (by simp) h1 hval hlo hqs hm
        (inner := .done) (headScript_laid_push hi) hb
      have hrdm : ∀ {dm : Mem}, (∀ i, (outPos c.ia op a ≤ i ∧ i < outPos c.ia op a + 3 * C.arch.ptrBytes) ∨ (p ≤ i ∧ i < p') → dm i = m' i) →
          readHeader C.arch dm P.stringOrder (outPos c.ia op a) = some h' := by
        intro dm hdm
        rw [← g2]
        exact readHeader_congr fun i hi => hdm _ (Or.inl (by omega))
      refine ⟨?_, ?_⟩
      · intro i hii
        rw [hw] at hii
        rcases slotOK_header h1 g2 g4 hval.1 g3.1 (cap_le_isize (by simp) hval) (cap_le_isize (by simp) g3) i hii with hx | ⟨k, x, hk, h1, h2, h3⟩
        · exact Or.inl hx
        · refine Or.inr ⟨k, x, ?_, h1, h2, h3⟩
          rcases hk with ⟨rfl, rfl⟩ | ⟨rfl, rfl⟩
          · exact .strPtr hdef
          · exact .strCap hdef
      · intro dm hdm
        have hrd := hrdm hdm
        by_cases hl : h.len = 0
        · refine ⟨⟨h', hrd, g3, bs, ?_, rfl⟩, [], ?_, OwnIn.nil _ _⟩
          · rw [g4, ← h2, hl]; rfl
          · simp [hrd, g4, hl]
        · obtain ⟨m2, e, k1, k2, k3, k4, k5⟩ := g5 hl
          simp only [Script.Laid, Prod.mk.injEq] at k4
          obtain ⟨rfl, rfl⟩ := k4
          simp only at k3 k5
          refine ⟨⟨h', hrd, g3, bs, ?_, rfl⟩, _, ?_, OwnIn.cons (x := [])
            (o := ⟨outPos c.ia op a + P.stringOrder.ptrIx * C.arch.ptrBytes, ⟨1, 1⟩, h.len, h'.ptr⟩) (OwnIn.nil _ _) k1 k2 k3 ?_ (Nat.le_refl _)⟩
          · rw [g4, ← h2]
            refine readBytes_congr fun i hii => ?_
            rw [hdm _ (Or.inr (by omega)), k5 i (by omega)]
          · exact ⟨h', hrd, by rw [g4, if_neg hl]⟩
          · have := (P.stringOrder.ix_le C.arch.ptrBytes).1
            simp only at hqs ⊢; omega
    case array u k =>
      simp only [Option.bind_eq_bind, Option.bind_eq_some_iff, Option.pure_def, Option.some.injEq] at hd ⊢
      obtain ⟨vs, h1, rfl⟩ := hd
      have hL : P.layout t = ⟨k * (P.layout u).size, (P.layout u).align⟩ := by
        have : P.layout t = ⟨(P.layout t).size, (P.layout t).align⟩ := rfl
        rw [this, hw.1, hw.2]
      have hel := elems_wf hP u k
      rw [← hL] at hel
      obtain ⟨r1, r2, r3⟩ := scriptEach_laid hP (script_wf hW hP hacc n) ih hp hel h1 hs hop hqal (by
        intro f hf i hii
        have := hel.inBounds f hf
        rw [Nat.add_assoc, Nat.add_assoc]; exact hm _ (by omega)) hi hb
      refine ⟨?_, ?_⟩
      · intro i hii
        by_cases hx : ∃ f ∈ elems P u k, f.1 ≤ i ∧ i < f.1 + (P.layout f.2).size
        · obtain ⟨f, hf, hx1, hx2⟩ := hx
          rcases r1 f hf (i - f.1) (by omega) with h3 | ⟨k', o, h3, h4, h5, w, w', h6, h7, h8⟩
          · left
            rw [show outPos c.ia op a + i = outPos c.ia op a + f.1 + (i - f.1) by omega, h3, Nat.add_assoc,
              show f.1 + (i - f.1) = i by omega]
          · obtain ⟨j, hj, rfl⟩ := mem_elems.1 hf
            refine Or.inr ⟨k', _, .array hdef hj h3, ?_, ?_, w, w', ?_, ?_, h8⟩
            · simp only at *; omega
            · simp only at *; omega
            · rw [← Nat.add_assoc]; exact h6
            · rw [← Nat.add_assoc]; exact h7
        · left
          rw [r2 _ (by omega) (by
            intro f hf
            have : ¬ (f.1 ≤ i ∧ i < f.1 + (P.layout f.2).size) := fun y => hx ⟨f, hf, y⟩
            omega), hm i hii]
      · intro dm hdm
        obtain ⟨d1, d2⟩ := r3 dm (by
          intro i hii
          refine hdm i ?_
          rcases hii with ⟨f, hf, hx⟩ | hx
          · have := hel.inBounds f hf; left; omega
          · exact Or.inr hx)
        exact ⟨⟨vs, d1, rfl⟩, d2⟩
    case struct fs =>
      simp only [Option.bind_eq_bind, Option.bind_eq_some_iff, Option.pure_def, Option.some.injEq] at hd ⊢
      obtain ⟨vs, h1, rfl⟩ := hd
      obtain ⟨r1, r2, r3⟩ := scriptEach_laid hP (script_wf hW hP hacc n) ih hp hw h1 hs hop hqal (by
        intro f hf i hii
        have := hw.inBounds f hf
        rw [Nat.add_assoc, Nat.add_assoc]; exact hm _ (by omega)) hi hb
      refine ⟨?_, ?_⟩
      · intro i hii
        by_cases hx : ∃ f ∈ fs, f.1 ≤ i ∧ i < f.1 + (P.layout f.2).size
        · obtain ⟨f, hf, hx1, hx2⟩ := hx
          rcases r1 f hf (i - f.1) (by omega) with h3 | ⟨k', o, h3, h4, h5, w, w', h6, h7, h8⟩
          · left
            rw [show outPos c.ia op a + i = outPos c.ia op a + f.1 + (i - f.1) by omega, h3, Nat.add_assoc,
              show f.1 + (i - f.1) = i by omega]
          · refine Or.inr ⟨k', _, .field hdef hf h3, by omega, by omega, w, w', ?_, ?_, h8⟩
            · rw [← Nat.add_assoc]; exact h6
            · rw [← Nat.add_assoc]; exact h7
        · left
          rw [r2 _ (by omega) (by
            intro f hf
            have : ¬ (f.1 ≤ i ∧ i < f.1 + (P.layout f.2).size) := fun y => hx ⟨f, hf, y⟩
            omega), hm i hii]
      · intro dm hdm
        obtain ⟨d1, d2⟩ := r3 dm (by
          intro i hii
          refine hdm i ?_
          rcases hii with ⟨f, hf, hx⟩ | hx
          · have := hw.inBounds f hf; left; omega
          · exact Or.inr hx)
        exact ⟨⟨vs, d1, rfl⟩, d2⟩
    case enum tag vs =>
      simp only [Option.bind_eq_bind, Option.bind_eq_some_iff, Option.pure_def, Option.some.injEq] at hd hs ⊢
      obtain ⟨iv, h1, fs, h2, xs, h3, rfl⟩ := hd
      obtain ⟨i', h1', fs', h2', hs⟩ := hs
      rw [h1] at h1'; obtain rfl := Option.some.inj h1'
      rw [h2] at h2'; obtain rfl := Option.some.inj h2'
      have hmem := List.mem_of_getElem? h2
      have hf := hw.1 fs hmem
      obtain ⟨r1, r2, r3⟩ := scriptEach_laid hP (script_wf hW hP hacc n) ih hp hf h3 hs hop hqal (by
        intro f hff i hii
        have := hf.inBounds f hff
        rw [Nat.add_assoc, Nat.add_assoc]; exact hm _ (by omega)) hi hb
      have hS : SlotOK C.arch P im m' t a (outPos c.ia op a) := by
        intro i hii
        by_cases hx : ∃ f ∈ fs, f.1 ≤ i ∧ i < f.1 + (P.layout f.2).size
        · obtain ⟨f, hff, hx1, hx2⟩ := hx
          rcases r1 f hff (i - f.1) (by omega) with h3 | ⟨k', o, h3, h4, h5, w, w', h6, h7, h8⟩
          · left
            rw [show outPos c.ia op a + i = outPos c.ia op a + f.1 + (i - f.1) by omega, h3, Nat.add_assoc,
              show f.1 + (i - f.1) = i by omega]
          · refine Or.inr ⟨k', _, .variant hdef hmem hff h3, by omega, by omega, w, w', ?_, ?_, h8⟩
            · rw [← Nat.add_assoc]; exact h6
            · rw [← Nat.add_assoc]; exact h7
        · left
          rw [r2 _ (by omega) (by
            intro f hf
            have : ¬ (f.1 ≤ i ∧ i < f.1 + (P.layout f.2).size) := fun y => hx ⟨f, hf, y⟩
            omega), hm i hii]
      refine ⟨hS, ?_⟩
      intro dm hdm
      have hS' : SlotOK C.arch P im dm t a (outPos c.ia op a) := SlotOK.congr hP hS (hagree hdm)
      obtain ⟨d1, x, x1, x2⟩ := r3 dm (by
        intro i hii
        refine hdm i ?_
        rcases hii with ⟨f, hff, hx⟩ | hx
        · have := hf.inBounds f hff; left; omega
        · exact Or.inr hx)
      have htag : activeVariant C.arch dm (outPos c.ia op a) tag = some iv := by rw [tag_same hw.2 hS', h1]
      exact ⟨⟨iv, htag, fs, h2, xs, d1, rfl⟩, x, ⟨iv, htag, fs, h2, x1⟩, x2⟩
    case bigUint u =>
      obtain ⟨hw1, _, hw2⟩ := hw
      rw [hw1] at hm hp ⊢
      obtain ⟨r1, r2⟩ := scriptVec_laid hW hP hacc ih hp hd hs hop hm hi hb
      refine ⟨?_, r2⟩
      intro i hii
      rw [hw1] at hii
      rcases r1 i hii with hx | ⟨hz, k, x, hk, h1, h2, h3⟩
      · exact Or.inl hx
      · refine Or.inr ⟨k, x, ?_, h1, h2, h3⟩
        rcases hk with ⟨rfl, rfl⟩ | ⟨rfl, rfl⟩
        · exact .bigPtr hdef
        · exact .bigCap hdef
    case bigInt u =>
      simp only [Option.bind_eq_bind, Option.bind_eq_some_iff, Option.pure_def, Option.some.injEq] at hd ⊢
      obtain ⟨sg, hsg, v', h2, rfl⟩ := hd
      obtain ⟨hL, ⟨d, hud⟩, hu⟩ := hw
      have hoff : P.bigIntDataOff C.arch ≤ C.arch.ptrBytes := by unfold Prog.bigIntDataOff; split <;> omega
      have hoffal : C.arch.ptrBytes ∣ P.bigIntDataOff C.arch := by
        unfold Prog.bigIntDataOff; split
        · exact Nat.dvd_zero _
        · exact Nat.dvd_refl _
      have hsoff : P.bigIntSignOff C.arch < 4 * C.arch.ptrBytes ∧ (P.bigIntSignOff C.arch < P.bigIntDataOff C.arch ∨
          P.bigIntDataOff C.arch + 3 * C.arch.ptrBytes ≤ P.bigIntSignOff C.arch) := by
        unfold Prog.bigIntDataOff Prog.bigIntSignOff; split <;> omega
      have hal := hp.al
      rw [hL] at hhi hal hm hqs hqal hagree
      simp only at hhi hal hm hqs hqal hagree
      have hpu : Placed c (P.layout u) (a + P.bigIntDataOff C.arch) := by
        rw [hu]; exact ⟨by omega, by simp only; omega, hal, hp.ia⟩
      obtain ⟨w1, w2⟩ := script_wf hW hP hacc n _ _ _ _ c h2 hs hpu
      have hQ := outPos_add (op := op) hlo
      obtain ⟨r1, r2⟩ := ih _ _ _ _ c op m p m' p' h2 hs hpu hop
        (by rw [hQ, hu]; exact Nat.dvd_add hqal hoffal) (by
          intro i hii
          rw [hu] at hii
          rw [hQ, Nat.add_assoc, Nat.add_assoc]; exact hm _ (by simp only at hii; omega)) hi hb
      rw [hQ] at r1 r2
      have hout : ∀ i < 4 * C.arch.ptrBytes, (i < P.bigIntDataOff C.arch ∨ P.bigIntDataOff C.arch + 3 * C.arch.ptrBytes ≤ i) →
          m' (outPos c.ia op a + i) = im (a + i) := by
        intro i hii hx
        rw [← hm i hii]
        refine laid_frame sc hi (i := outPos c.ia op a + i) (by simp only; omega) ?_
        · intro x hxt
          obtain ⟨y1, y2⟩ := w2 x hxt
          rw [hu] at y2; simp only at y2
          have : x.1 = a + (x.1 - a) := by omega
          rw [this, hQ]; omega
      refine ⟨?_, ?_⟩
      · intro i hii
        rw [hL] at hii
        by_cases hx : i < P.bigIntDataOff C.arch ∨ P.bigIntDataOff C.arch + 3 * C.arch.ptrBytes ≤ i
        · exact Or.inl (hout i hii hx)
        · rcases r1 (i - P.bigIntDataOff C.arch) (by rw [hu]; simp only; omega) with h3 | ⟨k', o, h3, h4, h5, w, w', h6, h7, h8⟩
          · left
            rw [show outPos c.ia op a + i = outPos c.ia op a + P.bigIntDataOff C.arch + (i - P.bigIntDataOff C.arch) by omega, h3, Nat.add_assoc,
              show P.bigIntDataOff C.arch + (i - P.bigIntDataOff C.arch) = i by omega]
          · refine Or.inr ⟨k', _, .bigInt hdef h3, by omega, by omega, w, w', ?_, ?_, h8⟩
            · rw [← Nat.add_assoc]; exact h6
            · rw [← Nat.add_assoc]; exact h7
      · intro dm hdm
        rw [hL] at hdm
        simp only at hdm
        obtain ⟨d1, d2⟩ := r2 dm (by
          intro i hii
          refine hdm i ?_
          rw [hu] at hii; simp only at hii ⊢; omega)
        refine ⟨⟨sg, ?_, v', d1, rfl⟩, d2⟩
        · rw [hagree (dm := dm) hdm _ hsoff.1, hout _ hsoff.1 hsoff.2, hsg]

end
end SerRaw
