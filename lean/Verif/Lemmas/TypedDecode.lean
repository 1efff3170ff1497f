import Verif.Lemmas.TypedWF
import Verif.Lemmas.Layout
/-
The reference output of a typed value, read back, is the value.
-/
namespace SerRaw

/-! ### Words -/

theorem blit_comm {m : Mem} {x n y k : Nat} {f g : Nat → Cell} (h : x + n ≤ y ∨ y + k ≤ x) :
    (m.blit x n f).blit y k g = (m.blit y k g).blit x n f := by
  funext i
  by_cases h1 : x ≤ i ∧ i < x + n
  · rw [blit_out (a := y) (by omega), blit_in h1.1 h1.2, blit_in h1.1 h1.2]
  · rw [blit_out (a := x) (by omega)]
    by_cases h2 : y ≤ i ∧ i < y + k
    · rw [blit_in h2.1 h2.2, blit_in h2.1 h2.2]
    · rw [blit_out (by omega), blit_out (by omega), blit_out (by omega)]

theorem blit_two {A : Arch} {m : Mem} {x u v : Nat} :
    m.blit x (2 * A.ptrBytes) (wordsCells A [u, v]) =
      (m.blit x A.ptrBytes (wordCells A u)).blit (x + A.ptrBytes) A.ptrBytes (wordCells A v) := by
  funext i
  have e1 := encWord_length A u
  by_cases h1 : x ≤ i ∧ i < x + A.ptrBytes
  · rw [blit_in h1.1 (by omega), blit_out (by omega), blit_in h1.1 h1.2]
    simp only [wordsCells, wordCells, List.flatMap_cons, List.flatMap_nil, List.append_nil]
    rw [List.getElem?_append_left (by omega)]
  · by_cases h2 : x + A.ptrBytes ≤ i ∧ i < x + A.ptrBytes + A.ptrBytes
    · rw [blit_in (by omega) (by omega), blit_in h2.1 h2.2]
      simp only [wordsCells, wordCells, List.flatMap_cons, List.flatMap_nil, List.append_nil]
      rw [List.getElem?_append_right (by omega), e1]; congr 1; omega
    · rw [blit_out (by omega), blit_out (by omega), blit_out (by omega)]

theorem outPos_add {ia op a : Nat} (h : ia ≤ a) (x : Nat) : outPos ia op (a + x) = outPos ia op a + x := by
  unfold outPos; omega

/-! ### Headers -/

theorem ix_disj (W : Nat) {i j : Nat} (h : i ≠ j) : i * W + W ≤ j * W ∨ j * W + W ≤ i * W := by
  rcases Nat.lt_or_gt_of_ne h with h | h
  · left; have := Nat.mul_le_mul_right W (show i + 1 ≤ j from h); rw [Nat.add_mul] at this; omega
  · right; have := Nat.mul_le_mul_right W (show j + 1 ≤ i from h); rw [Nat.add_mul] at this; omega

theorem Order.ix_le (o : Order) (W : Nat) : o.ptrIx * W + W ≤ 3 * W ∧ o.capIx * W + W ≤ 3 * W ∧ o.lenIx * W + W ≤ 3 * W := by
  cases o <;> simp [Order.ptrIx, Order.capIx, Order.lenIx] <;> omega

theorem Order.ix_ne (o : Order) : o.ptrIx ≠ o.capIx ∧ o.ptrIx ≠ o.lenIx ∧ o.capIx ≠ o.lenIx := by
  cases o <;> simp [Order.ptrIx, Order.capIx, Order.lenIx]

theorem Order.ix_cover (o : Order) {W i : Nat} (h : i < 3 * W) :
    (o.ptrIx * W ≤ i ∧ i < o.ptrIx * W + W) ∨ (o.capIx * W ≤ i ∧ i < o.capIx * W + W) ∨
      (o.lenIx * W ≤ i ∧ i < o.lenIx * W + W) := by
  cases o <;> simp only [Order.ptrIx, Order.capIx, Order.lenIx] <;> omega

theorem readHeader_iff {A : Arch} {m : Mem} {o : Order} {a : Nat} {h : Header} :
    readHeader A m o a = some h ↔ readWord A m (a + o.ptrIx * A.ptrBytes) = some h.ptr ∧
      readWord A m (a + o.capIx * A.ptrBytes) = some h.cap ∧ readWord A m (a + o.lenIx * A.ptrBytes) = some h.len := by
  simp only [readHeader, Option.bind_eq_bind, Option.bind_eq_some_iff, Option.pure_def, Option.some.injEq]
  constructor
  · rintro ⟨p, h1, c, h2, l, h3, rfl⟩; exact ⟨h1, h2, h3⟩
  · rintro ⟨h1, h2, h3⟩; exact ⟨_, h1, _, h2, _, h3, rfl⟩

theorem readHeader_congr {A : Arch} {m m' : Mem} {o : Order} {a a' : Nat}
    (h : ∀ i < 3 * A.ptrBytes, m (a + i) = m' (a' + i)) : readHeader A m o a = readHeader A m' o a' := by
  have hw : ∀ x, x + A.ptrBytes ≤ 3 * A.ptrBytes → readWord A m (a + x) = readWord A m' (a' + x) := by
    intro x hx
    refine readWord_congr fun i hi => ?_
    rw [Nat.add_assoc, Nat.add_assoc]; exact h _ (by omega)
  obtain ⟨h1, h2, h3⟩ := o.ix_le A.ptrBytes
  unfold readHeader
  rw [hw _ h1, hw _ h2, hw _ h3]

theorem Header.Valid.bounds {A : Arch} {m : Mem} {o : Order} {a : Nat} {h : Header} (hr : readHeader A m o a = some h) :
    h.ptr < A.usizeMod ∧ h.cap < A.usizeMod ∧ h.len < A.usizeMod := by
  obtain ⟨h1, h2, h3⟩ := readHeader_iff.1 hr
  exact ⟨(readWord_some_iff.1 h1).1, (readWord_some_iff.1 h2).1, (readWord_some_iff.1 h3).1⟩

/-- The reference effect of correcting an empty header. -/
theorem fixEmpty_ideal {A : Arch} {va : Nat} {md : Mode} {im : Mem} {o : Order} {dangle ia op a : Nat} (hia : ia ≤ a) (m : Mem) (p : Nat) :
    (fixEmpty A o dangle a).ideal A va md im ia op (m, p) =
      (if md.fixup then (m.blit (outPos ia op a + o.capIx * A.ptrBytes) A.ptrBytes (wordCells A 0)).blit
        (outPos ia op a + o.ptrIx * A.ptrBytes) A.ptrBytes (wordCells A dangle) else m, p) := by
  have h1 : ∀ w, wordsCells A [w] = wordCells A w := fun w => (oneWord_eq A w).symm
  cases hf : md.fixup with
  | false => cases o <;> simp [fixEmpty, Script.words, Script.ideal, Mode.putValue, hf]
  | true =>
    cases o <;>
      simp only [fixEmpty, Script.words, Script.ideal, Mode.putValue, hf, if_true, List.length_cons, List.length_nil, Nat.zero_add, Nat.one_mul,
        Order.ptrIx, Order.capIx, outPos_add hia, h1, Nat.zero_mul, Nat.add_zero, Nat.reduceAdd]
    · rw [blit_two, blit_comm (by omega)]
    · rw [blit_two]
    · rw [blit_two, blit_comm (by omega), show outPos ia op a + A.ptrBytes + A.ptrBytes = outPos ia op a + 2 * A.ptrBytes by omega]
    · rw [blit_two, show outPos ia op a + A.ptrBytes + A.ptrBytes = outPos ia op a + 2 * A.ptrBytes by omega]

/-! ### Rewritten words -/

/-- The copy at `q` (in `m'`) of the value of type `t` at `a` (in `im`) differs from it only inside rewritable words
which hold valid contents before and after. -/
def SlotOK (A : Arch) (P : Prog) (im m' : Mem) (t : TyId) (a q : Nat) : Prop :=
  ∀ i < (P.layout t).size, m' (q + i) = im (a + i) ∨
    ∃ k o, P.Slot A t k o ∧ o ≤ i ∧ i < o + A.ptrBytes ∧
      ∃ w w', readWord A im (a + o) = some w ∧ readWord A m' (q + o) = some w' ∧ k.valid A w ∧ k.valid A w'

theorem slot_in {A : Arch} {P : Prog} (hP : P.WF A) {t : TyId} {k : SlotKind} {o : Nat} (h : P.Slot A t k o) :
    o + A.ptrBytes ≤ (P.layout t).size := by
  induction h with
  | @box t u h1 _ => have := (hP t).2.2.2; simp only [h1] at this; rw [this]; simp
  | @vecPtr t u h1 _ => have := (hP t).2.2.2; simp only [h1] at this; rw [this]; exact ((P.vecOrder u).ix_le _).1
  | @vecCap t u h1 _ => have := (hP t).2.2.2; simp only [h1] at this; rw [this]; exact ((P.vecOrder u).ix_le _).2.1
  | @strPtr t h1 => have := (hP t).2.2.2; simp only [h1] at this; rw [this]; exact (P.stringOrder.ix_le _).1
  | @strCap t h1 => have := (hP t).2.2.2; simp only [h1] at this; rw [this]; exact (P.stringOrder.ix_le _).2.1
  | @bigPtr t u h1 => have := (hP t).2.2.2; simp only [h1] at this; rw [this.1]; exact ((P.vecOrder u).ix_le _).1
  | @bigCap t u h1 => have := (hP t).2.2.2; simp only [h1] at this; rw [this.1]; exact ((P.vecOrder u).ix_le _).2.1
  | @array t u n i k o h1 hi _ ih =>
    have := (hP t).2.2.2; simp only [h1] at this; rw [this.1]
    have := Nat.mul_le_mul_right (P.layout u).size (show i + 1 ≤ n from hi)
    rw [Nat.add_mul, Nat.one_mul] at this; omega
  | @field t fs f k o h1 hf _ ih =>
    have := (hP t).2.2.2; simp only [h1] at this
    have := this.inBounds f hf; omega
  | @variant t tag vs fs f k o h1 hv hf _ ih =>
    have := (hP t).2.2.2; simp only [h1] at this
    have := (this.1 fs hv).inBounds f hf; omega
  | @bigInt t u k o h1 _ ih =>
    have := (hP t).2.2.2; simp only [h1] at this
    obtain ⟨g1, _, g2⟩ := this
    rw [g1]; rw [g2] at ih
    have : P.bigIntDataOff A ≤ A.ptrBytes := by unfold Prog.bigIntDataOff; split <;> omega
    simp only at ih ⊢; omega

theorem SlotOK.congr {A : Arch} {P : Prog} (hP : P.WF A) {im m' m'' : Mem} {t : TyId} {a q q' : Nat}
    (h : SlotOK A P im m' t a q) (hm : ∀ i < (P.layout t).size, m'' (q' + i) = m' (q + i)) : SlotOK A P im m'' t a q' := by
  intro i hi
  rcases h i hi with h1 | ⟨k, o, h1, h2, h3, w, w', h4, h5, h6⟩
  · left; rw [hm i hi, h1]
  · right
    refine ⟨k, o, h1, h2, h3, w, w', h4, ?_, h6⟩
    rw [← h5]
    have := slot_in hP h1
    refine readWord_congr fun j hj => ?_
    rw [Nat.add_assoc, Nat.add_assoc]; exact hm _ (by omega)

theorem SlotOK.same {A : Arch} {P : Prog} {im m' : Mem} {t : TyId} {a q : Nat}
    (h : ∀ i < (P.layout t).size, m' (q + i) = im (a + i)) : SlotOK A P im m' t a q := fun i hi => Or.inl (h i hi)

/-- Rewriting such words does not change which variant an enum is in. -/
theorem tag_same {A : Arch} {P : Prog} {im m' : Mem} {t : TyId} {a q : Nat} {tag : Tag}
    (hw : TagWF A P t (P.layout t).size tag) (h : SlotOK A P im m' t a q) :
    activeVariant A m' q tag = activeVariant A im a tag := by
  cases tag with
  | single => rfl
  | bytes off len sel =>
    simp only [activeVariant]
    rw [readBytes_congr (m' := im) (a' := a + off)]
    intro i hi
    obtain ⟨h1, h2⟩ := hw
    rw [Nat.add_assoc, Nat.add_assoc]
    rcases h (off + i) (by omega) with h3 | ⟨k, o, h3, h4, h5, _⟩
    · exact h3
    · have := h2 k o h3; unfold DisjRange at this; omega
  | word off sel =>
    simp only [activeVariant]
    obtain ⟨h1, h2⟩ := hw
    by_cases hall : ∀ i < A.ptrBytes, m' (q + off + i) = im (a + off + i)
    · rw [readWord_congr hall]
    · obtain ⟨i, hi, hne⟩ : ∃ i, i < A.ptrBytes ∧ m' (q + off + i) ≠ im (a + off + i) := by
        by_contra hcon
        apply hall
        intro i hi
        by_contra hne
        exact hcon ⟨i, hi, hne⟩
      rcases h (off + i) (by omega) with h3 | ⟨k, o, h3, h4, h5, w, w', r1, r2, v1, v2⟩
      · rw [← Nat.add_assoc, ← Nat.add_assoc] at h3; exact absurd h3 hne
      · rcases h2 k o h3 with hd | ⟨rfl, hs⟩
        · unfold DisjRange at hd; omega
        · rw [r1, r2]; simp only [Option.bind_some]; exact hs _ _ v2 v1

/-- A rewritten header. -/
theorem slotOK_header {A : Arch} {im m' : Mem} {a q : Nat} {o : Order} {h h' : Header}
    (hr : readHeader A im o a = some h) (hr' : readHeader A m' o q = some h') (hlen : h'.len = h.len)
    (hp : h.ptr ≠ 0) (hp' : h'.ptr ≠ 0) (hc : h.cap ≤ A.isizeMax) (hc' : h'.cap ≤ A.isizeMax) :
    ∀ i < 3 * A.ptrBytes, m' (q + i) = im (a + i) ∨
      ∃ k x, ((k = SlotKind.ptr ∧ x = o.ptrIx * A.ptrBytes) ∨ (k = SlotKind.cap ∧ x = o.capIx * A.ptrBytes)) ∧ x ≤ i ∧ i < x + A.ptrBytes ∧
        ∃ w w', readWord A im (a + x) = some w ∧ readWord A m' (q + x) = some w' ∧ k.valid A w ∧ k.valid A w' := by
  obtain ⟨r1, r2, r3⟩ := readHeader_iff.1 hr
  obtain ⟨s1, s2, s3⟩ := readHeader_iff.1 hr'
  intro i hi
  rcases o.ix_cover hi with hx | hx | hx
  · exact Or.inr ⟨.ptr, _, Or.inl ⟨rfl, rfl⟩, hx.1, hx.2, _, _, r1, s1, hp, hp'⟩
  · exact Or.inr ⟨.cap, _, Or.inr ⟨rfl, rfl⟩, hx.1, hx.2, _, _, r2, s2, hc, hc'⟩
  · left
    rw [hlen] at s3
    have e1 := (readWord_some_iff.1 r3).2 (i - o.lenIx * A.ptrBytes) (by omega)
    have e2 := (readWord_some_iff.1 s3).2 (i - o.lenIx * A.ptrBytes) (by omega)
    rw [show q + o.lenIx * A.ptrBytes + (i - o.lenIx * A.ptrBytes) = q + i by omega] at e2
    rw [show a + o.lenIx * A.ptrBytes + (i - o.lenIx * A.ptrBytes) = a + i by omega] at e1
    rw [e1, e2]

theorem cap_le_isize {A : Arch} {fl : Flags} {L : Layout} {h : Header} (hz : L.size ≠ 0) (hv : h.Valid A fl L) : h.cap ≤ A.isizeMax := by
  have h1 := (hv.2.2 hz).2.1
  have := Nat.mul_le_mul_left h.cap (show 1 ≤ L.size by omega)
  omega

/-! ### Reference output of a header -/

theorem head_ideal {C : Cfg} {va : Nat} (hva : 0 < va) (hW : 0 < C.arch.ptrBytes) {fl : Flags} {md : Mode} {D : Nat} (hD : md.ptrBase = some D)
    {L : Layout} (hz : L.size ≠ 0) (hal : Pow2 L.align) (hDal : L.align ∣ D) {im : Mem} {o : Order} {ia op a p : Nat} {m : Mem} {h : Header}
    (hh : readHeader C.arch im o a = some h) (hv : h.Valid C.arch fl L) (hia : ia ≤ a)
    (hq : outPos ia op a + 3 * C.arch.ptrBytes ≤ p)
    (hm : ∀ i < 3 * C.arch.ptrBytes, m (outPos ia op a + i) = im (a + i))
    {inner : Script} {c' : Ctx} (hin : h.len ≠ 0 → inner.WF C c') {st : Mem × Nat}
    (hst : (headScript C.arch o L.align a h
      (.pushProcess L h.len h.ptr (a + o.ptrIx * C.arch.ptrBytes) inner .done)).ideal C.arch va md im ia op (m, p) = st)
    (hb : D + st.2 < C.arch.usizeMod) :
    p ≤ st.2 ∧ ∃ h', readHeader C.arch st.1 o (outPos ia op a) = some h' ∧ h'.Valid C.arch ⟨fl.canon, md.fixup⟩ L ∧ h'.len = h.len ∧
      (h.len ≠ 0 → ∃ m2, h'.ptr = D + roundUp p L.align ∧
        st = inner.ideal C.arch va md im h.ptr (roundUp p L.align) (m2, roundUp (roundUp p L.align + L.size * h.len) va) ∧
        ∀ i < L.size * h.len, m2 (roundUp p L.align + i) = im (h.ptr + i)) := by
  obtain ⟨i1, i2, i3⟩ := o.ix_le C.arch.ptrBytes
  obtain ⟨n1, n2, n3⟩ := o.ix_ne
  have d1 := ix_disj C.arch.ptrBytes n1
  have d2 := ix_disj C.arch.ptrBytes n2
  have d3 := ix_disj C.arch.ptrBytes n3
  have hmh : readHeader C.arch m o (outPos ia op a) = some h := by rw [← hh]; exact readHeader_congr hm
  obtain ⟨r1, r2, r3⟩ := readHeader_iff.1 hmh
  obtain ⟨b1, b2, b3⟩ := Header.Valid.bounds hh
  obtain ⟨v1, v2, v3⟩ := hv
  obtain ⟨v4, v5, v6, v7, v8⟩ := v3 hz
  unfold headScript at hst
  by_cases hl : h.len = 0
  · rw [if_pos hl] at hst
    by_cases hc : h.cap = 0
    · rw [if_neg (by simp [hc])] at hst
      simp only [Script.ideal] at hst
      subst hst
      refine ⟨Nat.le_refl _, h, hmh, ⟨v1, v2, fun _ => ⟨v4, v5, v6, v7, fun _ => by omega⟩⟩, rfl, fun h0 => absurd hl h0⟩
    · rw [if_pos hc, fixEmpty_ideal hia] at hst
      subst hst
      refine ⟨Nat.le_refl _, ?_⟩
      cases hf : md.fixup with
      | false =>
        simp only [Bool.false_eq_true, if_false]
        exact ⟨h, hmh, ⟨v1, v2, fun _ => ⟨v4, v5, v6, v7, fun h0 => by cases h0⟩⟩, rfl, fun h0 => absurd hl h0⟩
      | true =>
        simp only [if_true]
        have hlt : L.align < C.arch.usizeMod := by
          have := Nat.le_of_dvd (by omega) (Nat.dvd_of_mod_eq_zero v2); omega
        refine ⟨⟨L.align, 0, h.len⟩, readHeader_iff.2 ⟨?_, ?_, ?_⟩, ⟨?_, ?_, fun _ => ⟨?_, ?_, ?_, ?_, ?_⟩⟩, rfl, fun h0 => absurd hl h0⟩
        · rw [readWord_blit_same, Nat.mod_eq_of_lt hlt]
        · rw [readWord_blit_disj (by omega), readWord_blit_same, Nat.mod_eq_of_lt (usizeMod_pos _)]
        · rw [readWord_blit_disj (by omega), readWord_blit_disj (by omega)]; exact r3
        · have := hal.pos; simp only; omega
        · simp
        · simp only; omega
        · simp
        · simp only [hl, Nat.zero_mul, Nat.add_zero]; exact hlt
        · intros; rfl
        · intros; simp only; omega
  · rw [if_neg hl] at hst
    have hin := hin hl
    have hlo := le_roundUp p hal.pos
    have hro := le_roundUp (roundUp p L.align + L.size * h.len) hva
    -- contents before the push
    obtain ⟨m0, hst0, hm0⟩ : ∃ m0, (Script.pushProcess L h.len h.ptr (a + o.ptrIx * C.arch.ptrBytes) inner .done).ideal C.arch va md im ia op (m0, p) = st ∧
        readHeader C.arch m0 o (outPos ia op a) = some ⟨h.ptr, if md.fixup then h.len else h.cap, h.len⟩ := by
      by_cases hc : h.cap = h.len
      · rw [if_neg (by simp [hc])] at hst
        refine ⟨m, hst, ?_⟩
        rw [hmh, hc]
        have : h = ⟨h.ptr, h.len, h.len⟩ := by cases h; simp only at hc; subst hc; rfl
        split <;> exact congrArg some this
      · rw [if_pos hc] at hst
        refine ⟨_, hst, ?_⟩
        rw [outPos_add hia]
        unfold Mode.putValue
        cases hf : md.fixup with
        | false => simp only [Bool.false_eq_true, if_false]; exact hmh
        | true =>
          simp only [if_true, List.length_singleton, Nat.one_mul, ← oneWord_eq]
          refine readHeader_iff.2 ⟨?_, ?_, ?_⟩
          · rw [readWord_blit_disj (by omega)]; exact r1
          · rw [readWord_blit_same, Nat.mod_eq_of_lt b3]
          · rw [readWord_blit_disj (by omega)]; exact r3
    obtain ⟨q1, q2, q3⟩ := readHeader_iff.1 hm0
    simp only at q1 q2 q3
    simp only [Script.ideal, outPos_add hia] at hst0
    subst hst0
    have hmono := ideal_mono (A := C.arch) (md := md) (im := im) hva inner hin h.ptr (roundUp p L.align)
      (md.putPtr C.arch (m0.blit (roundUp p L.align) (L.size * h.len) fun i => im (h.ptr + i))
        (outPos ia op a + o.ptrIx * C.arch.ptrBytes) (roundUp p L.align), roundUp (roundUp p L.align + L.size * h.len) va)
    simp only at hmono
    have hframe : ∀ i < roundUp p L.align, (inner.ideal C.arch va md im h.ptr (roundUp p L.align)
      (md.putPtr C.arch (m0.blit (roundUp p L.align) (L.size * h.len) fun i => im (h.ptr + i))
        (outPos ia op a + o.ptrIx * C.arch.ptrBytes) (roundUp p L.align), roundUp (roundUp p L.align + L.size * h.len) va)).1 i =
        (m0.blit (outPos ia op a + o.ptrIx * C.arch.ptrBytes) C.arch.ptrBytes (wordCells C.arch (D + roundUp p L.align))) i := by
      intro i hi
      rw [ideal_frame hva inner hin _ _ _ (by simp only; omega) ?_]
      · simp only [Mode.putPtr, hD]
        by_cases hx : outPos ia op a + o.ptrIx * C.arch.ptrBytes ≤ i ∧ i < outPos ia op a + o.ptrIx * C.arch.ptrBytes + C.arch.ptrBytes
        · rw [blit_in hx.1 hx.2, blit_in hx.1 hx.2]
        · rw [blit_out (by omega), blit_out (by omega), blit_out (by omega)]
      · intro t _; left
        have := outPos_ge h.ptr (roundUp p L.align) t.1; omega
    refine ⟨by omega, ⟨D + roundUp p L.align, if md.fixup then h.len else h.cap, h.len⟩, ?_, ⟨?_, ?_, fun _ => ⟨?_, ?_, ?_, ?_, ?_⟩⟩,
      rfl, fun _ => ⟨_, rfl, rfl, ?_⟩⟩
    · rw [readHeader_congr (m' := m0.blit (outPos ia op a + o.ptrIx * C.arch.ptrBytes) C.arch.ptrBytes
        (wordCells C.arch (D + roundUp p L.align))) (a' := outPos ia op a) (fun i hi => hframe _ (by omega))]
      refine readHeader_iff.2 ⟨?_, ?_, ?_⟩
      · rw [readWord_blit_same, Nat.mod_eq_of_lt (by omega)]
      · rw [readWord_blit_disj (by omega)]; exact q2
      · rw [readWord_blit_disj (by omega)]; exact q3
    · simp only; omega
    · simp only
      exact Nat.dvd_iff_mod_eq_zero.1 (Nat.dvd_add hDal (dvd_roundUp _ _))
    · simp only; split <;> omega
    · simp only; split
      · exact Nat.le_trans (Nat.mul_le_mul_right _ v4) v5
      · exact v5
    · simp only; rw [Nat.mul_comm]; omega
    · simp only; intro _ h0; split at h0 <;> omega
    · simp only; intro h0; rw [if_pos h0]
    · intro i hi
      simp only [Mode.putPtr, hD]
      rw [blit_out (by omega), blit_at hi]


/-! ### Main claim -/

section
variable {C : Cfg} {P : Prog} {im : Mem} {fl : Flags} {md : Mode} {va D : Nat}

/-- The reference output of a value (already copied to `q`), read back with addresses offset by `D`, is the value. -/
def DClaim (C : Cfg) (P : Prog) (im : Mem) (md : Mode) (va D : Nat)
    (rd : TyId → Nat → Option Val) (rc : TyId → Nat → Option Script) (rd' : Mem → TyId → Nat → Option Val)
    (ro : Mem → TyId → Nat → Option (List Own)) : Prop :=
  ∀ t a v sc c op m p m' p', rd t a = some v → rc t a = some sc → Placed c (P.layout t) a → op + c.sz ≤ p →
    (P.layout t).align ∣ outPos c.ia op a → (P.layout t).align ∣ D →
    (∀ i < (P.layout t).size, m (outPos c.ia op a + i) = im (a + i)) →
    sc.ideal C.arch va md im c.ia op (m, p) = (m', p') → D + p' < C.arch.usizeMod →
    SlotOK C.arch P im m' t a (outPos c.ia op a) ∧
    ∀ dm : Mem, (∀ i, (outPos c.ia op a ≤ i ∧ i < outPos c.ia op a + (P.layout t).size) ∨ (p ≤ i ∧ i < p') → dm (D + i) = m' i) →
      rd' dm t (D + outPos c.ia op a) = some v ∧
      ∃ as, ro dm t (D + outPos c.ia op a) = some as ∧ OwnOut C.arch va D c.ia op p sc as

theorem scriptEach_decode (hva : 0 < va) (hP : P.WF C.arch)
    {rd : TyId → Nat → Option Val} {rc : TyId → Nat → Option Script} {rd' : Mem → TyId → Nat → Option Val}
    {ro : Mem → TyId → Nat → Option (List Own)}
    (hwf : WFClaim C P rd rc) (hrec : DClaim C P im md va D rd rc rd' ro)
    {c : Ctx} {L : Layout} {a op : Nat} (hp : Placed c L a) {fs : List Field} (hf : FieldsWF P L fs) {vs : List Val} {sc : Script}
    (hd : decodeEach rd a fs = some vs) (hs : scriptEach rc a fs = some sc) {m m' : Mem} {p p' : Nat} (hop : op + c.sz ≤ p)
    (hq : L.align ∣ outPos c.ia op a) (hD : L.align ∣ D)
    (hm : ∀ f ∈ fs, ∀ i < (P.layout f.2).size, m (outPos c.ia op a + f.1 + i) = im (a + f.1 + i))
    (hi : sc.ideal C.arch va md im c.ia op (m, p) = (m', p')) (hb : D + p' < C.arch.usizeMod) :
    (∀ f ∈ fs, SlotOK C.arch P im m' f.2 (a + f.1) (outPos c.ia op a + f.1)) ∧
    (∀ i < p, (∀ f ∈ fs, i < outPos c.ia op a + f.1 ∨ outPos c.ia op a + f.1 + (P.layout f.2).size ≤ i) → m' i = m i) ∧
    ∀ dm : Mem, (∀ i, (∃ f ∈ fs, outPos c.ia op a + f.1 ≤ i ∧ i < outPos c.ia op a + f.1 + (P.layout f.2).size) ∨
        (p ≤ i ∧ i < p') → dm (D + i) = m' i) →
      decodeEach (rd' dm) (D + outPos c.ia op a) fs = some vs ∧
      ∃ as, ownEach (ro dm) (D + outPos c.ia op a) fs = some as ∧ OwnOut C.arch va D c.ia op p sc as := by
  induction fs generalizing vs sc m p m' p' with
  | nil =>
    simp only [scriptEach, Option.some.injEq] at hs; subst hs
    simp only [Script.ideal, Prod.mk.injEq] at hi
    obtain ⟨rfl, rfl⟩ := hi
    exact ⟨by simp, fun i _ _ => rfl, fun dm _ => ⟨hd, [], rfl, OwnOut.nil _ _ _ _ _ _⟩⟩
  | cons f fs ih =>
    have hlo := hp.lo; have hhi := hp.hi
    have hinF := hf.inBounds f (by simp)
    have hf' : FieldsWF P L fs := ⟨fun g hg => hf.inBounds g (by simp [hg]), fun g hg => hf.aligned g (by simp [hg]),
      fun g hg => hf.alignLe g (by simp [hg]), (List.pairwise_cons.1 hf.disjoint).2⟩
    have hdj := (List.pairwise_cons.1 hf.disjoint).1
    simp only [decodeEach, Option.bind_eq_bind, Option.bind_eq_some_iff, Option.pure_def, Option.some.injEq] at hd
    simp only [scriptEach, Option.bind_eq_bind, Option.bind_eq_some_iff, Option.pure_def, Option.some.injEq] at hs
    obtain ⟨v, d1, ws, d2, rfl⟩ := hd
    obtain ⟨s1, e1, s2, e2, rfl⟩ := hs
    have hpF : Placed c (P.layout f.2) (a + f.1) := ⟨by omega, by omega, Nat.dvd_trans (hf.alignLe f (by simp)) hp.al, hp.ia⟩
    obtain ⟨w1, t1⟩ := hwf _ _ _ _ c d1 e1 hpF
    obtain ⟨w2, t2⟩ := scriptEach_wf hwf hp hf' d2 e2
    rw [ideal_app] at hi
    obtain ⟨m1, p1, hs1⟩ : ∃ m1 p1, s1.ideal C.arch va md im c.ia op (m, p) = (m1, p1) := ⟨_, _, rfl⟩
    rw [hs1] at hi
    have mono1 : p ≤ p1 := by have := ideal_mono (A := C.arch) (md := md) (im := im) hva s1 w1 c.ia op (m, p); rw [hs1] at this; exact this
    have mono2 : p1 ≤ p' := by have := ideal_mono (A := C.arch) (md := md) (im := im) hva s2 w2 c.ia op (m1, p1); rw [hi] at this; exact this
    have hQ := outPos_add (op := op) hlo
    have hq1 : outPos c.ia op a + L.size ≤ p := by unfold outPos; omega
    -- frames
    have fr1 : ∀ i < p, (i < outPos c.ia op a + f.1 ∨ outPos c.ia op a + f.1 + (P.layout f.2).size ≤ i) → m1 i = m i := by
      intro i hip hif
      have := ideal_frame (md := md) (im := im) hva s1 w1 c.ia op (m, p) (i := i) hip ?_
      · rw [hs1] at this; exact this
      · intro t ht
        obtain ⟨x1, x2⟩ := t1 t ht
        have : t.1 = a + (t.1 - a) := by omega
        rw [this, hQ]; omega
    have fr2 : ∀ i < p1, (∀ g ∈ fs, i < outPos c.ia op a + g.1 ∨ outPos c.ia op a + g.1 + (P.layout g.2).size ≤ i) → m' i = m1 i := by
      intro i hip hif
      have := ideal_frame (md := md) (im := im) hva s2 w2 c.ia op (m1, p1) (i := i) hip ?_
      · rw [hi] at this; exact this
      · intro t ht
        obtain ⟨g, hg, x1, x2⟩ := t2 t ht
        have := hif g hg
        have : t.1 = a + (t.1 - a) := by omega
        rw [this, hQ]; omega
    have hgin : ∀ g ∈ fs, g.1 + (P.layout g.2).size ≤ L.size := hf'.inBounds
    obtain ⟨r1, r2⟩ := hrec _ _ _ _ c op m p m1 p1 d1 e1 hpF hop (by
      rw [hQ]; exact Nat.dvd_add (Nat.dvd_trans (hf.alignLe f (by simp)) hq) (hf.aligned f (by simp)))
      (Nat.dvd_trans (hf.alignLe f (by simp)) hD) (by rw [hQ]; exact hm f (by simp)) hs1 (by omega)
    rw [hQ] at r1 r2
    obtain ⟨r3, r4, r5⟩ := ih hf' d2 e2 (m := m1) (p := p1) (by omega) (by
      intro g hg i hii
      rw [fr1 _ (by have := hgin g hg; omega) (by have := hdj g hg; unfold DisjRange at this; omega)]
      exact hm g (by simp [hg]) i hii) hi hb
    refine ⟨?_, ?_, ?_⟩
    · intro g hg
      rcases List.mem_cons.1 hg with rfl | hg
      · refine SlotOK.congr hP r1 fun i hii => fr2 _ (by omega) fun g hg => ?_
        have := hdj g hg; unfold DisjRange at this; omega
      · exact r3 g hg
    · intro i hip hall
      rw [r4 i (by omega) fun g hg => hall g (by simp [hg]), fr1 i hip (hall f (by simp))]
    · intro dm hdm
      obtain ⟨e1, x, x1, x2⟩ : rd' dm f.2 (D + outPos c.ia op a + f.1) = some v ∧
          ∃ as, ro dm f.2 (D + outPos c.ia op a + f.1) = some as ∧ OwnOut C.arch va D c.ia op p s1 as := by
        rw [Nat.add_assoc]
        refine r2 dm fun i hii => ?_
        rw [← fr2 i (by omega) fun g hg => ?_]
        · refine hdm i ?_
          rcases hii with hii | hii
          · exact Or.inl ⟨f, by simp, hii⟩
          · exact Or.inr (by omega)
        · have := hdj g hg; have := hgin g hg; unfold DisjRange at *; omega
      obtain ⟨e2, y, y1, y2⟩ := r5 dm (by
        intro i hii
        refine hdm i ?_
        rcases hii with ⟨g, hg, hii⟩ | hii
        · exact Or.inl ⟨g, by simp [hg], hii⟩
        · exact Or.inr (by omega))
      refine ⟨by simp only [decodeEach, e1, e2, Option.bind_eq_bind, Option.bind_some, Option.pure_def], x ++ y, ?_, ?_⟩
      · simp only [ownEach, x1, y1, Option.bind_eq_bind, Option.bind_some, Option.pure_def]
      · have := ideal_end (A := C.arch) (va := va) (md := md) (im := im) s1 c.ia op (m, p)
        rw [hs1] at this
        exact x2.append this y2


theorem readHeader_of_agree {A : Arch} {m dm : Mem} {o : Order} {q D p p' : Nat} {h : Header}
    (hr : readHeader A m o q = some h)
    (hdm : ∀ i, (q ≤ i ∧ i < q + 3 * A.ptrBytes) ∨ (p ≤ i ∧ i < p') → dm (D + i) = m i) :
    readHeader A dm o (D + q) = some h := by
  rw [← hr]
  refine readHeader_congr fun i hi => ?_
  rw [Nat.add_assoc]; exact hdm _ (Or.inl (by omega))

theorem valid_zst {A : Arch} {fl fl' : Flags} {L : Layout} {h : Header} (hz : L.size = 0) (hv : h.Valid A fl L) : h.Valid A fl' L :=
  ⟨hv.1, hv.2.1, fun h0 => absurd hz h0⟩

theorem scriptVec_decode (hva : 0 < va) (hW : 0 < C.arch.ptrBytes) (hP : P.WF C.arch) (hacc : P.Accepted C) (hD : md.ptrBase = some D)
    (hDal : ∀ u, (P.layout u).size ≠ 0 → (P.layout u).align ∣ D) {n : Nat}
    (hrec : DClaim C P im md va D (decode C.arch P fl im n) (script C.arch P im n)
      (fun dm => decode C.arch P ⟨fl.canon, md.fixup⟩ dm n) (fun dm => owned C.arch P dm n))
    {c : Ctx} {u : TyId} {a op : Nat} {v : Val} {sc : Script} (hp : Placed c ⟨3 * C.arch.ptrBytes, C.arch.ptrBytes⟩ a)
    (hd : decodeVec C.arch P fl im (decode C.arch P fl im n) u a = some v)
    (hs : scriptVec C.arch P im (script C.arch P im n) u a = some sc)
    {m m' : Mem} {p p' : Nat} (hop : op + c.sz ≤ p)
    (hm : ∀ i < 3 * C.arch.ptrBytes, m (outPos c.ia op a + i) = im (a + i))
    (hi : sc.ideal C.arch va md im c.ia op (m, p) = (m', p')) (hb : D + p' < C.arch.usizeMod) :
    (∀ i < 3 * C.arch.ptrBytes, m' (outPos c.ia op a + i) = im (a + i) ∨ (P.layout u).size ≠ 0 ∧
      ∃ k x, ((k = SlotKind.ptr ∧ x = (P.vecOrder u).ptrIx * C.arch.ptrBytes) ∨ (k = SlotKind.cap ∧ x = (P.vecOrder u).capIx * C.arch.ptrBytes)) ∧
        x ≤ i ∧ i < x + C.arch.ptrBytes ∧
        ∃ w w', readWord C.arch im (a + x) = some w ∧ readWord C.arch m' (outPos c.ia op a + x) = some w' ∧ k.valid C.arch w ∧ k.valid C.arch w') ∧
    ∀ dm : Mem, (∀ i, (outPos c.ia op a ≤ i ∧ i < outPos c.ia op a + 3 * C.arch.ptrBytes) ∨ (p ≤ i ∧ i < p') → dm (D + i) = m' i) →
      decodeVec C.arch P ⟨fl.canon, md.fixup⟩ dm (decode C.arch P ⟨fl.canon, md.fixup⟩ dm n) u (D + outPos c.ia op a) = some v ∧
      ∃ as, ownVec C.arch P dm (owned C.arch P dm n) u (D + outPos c.ia op a) = some as ∧ OwnOut C.arch va D c.ia op p sc as := by
  simp only [decodeVec, Option.bind_eq_bind, Option.bind_eq_some_iff, Option.pure_def, Option.some.injEq,
    Option.ite_none_right_eq_some] at hd ⊢
  obtain ⟨h, h1, hval, vs, h2, rfl⟩ := hd
  unfold scriptVec at hs
  have hlo := hp.lo; have hhi := hp.hi
  have hq1 : outPos c.ia op a + 3 * C.arch.ptrBytes ≤ p := by simp only at hhi; unfold outPos; omega
  split at hs
  · rename_i hz
    simp only [Option.some.injEq] at hs; subst hs
    simp only [Script.ideal, Prod.mk.injEq] at hi
    obtain ⟨rfl, rfl⟩ := hi
    refine ⟨fun i hi => Or.inl (hm i hi), fun dm hdm => ?_⟩
    have hr : readHeader C.arch m (P.vecOrder u) (outPos c.ia op a) = some h := by rw [← h1]; exact readHeader_congr hm
    refine ⟨⟨h, readHeader_of_agree hr hdm, valid_zst hz hval, vs, ?_, rfl⟩, [], by rw [ownVec, if_pos hz], OwnOut.nil _ _ _ _ _ _⟩
    rw [← h2]
    refine decodeEach_congr fun f hf => ?_
    obtain ⟨i, _, rfl⟩ := mem_elems.1 hf
    exact decode_zst hW hP hz
  · rename_i hz
    simp only [Option.bind_eq_bind, Option.bind_eq_some_iff, Option.pure_def, Option.some.injEq] at hs
    obtain ⟨h', h1', inner, e1, rfl⟩ := hs
    rw [h1] at h1'; obtain rfl := Option.some.inj h1'
    have hpal := (hP u).1
    have hinwf : inner.WF C ⟨h.ptr, (P.layout u).size * h.len, (P.layout u).align⟩ :=
      (scriptEach_wf (L := ⟨h.len * (P.layout u).size, (P.layout u).align⟩) (script_wf hW hP hacc n)
        ⟨Nat.le_refl _, by simp only; rw [Nat.mul_comm], Nat.dvd_refl _, Nat.dvd_of_mod_eq_zero hval.2.1⟩ (elems_wf hP u h.len) h2 e1).1
    obtain ⟨g1, h', g2, g3, g4, g5⟩ := head_ideal hva hW hD hz hpal (hDal u hz) h1 hval hlo hq1 hm (fun _ => hinwf) hi hb
    refine ⟨?_, ?_⟩
    · intro i hii
      rcases slotOK_header h1 g2 g4 hval.1 g3.1 (cap_le_isize hz hval) (cap_le_isize hz g3) i hii with hx | hx
      · exact Or.inl hx
      · exact Or.inr ⟨hz, hx⟩
    · intro dm hdm
      have hrd := readHeader_of_agree g2 hdm
      by_cases hl : h.len = 0
      · refine ⟨⟨h', hrd, g3, vs, ?_, rfl⟩, [], ?_, OwnOut.empty (by rw [headScript_pushes, if_pos hl]) (by rw [headScript_slotsAt, if_pos hl])⟩
        · rw [g4, hl]; rw [hl] at h2; exact h2
        · rw [ownVec, if_neg hz, hrd]; simp [g4, hl]
      · obtain ⟨m2, g6, g7, g8⟩ := g5 hl
        have hlop := le_roundUp p (show 0 < (P.layout u).align from Pow2.pos hpal)
        have hrop := le_roundUp (roundUp p (P.layout u).align + (P.layout u).size * h.len) hva
        have hmono := ideal_mono (A := C.arch) (md := md) (im := im) hva inner hinwf h.ptr (roundUp p (P.layout u).align)
          (m2, roundUp (roundUp p (P.layout u).align + (P.layout u).size * h.len) va)
        rw [← g7] at hmono
        simp only at hmono
        have hself : outPos h.ptr (roundUp p (P.layout u).align) h.ptr = roundUp p (P.layout u).align := by simp [outPos]
        obtain ⟨_, _, r3⟩ := scriptEach_decode (c := ⟨h.ptr, (P.layout u).size * h.len, (P.layout u).align⟩)
          (L := ⟨h.len * (P.layout u).size, (P.layout u).align⟩) (a := h.ptr) (op := roundUp p (P.layout u).align)
          hva hP (script_wf hW hP hacc n) hrec
          ⟨Nat.le_refl _, by simp only; rw [Nat.mul_comm], Nat.dvd_refl _, Nat.dvd_of_mod_eq_zero hval.2.1⟩ (elems_wf hP u h.len) h2 e1
          hrop (by simp only [hself]; exact dvd_roundUp _ _) (hDal u hz) (by
            intro f hf i hii
            have := (elems_wf hP u h.len).inBounds f hf
            simp only at this
            have hc := Nat.mul_comm (P.layout u).size h.len
            simp only [hself]
            rw [Nat.add_assoc, Nat.add_assoc]; exact g8 _ (by omega)) g7.symm hb
        simp only [hself] at r3
        obtain ⟨d1, x, x1, x2⟩ := r3 dm (by
          intro i hii
          refine hdm i (Or.inr ?_)
          rcases hii with ⟨f, hf, hx⟩ | hx
          · have := (elems_wf hP u h.len).inBounds f hf
            simp only at this
            have hc := Nat.mul_comm (P.layout u).size h.len
            omega
          · omega)
        refine ⟨⟨h', hrd, g3, vs, by rw [g6, g4]; exact d1, rfl⟩, _, ?_,
          OwnOut.cons (slot := D + outPos c.ia op a + (P.vecOrder u).ptrIx * C.arch.ptrBytes) ?_ x2 ?_
            (by simp [headScript_slotsAt, hl, Script.slotsAt]; rfl) (by rw [outPos_add hlo, Nat.add_assoc])⟩
        · rw [ownVec, if_neg hz, hrd]
          simp only [Option.bind_eq_bind, Option.bind_some, g4, if_neg hl, g6, x1, Option.pure_def]
        · simp [Script.shapes, headScript_pushes, hl, Script.pushes]
        · have := ((P.vecOrder u).ix_le C.arch.ptrBytes).1
          omega

theorem headScript_push {A : Arch} {o : Order} {dangle a : Nat} {h : Header} {L : Layout} {len src ptr ia op : Nat} {st : Mem × Nat} :
    (headScript A o dangle a h (.push L len src ptr .done)).ideal A va md im ia op st =
    (headScript A o dangle a h (.pushProcess L len src ptr .done .done)).ideal A va md im ia op st := by
  unfold headScript; split <;> [rfl; (split <;> rfl)]

theorem script_decode (hva : 0 < va) (hW : 0 < C.arch.ptrBytes) (hP : P.WF C.arch) (hacc : P.Accepted C) (hD : md.ptrBase = some D)
    (hDal : ∀ u, (P.layout u).size ≠ 0 → (P.layout u).align ∣ D) (n : Nat) :
    DClaim C P im md va D (decode C.arch P fl im n) (script C.arch P im n)
      (fun dm => decode C.arch P ⟨fl.canon, md.fixup⟩ dm n) (fun dm => owned C.arch P dm n) := by
  induction n with
  | zero => intro t a v sc c op m p m' p' hd; simp [decode] at hd
  | succ n ih =>
    intro t a v sc c op m p m' p' hd hs hp hop hqal hDt hm hi hb
    have hw := hP t
    unfold TyWF at hw
    obtain ⟨_, _, _, hw⟩ := hw
    have hwf := (script_wf hW hP hacc (n + 1)) t a v sc c hd hs hp
    have hmono := ideal_mono (A := C.arch) (md := md) (im := im) hva sc hwf.1 c.ia op (m, p)
    rw [hi] at hmono; simp only at hmono
    have hlo := hp.lo; have hhi := hp.hi
    have hqs : outPos c.ia op a + (P.layout t).size ≤ p := by unfold outPos; omega
    have hguard : (D + outPos c.ia op a) % (P.layout t).align = 0 ∧ D + outPos c.ia op a + (P.layout t).size < C.arch.usizeMod :=
      ⟨Nat.dvd_iff_mod_eq_zero.1 (Nat.dvd_add hDt hqal), by omega⟩
    have hagree : ∀ {dm : Mem}, (∀ i, (outPos c.ia op a ≤ i ∧ i < outPos c.ia op a + (P.layout t).size) ∨ (p ≤ i ∧ i < p') → dm (D + i) = m' i) →
        ∀ i < (P.layout t).size, dm (D + outPos c.ia op a + i) = m' (outPos c.ia op a + i) := by
      intro dm hdm i hii; rw [Nat.add_assoc]; exact hdm _ (Or.inl (by omega))
    rw [script] at hs
    rw [decode] at hd
    split at hd
    case isFalse => cases hd
    simp only [decode, if_pos hguard, owned]
    cases hdef : P.defn t <;> simp only [hdef] at hd hw hs ⊢
    case prim =>
      simp only [Option.some.injEq] at hs; subst hs
      simp only [Script.ideal, Prod.mk.injEq] at hi
      obtain ⟨rfl, rfl⟩ := hi
      refine ⟨SlotOK.same hm, fun dm hdm => ⟨?_, [], rfl, OwnOut.nil _ _ _ _ _ _⟩⟩
      rw [← hd, readBytes_congr (m' := im) (a' := a)]
      intro i hii; rw [hagree hdm i hii, hm i hii]
    case box u =>
      simp only [Option.bind_eq_bind, Option.bind_eq_some_iff, Option.pure_def, Option.some.injEq,
        Option.ite_none_right_eq_some] at hd ⊢
      obtain ⟨x, h1, h2, v', h3, rfl⟩ := hd
      rw [hw] at hm hqs hagree ⊢
      simp only at hm hqs hagree ⊢
      split at hs
      · rename_i hz
        simp only [Option.some.injEq] at hs; subst hs
        simp only [Script.ideal, Prod.mk.injEq] at hi
        obtain ⟨rfl, rfl⟩ := hi
        refine ⟨SlotOK.same (by rw [hw]; exact hm), fun dm hdm => ⟨⟨x, ?_, h2, v', ?_, rfl⟩, [], by rw [if_pos hz], OwnOut.nil _ _ _ _ _ _⟩⟩
        · rw [← h1]; refine readWord_congr fun i hii => ?_
          rw [hagree hdm i hii, hm i hii]
        · rw [← h3]; exact decode_zst hW hP hz
      · rename_i hz
        simp only [Option.bind_eq_bind, Option.bind_eq_some_iff, Option.pure_def, Option.some.injEq] at hs
        obtain ⟨x', h1', inner, e1, rfl⟩ := hs
        rw [h1] at h1'; obtain rfl := Option.some.inj h1'
        obtain ⟨g1, g2⟩ := decode_guard h3
        have hpal := (hP u).1
        have hpx : Placed ⟨x, (P.layout u).size * 1, (P.layout u).align⟩ (P.layout u) x := ⟨Nat.le_refl _, by simp, Nat.dvd_refl _, g1⟩
        obtain ⟨w1, _⟩ := script_wf hW hP hacc n _ _ _ _ _ h3 e1 hpx
        have hlop := le_roundUp p (show 0 < (P.layout u).align from Pow2.pos hpal)
        have hrop := le_roundUp (roundUp p (P.layout u).align + (P.layout u).size * 1) hva
        simp only [Script.ideal, Mode.putPtr, hD] at hi
        have hmono2 := ideal_mono (A := C.arch) (md := md) (im := im) hva inner w1 x (roundUp p (P.layout u).align) (_, _) |>.trans_eq (congrArg Prod.snd hi)
        simp only at hmono2
        have hself : outPos x (roundUp p (P.layout u).align) x = roundUp p (P.layout u).align := by simp [outPos]
        obtain ⟨r1, r2⟩ := ih _ _ _ _ ⟨x, (P.layout u).size * 1, (P.layout u).align⟩ (roundUp p (P.layout u).align) _ _ _ _ h3 e1 hpx
          hrop (by simp only [hself]; exact dvd_roundUp _ _) (hDal u hz) (by
            intro i hii
            simp only [hself]
            rw [blit_out (by omega), blit_at (by omega)]) hi hb
        simp only [hself] at r1 r2
        have hword : readWord C.arch m' (outPos c.ia op a) = some (D + roundUp p (P.layout u).align) := by
          have hfr : ∀ i < C.arch.ptrBytes, m' (outPos c.ia op a + i) = wordCells C.arch (D + roundUp p (P.layout u).align) i := by
            intro i hii
            have := ideal_frame (md := md) (im := im) hva inner w1 x (roundUp p (P.layout u).align) (_, _) (i := outPos c.ia op a + i)
              (by simp only; exact Nat.lt_of_lt_of_le (by omega) hrop) (by
                intro t _; left
                have := outPos_ge x (roundUp p (P.layout u).align) t.1; omega) |>.symm.trans (congrFun (congrArg Prod.fst hi) _)
            simp only at this
            rw [← this, blit_at hii]
          rw [show readWord C.arch m' (outPos c.ia op a) = readWord C.arch (m.blit (outPos c.ia op a) C.arch.ptrBytes
            (wordCells C.arch (D + roundUp p (P.layout u).align))) (outPos c.ia op a) from
            readWord_congr fun i hii => by rw [hfr i hii, blit_at hii], readWord_blit_same, Nat.mod_eq_of_lt (by omega)]
        have hxne : D + roundUp p (P.layout u).align ≠ 0 := by omega
        refine ⟨?_, ?_⟩
        · intro i hii
          rw [hw] at hii
          exact Or.inr ⟨.ptr, 0, .box hdef hz, Nat.zero_le _, by simpa using hii, x, _, h1, hword, h2, hxne⟩
        · intro dm hdm
          obtain ⟨d1, y, y1, y2⟩ := r2 dm fun i hii => hdm i (Or.inr (by omega))
          have hw' : readWord C.arch dm (D + outPos c.ia op a) = some (D + roundUp p (P.layout u).align) := by
            rw [← hword]; exact readWord_congr fun i hii => hagree hdm i hii
          refine ⟨⟨_, hw', hxne, v', d1, rfl⟩, _, ?_, OwnOut.cons (slot := D + outPos c.ia op a) ?_ y2 (by omega) (by simp [Script.slotsAt]) rfl⟩
          · rw [if_neg hz]; simp only [hw', y1, Option.bind_some]
          · simp [Script.shapes, Script.pushes]
    case vec u =>
      rw [hw] at hm hp ⊢
      obtain ⟨r1, r2⟩ := scriptVec_decode hva hW hP hacc hD hDal ih hp hd hs hop hm hi hb
      refine ⟨?_, r2⟩
      intro i hii
      rw [hw] at hii
      rcases r1 i hii with hx | ⟨hz, k, x, hk, h1, h2, h3⟩
      · exact Or.inl hx
      · refine Or.inr ⟨k, x, ?_, h1, h2, h3⟩
        rcases hk with ⟨rfl, rfl⟩ | ⟨rfl, rfl⟩
        · exact .vecPtr hdef hz
        · exact .vecCap hdef hz
    case string =>
      rw [hw] at hm hp hqs ⊢
      simp only [decodeStr, Option.bind_eq_bind, Option.bind_eq_some_iff, Option.pure_def, Option.some.injEq,
        Option.ite_none_right_eq_some] at hd hs ⊢
      obtain ⟨h, h1, hval, bs, h2, rfl⟩ := hd
      obtain ⟨h', h1', rfl⟩ := hs
      rw [h1] at h1'; obtain rfl := Option.some.inj h1'
      rw [headScript_push] at hi
      obtain ⟨g1, h', g2, g3, g4, g5⟩ := head_ideal (L := ⟨1, 1⟩) hva hW hD (by simp) ⟨0, rfl⟩ (Nat.one_dvd _) h1 hval hlo hqs hm
        (inner := .done) (c' := c) (fun _ => trivial) hi hb
      refine ⟨?_, ?_⟩
      · intro i hii
        rw [hw] at hii
        rcases slotOK_header h1 g2 g4 hval.1 g3.1 (cap_le_isize (by simp) hval) (cap_le_isize (by simp) g3) i hii with hx | ⟨k, x, hk, h1, h2, h3⟩
        · exact Or.inl hx
        · refine Or.inr ⟨k, x, ?_, h1, h2, h3⟩
          rcases hk with ⟨rfl, rfl⟩ | ⟨rfl, rfl⟩
          · exact .strPtr hdef
          · exact .strCap hdef
      · intro dm hdm
        have hrd := readHeader_of_agree g2 hdm
        by_cases hl : h.len = 0
        · refine ⟨⟨h', hrd, g3, bs, ?_, rfl⟩, [], ?_, OwnOut.empty (by rw [headScript_pushes, if_pos hl]) (by rw [headScript_slotsAt, if_pos hl])⟩
          · rw [g4, ← h2, hl]; rfl
          · simp [hrd, g4, hl]
        · obtain ⟨m2, g6, g7, g8⟩ := g5 hl
          simp only [Script.ideal, Prod.mk.injEq] at g7
          obtain ⟨rfl, rfl⟩ := g7
          have hlop := le_roundUp p (show 0 < 1 by omega)
          have hrop := le_roundUp (roundUp p 1 + 1 * h.len) hva
          refine ⟨⟨h', hrd, g3, bs, ?_, rfl⟩, _, ?_, OwnOut.cons (inner := .done) (x := [])
            (slot := D + outPos c.ia op a + P.stringOrder.ptrIx * C.arch.ptrBytes) (L := ⟨1, 1⟩) (len := h.len) ?_ (OwnOut.nil _ _ _ c.ia _ _) ?_
            (by simp [headScript_slotsAt, hl, Script.slotsAt]; rfl) (by rw [outPos_add hlo, Nat.add_assoc])⟩
          · rw [g4, ← h2]
            refine readBytes_congr fun i hii => ?_
            rw [g6, Nat.add_assoc, hdm _ (Or.inr (by simp only; omega)), g8 i (by simp only; omega)]
          · exact ⟨h', hrd, by rw [g4, if_neg hl, g6]⟩
          · simp [Script.shapes, headScript_pushes, hl, Script.pushes]
          · have := (P.stringOrder.ix_le C.arch.ptrBytes).1
            simp only at hqs ⊢; omega
    case array u k =>
      simp only [Option.bind_eq_bind, Option.bind_eq_some_iff, Option.pure_def, Option.some.injEq] at hd ⊢
      obtain ⟨vs, h1, rfl⟩ := hd
      have hL : P.layout t = ⟨k * (P.layout u).size, (P.layout u).align⟩ := by
        have : P.layout t = ⟨(P.layout t).size, (P.layout t).align⟩ := rfl
        rw [this, hw.1, hw.2]
      have hel := elems_wf hP u k
      rw [← hL] at hel
      obtain ⟨r1, r2, r3⟩ := scriptEach_decode hva hP (script_wf hW hP hacc n) ih hp hel h1 hs hop hqal hDt (by
        intro f hf i hii
        have := hel.inBounds f hf
        rw [Nat.add_assoc, Nat.add_assoc]; exact hm _ (by omega)) hi hb
      refine ⟨?_, ?_⟩
      · intro i hii
        by_cases hx : ∃ f ∈ elems P u k, f.1 ≤ i ∧ i < f.1 + (P.layout f.2).size
        · obtain ⟨f, hf, hx1, hx2⟩ := hx
          rcases r1 f hf (i - f.1) (by omega) with h3 | ⟨k', o, h3, h4, h5, w, w', h6, h7, h8⟩
          · left
            rw [show outPos c.ia op a + i = outPos c.ia op a + f.1 + (i - f.1) by omega, h3, Nat.add_assoc,
              show f.1 + (i - f.1) = i by omega]
          · obtain ⟨j, hj, rfl⟩ := mem_elems.1 hf
            refine Or.inr ⟨k', _, .array hdef hj h3, ?_, ?_, w, w', ?_, ?_, h8⟩
            · simp only at *; omega
            · simp only at *; omega
            · rw [← Nat.add_assoc]; exact h6
            · rw [← Nat.add_assoc]; exact h7
        · left
          rw [r2 _ (by omega) (by
            intro f hf
            have : ¬ (f.1 ≤ i ∧ i < f.1 + (P.layout f.2).size) := fun y => hx ⟨f, hf, y⟩
            omega), hm i hii]
      · intro dm hdm
        obtain ⟨d1, d2⟩ := r3 dm (by
          intro i hii
          refine hdm i ?_
          rcases hii with ⟨f, hf, hx⟩ | hx
          · have := hel.inBounds f hf; left; omega
          · exact Or.inr hx)
        exact ⟨⟨vs, d1, rfl⟩, d2⟩
    case struct fs =>
      simp only [Option.bind_eq_bind, Option.bind_eq_some_iff, Option.pure_def, Option.some.injEq] at hd ⊢
      obtain ⟨vs, h1, rfl⟩ := hd
      obtain ⟨r1, r2, r3⟩ := scriptEach_decode hva hP (script_wf hW hP hacc n) ih hp hw h1 hs hop hqal hDt (by
        intro f hf i hii
        have := hw.inBounds f hf
        rw [Nat.add_assoc, Nat.add_assoc]; exact hm _ (by omega)) hi hb
      refine ⟨?_, ?_⟩
      · intro i hii
        by_cases hx : ∃ f ∈ fs, f.1 ≤ i ∧ i < f.1 + (P.layout f.2).size
        · obtain ⟨f, hf, hx1, hx2⟩ := hx
          rcases r1 f hf (i - f.1) (by omega) with h3 | ⟨k', o, h3, h4, h5, w, w', h6, h7, h8⟩
          · left
            rw [show outPos c.ia op a + i = outPos c.ia op a + f.1 + (i - f.1) by omega, h3, Nat.add_assoc,
              show f.1 + (i - f.1) = i by omega]
          · refine Or.inr ⟨k', _, .field hdef hf h3, by omega, by omega, w, w', ?_, ?_, h8⟩
            · rw [← Nat.add_assoc]; exact h6
            · rw [← Nat.add_assoc]; exact h7
        · left
          rw [r2 _ (by omega) (by
            intro f hf
            have : ¬ (f.1 ≤ i ∧ i < f.1 + (P.layout f.2).size) := fun y => hx ⟨f, hf, y⟩
            omega), hm i hii]
      · intro dm hdm
        obtain ⟨d1, d2⟩ := r3 dm (by
          intro i hii
          refine hdm i ?_
          rcases hii with ⟨f, hf, hx⟩ | hx
          · have := hw.inBounds f hf; left; omega
          · exact Or.inr hx)
        exact ⟨⟨vs, d1, rfl⟩, d2⟩
    case enum tag vs =>
      simp only [Option.bind_eq_bind, Option.bind_eq_some_iff, Option.pure_def, Option.some.injEq] at hd hs ⊢
      obtain ⟨iv, h1, fs, h2, xs, h3, rfl⟩ := hd
      obtain ⟨i', h1', fs', h2', hs⟩ := hs
      rw [h1] at h1'; obtain rfl := Option.some.inj h1'
      rw [h2] at h2'; obtain rfl := Option.some.inj h2'
      have hmem := List.mem_of_getElem? h2
      have hf := hw.1 fs hmem
      obtain ⟨r1, r2, r3⟩ := scriptEach_decode hva hP (script_wf hW hP hacc n) ih hp hf h3 hs hop hqal hDt (by
        intro f hff i hii
        have := hf.inBounds f hff
        rw [Nat.add_assoc, Nat.add_assoc]; exact hm _ (by omega)) hi hb
      have hS : SlotOK C.arch P im m' t a (outPos c.ia op a) := by
        intro i hii
        by_cases hx : ∃ f ∈ fs, f.1 ≤ i ∧ i < f.1 + (P.layout f.2).size
        · obtain ⟨f, hff, hx1, hx2⟩ := hx
          rcases r1 f hff (i - f.1) (by omega) with h3 | ⟨k', o, h3, h4, h5, w, w', h6, h7, h8⟩
          · left
            rw [show outPos c.ia op a + i = outPos c.ia op a + f.1 + (i - f.1) by omega, h3, Nat.add_assoc,
              show f.1 + (i - f.1) = i by omega]
          · refine Or.inr ⟨k', _, .variant hdef hmem hff h3, by omega, by omega, w, w', ?_, ?_, h8⟩
            · rw [← Nat.add_assoc]; exact h6
            · rw [← Nat.add_assoc]; exact h7
        · left
          rw [r2 _ (by omega) (by
            intro f hf
            have : ¬ (f.1 ≤ i ∧ i < f.1 + (P.layout f.2).size) := fun y => hx ⟨f, hf, y⟩
            omega), hm i hii]
      refine ⟨hS, ?_⟩
      intro dm hdm
      have hS' : SlotOK C.arch P im dm t a (D + outPos c.ia op a) := SlotOK.congr hP hS (hagree hdm)
      obtain ⟨d1, x, x1, x2⟩ := r3 dm (by
        intro i hii
        refine hdm i ?_
        rcases hii with ⟨f, hff, hx⟩ | hx
        · have := hf.inBounds f hff; left; omega
        · exact Or.inr hx)
      have htag : activeVariant C.arch dm (D + outPos c.ia op a) tag = some iv := by rw [tag_same hw.2 hS', h1]
      exact ⟨⟨iv, htag, fs, h2, xs, d1, rfl⟩, x, ⟨iv, htag, fs, h2, x1⟩, x2⟩
    case bigUint u =>
      obtain ⟨hw1, _, hw2⟩ := hw
      rw [hw1] at hm hp ⊢
      obtain ⟨r1, r2⟩ := scriptVec_decode hva hW hP hacc hD hDal ih hp hd hs hop hm hi hb
      refine ⟨?_, r2⟩
      intro i hii
      rw [hw1] at hii
      rcases r1 i hii with hx | ⟨hz, k, x, hk, h1, h2, h3⟩
      · exact Or.inl hx
      · refine Or.inr ⟨k, x, ?_, h1, h2, h3⟩
        rcases hk with ⟨rfl, rfl⟩ | ⟨rfl, rfl⟩
        · exact .bigPtr hdef
        · exact .bigCap hdef
    case bigInt u =>
      simp only [Option.bind_eq_bind, Option.bind_eq_some_iff, Option.pure_def, Option.some.injEq] at hd ⊢
      obtain ⟨sg, hsg, v', h2, rfl⟩ := hd
      obtain ⟨hL, ⟨d, hud⟩, hu⟩ := hw
      have hoff : P.bigIntDataOff C.arch ≤ C.arch.ptrBytes := by unfold Prog.bigIntDataOff; split <;> omega
      have hoffal : C.arch.ptrBytes ∣ P.bigIntDataOff C.arch := by
        unfold Prog.bigIntDataOff; split
        · exact Nat.dvd_zero _
        · exact Nat.dvd_refl _
      have hsoff : P.bigIntSignOff C.arch < 4 * C.arch.ptrBytes ∧ (P.bigIntSignOff C.arch < P.bigIntDataOff C.arch ∨
          P.bigIntDataOff C.arch + 3 * C.arch.ptrBytes ≤ P.bigIntSignOff C.arch) := by
        unfold Prog.bigIntDataOff Prog.bigIntSignOff; split <;> omega
      have hal := hp.al
      rw [hL] at hhi hal hm hqs hqal hDt hagree
      simp only at hhi hal hm hqs hqal hDt hagree
      have hpu : Placed c (P.layout u) (a + P.bigIntDataOff C.arch) := by
        rw [hu]; exact ⟨by omega, by simp only; omega, hal, hp.ia⟩
      obtain ⟨w1, w2⟩ := script_wf hW hP hacc n _ _ _ _ c h2 hs hpu
      have hQ := outPos_add (op := op) hlo
      obtain ⟨r1, r2⟩ := ih _ _ _ _ c op m p m' p' h2 hs hpu hop
        (by rw [hQ, hu]; exact Nat.dvd_add hqal hoffal) (by rw [hu]; exact hDt) (by
          intro i hii
          rw [hu] at hii
          rw [hQ, Nat.add_assoc, Nat.add_assoc]; exact hm _ (by simp only at hii; omega)) hi hb
      rw [hQ] at r1 r2
      have hout : ∀ i < 4 * C.arch.ptrBytes, (i < P.bigIntDataOff C.arch ∨ P.bigIntDataOff C.arch + 3 * C.arch.ptrBytes ≤ i) →
          m' (outPos c.ia op a + i) = im (a + i) := by
        intro i hii hx
        rw [← hm i hii]
        have := ideal_frame (md := md) (im := im) hva sc w1 c.ia op (m, p) (i := outPos c.ia op a + i) (by simp only; omega) ?_
        · rw [hi] at this; exact this
        · intro x hxt
          obtain ⟨y1, y2⟩ := w2 x hxt
          rw [hu] at y2; simp only at y2
          have : x.1 = a + (x.1 - a) := by omega
          rw [this, hQ]; omega
      refine ⟨?_, ?_⟩
      · intro i hii
        rw [hL] at hii
        by_cases hx : i < P.bigIntDataOff C.arch ∨ P.bigIntDataOff C.arch + 3 * C.arch.ptrBytes ≤ i
        · exact Or.inl (hout i hii hx)
        · rcases r1 (i - P.bigIntDataOff C.arch) (by rw [hu]; simp only; omega) with h3 | ⟨k', o, h3, h4, h5, w, w', h6, h7, h8⟩
          · left
            rw [show outPos c.ia op a + i = outPos c.ia op a + P.bigIntDataOff C.arch + (i - P.bigIntDataOff C.arch) by omega, h3, Nat.add_assoc,
              show P.bigIntDataOff C.arch + (i - P.bigIntDataOff C.arch) = i by omega]
          · refine Or.inr ⟨k', _, .bigInt hdef h3, by omega, by omega, w, w', ?_, ?_, h8⟩
            · rw [← Nat.add_assoc]; exact h6
            · rw [← Nat.add_assoc]; exact h7
      · intro dm hdm
        rw [hL] at hdm
        simp only at hdm
        obtain ⟨d1, d2⟩ := r2 dm (by
          intro i hii
          refine hdm i ?_
          rw [hu] at hii; simp only at hii ⊢; omega)
        rw [← Nat.add_assoc] at d1 d2
        refine ⟨⟨sg, ?_, v', d1, rfl⟩, d2⟩
        · rw [hagree (dm := dm) hdm _ hsoff.1, hout _ hsoff.1 hsoff.2, hsg]

end
end SerRaw
