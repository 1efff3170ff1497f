import Verif.Lemmas.Layout
import Verif.Lemmas.TypedDecode
/-
Plain copies (`PureCopySerializer`): every block is copied verbatim, and an in-order reader recovers the value.
-/
namespace SerRaw

/-- The mode of serializers which write no pointers. -/
def Mode.plain : Mode := ⟨none, false⟩

section
variable {C : Cfg} {P : Prog} {im : Mem} {fl : Flags} {va : Nat}

theorem plain_frame (hva : 0 < va) (sc : Script) {c : Ctx} (h : sc.WF C c) (ia op : Nat) (st : Mem × Nat) {i : Nat} (hi : i < st.2) :
    (sc.ideal C.arch va Mode.plain im ia op st).1 i = st.1 i := by
  induction sc generalizing ia op st c with
  | done => rfl
  | pushProcess L len src ptr inner rest ih1 ih2 =>
    obtain ⟨ho, _, _, h1, h2⟩ := h
    have e1 := le_roundUp st.2 ho.pow2.pos
    have e2 := le_roundUp (roundUp st.2 L.align + L.size * len) hva
    simp only [Script.ideal]
    rw [ih2 h2 _ _ _ ?_, ih1 h1 _ _ _ (by simp only; omega)]
    · simp only [Mode.putPtr, Mode.plain]; rw [blit_out (by omega)]
    · refine Nat.lt_of_lt_of_le ?_ (ideal_mono hva inner h1 _ _ _)
      simp only; omega
  | push L len src ptr rest ih =>
    obtain ⟨ho, _, _, h2⟩ := h
    have e1 := le_roundUp st.2 ho.pow2.pos
    have e2 := le_roundUp (roundUp st.2 L.align + L.size * len) hva
    simp only [Script.ideal]
    rw [ih h2 _ _ _ (by simp only; omega)]
    simp only [Mode.putPtr, Mode.plain]; rw [blit_out (by omega)]
  | pushRaw L len src rest ih =>
    obtain ⟨ho, h2⟩ := h
    have e1 := le_roundUp st.2 ho.pow2.pos
    have e2 := le_roundUp (roundUp st.2 L.align + L.size * len) hva
    simp only [Script.ideal]
    rw [ih h2 _ _ _ (by simp only; omega)]
    simp only; rw [blit_out (by omega)]
  | overwrite a L data rest ih =>
    simp only [Script.ideal]
    exact ih h.2 _ _ (_, st.2) hi

/-- Every pushed block is copied byte for byte to its place. -/
theorem plain_copies (hva : 0 < va) (sc : Script) {c : Ctx} (h : sc.WF C c) (ia op : Nat) (st : Mem × Nat) :
    ∀ z ∈ sc.pushes.zip (place va st.2 sc.shapes), ∀ i < z.1.1.bytes,
      (sc.ideal C.arch va Mode.plain im ia op st).1 (z.2 + i) = im (z.1.2 + i) := by
  induction sc generalizing ia op st c with
  | done => simp [Script.pushes]
  | pushProcess L len src ptr inner rest ih1 ih2 =>
    obtain ⟨ho, _, _, h1, h2⟩ := h
    have e2 := le_roundUp (roundUp st.2 L.align + L.size * len) hva
    have hend := ideal_end (A := C.arch) (va := va) (md := Mode.plain) (im := im) inner src (roundUp st.2 L.align)
      (Mode.plain.putPtr C.arch (st.1.blit (roundUp st.2 L.align) (L.size * len) fun i => im (src + i)) (outPos ia op ptr) (roundUp st.2 L.align),
        roundUp (roundUp st.2 L.align + L.size * len) va)
    have hmono := ideal_mono (A := C.arch) (md := Mode.plain) (im := im) hva inner h1 src (roundUp st.2 L.align)
      (Mode.plain.putPtr C.arch (st.1.blit (roundUp st.2 L.align) (L.size * len) fun i => im (src + i)) (outPos ia op ptr) (roundUp st.2 L.align),
        roundUp (roundUp st.2 L.align + L.size * len) va)
    simp only at hend hmono
    intro z hz
    simp only [Script.shapes, Script.pushes, List.map_cons, List.map_append, place, place_append, List.zip_cons_cons, List.mem_cons,
      Shape.bytes] at hz
    rw [List.zip_append (by simp [place_length]), List.mem_append] at hz
    simp only [Script.ideal]
    rcases hz with rfl | hz | hz
    · intro i hi
      simp only [Shape.bytes] at hi ⊢
      rw [plain_frame hva rest h2 _ _ _ (by omega), plain_frame hva inner h1 _ _ _ (by simp only; omega)]
      simp only [Mode.putPtr, Mode.plain]; rw [blit_at hi]
    · intro i hi
      rw [← ih1 h1 src (roundUp st.2 L.align) (_, roundUp (roundUp st.2 L.align + L.size * len) va) z hz i hi]
      exact plain_frame hva rest h2 _ _ _ (by
        have := place_bounds hva (pushes_align inner h1) _ _ (mem_zip_shapes hz)
        rw [hend]; simp only at this; omega)
    · intro i hi
      refine ih2 h2 ia op _ z ?_ i hi
      rw [hend]; exact hz
  | push L len src ptr rest ih =>
    obtain ⟨ho, _, _, h2⟩ := h
    have e2 := le_roundUp (roundUp st.2 L.align + L.size * len) hva
    intro z hz
    simp only [Script.shapes, Script.pushes, List.map_cons, place, List.zip_cons_cons, List.mem_cons, Shape.bytes] at hz
    simp only [Script.ideal]
    rcases hz with rfl | hz
    · intro i hi
      simp only [Shape.bytes] at hi ⊢
      rw [plain_frame hva rest h2 _ _ _ (by simp only; omega)]
      simp only [Mode.putPtr, Mode.plain]; rw [blit_at hi]
    · exact ih h2 ia op (_, _) z hz
  | pushRaw L len src rest ih =>
    obtain ⟨ho, h2⟩ := h
    have e2 := le_roundUp (roundUp st.2 L.align + L.size * len) hva
    intro z hz
    simp only [Script.shapes, Script.pushes, List.map_cons, place, List.zip_cons_cons, List.mem_cons, Shape.bytes] at hz
    simp only [Script.ideal]
    rcases hz with rfl | hz
    · intro i hi
      simp only [Shape.bytes] at hi ⊢
      rw [plain_frame hva rest h2 _ _ _ (by simp only; omega)]
      simp only; rw [blit_at hi]
    · exact ih h2 ia op (_, _) z hz
  | overwrite a L data rest ih =>
    simp only [Script.ideal]
    exact ih h.2 _ _ (_, st.2)

/-! ### The in-order reader -/

theorem seqEach_zst {rd : TyId → Nat → Option Val} {rq : TyId → Nat → Nat → Option (Val × Nat)} {a b p : Nat} {fs : List Field} {vs : List Val}
    (h : ∀ f ∈ fs, ∀ a b v, rd f.2 a = some v → rq f.2 b p = some (v, p)) (hd : decodeEach rd a fs = some vs) :
    seqEach rq b p fs = some (vs, p) := by
  induction fs generalizing vs with
  | nil => simp only [decodeEach, Option.some.injEq] at hd; subst hd; rfl
  | cons f fs ih =>
    simp only [decodeEach, Option.bind_eq_bind, Option.bind_eq_some_iff, Option.pure_def, Option.some.injEq] at hd
    obtain ⟨v, d1, ws, d2, rfl⟩ := hd
    simp only [seqEach, h f (by simp) _ (b + f.1) _ d1, ih (fun g hg => h g (by simp [hg])) d2, Option.bind_eq_bind, Option.bind_some, Option.pure_def]

/-- Zero-sized values are read without looking at memory. -/
theorem seq_zst {A : Arch} (hW : 0 < A.ptrBytes) (hP : P.WF A) {m dm : Mem} {n t a b p : Nat} {v : Val} (hz : (P.layout t).size = 0)
    (hd : decode A P fl m n t a = some v) : decodeSeq A P va dm n t b p = some (v, p) := by
  induction n generalizing t a b v with
  | zero => simp [decode] at hd
  | succ n ih =>
    have hw := hP t
    unfold TyWF at hw
    obtain ⟨_, _, _, hw⟩ := hw
    rw [decode] at hd
    rw [decodeSeq]
    split at hd
    case isFalse => cases hd
    cases hdef : P.defn t <;> simp only [hdef] at hd hw ⊢
    case prim => rw [hz] at hd ⊢; simp only [readBytes, Option.map_some, Option.some.injEq] at hd ⊢; rw [hd]
    case box u => rw [hw] at hz; simp only at hz; omega
    case vec u => rw [hw] at hz; simp only at hz; omega
    case string => rw [hw] at hz; simp only at hz; omega
    case array u k =>
      simp only [Option.bind_eq_bind, Option.bind_eq_some_iff, Option.pure_def, Option.some.injEq] at hd
      obtain ⟨vs, h1, rfl⟩ := hd
      rw [seqEach_zst (rq := decodeSeq A P va dm n) (p := p) (b := b) ?_ h1]; · rfl
      intro f hf a b v hv
      obtain ⟨i, hi, rfl⟩ := mem_elems.1 hf
      refine ih ?_ hv
      rw [hw.1] at hz
      rcases Nat.mul_eq_zero.1 hz with h | h
      · omega
      · exact h
    case struct fs =>
      simp only [Option.bind_eq_bind, Option.bind_eq_some_iff, Option.pure_def, Option.some.injEq] at hd
      obtain ⟨vs, h1, rfl⟩ := hd
      rw [seqEach_zst (rq := decodeSeq A P va dm n) (p := p) (b := b) ?_ h1]; · rfl
      intro f hf a b v hv
      exact ih (by have := hw.inBounds f hf; omega) hv
    case enum tag vs =>
      simp only [Option.bind_eq_bind, Option.bind_eq_some_iff, Option.pure_def, Option.some.injEq] at hd
      obtain ⟨i, h1, fs, h2, xs, h3, rfl⟩ := hd
      have ht : activeVariant A dm b tag = activeVariant A m a tag := by
        cases tag with
        | single => rfl
        | bytes off len sel =>
          have := hw.2.1
          have : len = 0 := by omega
          subst this; rfl
        | word off sel =>
          have := hw.2.1
          omega
      rw [ht, h1]
      simp only [Option.bind_eq_bind, Option.bind_some, h2]
      rw [seqEach_zst (rq := decodeSeq A P va dm n) (p := p) (b := b) ?_ h3]; · rfl
      intro f hf a b v hv
      exact ih (by have := (hw.1 fs (List.mem_of_getElem? h2)).inBounds f hf; omega) hv
    case bigUint u => rw [hw.1] at hz; simp only at hz; omega
    case bigInt u => rw [hw.1] at hz; simp only at hz; omega

/-- The plain reference output of a value (already copied to `q`), read in order, is the value. -/
def SClaim (C : Cfg) (P : Prog) (im : Mem) (va : Nat)
    (rd : TyId → Nat → Option Val) (rc : TyId → Nat → Option Script) (rq : Mem → TyId → Nat → Nat → Option (Val × Nat)) : Prop :=
  ∀ t a v sc ia op q m p m' p', rd t a = some v → rc t a = some sc → q + (P.layout t).size ≤ p →
    (∀ i < (P.layout t).size, m (q + i) = im (a + i)) →
    sc.ideal C.arch va Mode.plain im ia op (m, p) = (m', p') →
    ∀ dm : Mem, (∀ i, (q ≤ i ∧ i < q + (P.layout t).size) ∨ (p ≤ i ∧ i < p') → dm i = m' i) →
      rq dm t q p = some (v, p')

theorem seqEach_decode (hva : 0 < va)
    {rd : TyId → Nat → Option Val} {rc : TyId → Nat → Option Script} {rq : Mem → TyId → Nat → Nat → Option (Val × Nat)}
    (hwf : WFClaim C P rd rc) (hrec : SClaim C P im va rd rc rq)
    {L : Layout} {c : Ctx} {a ia op q : Nat} (hp : Placed c L a) {fs : List Field} (hf : FieldsWF P L fs) {vs : List Val} {sc : Script}
    (hd : decodeEach rd a fs = some vs) (hs : scriptEach rc a fs = some sc) {m m' : Mem} {p p' : Nat} (hop : q + L.size ≤ p)
    (hm : ∀ i < L.size, m (q + i) = im (a + i))
    (hi : sc.ideal C.arch va Mode.plain im ia op (m, p) = (m', p')) (dm : Mem)
    (hdm : ∀ i, (q ≤ i ∧ i < q + L.size) ∨ (p ≤ i ∧ i < p') → dm i = m' i) :
    seqEach (rq dm) q p fs = some (vs, p') := by
  induction fs generalizing vs sc m p m' p' with
  | nil =>
    simp only [scriptEach, Option.some.injEq] at hs; subst hs
    simp only [Script.ideal, Prod.mk.injEq] at hi
    obtain ⟨rfl, rfl⟩ := hi
    simp only [decodeEach, Option.some.injEq] at hd; subst hd; rfl
  | cons f fs ih =>
    have hlo := hp.lo; have hhi := hp.hi
    have hinF := hf.inBounds f (by simp)
    have hf' : FieldsWF P L fs := ⟨fun g hg => hf.inBounds g (by simp [hg]), fun g hg => hf.aligned g (by simp [hg]),
      fun g hg => hf.alignLe g (by simp [hg]), (List.pairwise_cons.1 hf.disjoint).2⟩
    simp only [decodeEach, Option.bind_eq_bind, Option.bind_eq_some_iff, Option.pure_def, Option.some.injEq] at hd
    simp only [scriptEach, Option.bind_eq_bind, Option.bind_eq_some_iff, Option.pure_def, Option.some.injEq] at hs
    obtain ⟨v, d1, ws, d2, rfl⟩ := hd
    obtain ⟨s1, e1, s2, e2, rfl⟩ := hs
    have hpF : Placed c (P.layout f.2) (a + f.1) := ⟨by omega, by omega, Nat.dvd_trans (hf.alignLe f (by simp)) hp.al, hp.ia⟩
    obtain ⟨w1, _⟩ := hwf _ _ _ _ c d1 e1 hpF
    obtain ⟨w2, _⟩ := scriptEach_wf hwf hp hf' d2 e2
    rw [ideal_app] at hi
    obtain ⟨m1, p1, hs1⟩ : ∃ m1 p1, s1.ideal C.arch va Mode.plain im ia op (m, p) = (m1, p1) := ⟨_, _, rfl⟩
    rw [hs1] at hi
    have mono1 : p ≤ p1 := by have := ideal_mono (A := C.arch) (md := Mode.plain) (im := im) hva s1 w1 ia op (m, p); rw [hs1] at this; exact this
    have mono2 : p1 ≤ p' := by have := ideal_mono (A := C.arch) (md := Mode.plain) (im := im) hva s2 w2 ia op (m1, p1); rw [hi] at this; exact this
    have fr1 : ∀ i < p, m1 i = m i := by
      intro i hip
      have := plain_frame (im := im) hva s1 w1 ia op (m, p) (i := i) hip
      rw [hs1] at this; exact this
    have fr2 : ∀ i < p1, m' i = m1 i := by
      intro i hip
      have := plain_frame (im := im) hva s2 w2 ia op (m1, p1) (i := i) hip
      rw [hi] at this; exact this
    have r1 := hrec _ _ _ _ ia op (q + f.1) m p m1 p1 d1 e1 (by omega)
      (fun i hii => by rw [Nat.add_assoc, Nat.add_assoc]; exact hm _ (by omega)) hs1 dm
      (fun i hii => by rw [hdm i (by omega), fr2 i (by omega)])
    have r2 := ih hf' d2 e2 (m := m1) (p := p1) (by omega) (fun i hii => by rw [fr1 _ (by omega)]; exact hm i hii) hi
      (fun i hii => hdm i (by omega))
    simp only [seqEach, r1, r2, Option.bind_eq_bind, Option.bind_some, Option.pure_def]

theorem headScript_plain {A A' : Arch} {o : Order} {dangle a : Nat} {h : Header} {body : Script} {ia op : Nat} {st : Mem × Nat} :
    (headScript A' o dangle a h body).ideal A va Mode.plain im ia op st =
      if h.len = 0 then st else body.ideal A va Mode.plain im ia op st := by
  unfold headScript
  split
  · split
    · unfold fixEmpty
      cases o <;> simp [Script.words, Script.ideal, Mode.putValue, Mode.plain]
    · rfl
  · split
    · simp [Script.words, Script.ideal, Mode.putValue, Mode.plain]
    · rfl

theorem seqVec_decode (hva : 0 < va) (hW : 0 < C.arch.ptrBytes) (hP : P.WF C.arch) (hacc : P.Accepted C) {n : Nat}
    (hrec : SClaim C P im va (decode C.arch P fl im n) (script C.arch P im n) (fun dm => decodeSeq C.arch P va dm n))
    {u : TyId} {a ia op q : Nat} {v : Val} {sc : Script}
    (hd : decodeVec C.arch P fl im (decode C.arch P fl im n) u a = some v)
    (hs : scriptVec C.arch P im (script C.arch P im n) u a = some sc)
    {m m' : Mem} {p p' : Nat} (hop : q + 3 * C.arch.ptrBytes ≤ p)
    (hm : ∀ i < 3 * C.arch.ptrBytes, m (q + i) = im (a + i))
    (hi : sc.ideal C.arch va Mode.plain im ia op (m, p) = (m', p')) (dm : Mem)
    (hdm : ∀ i, (q ≤ i ∧ i < q + 3 * C.arch.ptrBytes) ∨ (p ≤ i ∧ i < p') → dm i = m' i)
    (hcopy : ∀ i < p, m' i = m i) :
    seqVec C.arch P va dm (decodeSeq C.arch P va dm n) u q p = some (v, p') := by
  simp only [decodeVec, Option.bind_eq_bind, Option.bind_eq_some_iff, Option.pure_def, Option.some.injEq,
    Option.ite_none_right_eq_some] at hd
  obtain ⟨h, h1, hval, vs, h2, rfl⟩ := hd
  have hlen : readWord C.arch dm (q + (P.vecOrder u).lenIx * C.arch.ptrBytes) = some h.len := by
    rw [← (readHeader_iff.1 h1).2.2]
    have := ((P.vecOrder u).ix_le C.arch.ptrBytes).2.2
    refine readWord_congr fun i hii => ?_
    rw [hdm _ (Or.inl (by omega)), hcopy _ (by omega), Nat.add_assoc, Nat.add_assoc, hm _ (by omega)]
  unfold scriptVec at hs
  unfold seqVec
  rw [hlen]
  simp only [Option.bind_eq_bind, Option.bind_some]
  split at hs
  · rename_i hz
    simp only [Option.some.injEq] at hs; subst hs
    simp only [Script.ideal, Prod.mk.injEq] at hi
    obtain ⟨rfl, rfl⟩ := hi
    rw [if_pos (Or.inl hz), seqEach_zst (p := p) (b := 0) ?_ h2]; · rfl
    intro f hf a b v hv
    obtain ⟨i, _, rfl⟩ := mem_elems.1 hf
    exact seq_zst hW hP hz hv
  · rename_i hz
    simp only [Option.bind_eq_bind, Option.bind_eq_some_iff, Option.pure_def, Option.some.injEq] at hs
    obtain ⟨h', h1', inner, e1, rfl⟩ := hs
    rw [h1] at h1'; obtain rfl := Option.some.inj h1'
    have hpal := (hP u).1
    rw [headScript_plain] at hi
    by_cases hl : h.len = 0
    · rw [if_pos hl] at hi
      simp only [Prod.mk.injEq] at hi
      obtain ⟨rfl, rfl⟩ := hi
      rw [if_pos (Or.inr hl)]
      rw [hl] at h2 ⊢
      simp only [elems, List.range_zero, List.map_nil, decodeEach, Option.some.injEq, seqEach, Option.bind_some] at h2 ⊢
      subst h2; rfl
    · rw [if_neg hl] at hi
      rw [if_neg (by simp only [not_or]; exact ⟨hz, hl⟩)]
      simp only [Script.ideal] at hi
      have hlop := le_roundUp p (show 0 < (P.layout u).align from Pow2.pos hpal)
      have hrop := le_roundUp (roundUp p (P.layout u).align + (P.layout u).size * h.len) hva
      have hc := Nat.mul_comm (P.layout u).size h.len
      have hpl : Placed ⟨h.ptr, (P.layout u).size * h.len, (P.layout u).align⟩ ⟨h.len * (P.layout u).size, (P.layout u).align⟩ h.ptr :=
        ⟨Nat.le_refl _, by simp only; rw [Nat.mul_comm], Nat.dvd_refl _, Nat.dvd_of_mod_eq_zero hval.2.1⟩
      have hinwf := (scriptEach_wf (script_wf hW hP hacc n) hpl (elems_wf hP u h.len) h2 e1).1
      have hmono := (ideal_mono (A := C.arch) (md := Mode.plain) (im := im) hva inner hinwf h.ptr (roundUp p (P.layout u).align) (_, _)).trans_eq
        (congrArg Prod.snd hi)
      simp only at hmono
      have r := seqEach_decode (q := roundUp p (P.layout u).align) hva (script_wf hW hP hacc n) hrec hpl (elems_wf hP u h.len) h2 e1
        (by simp only; omega) (by
          intro i hii
          simp only [Mode.putPtr, Mode.plain]
          rw [blit_at (by simp only at hii; omega)]) hi dm (by
          intro i hii
          exact hdm i (by simp only at hii; omega))
      simp only [nextBlock, Shape.bytes, r]
      rfl

theorem seq_decode (hva : 0 < va) (hW : 0 < C.arch.ptrBytes) (hP : P.WF C.arch) (hacc : P.Accepted C) (n : Nat) :
    SClaim C P im va (decode C.arch P fl im n) (script C.arch P im n) (fun dm => decodeSeq C.arch P va dm n) := by
  induction n with
  | zero => intro t a v sc ia op q m p m' p' hd; simp [decode] at hd
  | succ n ih =>
    intro t a v sc ia op q m p m' p' hd hs hop hm hi dm hdm
    have hw := hP t
    unfold TyWF at hw
    obtain ⟨_, _, _, hw⟩ := hw
    obtain ⟨g1, g2⟩ := decode_guard hd
    have hpl : Placed ⟨a, (P.layout t).size, (P.layout t).align⟩ (P.layout t) a := ⟨Nat.le_refl _, Nat.le_refl _, Nat.dvd_refl _, g1⟩
    have hwf := (script_wf hW hP hacc (n + 1)) t a v sc _ hd hs hpl
    have hmono := ideal_mono (A := C.arch) (md := Mode.plain) (im := im) hva sc hwf.1 ia op (m, p)
    rw [hi] at hmono; simp only at hmono
    have hcopy : ∀ i < p, m' i = m i := by
      intro i hip
      have := plain_frame (im := im) hva sc hwf.1 ia op (m, p) (i := i) hip
      rw [hi] at this; exact this
    have hsame : ∀ i < (P.layout t).size, dm (q + i) = im (a + i) := by
      intro i hii; rw [hdm _ (Or.inl (by omega)), hcopy _ (by omega), hm i hii]
    rw [script] at hs
    rw [decode] at hd
    split at hd
    case isFalse => cases hd
    simp only [decodeSeq]
    cases hdef : P.defn t <;> simp only [hdef] at hd hw hs ⊢
    case prim =>
      simp only [Option.some.injEq] at hs; subst hs
      simp only [Script.ideal, Prod.mk.injEq] at hi
      obtain ⟨rfl, rfl⟩ := hi
      rw [readBytes_congr (m' := im) (a' := a) hsame]
      simp only [Option.map_eq_some_iff] at hd ⊢
      obtain ⟨b, b1, rfl⟩ := hd
      exact ⟨b, b1, rfl⟩
    case box u =>
      simp only [Option.bind_eq_bind, Option.bind_eq_some_iff, Option.pure_def, Option.some.injEq,
        Option.ite_none_right_eq_some] at hd
      obtain ⟨x, h1, h2, v', h3, rfl⟩ := hd
      split at hs
      · rename_i hz
        simp only [Option.some.injEq] at hs; subst hs
        simp only [Script.ideal, Prod.mk.injEq] at hi
        obtain ⟨rfl, rfl⟩ := hi
        rw [if_pos hz, seq_zst hW hP hz h3]; rfl
      · rename_i hz
        simp only [Option.bind_eq_bind, Option.bind_eq_some_iff, Option.pure_def, Option.some.injEq] at hs
        obtain ⟨x', h1', inner, e1, rfl⟩ := hs
        rw [h1] at h1'; obtain rfl := Option.some.inj h1'
        obtain ⟨g1, g2⟩ := decode_guard h3
        have hpal := (hP u).1
        have hpx : Placed ⟨x, (P.layout u).size * 1, (P.layout u).align⟩ (P.layout u) x := ⟨Nat.le_refl _, by simp, Nat.dvd_refl _, g1⟩
        obtain ⟨w1, _⟩ := script_wf hW hP hacc n _ _ _ _ _ h3 e1 hpx
        have hlop := le_roundUp p (show 0 < (P.layout u).align from Pow2.pos hpal)
        have hrop := le_roundUp (roundUp p (P.layout u).align + (P.layout u).size * 1) hva
        simp only [Script.ideal] at hi
        have hmono2 := ideal_mono (A := C.arch) (md := Mode.plain) (im := im) hva inner w1 x (roundUp p (P.layout u).align) (_, _) |>.trans_eq (congrArg Prod.snd hi)
        simp only at hmono2
        have r := ih _ _ _ _ _ _ (roundUp p (P.layout u).align) _ _ _ _ h3 e1 (by omega) (by
          intro i hii
          simp only [Mode.putPtr, Mode.plain]
          rw [blit_at (by omega)]) hi dm (fun i hii => hdm i (by omega))
        rw [if_neg hz]
        simp only [nextBlock, Shape.bytes, r]; rfl
    case vec u =>
      rw [hw] at hm hop hdm
      exact seqVec_decode hva hW hP hacc ih hd hs hop hm hi dm hdm hcopy
    case string =>
      rw [hw] at hm hop hdm hsame
      simp only [decodeStr, Option.bind_eq_bind, Option.bind_eq_some_iff, Option.pure_def, Option.some.injEq,
        Option.ite_none_right_eq_some] at hd hs
      obtain ⟨h, h1, hval, bs, h2, rfl⟩ := hd
      obtain ⟨h', h1', rfl⟩ := hs
      rw [h1] at h1'; obtain rfl := Option.some.inj h1'
      rw [headScript_plain] at hi
      have hlen : readWord C.arch dm (q + P.stringOrder.lenIx * C.arch.ptrBytes) = some h.len := by
        rw [← (readHeader_iff.1 h1).2.2]
        have := (P.stringOrder.ix_le C.arch.ptrBytes).2.2
        refine readWord_congr fun i hii => ?_
        rw [Nat.add_assoc, Nat.add_assoc]; exact hsame _ (by simp only; omega)
      rw [hlen]
      simp only [Option.bind_eq_bind, Option.bind_some]
      by_cases hl : h.len = 0
      · rw [if_pos hl] at hi ⊢
        simp only [Prod.mk.injEq] at hi
        obtain ⟨rfl, rfl⟩ := hi
        rw [hl] at h2
        simp only [readBytes, Option.some.injEq] at h2
        subst h2; rfl
      · rw [if_neg hl] at hi ⊢
        simp only [Script.ideal, Prod.mk.injEq] at hi
        obtain ⟨rfl, rfl⟩ := hi
        have hlop := le_roundUp p (show 0 < 1 by omega)
        have hrop := le_roundUp (roundUp p 1 + 1 * h.len) hva
        simp only [nextBlock, Shape.bytes]
        rw [readBytes_congr (m' := im) (a' := h.ptr), h2]; · rfl
        intro i hii
        rw [hdm _ (Or.inr (by omega))]
        simp only [Mode.putPtr, Mode.plain]
        rw [blit_at (by omega)]
    case array u k =>
      simp only [Option.bind_eq_bind, Option.bind_eq_some_iff, Option.pure_def, Option.some.injEq] at hd
      obtain ⟨vs, h1, rfl⟩ := hd
      have hL : P.layout t = ⟨k * (P.layout u).size, (P.layout u).align⟩ := by
        have : P.layout t = ⟨(P.layout t).size, (P.layout t).align⟩ := rfl
        rw [this, hw.1, hw.2]
      have hel := elems_wf hP u k
      rw [← hL] at hel
      have r := seqEach_decode hva (script_wf hW hP hacc n) ih hpl hel h1 hs hop hm hi dm hdm
      rw [r]; rfl
    case struct fs =>
      simp only [Option.bind_eq_bind, Option.bind_eq_some_iff, Option.pure_def, Option.some.injEq] at hd
      obtain ⟨vs, h1, rfl⟩ := hd
      have r := seqEach_decode hva (script_wf hW hP hacc n) ih hpl hw h1 hs hop hm hi dm hdm
      rw [r]; rfl
    case enum tag vs =>
      simp only [Option.bind_eq_bind, Option.bind_eq_some_iff, Option.pure_def, Option.some.injEq] at hd hs
      obtain ⟨iv, h1, fs, h2, xs, h3, rfl⟩ := hd
      obtain ⟨i', h1', fs', h2', hs⟩ := hs
      rw [h1] at h1'; obtain rfl := Option.some.inj h1'
      rw [h2] at h2'; obtain rfl := Option.some.inj h2'
      have hf := hw.1 fs (List.mem_of_getElem? h2)
      have r := seqEach_decode hva (script_wf hW hP hacc n) ih hpl hf h3 hs hop hm hi dm hdm
      rw [tag_same hw.2 (SlotOK.same hsame), h1]
      simp only [Option.bind_eq_bind, Option.bind_some, h2, r]; rfl
    case bigUint u =>
      rw [hw.1] at hm hop hdm
      exact seqVec_decode hva hW hP hacc ih hd hs hop hm hi dm hdm hcopy
    case bigInt u =>
      simp only [Option.bind_eq_bind, Option.bind_eq_some_iff, Option.pure_def, Option.some.injEq] at hd
      obtain ⟨sg, hsg, v', h2, rfl⟩ := hd
      obtain ⟨hL, ⟨d, hud⟩, hu⟩ := hw
      have hoff : P.bigIntDataOff C.arch ≤ C.arch.ptrBytes := by unfold Prog.bigIntDataOff; split <;> omega
      have hsoff : P.bigIntSignOff C.arch < 4 * C.arch.ptrBytes := by unfold Prog.bigIntSignOff; split <;> omega
      rw [hL] at hm hop hdm hsame
      simp only at hm hop hdm hsame
      have r := ih _ _ _ _ ia op (q + P.bigIntDataOff C.arch) m p m' p' h2 hs (by rw [hu]; simp only; omega) (by
          intro i hii
          rw [hu] at hii; simp only at hii
          rw [Nat.add_assoc, Nat.add_assoc]; exact hm _ (by omega)) hi dm (by
          intro i hii
          rw [hu] at hii; simp only at hii
          exact hdm i (by omega))
      rw [hsame _ hsoff, hsg]
      simp only [Option.bind_eq_bind, Option.bind_some, r]; rfl

end
end SerRaw
