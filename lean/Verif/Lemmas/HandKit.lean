import Verif.Spec.HandKit
import Verif.Lemmas.HandDecode
/-
The implementations of Model/HandKit.lean meet the requirements.
-/
namespace SerRaw

section
variable {C : Cfg} {P : Prog}

theorem each_script (rc : TyId → Nat → Option Script) (a : Nat) (fs : List Field) : (HCalls.each a fs).script rc = scriptEach rc a fs := by
  induction fs with
  | nil => rfl
  | cons f fs ih => simp only [HCalls.each, HCalls.script, scriptEach, ih]

theorem each_touch (A : Arch) (a : Nat) (fs : List Field) : (HCalls.each a fs).touch A P = fs.map fun f => (a + f.1, (P.layout f.2).size) := by
  induction fs with
  | nil => rfl
  | cons f fs ih => simp only [HCalls.each, HCalls.touch, List.map_cons, ih]

theorem each_wf {rd : TyId → Nat → Option Val} {a : Nat} {L : Layout} {fs : List Field} {vs : List Val} {c : Ctx} (hp : Placed c L a)
    (hf : FieldsWF P L fs) (hd : decodeEach rd a fs = some vs) : (HCalls.each a fs).WF C P (fun u b => ∃ w, rd u b = some w) c := by
  induction fs generalizing vs with
  | nil => exact trivial
  | cons f fs ih =>
    have hlo := hp.lo; have hhi := hp.hi
    have hinF := hf.inBounds f (by simp)
    have hf' : FieldsWF P L fs := ⟨fun g hg => hf.inBounds g (by simp [hg]), fun g hg => hf.aligned g (by simp [hg]),
      fun g hg => hf.alignLe g (by simp [hg]), (List.pairwise_cons.1 hf.disjoint).2⟩
    have hdj := (List.pairwise_cons.1 hf.disjoint).1
    simp only [decodeEach, Option.bind_eq_bind, Option.bind_eq_some_iff, Option.pure_def, Option.some.injEq] at hd
    obtain ⟨v, d1, ws, d2, _⟩ := hd
    refine ⟨⟨v, d1⟩, ⟨by omega, by omega, Nat.dvd_trans (hf.alignLe f (by simp)) hp.al, hp.ia⟩, ?_, ih hf' d2⟩
    intro r hr
    rw [each_touch, List.mem_map] at hr
    obtain ⟨g, hg, rfl⟩ := hr
    have := hdj g hg
    unfold DisjRange at *
    omega

theorem decodeEach_mono' {r1 r2 : TyId → Nat → Option Val} (h : ∀ u b w, r1 u b = some w → r2 u b = some w) {a : Nat} {fs : List Field}
    {vs : List Val} (hd : decodeEach r1 a fs = some vs) : decodeEach r2 a fs = some vs :=
  decodeEach_zst (fun f _ w hw => h _ _ _ hw) hd

/-- `Foo` of serialize.rs:75-88. -/
theorem delegate_ok (hC : C.OK) (hP : P.WF C.arch) {t : TyId} {fs gs : List Field} (hdef : P.defn t = .struct fs)
    (hgs : gs.Sublist fs) (hz : (P.layout t).size ≠ 0) : HandOK C P t (delegate gs) (fieldsView gs) (fieldsView gs) := by
  have hw := (hP t).2.2.2
  simp only [hdef] at hw
  have hf : FieldsWF P (P.layout t) gs := ⟨fun g hg => hw.inBounds g (hgs.subset hg), fun g hg => hw.aligned g (hgs.subset hg),
      fun g hg => hw.alignLe g (hgs.subset hg), hw.disjoint.sublist hgs⟩
  refine ⟨hz, ?_, ?_, ?_⟩
  · intro r1 r2 m a v h hv
    simp only [fieldsView, Option.map_eq_some_iff] at hv ⊢
    obtain ⟨vs, h1, h2⟩ := hv
    exact ⟨vs, decodeEach_mono' h h1, h2⟩
  · intro rd im a v hgd hal hlt hv
    simp only [fieldsView, Option.map_eq_some_iff] at hv
    obtain ⟨vs, h1, rfl⟩ := hv
    exact ⟨_, rfl, each_wf (L := P.layout t) ⟨Nat.le_refl _, Nat.le_refl _, Nat.dvd_refl _, hal⟩ hf h1⟩
  · intro rd rc rd' im md D a v cs sc hD hDal hgd hzst hwf hrc hal hlt hv hI hs
    simp only [delegate, Option.some.injEq] at hI
    subst hI
    rw [each_script] at hs
    simp only [fieldsView, Option.map_eq_some_iff] at hv ⊢
    obtain ⟨vs, h1, rfl⟩ := hv
    intro c op m p m' p' hp hop hqal hDt hm hi hb
    have hlo := hp.lo; have hhi := hp.hi
    have hqs : outPos c.ia op a + (P.layout t).size ≤ p := by unfold outPos; omega
    obtain ⟨r1, r2, r3⟩ := scriptEach_back hC.facts.va.pos hP hwf hrc hp hf h1 hs hop hqal hDt (by
      intro f hff i hii
      have := hf.inBounds f hff
      rw [Nat.add_assoc, Nat.add_assoc]; exact hm _ (by omega)) hi hb
    refine ⟨?_, ?_⟩
    · intro i hii
      by_cases hx : ∃ f ∈ gs, f.1 ≤ i ∧ i < f.1 + (P.layout f.2).size
      · obtain ⟨f, hff, hx1, hx2⟩ := hx
        rcases r1 f hff (i - f.1) (by omega) with h3 | ⟨k', o, h3, h4, h5, w, w', h6, h7, h8⟩
        · left
          rw [show outPos c.ia op a + i = outPos c.ia op a + f.1 + (i - f.1) by omega, h3, Nat.add_assoc,
            show f.1 + (i - f.1) = i by omega]
        · refine Or.inr ⟨k', _, .field hdef (hgs.subset hff) h3, by omega, by omega, w, w', ?_, ?_, h8⟩
          · rw [← Nat.add_assoc]; exact h6
          · rw [← Nat.add_assoc]; exact h7
      · left
        rw [r2 _ (by omega) (by
          intro f hff
          have : ¬ (f.1 ≤ i ∧ i < f.1 + (P.layout f.2).size) := fun y => hx ⟨f, hff, y⟩
          omega), hm i hii]
    · intro dm hdm
      have d1 := r3 dm (by
        intro i hii
        refine hdm i ?_
        rcases hii with ⟨f, hff, hx⟩ | hx
        · have := hf.inBounds f hff; left; omega
        · exact Or.inr hx)
      exact Option.map_eq_some_iff.2 ⟨vs, d1, rfl⟩

/-- A boxed slice. -/
theorem boxSlice_ok (hC : C.OK) (hP : P.WF C.arch) (hacc : P.Accepted C) {t b w u : TyId}
    (hdef : P.defn t = .struct [(0, b), (C.arch.ptrBytes, w)]) (hb : P.defn b = .box u) (hww : P.layout w = ⟨C.arch.ptrBytes, C.arch.ptrBytes⟩)
    (hu : (P.layout u).size ≠ 0) : HandOK C P t (boxSlice C.arch P u) (sliceView C.arch P u) (sliceView C.arch P u) := by
  have hw := (hP t).2.2.2
  simp only [hdef] at hw
  have hbl := (hP b).2.2.2
  simp only [hb] at hbl
  have hW := hC.arch.ptr_pos
  have hva := hC.facts.va.pos
  have hin : C.arch.ptrBytes + C.arch.ptrBytes ≤ (P.layout t).size := by
    have := hw.inBounds (C.arch.ptrBytes, w) (by simp)
    rw [hww] at this; exact this
  have hWal : C.arch.ptrBytes ∣ (P.layout t).align := by
    have := hw.alignLe (C.arch.ptrBytes, w) (by simp)
    rw [hww] at this; exact this
  have hacc' := hacc u hu
  unfold Cfg.accepts at hacc'
  have hpal := (hP u).1
  refine ⟨by omega, ?_, ?_, ?_⟩
  · intro r1 r2 m a v h hv
    simp only [sliceView, Option.bind_eq_bind, Option.bind_eq_some_iff, Option.pure_def, Option.some.injEq, Option.ite_none_right_eq_some] at hv ⊢
    obtain ⟨p, h1, n, h2, h3, vs, h4, h5⟩ := hv
    exact ⟨p, h1, n, h2, h3, vs, decodeEach_mono' h h4, h5⟩
  · intro rd im a v hgd hal hlt hv
    simp only [sliceView, Option.bind_eq_bind, Option.bind_eq_some_iff, Option.pure_def, Option.some.injEq, Option.ite_none_right_eq_some] at hv
    obtain ⟨x, h1, n, h2, ⟨v1, v2, v3, v4⟩, vs, h4, rfl⟩ := hv
    refine ⟨.pushProcess (P.layout u) n x a (HCalls.each x (elems P u n)) .done, by simp [boxSlice, h1, h2], ?_⟩
    refine ⟨⟨hu, hpal, by simpa using hacc', v3⟩, ?_, by simp [HCalls.touch], ?_, trivial⟩
    · exact touchOK_of (x := 0) (L := P.layout t) ⟨Nat.le_refl _, Nat.le_refl _, Nat.dvd_refl _, hal⟩ hal hWal (Nat.dvd_zero _) (by omega)
    · exact each_wf (L := ⟨n * (P.layout u).size, (P.layout u).align⟩)
        ⟨Nat.le_refl _, by simp only; rw [Nat.mul_comm], Nat.dvd_refl _, Nat.dvd_of_mod_eq_zero v2⟩ (elems_wf hP u n) h4
  · intro rd rc rd' im md D a v cs sc hD hDal hgd hzst hwf hrc hal hlt hv hI hs
    simp only [sliceView, Option.bind_eq_bind, Option.bind_eq_some_iff, Option.pure_def, Option.some.injEq, Option.ite_none_right_eq_some] at hv ⊢
    obtain ⟨x, h1, n, h2, ⟨v1, v2, v3, v4⟩, vs, h4, rfl⟩ := hv
    obtain rfl : HCalls.pushProcess (P.layout u) n x a (HCalls.each x (elems P u n)) .done = cs := by
      simpa [boxSlice, h1, h2] using hI
    simp only [HCalls.script, each_script, Option.bind_eq_bind, Option.bind_eq_some_iff, Option.pure_def, Option.some.injEq] at hs
    obtain ⟨inner, e1, _, rfl, rfl⟩ := hs
    intro c op m p m' p' hp hop hqal hDt hm hi hbnd
    have hlo := hp.lo; have hhi := hp.hi
    have hqs : outPos c.ia op a + (P.layout t).size ≤ p := by unfold outPos; omega
    have hpl : Placed ⟨x, (P.layout u).size * n, (P.layout u).align⟩ ⟨n * (P.layout u).size, (P.layout u).align⟩ x :=
      ⟨Nat.le_refl _, by simp only; rw [Nat.mul_comm], Nat.dvd_refl _, Nat.dvd_of_mod_eq_zero v2⟩
    have w1 := (scriptEach_wf hwf hpl (elems_wf hP u n) h4 e1).1
    have hlop := le_roundUp p (show 0 < (P.layout u).align from Pow2.pos hpal)
    have hrop := le_roundUp (roundUp p (P.layout u).align + (P.layout u).size * n) hva
    simp only [Script.ideal, Mode.putPtr, hD] at hi
    have hmono2 := ideal_mono (A := C.arch) (md := md) (im := im) hva inner w1 x (roundUp p (P.layout u).align) (_, _) |>.trans_eq (congrArg Prod.snd hi)
    simp only at hmono2
    have hself : outPos x (roundUp p (P.layout u).align) x = roundUp p (P.layout u).align := by simp [outPos]
    have hmc := Nat.mul_comm (P.layout u).size n
    obtain ⟨_, _, r3⟩ := scriptEach_back (op := roundUp p (P.layout u).align) hva hP hwf hrc hpl (elems_wf hP u n) h4 e1 hrop
      (by simp only [hself]; exact dvd_roundUp _ _) (hDal u hu) (by
        intro f hf i hii
        have := (elems_wf hP u n).inBounds f hf
        simp only at this
        simp only [hself]
        rw [blit_out (by omega), Nat.add_assoc, blit_at (by omega), Nat.add_assoc]) hi hbnd
    simp only [hself] at r3
    -- the words of the copy
    have hfr : ∀ i < (P.layout t).size, m' (outPos c.ia op a + i) =
        (m.blit (outPos c.ia op a) C.arch.ptrBytes (wordCells C.arch (D + roundUp p (P.layout u).align))) (outPos c.ia op a + i) := by
      intro i hii
      have := ideal_frame (md := md) (im := im) hva inner w1 x (roundUp p (P.layout u).align) (_, _) (i := outPos c.ia op a + i)
        (by simp only; exact Nat.lt_of_lt_of_le (by omega) hrop) (by
          intro t _; left
          have := outPos_ge x (roundUp p (P.layout u).align) t.1; omega) |>.symm.trans (congrFun (congrArg Prod.fst hi) _)
      simp only at this
      rw [← this]
      by_cases hiw : i < C.arch.ptrBytes
      · rw [blit_at hiw, blit_at hiw]
      · rw [blit_out (by omega), blit_out (by omega), blit_out (by omega)]
    have hword : readWord C.arch m' (outPos c.ia op a) = some (D + roundUp p (P.layout u).align) := by
      rw [readWord_congr fun i hii => hfr i (by omega), readWord_blit_same, Nat.mod_eq_of_lt (by omega)]
    have hrest : ∀ i < (P.layout t).size, C.arch.ptrBytes ≤ i → m' (outPos c.ia op a + i) = im (a + i) := by
      intro i hii hiw
      rw [hfr i hii, blit_out (by omega), hm i hii]
    have hxne : D + roundUp p (P.layout u).align ≠ 0 := by omega
    refine ⟨?_, ?_⟩
    · intro i hii
      by_cases hiw : i < C.arch.ptrBytes
      · refine Or.inr ⟨.ptr, 0, by simpa using Prog.Slot.field (A := C.arch) hdef (List.mem_cons_self) (Prog.Slot.box hb hu), Nat.zero_le _,
          by simpa using hiw, x, _, h1, hword, v1, hxne⟩
      · exact Or.inl (hrest i hii (by omega))
    · intro dm hdm
      have d1 := r3 dm fun i hii => hdm i (Or.inr (by
        rcases hii with ⟨f, hf, hx⟩ | hx
        · have := (elems_wf hP u n).inBounds f hf
          simp only at this
          omega
        · omega))
      simp only [sliceView, Option.bind_eq_bind, Option.bind_eq_some_iff, Option.pure_def, Option.some.injEq, Option.ite_none_right_eq_some]
      refine ⟨D + roundUp p (P.layout u).align, ?_, n, ?_, ⟨hxne, ?_, v3, by omega⟩, vs, d1, rfl⟩
      · rw [← hword]
        exact readWord_congr fun i hii => by rw [Nat.add_assoc]; exact hdm _ (Or.inl (by omega))
      · rw [← h2]
        refine readWord_congr fun i hii => ?_
        rw [Nat.add_assoc, Nat.add_assoc, Nat.add_assoc a]
        rw [hdm _ (Or.inl (by omega)), hrest _ (by omega) (by omega)]
      · exact Nat.mod_eq_zero_of_dvd (Nat.dvd_add (hDal u hu) (dvd_roundUp _ _))

/-- `MyString` of serializer.rs:385-404. -/
theorem myString_ok (hC : C.OK) (hP : P.WF C.arch) (hacc : P.Accepted C) {t : TyId} (hdef : P.defn t = .string) {fl : Flags}
    (hva : C.valueAlign ∣ C.arch.ptrBytes) :
    HandOK C P t (myString C.arch P) (fun _ m a => decodeStr C.arch P fl m a) (inlineStrView C.arch P) := by
  have hw := (hP t).2.2.2
  simp only [hdef] at hw
  have hW := hC.arch.ptr_pos
  have hvap := hC.facts.va.pos
  have hz : (P.layout t).size ≠ 0 := by rw [hw]; simp only; omega
  have hpow : Pow2 C.arch.ptrBytes := by have := (hP t).1; rwa [hw] at this
  have hacc' := hacc t hz
  unfold Cfg.accepts at hacc'
  simp only [hw, decide_eq_true_eq] at hacc'
  have hsz := (hP t).2.2.1
  obtain ⟨i1, i2, i3⟩ := P.stringOrder.ix_le C.arch.ptrBytes
  obtain ⟨n1, n2, n3⟩ := P.stringOrder.ix_ne
  have hI : ∀ {im : Mem} {a : Nat} {h : Header}, readHeader C.arch im P.stringOrder a = some h → myString C.arch P im a =
      some (.push ⟨C.arch.ptrBytes, C.arch.ptrBytes⟩ 1 (a + P.stringOrder.lenIx * C.arch.ptrBytes) (a + P.stringOrder.ptrIx * C.arch.ptrBytes)
        (.pushRaw ⟨1, 1⟩ h.len h.ptr .done)) := by
    intro im a h hh
    obtain ⟨r1, r2, r3⟩ := readHeader_iff.1 hh
    simp [myString, r1, r3]
  refine ⟨hz, fun _ hv => hv, ?_, ?_⟩
  · intro rd im a v hgd hal hlt hv
    simp only [decodeStr, Option.bind_eq_bind, Option.bind_eq_some_iff, Option.pure_def, Option.some.injEq,
      Option.ite_none_right_eq_some] at hv
    obtain ⟨h, h1, hval, bs, h2, rfl⟩ := hv
    obtain ⟨_, _, hv⟩ := hval
    obtain ⟨v1, v2, v3, _⟩ := hv (by simp)
    simp only [Nat.mul_one] at v2 v3
    refine ⟨_, hI h1, ⟨Nat.pos_iff_ne_zero.1 hW, hpow, hacc', ?_⟩, ?_, by simp [HCalls.touch], ⟨by simp, ⟨0, rfl⟩, ?_, by simp only; omega⟩, trivial⟩
    · rw [hw] at hsz; simp only at hsz ⊢; omega
    · exact touchOK_of (L := P.layout t) ⟨Nat.le_refl _, Nat.le_refl _, Nat.dvd_refl _, hal⟩ hal (by rw [hw]) (Nat.dvd_mul_left _ _) (by rw [hw]; simp only; omega)
    · exact Nat.le_trans hW hacc'
  · intro rd rc rd' im md D a v cs sc hD hDal hgd hzst hwf hrc hal hlt hv hcs hs
    simp only [decodeStr, Option.bind_eq_bind, Option.bind_eq_some_iff, Option.pure_def, Option.some.injEq,
      Option.ite_none_right_eq_some] at hv
    obtain ⟨h, h1, hval, bs, h2, rfl⟩ := hv
    obtain ⟨x1, x2, hv⟩ := hval
    obtain ⟨v1, v2, v3, _⟩ := hv (by simp)
    simp only [Nat.mul_one] at v2 v3
    rw [hI h1, Option.some.injEq] at hcs
    subst hcs
    simp only [HCalls.script, Option.bind_eq_bind, Option.bind_eq_some_iff, Option.pure_def, Option.some.injEq] at hs
    obtain ⟨_, ⟨_, rfl, rfl⟩, rfl⟩ := hs
    obtain ⟨r1, r2, r3⟩ := readHeader_iff.1 h1
    intro c op m p m' p' hp hop hqal hDt hm hi hbnd
    have hlo := hp.lo; have hhi := hp.hi
    rw [hw] at hm hhi
    simp only at hm hhi
    have hqs : outPos c.ia op a + 3 * C.arch.ptrBytes ≤ p := by unfold outPos; omega
    have hQ := outPos_add (op := op) hlo
    have hlop := le_roundUp p hW
    have hnext : roundUp (roundUp p C.arch.ptrBytes + C.arch.ptrBytes * 1) C.valueAlign = roundUp p C.arch.ptrBytes + C.arch.ptrBytes := by
      rw [Nat.mul_one]
      exact roundUp_eq_of_dvd hvap (Nat.dvd_add (Nat.dvd_trans hva (dvd_roundUp _ _)) hva)
    have hnext1 : roundUp (roundUp p C.arch.ptrBytes + C.arch.ptrBytes) 1 = roundUp p C.arch.ptrBytes + C.arch.ptrBytes :=
      roundUp_eq_of_dvd (by omega) (Nat.one_dvd _)
    simp only [Script.ideal, Mode.putPtr, hD, hnext, hnext1, hQ, Prod.mk.injEq, Nat.one_mul] at hi
    obtain ⟨e1, e2⟩ := hi
    have hend := le_roundUp (roundUp p C.arch.ptrBytes + C.arch.ptrBytes + h.len) hvap
    rw [e2] at hend
    have hlow : ∀ i < 3 * C.arch.ptrBytes, m' (outPos c.ia op a + i) =
        (m.blit (outPos c.ia op a + P.stringOrder.ptrIx * C.arch.ptrBytes) C.arch.ptrBytes (wordCells C.arch (D + roundUp p C.arch.ptrBytes)))
          (outPos c.ia op a + i) := by
      intro i hii
      rw [← e1, blit_out (by omega)]
      unfold Mem.blit
      split
      · rfl
      · rw [if_neg (by omega)]
    have hword : readWord C.arch m' (outPos c.ia op a + P.stringOrder.ptrIx * C.arch.ptrBytes) = some (D + roundUp p C.arch.ptrBytes) := by
      rw [readWord_congr (m' := m.blit (outPos c.ia op a + P.stringOrder.ptrIx * C.arch.ptrBytes) C.arch.ptrBytes
        (wordCells C.arch (D + roundUp p C.arch.ptrBytes))) (a' := outPos c.ia op a + P.stringOrder.ptrIx * C.arch.ptrBytes), readWord_blit_same,
        Nat.mod_eq_of_lt (by omega)]
      intro i hii
      rw [Nat.add_assoc]; exact hlow _ (by omega)
    have hxne : D + roundUp p C.arch.ptrBytes ≠ 0 := by omega
    refine ⟨?_, ?_⟩
    · intro i hii
      rw [hw] at hii
      simp only at hii
      by_cases hiw : P.stringOrder.ptrIx * C.arch.ptrBytes ≤ i ∧ i < P.stringOrder.ptrIx * C.arch.ptrBytes + C.arch.ptrBytes
      · exact Or.inr ⟨.ptr, _, .strPtr hdef, hiw.1, hiw.2, _, _, r1, hword, x1, hxne⟩
      · left
        rw [hlow i hii, blit_out (by omega), hm i hii]
    · intro dm hdm
      rw [hw] at hdm
      simp only at hdm
      simp only [inlineStrView, Option.bind_eq_bind, Option.bind_eq_some_iff, Option.pure_def, Option.some.injEq, Option.ite_none_right_eq_some]
      refine ⟨D + roundUp p C.arch.ptrBytes, ?_, ⟨hxne, ?_⟩, h.len, ?_, bs, ?_, rfl⟩
      · rw [← hword]
        exact readWord_congr fun i hii => by
          rw [Nat.add_assoc, Nat.add_assoc, Nat.add_assoc (outPos _ _ _)]; exact hdm _ (Or.inl (by omega))
      · exact Nat.mod_eq_zero_of_dvd (Nat.dvd_add (by rw [hw] at hDt; exact hDt) (dvd_roundUp _ _))
      · rw [← r3]
        refine readWord_congr fun i hii => ?_
        rw [Nat.add_assoc, hdm _ (Or.inr (by omega)), ← e1, blit_out (by omega), blit_out (by omega), blit_at (by omega)]
      · rw [← h2]
        refine readBytes_congr fun i hii => ?_
        rw [Nat.add_assoc, Nat.add_assoc, hdm _ (Or.inr (by omega)), ← e1, ← Nat.add_assoc, blit_at (by omega)]

end

end SerRaw
