import Verif.Spec.CustomStorage
import Verif.Lemmas.History
/-
The default methods of `Storage` over any conforming implementation.
-/
namespace SerRaw

/-- The consequences of a legal configuration do not involve the allocator. -/
theorem Cfg.facts_of {C : Cfg} (ha : C.arch.Valid) (hv : C.assertAlignmentsValid = true) : C.Facts := by
  have F : Cfg.Facts { C with alloc := fun _ _ => 0 } := Cfg.OK.facts ⟨ha, hv, fun _ _ h => absurd rfl h⟩
  exact ⟨F.sa, F.mva, F.va, F.mva_le, F.va_le, F.max_pos, F.max_dvd, F.max_le, F.isize_lt, F.isize_pow⟩

namespace StorageImpl
variable {σ : Type} {I : StorageImpl σ} {Inv : σ → Prop} {content : σ → Mem}

theorem Conforms.facts (h : I.Conforms Inv content) : I.C.Facts := Cfg.facts_of h.arch h.consts

/-- `s'` is `s` at position `p`. -/
structure At (I : StorageImpl σ) (Inv : σ → Prop) (content : σ → Mem) (s : σ) (p : Nat) (s' : σ) : Prop where
  inv : Inv s'
  pos : I.pos s' = p
  cap : I.capacity s' = I.capacity s
  content : content s' = content s

theorem Conforms.roundUp_le (h : I.Conforms Inv content) {s : σ} (hI : Inv s) {p a : Nat} (hp : p ≤ I.capacity s) (ha : Pow2 a)
    (h2 : a ≤ I.C.maxValueAlign) : roundUp p a ≤ I.capacity s :=
  roundUp_le_of_dvd ha.pos hp (Nat.dvd_trans (ha.dvd_of_le h.facts.mva h2) (h.cap_dvd s hI))

theorem Conforms.align_ok (h : I.Conforms Inv content) {s : σ} (hI : Inv s) {a : Nat} (ha : Pow2 a) (h1 : I.C.valueAlign ≤ a)
    (h2 : a ≤ I.C.maxValueAlign) : ∃ s', I.align a s = .ok () s' ∧ At I Inv content s (roundUp (I.pos s) a) s' := by
  have F := h.facts
  have := F.max_lt; have hp := h.pos_le s hI; have := h.cap_le s hI; have := F.mva_le
  obtain ⟨s', e, i1, i2, i3, i4⟩ := h.setPos s (roundUp (I.pos s) a) hI (h.roundUp_le hI hp ha h2)
    (Nat.dvd_trans (F.va.dvd_of_le ha h1) (dvd_roundUp _ _))
  refine ⟨s', ?_, i1, i2, i3, i4⟩
  unfold StorageImpl.align
  rw [bind_ok (debugAssert_true _ (decide_eq_true h1) s), bind_ok (debugAssert_true _ (decide_eq_true h2) s),
    bind_ok (debugAssert_true _ (isPow2_iff.2 ha) s), bind_ok (show I.getPos s = .ok (I.pos s) s from rfl),
    bind_ok (alignUpTo_ok ha (by omega) s)]
  exact e

theorem Conforms.alignFor_ok (h : I.Conforms Inv content) {s : σ} (hI : Inv s) (hd : I.C.valueAlign ∣ I.pos s) {L : Layout}
    (ha : Pow2 L.align) (h2 : L.align ≤ I.C.maxValueAlign) :
    ∃ s', I.alignFor L s = .ok () s' ∧ At I Inv content s (roundUp (I.pos s) L.align) s' := by
  unfold StorageImpl.alignFor
  split
  · exact h.align_ok hI ha (by omega) h2
  · exact ⟨s, rfl, hI, (roundUp_small ha h.facts.va (by omega) hd).symm, rfl, rfl⟩

theorem Conforms.alignAfterAny_ok (h : I.Conforms Inv content) {s : σ} (hI : Inv s) :
    ∃ s', I.alignAfterAny s = .ok () s' ∧ At I Inv content s (roundUp (I.pos s) I.C.valueAlign) s' :=
  h.align_ok hI h.facts.va (Nat.le_refl _) h.facts.va_le

theorem Conforms.alignAfter_ok (h : I.Conforms Inv content) {s : σ} (hI : Inv s) {L : Layout}
    (hd : I.C.valueAlign ∣ L.size → I.C.valueAlign ∣ I.pos s) :
    ∃ s', I.alignAfter L s = .ok () s' ∧ At I Inv content s (roundUp (I.pos s) I.C.valueAlign) s' := by
  unfold StorageImpl.alignAfter
  split
  · exact h.alignAfterAny_ok hI
  · exact ⟨s, rfl, hI, (roundUp_eq_of_dvd h.facts.va.pos (hd (Nat.dvd_of_mod_eq_zero (by omega)))).symm, rfl, rfl⟩

/-- What a safe call may do. -/
structure Step (I : StorageImpl σ) (Inv : σ → Prop) (content : σ → Mem) (op : KOp) (s s' : σ) : Prop where
  inv : Inv s'
  dvd : I.C.valueAlign ∣ I.pos s'
  cap_le : op ≠ .shrinkToFit → I.capacity s ≤ I.capacity s'
  pos_mono : op ≠ .clear → I.pos s ≤ I.pos s'
  content : ∀ i < I.pos s, content s' i = content s i

/-- A successful push. -/
structure Pushed (I : StorageImpl σ) (content : σ → Mem) (L : Layout) (len : Nat) (s : σ) (p : Nat) (s' : σ) : Prop where
  aligned : L.align ∣ p
  valueAligned : I.C.valueAlign ∣ p
  after : I.pos s ≤ p
  where_ : p = roundUp (I.pos s) L.align ∨ I.C.maxValueAlign ∣ p
  end_ge : p + L.size * len ≤ I.pos s'
  end_lt : I.pos s' < p + L.size * len + I.C.valueAlign
  below : ∀ i < I.pos s, content s' i = content s i

theorem moved_aligned (F : I.C.Facts) {q p : Nat} {L : Layout} (ha : Pow2 L.align) (hal : L.align ≤ I.C.maxValueAlign)
    (hq : I.C.valueAlign ∣ q) (hqa : L.align ∣ q) (hm : p = q ∨ q ≤ p ∧ I.C.maxValueAlign ∣ p) :
    L.align ∣ p ∧ I.C.valueAlign ∣ p ∧ q ≤ p := by
  rcases hm with rfl | ⟨h1, h2⟩
  · exact ⟨hqa, hq, Nat.le_refl _⟩
  · exact ⟨Nat.dvd_trans (ha.dvd_of_le F.mva hal) h2, Nat.dvd_trans F.va_dvd_mva h2, h1⟩

theorem va_dvd_roundUp' (F : I.C.Facts) {p a : Nat} (ha : Pow2 a) (hd : I.C.valueAlign ∣ p) : I.C.valueAlign ∣ roundUp p a :=
  va_dvd_roundUp F ha hd

theorem Conforms.pushSlice_sat (h : I.Conforms Inv content) {s : σ} (hI : Inv s) (hd : I.C.valueAlign ∣ I.pos s) {L : Layout} {len : Nat}
    {data : Nat → Cell} (hL : L.OK) (hz : L.size ≠ 0) (hal : L.align ≤ I.C.maxValueAlign) (hsz : L.size * len ≤ I.C.arch.isizeMax)
    (hlen : 0 < len ∨ 0 < I.capacity s ∨ L.align = 1) :
    (I.pushSlice L len data s).Sat
      (fun p s' => Step I Inv content (.pushSlice L len data) s s' ∧ Pushed I content L len s p s' ∧
        ∀ i < L.size * len, content s' (p + i) = data i)
      (fun k s' => k = .capacity ∧ Step I Inv content (.pushSlice L len data) s s' ∧ I.pos s' = roundUp (I.pos s) L.align) True := by
  have F := h.facts
  have ha := hL.pow2
  unfold StorageImpl.pushSlice
  obtain ⟨s1, e1, i1, p1, c1, m1⟩ := h.alignFor_ok hI hd ha hal
  rw [if_neg hz, bind_ok e1, bind_ok (umul_ok _ (by have := F.isize_lt; omega) _), sat_bind]
  have hvd := va_dvd_roundUp F ha hd
  have hge := le_roundUp (I.pos s) ha.pos
  rcases h.reserve s1 (L.size * len) i1 with ⟨s2, e2, i2, room2, c2, hp2, m2⟩ | ⟨s2, e2, i2, p2, c2, m2⟩ | e2
  · rw [e2, sat_ok, bind_ok (show I.getPos s2 = .ok (I.pos s2) s2 from rfl)]
    rw [p1] at hp2 m2
    obtain ⟨a1, a2, a3⟩ := moved_aligned F ha hal hvd (dvd_roundUp _ _) hp2
    obtain ⟨s3, e3, i3, p3, c3, n3, m3⟩ := h.pushSliceUnchecked s2 L len data i2 hL hz hal room2 a1 (by
      rcases hlen with hh | hh | hh
      · exact Or.inl hh
      · exact Or.inr (Or.inl (by omega))
      · exact Or.inr (Or.inr hh))
    rw [bind_ok e3]
    obtain ⟨s4, e4, i4, p4, c4, m4⟩ := h.alignAfter_ok (L := L) i3 (fun hv => by
      rw [p3]; exact Nat.dvd_add a2 (Nat.dvd_trans hv (Nat.dvd_mul_right _ _)))
    rw [bind_ok e4, pure_run, sat_ok]
    have g1 := le_roundUp (I.pos s3) F.va.pos
    have g2 := roundUp_lt (I.pos s3) F.va.pos
    have hbelow : ∀ i < I.pos s, content s4 i = content s i := by
      intro i hi
      rw [m4, m3 i (by omega), m2 i (by omega), m1]
    refine ⟨⟨i4, by rw [p4]; exact dvd_roundUp _ _, fun _ => by omega, fun _ => by omega, hbelow⟩,
      ⟨a1, a2, by omega, ?_, by omega, by omega, hbelow⟩, ?_⟩
    · rcases hp2 with hh | ⟨_, hh⟩
      · exact Or.inl hh
      · exact Or.inr hh
    · intro i hi
      rw [m4]; exact n3 i hi
  · rw [e2, sat_panic]
    refine ⟨rfl, ⟨i2, by rw [p2, p1]; exact hvd, fun _ => by omega, fun _ => by omega, fun i hi => ?_⟩, by rw [p2, p1]⟩
    rw [m2 i (by omega), m1]
  · rw [e2, sat_abort]; trivial

theorem Conforms.pushEmptySlice_sat (h : I.Conforms Inv content) {s : σ} (hI : Inv s) (hd : I.C.valueAlign ∣ I.pos s) {L : Layout} {len : Nat}
    (hL : L.OK) (hal : L.align ≤ I.C.maxValueAlign) (hv : I.C.valueAlign ∣ L.size * len) :
    (I.pushEmptySlice L len s).Sat
      (fun p s' => Step I Inv content (.pushEmptySlice L len) s s' ∧ (L.size * len < I.C.arch.usizeMod → Pushed I content L len s p s'))
      (fun k s' => (k = .capacity ∨ k = .arith ∧ I.C.arch.debug = true ∧ I.C.arch.usizeMod ≤ L.size * len) ∧
        Step I Inv content (.pushEmptySlice L len) s s' ∧ I.pos s' = roundUp (I.pos s) L.align) True := by
  have F := h.facts
  have ha := hL.pow2
  unfold StorageImpl.pushEmptySlice
  obtain ⟨s1, e1, i1, p1, c1, m1⟩ := h.alignFor_ok hI hd ha hal
  have hvd := va_dvd_roundUp F ha hd
  have hge := le_roundUp (I.pos s) ha.pos
  rw [bind_ok e1]
  have hmul : (∃ size, umul I.C.arch L.size len s1 = .ok size s1 ∧ I.C.valueAlign ∣ size ∧
      (L.size * len < I.C.arch.usizeMod → size = L.size * len)) ∨
      (I.C.arch.debug = true ∧ I.C.arch.usizeMod ≤ L.size * len ∧ umul I.C.arch L.size len s1 = .panic .arith s1) := by
    unfold umul
    by_cases h1 : L.size * len < I.C.arch.usizeMod
    · left; rw [if_pos h1]; exact ⟨_, rfl, hv, fun _ => rfl⟩
    · rw [if_neg h1]
      by_cases h2 : I.C.arch.debug = true
      · right; rw [if_pos h2]; exact ⟨h2, by omega, rfl⟩
      · left; rw [if_neg h2]; exact ⟨_, rfl, (Nat.dvd_mod_iff (va_dvd_usizeMod F)).2 hv, fun h => absurd h h1⟩
  rcases hmul with ⟨size, hmul, hsv, hse⟩ | ⟨hdbg, hov, hmul⟩
  · rw [bind_ok hmul, sat_bind]
    rcases h.reserve s1 size i1 with ⟨s2, e2, i2, room2, c2, hp2, m2⟩ | ⟨s2, e2, i2, p2, c2, m2⟩ | e2
    · have hm := F.max_lt
      have hc2 := h.cap_le s2 i2
      rw [e2, sat_ok, bind_ok (show I.getPos s2 = .ok (I.pos s2) s2 from rfl),
        bind_ok (show I.getPos s2 = .ok (I.pos s2) s2 from rfl), bind_ok (uadd_ok _ (by omega) s2)]
      rw [p1] at hp2 m2
      obtain ⟨a1, a2, a3⟩ := moved_aligned F ha hal hvd (dvd_roundUp _ _) hp2
      obtain ⟨s3, e3, i3, p3, c3, m3⟩ := h.setPos s2 (I.pos s2 + size) i2 room2 (Nat.dvd_add a2 hsv)
      rw [bind_ok e3]
      have hd3 : I.C.valueAlign ∣ I.pos s3 := by rw [p3]; exact Nat.dvd_add a2 hsv
      obtain ⟨s4, e4, i4, p4, c4, m4⟩ := h.alignAfter_ok (L := L) i3 (fun _ => hd3)
      rw [bind_ok e4, pure_run, sat_ok]
      rw [roundUp_eq_of_dvd F.va.pos hd3] at p4
      have hbelow : ∀ i < I.pos s, content s4 i = content s i := by
        intro i hi
        rw [m4, m3, m2 i (by omega), m1]
      refine ⟨⟨i4, by rw [p4]; exact hd3, fun _ => by omega, fun _ => by omega, hbelow⟩, fun hlt => ?_⟩
      have := hse hlt
      have := F.va.pos
      refine ⟨a1, a2, by omega, ?_, by omega, by omega, hbelow⟩
      rcases hp2 with hh | ⟨_, hh⟩
      · exact Or.inl hh
      · exact Or.inr hh
    · rw [e2, sat_panic]
      refine ⟨Or.inl rfl, ⟨i2, by rw [p2, p1]; exact hvd, fun _ => by omega, fun _ => by omega, fun i hi => ?_⟩, by rw [p2, p1]⟩
      rw [m2 i (by omega), m1]
    · rw [e2, sat_abort]; trivial
  · rw [bind_def, hmul]
    exact ⟨Or.inr ⟨rfl, hdbg, hov⟩, ⟨i1, by rw [p1]; exact hvd, fun _ => by omega, fun _ => by omega, fun i hi => by rw [m1]⟩, p1⟩

theorem Conforms.withCapacity_sat (h : I.Conforms Inv content) (c : Nat) :
    (I.withCapacity c I.new).Sat (fun _ s' => Inv s' ∧ I.pos s' = 0 ∧ c ≤ I.capacity s')
      (fun k s' => k = .capacity ∧ I.C.maxCapacity < c ∧ s' = I.new) True := by
  have F := h.facts
  have hm := F.max_lt; have := F.mva_le
  unfold StorageImpl.withCapacity
  split
  · rename_i hz
    simp only [pure_run, sat_ok]
    exact ⟨h.new.1, h.new.2, by omega⟩
  · rename_i hz
    rw [sat_bind]
    simp only [M.assert]
    split
    · rename_i hle
      simp only [decide_eq_true_eq] at hle
      simp only [sat_ok]
      have hr : roundUp c I.C.maxValueAlign ≤ I.C.maxCapacity := roundUp_le_of_dvd F.mva.pos hle F.max_dvd
      have hge := le_roundUp c F.mva.pos
      rw [bind_ok (alignUpTo_ok F.mva (by omega) _)]
      rcases h.withCapacity _ (by omega) hr (dvd_roundUp _ _) with ⟨s', e, i, p, cc⟩ | e
      · rw [e, sat_ok]; exact ⟨i, p, by omega⟩
      · rw [e, sat_abort]; trivial
    · rename_i hle
      simp only [decide_eq_true_eq] at hle
      simp only [sat_panic, true_and]
      exact ⟨by omega, trivial⟩

/-- Every legal call on a consistent storage leaves a consistent storage. -/
theorem Conforms.step_sat (h : I.Conforms Inv content) {s : σ} (hI : Inv s) (hd : I.C.valueAlign ∣ I.pos s) {op : KOp} (hl : op.Legal I s) :
    (op.run I s).Sat (fun _ s' => Step I Inv content op s s')
      (fun k s' => (k = .capacity ∨ k = .arith ∧ ∃ L n, op = .pushEmptySlice L n ∧ I.C.arch.usizeMod ≤ L.size * n) ∧
        Step I Inv content op s s') True := by
  have F := h.facts
  have hsame : Step I Inv content op s s := ⟨hI, hd, fun _ => Nat.le_refl _, fun _ => Nat.le_refl _, fun _ _ => rfl⟩
  have hat : ∀ {p : Nat} {s'}, At I Inv content s p s' → I.pos s ≤ p → I.C.valueAlign ∣ p → Step I Inv content op s s' := by
    intro p s' ha h1 h2
    exact ⟨ha.inv, by rw [ha.pos]; exact h2, fun _ => by rw [ha.cap], fun _ => by rw [ha.pos]; exact h1, fun i _ => by rw [ha.content]⟩
  cases op with
  | pushSlice L len data =>
    obtain ⟨hL, hacc, hsz, hlen⟩ := hl
    simp only [KOp.run]
    by_cases hz : L.size = 0
    · have : I.pushSlice L len data s = .ok 0 s := by unfold StorageImpl.pushSlice; rw [if_pos hz]; rfl
      rw [this, sat_ok]; exact hsame
    · exact (h.pushSlice_sat hI hd hL hz (accepts_iff.1 (hacc hz)) hsz (hlen.resolve_left hz)).mono
        (fun p s' hh => hh.1) (fun k s' hh => ⟨Or.inl hh.1, hh.2.1⟩) id
  | pushEmptySlice L len =>
    obtain ⟨hL, hacc, _, hv⟩ := hl
    exact (h.pushEmptySlice_sat hI hd hL (accepts_iff.1 hacc) hv).mono (fun p s' hh => hh.1)
      (fun k s' hh => ⟨hh.1.imp id fun hk => ⟨hk.1, _, _, rfl, hk.2.2⟩, hh.2.1⟩) id
  | reserve n =>
    simp only [KOp.run]
    rw [sat_bind]
    rcases h.reserve s n hI with ⟨s2, e2, i2, room2, c2, hp2, m2⟩ | ⟨s2, e2, i2, p2, c2, m2⟩ | e2
    · rw [e2, sat_ok, pure_run, sat_ok]
      refine ⟨i2, ?_, fun _ => c2, fun _ => by omega, m2⟩
      rcases hp2 with hh | ⟨_, hh⟩
      · rw [hh]; exact hd
      · exact Nat.dvd_trans F.va_dvd_mva hh
    · rw [e2, sat_panic]
      exact ⟨Or.inl rfl, i2, by rw [p2]; exact hd, fun _ => c2, fun _ => by omega, m2⟩
    · rw [e2, sat_abort]; trivial
  | alignFor L =>
    obtain ⟨hL, hacc⟩ := hl
    obtain ⟨s', e, ha⟩ := h.alignFor_ok hI hd hL.pow2 (accepts_iff.1 hacc)
    simp only [KOp.run]
    rw [bind_ok e, pure_run, sat_ok]
    exact hat ha (le_roundUp _ hL.pow2.pos) (va_dvd_roundUp F hL.pow2 hd)
  | alignAfter L =>
    obtain ⟨s', e, ha⟩ := h.alignAfter_ok (L := L) hI (fun _ => hd)
    simp only [KOp.run]
    rw [bind_ok e, pure_run, sat_ok]
    exact hat ha (le_roundUp _ F.va.pos) (dvd_roundUp _ _)
  | alignAfterAny =>
    obtain ⟨s', e, ha⟩ := h.alignAfterAny_ok hI
    simp only [KOp.run]
    rw [bind_ok e, pure_run, sat_ok]
    exact hat ha (le_roundUp _ F.va.pos) (dvd_roundUp _ _)
  | clear =>
    obtain ⟨s', e, i, p, c, m⟩ := h.setPos s 0 hI (Nat.zero_le _) (Nat.dvd_zero _)
    simp only [KOp.run]
    rw [bind_ok (show I.clear s = .ok () s' from e), pure_run, sat_ok]
    exact ⟨i, by rw [p]; exact Nat.dvd_zero _, fun _ => by omega, fun hn => absurd rfl hn, fun _ _ => by rw [m]⟩
  | shrinkToFit =>
    simp only [KOp.run]
    rw [sat_bind]
    rcases h.shrinkToFit s hI hd with ⟨s', e, i, p, c, m⟩ | e
    · rw [e, sat_ok, pure_run, sat_ok]
      exact ⟨i, by rw [p]; exact hd, fun hn => absurd rfl hn, fun _ => by omega, m⟩
    · rw [e, sat_abort]; trivial

theorem Conforms.hist_inv (h : I.Conforms Inv content) {es : List KEvent} {s : σ} (hh : KHist I es s) :
    Inv s ∧ I.C.valueAlign ∣ I.pos s := by
  induction hh with
  | new => exact ⟨h.new.1, by rw [h.new.2]; exact Nat.dvd_zero _⟩
  | @withCapacity c s _ e =>
    have := h.withCapacity_sat c
    rw [e] at this
    exact ⟨this.1, by rw [this.2.1]; exact Nat.dvd_zero _⟩
  | ok _ hl hr ih => have := h.step_sat ih.1 ih.2 hl; rw [hr] at this; exact ⟨this.inv, this.dvd⟩
  | panic _ hl hr ih => have := h.step_sat ih.1 ih.2 hl; rw [hr] at this; exact ⟨this.2.inv, this.2.dvd⟩

/-- How a state evolves: `Later I h es s es' s'`: from `s`, the further calls `es'` lead to `s'`. -/
inductive KLater (I : StorageImpl σ) : σ → List KEvent → σ → Prop
  | refl {s} : KLater I s [] s
  | ok {s es t op p t'} : KLater I s es t → op.Legal I t → op.run I t = .ok p t' → KLater I s (es ++ [⟨op, some p⟩]) t'
  | panic {s es t op k t'} : KLater I s es t → op.Legal I t → op.run I t = .panic k t' → KLater I s (es ++ [⟨op, none⟩]) t'

theorem KHist.split {pre post : List KEvent} {s : σ} (hh : KHist I (pre ++ post) s) :
    ∃ t, KHist I pre t ∧ KLater I t post s := by
  generalize he : pre ++ post = es at hh
  induction hh generalizing post with
  | new =>
    obtain ⟨rfl, rfl⟩ := List.append_eq_nil_iff.1 he
    exact ⟨_, .new, .refl⟩
  | withCapacity h1 h2 =>
    obtain ⟨rfl, rfl⟩ := List.append_eq_nil_iff.1 he
    exact ⟨_, .withCapacity h1 h2, .refl⟩
  | @ok es s op p s' hh hl hr ih =>
    rcases List.eq_nil_or_concat post with rfl | ⟨post', e, rfl⟩
    · rw [List.append_nil] at he
      subst he; exact ⟨_, .ok hh hl hr, .refl⟩
    · rw [List.concat_eq_append, ← List.append_assoc] at he
      obtain ⟨h1, h2⟩ := List.append_inj' he rfl
      simp only [List.cons.injEq, and_true] at h2
      obtain ⟨t, h3, h4⟩ := ih h1
      rw [List.concat_eq_append, h2]
      exact ⟨t, h3, .ok h4 hl hr⟩
  | @panic es s op k s' hh hl hr ih =>
    rcases List.eq_nil_or_concat post with rfl | ⟨post', e, rfl⟩
    · rw [List.append_nil] at he
      subst he; exact ⟨_, .panic hh hl hr, .refl⟩
    · rw [List.concat_eq_append, ← List.append_assoc] at he
      obtain ⟨h1, h2⟩ := List.append_inj' he rfl
      simp only [List.cons.injEq, and_true] at h2
      obtain ⟨t, h3, h4⟩ := ih h1
      rw [List.concat_eq_append, h2]
      exact ⟨t, h3, .panic h4 hl hr⟩

theorem Conforms.later (h : I.Conforms Inv content) {s t : σ} {es : List KEvent} (hI : Inv s) (hd : I.C.valueAlign ∣ I.pos s)
    (hl : KLater I s es t) (hnc : ∀ e ∈ es, e.op ≠ .clear) :
    Inv t ∧ I.C.valueAlign ∣ I.pos t ∧ I.pos s ≤ I.pos t ∧ ∀ i < I.pos s, content t i = content s i := by
  induction hl with
  | refl => exact ⟨hI, hd, Nat.le_refl _, fun _ _ => rfl⟩
  | @ok es t op p t' hl hleg hr ih =>
    obtain ⟨j1, j2, j3, j4⟩ := ih (fun e he => hnc e (List.mem_append_left _ he))
    have := h.step_sat j1 j2 hleg
    rw [hr] at this
    have hp := this.pos_mono (hnc _ (List.mem_append_right _ List.mem_cons_self))
    exact ⟨this.inv, this.dvd, by omega, fun i hi => by rw [this.content i (by omega), j4 i hi]⟩
  | @panic es t op k t' hl hleg hr ih =>
    obtain ⟨j1, j2, j3, j4⟩ := ih (fun e he => hnc e (List.mem_append_left _ he))
    have := h.step_sat j1 j2 hleg
    rw [hr] at this
    have this := this.2
    have hp := this.pos_mono (hnc _ (List.mem_append_right _ List.mem_cons_self))
    exact ⟨this.inv, this.dvd, by omega, fun i hi => by rw [this.content i (by omega), j4 i hi]⟩

end StorageImpl
end SerRaw
