import Verif.Spec.CustomSerializer
import Verif.Lemmas.CustomStorage
import Verif.Lemmas.Run
import Verif.Lemmas.Later
import Verif.Lemmas.Mixed
/-
Derived serializers over any conforming random-access storage produce the reference output (Spec/Ideal.lean).
-/
namespace SerRaw

namespace RandomImpl
variable {σ : Type} {I : RandomImpl σ} {Inv : σ → Prop} {content : σ → Mem}

/-- `Storage::push_slice` on a storage whose `reserve` stays in place. -/
theorem Conforms.pushSlice_exact (h : I.Conforms Inv content) {s : σ} (hI : Inv s) (hd : I.C.valueAlign ∣ I.pos s) {L : Layout} {len : Nat}
    {data : Nat → Cell} (hL : L.OK) (hz : L.size ≠ 0) (hal : L.align ≤ I.C.maxValueAlign) (hsz : L.size * len ≤ I.C.arch.isizeMax)
    (hlen : 0 < len ∨ 0 < I.capacity s ∨ L.align = 1) :
    (I.pushSlice L len data s).Sat
      (fun p s' => Inv s' ∧ p = roundUp (I.pos s) L.align ∧ I.pos s' = roundUp (p + L.size * len) I.C.valueAlign ∧
        I.capacity s ≤ I.capacity s' ∧ (∀ i < L.size * len, content s' (p + i) = data i) ∧ ∀ i < I.pos s, content s' i = content s i)
      (fun k s' => k = .capacity ∧ Inv s' ∧ I.C.valueAlign ∣ I.pos s' ∧ I.pos s ≤ I.pos s' ∧ (∀ i < I.pos s, content s' i = content s i) ∧
        (I.Exact Inv → I.C.maxCapacity < roundUp (I.pos s) L.align + L.size * len))
      (¬ I.NeverAborts Inv) := by
  have hS := h.storage
  have F := hS.facts
  have ha := hL.pow2
  unfold StorageImpl.pushSlice
  obtain ⟨s1, e1, i1, p1, c1, m1⟩ := hS.alignFor_ok hI hd ha hal
  rw [if_neg hz, bind_ok e1, bind_ok (umul_ok _ (by have := F.isize_lt; omega) _), sat_bind]
  have hvd := va_dvd_roundUp F ha hd
  have hge := le_roundUp (I.pos s) ha.pos
  rcases hS.reserve s1 (L.size * len) i1 with ⟨s2, e2, i2, room2, c2, _, m2⟩ | ⟨s2, e2, i2, p2, c2, m2⟩ | e2
  · have hp2 := h.inPlace s1 _ s2 i1 e2
    rw [e2, sat_ok, bind_ok (show I.getPos s2 = .ok (I.pos s2) s2 from rfl)]
    rw [p1] at hp2 m2
    obtain ⟨s3, e3, i3, p3, c3, n3, m3⟩ := hS.pushSliceUnchecked s2 L len data i2 hL hz hal room2 (by rw [hp2]; exact dvd_roundUp _ _) (by
      rcases hlen with hh | hh | hh
      · exact Or.inl hh
      · exact Or.inr (Or.inl (by omega))
      · exact Or.inr (Or.inr hh))
    rw [bind_ok e3]
    obtain ⟨s4, e4, i4, p4, c4, m4⟩ := hS.alignAfter_ok (L := L) i3 (fun hv => by
      rw [p3, hp2]; exact Nat.dvd_add hvd (Nat.dvd_trans hv (Nat.dvd_mul_right _ _)))
    rw [bind_ok e4, pure_run, sat_ok]
    refine ⟨i4, hp2, by rw [p4, p3], by omega, fun i hi => by rw [m4]; exact n3 i hi, fun i hi => ?_⟩
    rw [m4, m3 i (by omega), m2 i (by omega), m1]
  · rw [e2, sat_panic]
    refine ⟨rfl, i2, by rw [p2, p1]; exact hvd, by omega, fun i hi => ?_, fun hx => ?_⟩
    · rw [m2 i (by omega), m1]
    · apply Nat.lt_of_not_le; intro hle
      exact hx s1 _ i1 (by rw [p1]; exact hle) _ _ e2
  · rw [e2, sat_abort]; exact fun hx => hx s1 _ i1 e2

/-- The storage's contents extend the reference contents `m`, which end at the position. -/
structure GRel (I : RandomImpl σ) (Inv : σ → Prop) (content : σ → Mem) (s : GSer σ) (m : Mem) : Prop where
  inv : Inv s.sto
  dvd : I.C.valueAlign ∣ I.pos s.sto
  fresh : ∀ i, I.pos s.sto ≤ i → m i = none
  sub : m.Le (content s.sto)

/-- What is stored below `lo` stays, and the position does not go back. -/
structure GKept (I : RandomImpl σ) (Inv : σ → Prop) (content : σ → Mem) (lo : Nat) (s s' : GSer σ) : Prop where
  inv : Inv s'.sto
  dvd : I.C.valueAlign ∣ I.pos s'.sto
  pos : I.pos s.sto ≤ I.pos s'.sto
  below : ∀ i < lo, content s'.sto i = content s.sto i

theorem GKept.refl {lo : Nat} {s : GSer σ} {m : Mem} (h : GRel I Inv content s m) : GKept I Inv content lo s s :=
  ⟨h.inv, h.dvd, Nat.le_refl _, fun _ _ => rfl⟩

theorem GKept.trans {lo : Nat} {s s1 s2 : GSer σ} (h1 : GKept I Inv content lo s s1) (h2 : GKept I Inv content lo s1 s2) :
    GKept I Inv content lo s s2 :=
  ⟨h2.inv, h2.dvd, Nat.le_trans h1.pos h2.pos, fun i hi => (h2.below i hi).trans (h1.below i hi)⟩

theorem GKept.lower {lo lo' : Nat} {s s' : GSer σ} (h : GKept I Inv content lo s s') (hl : lo' ≤ lo) : GKept I Inv content lo' s s' :=
  ⟨h.inv, h.dvd, h.pos, fun i hi => h.below i (by omega)⟩

theorem sat_glift {α} {x : M σ α} {s : GSer σ} {Q : α → GSer σ → Prop} {R : PanicKind → GSer σ → Prop} {Ab : Prop} :
    (GSer.lift x s).Sat Q R Ab ↔
      (x s.sto).Sat (fun a t => Q a { s with sto := t }) (fun k t => R k { s with sto := t }) Ab := by
  unfold GSer.lift; cases x s.sto <;> simp

/-- How a run that ran out of room leaves the serializer. -/
def GStop (I : RandomImpl σ) (Inv : σ → Prop) (content : σ → Mem) (lo : Nat) (s : GSer σ) (pk : PanicKind) (s' : GSer σ) : Prop :=
  pk = .capacity ∧ GKept I Inv content lo s s'

theorem GStop.from {lo : Nat} {s s1 s2 : GSer σ} {pk : PanicKind} (h1 : GKept I Inv content lo s s1) (h2 : GStop I Inv content lo s1 pk s2) :
    GStop I Inv content lo s pk s2 := ⟨h2.1, h1.trans h2.2⟩

/-- The same, and if the storage's `reserve` is exact, the reference output would have ended (at `ub`) beyond `MAX_CAPACITY`. -/
def GFull (I : RandomImpl σ) (Inv : σ → Prop) (content : σ → Mem) (ub lo : Nat) (s : GSer σ) (pk : PanicKind) (s' : GSer σ) : Prop :=
  GStop I Inv content lo s pk s' ∧ (I.Exact Inv → I.C.maxCapacity < ub)

theorem GFull.from {lo lo' ub : Nat} {s s1 s2 : GSer σ} {pk : PanicKind} (h1 : GKept I Inv content lo s s1) (h2 : GFull I Inv content ub lo' s1 pk s2)
    {ub' : Nat} (hl : lo ≤ lo') (hu : ub ≤ ub') : GFull I Inv content ub' lo s pk s2 :=
  ⟨⟨h2.1.1, h1.trans (h2.1.2.lower hl)⟩, fun hx => Nat.lt_of_lt_of_le (h2.2 hx) hu⟩

/-- A push. -/
theorem Conforms.gpush (h : I.Conforms Inv content) {s : GSer σ} {m : Mem} (hr : GRel I Inv content s m) {L : Layout} {len src : Nat}
    (ho : PushOK I.C L len src) (hL : L.OK) (hlen : 0 < len ∨ 0 < I.pos s.sto) (data : Nat → Cell) {lo : Nat} (hlo : lo ≤ I.pos s.sto) :
    (GSer.lift (I.pushSlice L len data) s).Sat
      (fun p s' => p = roundUp (I.pos s.sto) L.align ∧ s'.map = s.map ∧ I.pos s'.sto = roundUp (p + L.size * len) I.C.valueAlign ∧
        GRel I Inv content s' (m.blit p (L.size * len) data) ∧ GKept I Inv content lo s s')
      (GFull I Inv content (roundUp (roundUp (I.pos s.sto) L.align + L.size * len) I.C.valueAlign) lo s) (¬ I.NeverAborts Inv) := by
  have F := h.storage.facts
  rw [sat_glift]
  refine (h.pushSlice_exact (data := data) hr.inv hr.dvd hL ho.size_ne ho.align_le ho.size_le ?_).mono ?_ ?_ id
  · rcases hlen with hh | hh
    · exact Or.inl hh
    · have := h.storage.pos_le _ hr.inv; exact Or.inr (Or.inl (by omega))
  · rintro p t ⟨i1, hp, hend, hcap, hdata, hbelow⟩
    have hge := le_roundUp (I.pos s.sto) ho.pow2.pos
    have hge2 := le_roundUp (p + L.size * len) F.va.pos
    refine ⟨hp, rfl, hend, ⟨i1, by simp only; rw [hend]; exact dvd_roundUp _ _, ?_, ?_⟩,
      ⟨i1, by simp only; rw [hend]; exact dvd_roundUp _ _, by simp only; omega, fun i hi => hbelow i (by omega)⟩⟩
    · intro i hi
      simp only at hi
      rw [blit_out (by omega)]
      exact hr.fresh i (by omega)
    · intro i b hb
      simp only
      by_cases hin : p ≤ i ∧ i < p + L.size * len
      · have := hdata (i - p) (by omega)
        rw [show p + (i - p) = i by omega] at this
        rw [this]
        rw [show i = p + (i - p) by omega, blit_at (by omega)] at hb
        exact hb
      · rw [blit_out (by omega)] at hb
        have hlt : i < I.pos s.sto := by
          apply Nat.lt_of_not_le; intro hle
          rw [hr.fresh i hle] at hb; cases hb
        rw [hbelow i hlt]
        exact hr.sub i b hb
  · rintro k t ⟨hk, i1, hd1, hp1, hb1, hx1⟩
    exact ⟨⟨hk, i1, hd1, hp1, fun i hi => hb1 i (by omega)⟩, fun hx => Nat.lt_of_lt_of_le (hx1 hx) (le_roundUp _ F.va.pos)⟩

/-- Writing a pointer. -/
theorem Conforms.goverwrite (h : I.Conforms Inv content) {s : GSer σ} {m : Mem} (hr : GRel I Inv content s m) {x target lo : Nat}
    (hx : x + I.C.arch.ptrBytes ≤ I.pos s.sto) (hxd : I.C.arch.ptrBytes ∣ x) (hpm : I.C.arch.ptrBytes ≤ I.C.maxValueAlign)
    (ht : target ≤ I.pos s.sto) (hlo : lo ≤ x) :
    ∃ s', GSer.doOverwritePtr I x target s = .ok () s' ∧ s'.map = s.map ∧ I.pos s'.sto = I.pos s.sto ∧
      GRel I Inv content s' (m.blit x I.C.arch.ptrBytes (wordCells I.C.arch target)) ∧ GKept I Inv content lo s s' := by
  have hS := h.storage
  have hpl := hS.pos_le _ hr.inv
  have hpp := hS.arch.ptr_pos
  obtain ⟨t, e, i1, p1, c1, hdata, hother⟩ := h.writeSlice s.sto x ⟨I.C.arch.ptrBytes, I.C.arch.ptrBytes⟩ 1
    (wordCells I.C.arch target) hr.inv ⟨hS.arch.ptr_pow2, Nat.dvd_refl _⟩ (by simp only; omega) hpm Nat.one_pos
    (by simp only; omega) hxd
  simp only [Nat.mul_one] at hdata hother
  refine ⟨{ s with sto := t }, ?_, rfl, p1, ⟨i1, by rw [p1]; exact hr.dvd, ?_, ?_⟩,
    ⟨i1, by rw [p1]; exact hr.dvd, by rw [p1], fun i hi => hother i (by omega) (by omega)⟩⟩
  · unfold GSer.doOverwritePtr
    rw [bind_ok (show GSer.getCapacity I.toStorageImpl s = .ok (I.capacity s.sto) s from rfl), bind_ok (debugAssertM_ok _ ?_),
      bind_ok (debugAssertM_ok _ ?_), bind_ok (debugAssert_true _ (decide_eq_true (by omega)) s)]
    · unfold GSer.lift RandomImpl.write; rw [e]
    · intro _; rw [isAlignedTo_ok hS.arch.ptr_pow2, decide_eq_true hxd]
    · intro _
      rw [bind_ok (usub_ok _ (by omega) s)]; simp only [pure_run]; rw [decide_eq_true]; omega
  · intro i hi
    simp only [p1] at hi
    rw [blit_out (by omega)]
    exact hr.fresh i hi
  · intro i b hb
    simp only
    by_cases hin : x ≤ i ∧ i < x + I.C.arch.ptrBytes
    · have := hdata (i - x) (by omega)
      rw [show x + (i - x) = i by omega] at this
      rw [this]
      rw [show i = x + (i - x) by omega, blit_at (by omega)] at hb
      exact hb
    · rw [blit_out (by omega)] at hb
      have hlt : i < I.pos s.sto := by
        apply Nat.lt_of_not_le; intro hle
        rw [hr.fresh i hle] at hb; cases hb
      rw [hother i hlt (by omega)]
      exact hr.sub i b hb

/-- A push followed by writing the pointer to it. -/
theorem Conforms.gpushPtr (h : I.Conforms Inv content) {s : GSer σ} {m : Mem} (hr : GRel I Inv content s m) {c : Ctx} {op : Nat}
    {L : Layout} {len src ptr : Nat} (ho : PushOK I.C L len src) (hL : L.OK) (ht : TouchOK I.C c ptr I.C.arch.ptrBytes)
    (hin : op + c.sz ≤ I.pos s.sto) (hpp : 0 < I.pos s.sto) (hal : c.al ∣ op) (hal0 : 0 < c.al) (hale : c.al ≤ I.C.maxValueAlign)
    (data : Nat → Cell) {α : Type} (f : Nat → M (GSer σ) α) {Q : α → GSer σ → Prop} {ub : Nat}
    (hub : roundUp (roundUp (I.pos s.sto) L.align + L.size * len) I.C.valueAlign ≤ ub)
    (hf : ∀ s1 : GSer σ, s1.map = s.map → I.pos s1.sto = roundUp (roundUp (I.pos s.sto) L.align + L.size * len) I.C.valueAlign →
      GRel I Inv content s1 ((m.blit (roundUp (I.pos s.sto) L.align) (L.size * len) data).blit (outPos c.ia op ptr) I.C.arch.ptrBytes
        (wordCells I.C.arch (roundUp (I.pos s.sto) L.align))) →
      GKept I Inv content op s s1 → (f (roundUp (I.pos s.sto) L.align) s1).Sat Q (GFull I Inv content ub op s) (¬ I.NeverAborts Inv)) :
    ((GSer.lift (I.pushSlice L len data) >>= fun pos => PosMapping.posForAddr I.C.arch ⟨c.ia, op⟩ ptr >>= fun pp =>
      GSer.doOverwritePtr I pp pos >>= fun _ => f pos) s).Sat Q (GFull I Inv content ub op s) (¬ I.NeverAborts Inv) := by
  have hS := h.storage
  have F := hS.facts
  have hlo := ht.lo; have hhi := ht.hi
  have hge := le_roundUp (I.pos s.sto) ho.pow2.pos
  rw [sat_bind]
  refine (h.gpush hr ho hL (Or.inr hpp) data (lo := op) (by omega)).mono ?_ (fun _ _ hh => GFull.from (GKept.refl hr) hh (Nat.le_refl _) hub) id
  rintro p s1 ⟨rfl, hm1, hp1, hr1, hk1⟩
  have hge2 := le_roundUp (roundUp (I.pos s.sto) L.align + L.size * len) F.va.pos
  have hpl := hS.pos_le _ hr.inv; have := hS.cap_le _ hr.inv; have := F.max_lt
  rw [bind_ok (posForAddr_ok I.C.arch hlo (by omega) s1)]
  obtain ⟨s2, e2, hm2, hp2, hr2, hk2⟩ := h.goverwrite (lo := op) hr1 (x := outPos c.ia op ptr) (target := roundUp (I.pos s.sto) L.align)
    (by unfold outPos; omega) (Nat.dvd_add (Nat.dvd_trans ht.al hal) ht.off) (Nat.le_trans (Nat.le_of_dvd hal0 ht.al) hale)
    (by omega) (outPos_ge _ _ _)
  rw [bind_ok e2]
  exact hf s2 (hm2.trans hm1) (hp2.trans hp1) hr2 (hk1.trans hk2)

/-- The reference mode of a kind. -/
abbrev gmode (k : DKind) : Mode := k.kind.mode 0

/-- Running a well-formed script gives the reference output. -/
theorem Conforms.runG (h : I.Conforms Inv content) {k : DKind} {im : Mem} (sc : Script) {c : Ctx} {op : Nat} {s : GSer σ} {m : Mem}
    (hr : GRel I Inv content s m) (hwf : sc.WF I.C c) (hty : sc.RealTypes) (hmap : k = .ptrOffset → s.map = ⟨c.ia, op⟩)
    (hin : op + c.sz ≤ I.pos s.sto) (hpp : 0 < I.pos s.sto) (hal : c.al ∣ op) (hal0 : 0 < c.al) (hale : c.al ≤ I.C.maxValueAlign) :
    (sc.runG I k im s).Sat
      (fun _ s' => GRel I Inv content s' (sc.ideal I.C.arch I.C.valueAlign (gmode k) im c.ia op (m, I.pos s.sto)).1 ∧
        I.pos s'.sto = (sc.ideal I.C.arch I.C.valueAlign (gmode k) im c.ia op (m, I.pos s.sto)).2 ∧ s'.map = s.map ∧
        GKept I Inv content op s s')
      (GFull I Inv content (sc.ideal I.C.arch I.C.valueAlign (gmode k) im c.ia op (m, I.pos s.sto)).2 op s) (¬ I.NeverAborts Inv) := by
  have F := h.storage.facts
  have hva := F.va.pos
  induction sc generalizing c op s m with
  | done => exact ⟨hr, rfl, rfl, hr.inv, hr.dvd, Nat.le_refl _, fun _ _ => rfl⟩
  | pushRaw L len src rest ih =>
    obtain ⟨ho, hw⟩ := hwf
    obtain ⟨hL, hty⟩ := hty
    simp only [Script.runG, GSer.pushRawSlice, Script.ideal]
    rw [sat_bind]
    refine (h.gpush hr ho hL (Or.inr hpp) _ (lo := op) (by omega)).mono ?_ (fun _ _ hh => GFull.from (GKept.refl hr) hh (Nat.le_refl _) (ideal_mono hva rest hw _ _ (_, _))) id
    rintro p s1 ⟨rfl, hm1, hp1, hr1, hk1⟩
    have hk1p := hk1.pos
    refine (ih hr1 hw hty (fun hk => by rw [hm1]; exact hmap hk) (by omega) (by omega) hal hal0 hale).mono ?_ (fun _ _ hh => GFull.from hk1 hh (Nat.le_refl _) (by rw [hp1])) id
    rintro _ s2 ⟨a1, a2, a3, a4⟩
    rw [hp1] at a1 a2
    exact ⟨a1, a2, a3.trans hm1, hk1.trans a4⟩
  | overwrite a L data rest ih =>
    have : (gmode k).fixup = false := by cases k <;> rfl
    simp only [Script.runG, Script.ideal, Mode.putValue, this]
    exact ih hr hwf.2 hty hmap hin hpp hal hal0 hale
  | push L len src ptr rest ih =>
    obtain ⟨ho, ht, _, hw⟩ := hwf
    obtain ⟨hL, hty⟩ := hty
    cases hk : k with
    | ptrOffset =>
      subst hk
      simp only [Script.runG, GSer.pushSlice, GSer.pushRawSlice, Script.ideal, bind_assoc_M, pure_bind_M]
      have hmode : ∀ m x t, (gmode .ptrOffset).putPtr I.C.arch m x t = m.blit x I.C.arch.ptrBytes (wordCells I.C.arch t) := by
        intro m x t; simp [gmode, DKind.kind, Kind.mode, Mode.putPtr]
      have haddr : addrFromRef DKind.ptrOffset.kind ptr = ptr := rfl
      simp only [hmode, haddr]
      have hcore := h.gpushPtr hr ho hL ht hin hpp hal hal0 hale (fun i => im (src + i)) (fun _ => rest.runG I .ptrOffset im)
        (Q := fun _ s' => GRel I Inv content s' (rest.ideal I.C.arch I.C.valueAlign (gmode .ptrOffset) im c.ia op
            ((m.blit (roundUp (I.pos s.sto) L.align) (L.size * len) fun i => im (src + i)).blit (outPos c.ia op ptr) I.C.arch.ptrBytes
              (wordCells I.C.arch (roundUp (I.pos s.sto) L.align)), roundUp (roundUp (I.pos s.sto) L.align + L.size * len) I.C.valueAlign)).1 ∧
          I.pos s'.sto = (rest.ideal I.C.arch I.C.valueAlign (gmode .ptrOffset) im c.ia op
            ((m.blit (roundUp (I.pos s.sto) L.align) (L.size * len) fun i => im (src + i)).blit (outPos c.ia op ptr) I.C.arch.ptrBytes
              (wordCells I.C.arch (roundUp (I.pos s.sto) L.align)), roundUp (roundUp (I.pos s.sto) L.align + L.size * len) I.C.valueAlign)).2 ∧
          s'.map = s.map ∧ GKept I Inv content op s s') (ideal_mono (A := I.C.arch) (md := gmode .ptrOffset) (im := im) hva rest hw c.ia op
            ((m.blit (roundUp (I.pos s.sto) L.align) (L.size * len) fun i => im (src + i)).blit (outPos c.ia op ptr) I.C.arch.ptrBytes
              (wordCells I.C.arch (roundUp (I.pos s.sto) L.align)), roundUp (roundUp (I.pos s.sto) L.align + L.size * len) I.C.valueAlign)) ?_
      · rw [sat_bind] at hcore ⊢
        rw [sat_glift] at hcore ⊢
        refine hcore.mono (fun p t hh => ?_) (fun _ _ hh => hh) id
        rw [bind_ok (show GSer.getMap { s with sto := t } = .ok ⟨c.ia, op⟩ { s with sto := t } from by rw [← hmap rfl]; rfl)]
        exact hh
      · intro s1 hm1 hp1 hr1 hk1
        have hk1p := hk1.pos
        refine (ih hr1 hw hty (fun _ => by rw [hm1]; exact hmap rfl) (by omega) (by omega) hal hal0 hale).mono ?_ (fun _ _ hh => GFull.from hk1 hh (Nat.le_refl _) (by rw [hp1])) id
        rintro _ s2 ⟨a1, a2, a3, a4⟩
        rw [hp1] at a1 a2
        exact ⟨a1, a2, a3.trans hm1, hk1.trans a4⟩
    | _ =>
      subst hk
      simp only [Script.runG, GSer.pushSlice, GSer.pushAndProcessSlice, GSer.pushRawSlice, Script.ideal, bind_assoc_M, pure_bind_M]
      rw [sat_bind]
      refine (h.gpush hr ho hL (Or.inr hpp) _ (lo := op) (by omega)).mono ?_ (fun _ _ hh => GFull.from (GKept.refl hr) hh (Nat.le_refl _) (ideal_mono hva rest hw _ _ (_, _))) id
      rintro p s1 ⟨rfl, hm1, hp1, hr1, hk1⟩
      have hk1p := hk1.pos
      refine (ih hr1 hw hty (fun hk => by cases hk) (by omega) (by omega) hal hal0 hale).mono ?_ (fun _ _ hh => GFull.from hk1 hh (Nat.le_refl _) (by rw [hp1]; exact Nat.le_refl _)) id
      rintro _ s2 ⟨a1, a2, a3, a4⟩
      rw [hp1] at a1 a2
      exact ⟨a1, a2, a3.trans hm1, hk1.trans a4⟩
  | pushProcess L len src ptr inner rest ih1 ih2 =>
    obtain ⟨ho, ht, _, hwi, hw⟩ := hwf
    obtain ⟨hL, hti, hty⟩ := hty
    have hge := le_roundUp (I.pos s.sto) ho.pow2.pos
    have hge2 := le_roundUp (roundUp (I.pos s.sto) L.align + L.size * len) hva
    -- after the push (and pointer): the contents, then the rest
    have after : ∀ (s1 : GSer σ) (m1 : Mem), GRel I Inv content s1 m1 →
        I.pos s1.sto = roundUp (roundUp (I.pos s.sto) L.align + L.size * len) I.C.valueAlign →
        (k = .ptrOffset → s1.map = ⟨src, roundUp (I.pos s.sto) L.align⟩) → GKept I Inv content op s s1 →
        (inner.runG I k im s1).Sat (fun _ s2 => s2.map = s1.map ∧ ∀ s3 : GSer σ, s3.sto = s2.sto → s3.map = s.map →
          (rest.runG I k im s3).Sat
            (fun _ s' => GRel I Inv content s' (rest.ideal I.C.arch I.C.valueAlign (gmode k) im c.ia op
                (inner.ideal I.C.arch I.C.valueAlign (gmode k) im src (roundUp (I.pos s.sto) L.align)
                  (m1, roundUp (roundUp (I.pos s.sto) L.align + L.size * len) I.C.valueAlign))).1 ∧
              I.pos s'.sto = (rest.ideal I.C.arch I.C.valueAlign (gmode k) im c.ia op
                (inner.ideal I.C.arch I.C.valueAlign (gmode k) im src (roundUp (I.pos s.sto) L.align)
                  (m1, roundUp (roundUp (I.pos s.sto) L.align + L.size * len) I.C.valueAlign))).2 ∧
              s'.map = s.map ∧ GKept I Inv content op s s')
            (GFull I Inv content (rest.ideal I.C.arch I.C.valueAlign (gmode k) im c.ia op
                (inner.ideal I.C.arch I.C.valueAlign (gmode k) im src (roundUp (I.pos s.sto) L.align)
                  (m1, roundUp (roundUp (I.pos s.sto) L.align + L.size * len) I.C.valueAlign))).2 op s) (¬ I.NeverAborts Inv))
          (GFull I Inv content (rest.ideal I.C.arch I.C.valueAlign (gmode k) im c.ia op
                (inner.ideal I.C.arch I.C.valueAlign (gmode k) im src (roundUp (I.pos s.sto) L.align)
                  (m1, roundUp (roundUp (I.pos s.sto) L.align + L.size * len) I.C.valueAlign))).2 op s) (¬ I.NeverAborts Inv) := by
      intro s1 m1 hr1 hp1 hm1 hk1
      refine (ih1 (c := ⟨src, L.size * len, L.align⟩) (op := roundUp (I.pos s.sto) L.align) hr1 hwi hti hm1 (by simp only; omega) (by omega)
        (dvd_roundUp _ _) ho.pow2.pos ho.align_le).mono ?_ (fun _ _ hh => GFull.from hk1 hh (by omega) (by rw [hp1]; exact ideal_mono hva rest hw _ _ _)) id
      rintro _ s2 ⟨a1, a2, a3, a4⟩
      refine ⟨a3, fun s3 e1 e2 => ?_⟩
      rw [hp1] at a1 a2
      have hk2 : GKept I Inv content op s s3 := by
        have := hk1.trans (a4.lower (lo' := op) (by omega))
        exact ⟨e1 ▸ this.inv, by rw [e1]; exact this.dvd, by rw [e1]; exact this.pos, by rw [e1]; exact this.below⟩
      have hk2p := hk2.pos
      have hr3 : GRel I Inv content s3 _ := ⟨e1 ▸ a1.inv, by rw [e1]; exact a1.dvd, by rw [e1]; exact a1.fresh, by rw [e1]; exact a1.sub⟩
      have hp3 := (congrArg I.pos e1).trans a2
      refine (ih2 hr3 hw hty (fun hk => by rw [e2]; exact hmap hk) (by omega) (by omega) hal hal0 hale).mono ?_ (fun _ _ hh => GFull.from hk2 hh (Nat.le_refl _) (by rw [hp3])) id
      rintro _ s4 ⟨b1, b2, b3, b4⟩
      rw [hp3] at b1 b2
      exact ⟨b1, b2, b3.trans e2, hk2.trans b4⟩
    cases k with
    | pureCopy =>
      have hmode : (gmode .pureCopy).putPtr I.C.arch = fun m _ _ => m := rfl
      simp only [Script.runG, GSer.pushAndProcessSlice, GSer.pushRawSlice, Script.ideal, bind_assoc_M, pure_bind_M, hmode]
      rw [sat_bind]
      refine (h.gpush hr ho hL (Or.inr hpp) _ (lo := op) (by omega)).mono ?_ (fun _ _ hh => GFull.from (GKept.refl hr) hh (Nat.le_refl _) (Nat.le_trans (ideal_mono hva inner hwi _ _ (_, _)) (ideal_mono hva rest hw _ _ _))) id
      rintro p s1 ⟨rfl, hm1, hp1, hr1, hk1⟩
      rw [sat_bind]
      refine (after s1 _ hr1 hp1 (fun hk => by cases hk) hk1).imp ?_
      rintro _ s2 ⟨h2, h3⟩
      exact h3 s2 rfl (h2.trans hm1)
    | posTracking =>
      have hmode : (gmode .posTracking).putPtr I.C.arch = fun m _ _ => m := rfl
      simp only [Script.runG, GSer.pushAndProcessSlice, Script.ideal, bind_assoc_M, pure_bind_M, hmode]
      rw [bind_ok (show GSer.getMap s = .ok s.map s from rfl), sat_bind]
      refine (h.gpush hr ho hL (Or.inr hpp) _ (lo := op) (by omega)).mono ?_ (fun _ _ hh => GFull.from (GKept.refl hr) hh (Nat.le_refl _) (Nat.le_trans (ideal_mono hva inner hwi _ _ (_, _)) (ideal_mono hva rest hw _ _ _))) id
      rintro p s1 ⟨rfl, hm1, hp1, hr1, hk1⟩
      rw [bind_ok (show GSer.setMap ⟨src, roundUp (I.pos s.sto) L.align⟩ s1 = .ok () { s1 with map := ⟨src, roundUp (I.pos s.sto) L.align⟩ } from rfl), sat_bind]
      refine (after { s1 with map := ⟨src, roundUp (I.pos s.sto) L.align⟩ } _ ⟨hr1.inv, hr1.dvd, hr1.fresh, hr1.sub⟩ hp1 (fun hk => by cases hk)
        ⟨hk1.inv, hk1.dvd, hk1.pos, hk1.below⟩).imp ?_
      rintro _ s2 ⟨h2, h3⟩
      rw [bind_ok (show GSer.setMap s.map s2 = .ok () { s2 with map := s.map } from rfl)]
      exact h3 { s2 with map := s.map } rfl rfl
    | ptrOffset =>
      have hmode : ∀ m x t, (gmode .ptrOffset).putPtr I.C.arch m x t = m.blit x I.C.arch.ptrBytes (wordCells I.C.arch t) := by
        intro m x t; simp [gmode, DKind.kind, Kind.mode, Mode.putPtr]
      have haddr : addrFromRef DKind.ptrOffset.kind ptr = ptr := rfl
      simp only [Script.runG, GSer.pushAndProcessSlice, Script.ideal, bind_assoc_M, pure_bind_M, hmode, haddr]
      rw [bind_ok (show GSer.getMap s = .ok s.map s from rfl), hmap rfl]
      refine h.gpushPtr hr ho hL ht hin hpp hal hal0 hale (fun i => im (src + i)) _
        (Nat.le_trans (ideal_mono hva inner hwi _ _ (_, _)) (ideal_mono hva rest hw _ _ _)) ?_
      intro s1 hm1 hp1 hr1 hk1
      rw [bind_ok (show GSer.setMap ⟨src, roundUp (I.pos s.sto) L.align⟩ s1 = .ok () { s1 with map := ⟨src, roundUp (I.pos s.sto) L.align⟩ } from rfl), sat_bind]
      refine (after { s1 with map := ⟨src, roundUp (I.pos s.sto) L.align⟩ } _ ⟨hr1.inv, hr1.dvd, hr1.fresh, hr1.sub⟩ hp1 (fun _ => rfl)
        ⟨hk1.inv, hk1.dvd, hk1.pos, hk1.below⟩).imp ?_
      rintro _ s2 ⟨h2, h3⟩
      rw [bind_ok (show GSer.setMap ⟨c.ia, op⟩ s2 = .ok () { s2 with map := ⟨c.ia, op⟩ } from rfl)]
      rw [← hmap rfl]
      exact h3 { s2 with map := s.map } rfl rfl

/-- What `serialize_value` does after copying the root. -/
theorem gserializeValue_eq {k : DKind} {L : Layout} {a : Nat} {d : Nat → Cell} {x : M (GSer σ) Unit} :
    GSer.serializeValue I k L a d x = (GSer.lift (I.pushSlice L 1 d) >>= fun pos =>
      (if k = .pureCopy then pure () else GSer.setMap ⟨a, pos⟩) >>= fun _ => x >>= fun _ => pure pos) := by
  cases k <;> rfl

/-- The value is real: its type has a proper layout which the storage accepts, it is in the address space, and (unless zero-sized) its
`serialize_data` follows the rules; a zero-sized value makes no calls. -/
structure GValueOK (C : Cfg) (v : UserRoot) : Prop where
  layout : v.L.OK
  push : v.L.size ≠ 0 → PushOK C v.L 1 v.a
  wf : v.L.size ≠ 0 → v.sc.WF C ⟨v.a, v.L.size, v.L.align⟩
  types : v.sc.RealTypes
  zst : v.L.size = 0 → v.sc = .done

/-- `serialize_value`. -/
theorem Conforms.gvalue (h : I.Conforms Inv content) {k : DKind} {v : UserRoot} (hv : GValueOK I.C v) {s : GSer σ} {m : Mem}
    (hr : GRel I Inv content s m) :
    (GSer.serializeValue I k v.L v.a (fun i => v.im (v.a + i)) (v.sc.runG I k v.im) s).Sat
      (fun p s' => p = rootPos v.L (I.pos s.sto) ∧
        GRel I Inv content s' (rootIdeal I.C.arch I.C.valueAlign (gmode k) v.L v.im v.a v.sc (m, I.pos s.sto)).1 ∧
        I.pos s'.sto = (rootIdeal I.C.arch I.C.valueAlign (gmode k) v.L v.im v.a v.sc (m, I.pos s.sto)).2 ∧
        GKept I Inv content (I.pos s.sto) s s')
      (GFull I Inv content (rootIdeal I.C.arch I.C.valueAlign (gmode k) v.L v.im v.a v.sc (m, I.pos s.sto)).2 (I.pos s.sto) s) (¬ I.NeverAborts Inv) := by
  have F := h.storage.facts
  rw [gserializeValue_eq]
  by_cases hz : v.L.size = 0
  · have hpush : GSer.lift (I.pushSlice v.L 1 fun i => v.im (v.a + i)) s = .ok 0 s := by
      unfold GSer.lift StorageImpl.pushSlice; rw [if_pos hz]; rfl
    rw [bind_ok hpush, hv.zst hz]
    simp only [rootPos, rootIdeal, if_pos hz]
    have key : ∀ mp : PosMapping, GRel I Inv content { s with map := mp } m ∧ GKept I Inv content (I.pos s.sto) s { s with map := mp } :=
      fun mp => ⟨⟨hr.inv, hr.dvd, hr.fresh, hr.sub⟩, ⟨hr.inv, hr.dvd, Nat.le_refl _, fun _ _ => rfl⟩⟩
    cases k with
    | pureCopy => exact ⟨rfl, hr, rfl, (key s.map).2⟩
    | _ => exact ⟨rfl, (key _).1, rfl, (key _).2⟩
  · have ho := hv.push hz
    have hge := le_roundUp (I.pos s.sto) ho.pow2.pos
    simp only [rootPos, rootIdeal, if_neg hz]
    rw [sat_bind]
    refine (h.gpush hr ho hv.layout (Or.inl Nat.one_pos) _ (lo := I.pos s.sto) (Nat.le_refl _)).mono ?_
      (fun _ _ hh => GFull.from (GKept.refl hr) hh (Nat.le_refl _) (by rw [Nat.mul_one]; exact ideal_mono F.va.pos v.sc (hv.wf hz) _ _ (_, _))) id
    rintro p s1 ⟨rfl, hm1, hp1, hr1, hk1⟩
    rw [Nat.mul_one] at hr1 hp1
    have hset : ∃ s2 : GSer σ, s2.sto = s1.sto ∧ (k = .ptrOffset → s2.map = ⟨v.a, roundUp (I.pos s.sto) v.L.align⟩) ∧
        (if k = .pureCopy then pure () else GSer.setMap ⟨v.a, roundUp (I.pos s.sto) v.L.align⟩ : M (GSer σ) Unit) s1 = .ok () s2 := by
      cases k with
      | pureCopy => exact ⟨s1, rfl, fun hk => (by cases hk), rfl⟩
      | _ => exact ⟨{ s1 with map := ⟨v.a, roundUp (I.pos s.sto) v.L.align⟩ }, rfl, fun _ => rfl, rfl⟩
    obtain ⟨s2, e1, e2, e3⟩ := hset
    rw [bind_ok e3, sat_bind]
    have hr2 : GRel I Inv content s2 _ := ⟨e1 ▸ hr1.inv, by rw [e1]; exact hr1.dvd, by rw [e1]; exact hr1.fresh, by rw [e1]; exact hr1.sub⟩
    have hk2 : GKept I Inv content (I.pos s.sto) s s2 :=
      ⟨e1 ▸ hk1.inv, by rw [e1]; exact hk1.dvd, by rw [e1]; exact hk1.pos, by rw [e1]; exact hk1.below⟩
    have hp2 : I.pos s2.sto = roundUp (roundUp (I.pos s.sto) v.L.align + v.L.size) I.C.valueAlign := by rw [e1]; exact hp1
    have hge2 := le_roundUp (roundUp (I.pos s.sto) v.L.align + v.L.size) F.va.pos
    refine (h.runG v.sc (c := ⟨v.a, v.L.size, v.L.align⟩) (op := roundUp (I.pos s.sto) v.L.align) hr2 (hv.wf hz) hv.types e2
      (by simp only; omega) (by omega) (dvd_roundUp _ _) ho.pow2.pos ho.align_le).mono ?_
      (fun _ _ hh => GFull.from hk2 hh hge (by rw [hp2])) id
    rintro _ s3 ⟨a1, a2, _, a4⟩
    rw [hp2] at a1 a2
    rw [pure_run, sat_ok]
    exact ⟨rfl, a1, a2, hk2.trans (a4.lower hge)⟩

end RandomImpl

/-- Reference positions of several values. -/
def gPos (A : Arch) (va : Nat) (md : Mode) : List UserRoot → Mem × Nat → List Nat
  | [], _ => []
  | v :: vs, st => rootPos v.L st.2 :: gPos A va md vs (rootIdeal A va md v.L v.im v.a v.sc st)

namespace RandomImpl
variable {σ : Type} {I : RandomImpl σ} {Inv : σ → Prop} {content : σ → Mem}

theorem rootIdeal_ge {A : Arch} {va : Nat} (hva : 0 < va) {md : Mode} {C : Cfg} {v : UserRoot} (hv : GValueOK C v) (st : Mem × Nat) :
    st.2 ≤ (rootIdeal A va md v.L v.im v.a v.sc st).2 := by
  unfold rootIdeal
  split
  · exact Nat.le_refl _
  · rename_i hz
    have ho := hv.push hz
    have e1 := le_roundUp st.2 ho.pow2.pos
    have e2 := le_roundUp (roundUp st.2 v.L.align + v.L.size) hva
    refine Nat.le_trans ?_ (ideal_mono hva v.sc (hv.wf hz) _ _ _)
    simp only; omega

theorem userIdeal_ge {A : Arch} {va : Nat} (hva : 0 < va) {md : Mode} {C : Cfg} (vs : List UserRoot) (hv : ∀ v ∈ vs, GValueOK C v) (st : Mem × Nat) :
    st.2 ≤ (userIdeal A va md vs st).2 := by
  induction vs generalizing st with
  | nil => exact Nat.le_refl _
  | cons v vs ih =>
    exact Nat.le_trans (rootIdeal_ge hva (hv v (by simp)) st) (ih (fun x hx => hv x (by simp [hx])) _)

theorem Conforms.gvalues (h : I.Conforms Inv content) {k : DKind} (vs : List UserRoot) (hv : ∀ v ∈ vs, GValueOK I.C v) {s : GSer σ} {m : Mem}
    (hr : GRel I Inv content s m) :
    (gValues I k vs s).Sat
      (fun ps s' => ps = gPos I.C.arch I.C.valueAlign (gmode k) vs (m, I.pos s.sto) ∧
        GRel I Inv content s' (userIdeal I.C.arch I.C.valueAlign (gmode k) vs (m, I.pos s.sto)).1 ∧
        I.pos s'.sto = (userIdeal I.C.arch I.C.valueAlign (gmode k) vs (m, I.pos s.sto)).2 ∧
        GKept I Inv content (I.pos s.sto) s s')
      (GFull I Inv content (userIdeal I.C.arch I.C.valueAlign (gmode k) vs (m, I.pos s.sto)).2 (I.pos s.sto) s) (¬ I.NeverAborts Inv) := by
  induction vs generalizing s m with
  | nil => exact ⟨rfl, hr, rfl, hr.inv, hr.dvd, Nat.le_refl _, fun _ _ => rfl⟩
  | cons v vs ih =>
    simp only [gValues]
    rw [sat_bind]
    refine (h.gvalue (hv v (by simp)) hr).mono ?_ (fun _ _ hh => GFull.from (GKept.refl hr) hh (Nat.le_refl _)
      (userIdeal_ge h.storage.facts.va.pos vs (fun x hx => hv x (by simp [hx])) _)) id
    rintro p s1 ⟨hp, hr1, hp1, hk1⟩
    rw [sat_bind]
    have e : (rootIdeal I.C.arch I.C.valueAlign (gmode k) v.L v.im v.a v.sc (m, I.pos s.sto)) =
      ((rootIdeal I.C.arch I.C.valueAlign (gmode k) v.L v.im v.a v.sc (m, I.pos s.sto)).1, I.pos s1.sto) := Prod.ext rfl hp1.symm
    refine (ih (fun x hx => hv x (by simp [hx])) hr1).mono ?_ (fun _ _ hh => GFull.from hk1 hh hk1.pos (by
      simp only [userIdeal]; rw [e])) id
    rintro ps s2 ⟨hps, hr2, hp2, hk2⟩
    rw [pure_run, sat_ok]
    simp only [gPos, userIdeal]
    rw [e]
    exact ⟨by rw [hp, hps], hr2, hp2, hk1.trans (hk2.lower hk1.pos)⟩

end RandomImpl

/-! ### The crate's own implementations -/

theorem RealTypes.app {x y : Script} (hx : x.RealTypes) (hy : y.RealTypes) : (x.app y).RealTypes := by
  induction x with
  | done => exact hy
  | pushProcess L len src ptr inner rest _ ih => exact ⟨hx.1, hx.2.1, ih hx.2.2⟩
  | push L len src ptr rest ih => exact ⟨hx.1, ih hx.2⟩
  | pushRaw L len src rest ih => exact ⟨hx.1, ih hx.2⟩
  | overwrite a L data rest ih => exact ih hx

theorem scriptEach_types {rc : TyId → Nat → Option Script} {a : Nat} {fs : List Field} {sc : Script}
    (h : ∀ t a s, rc t a = some s → s.RealTypes) (hs : scriptEach rc a fs = some sc) : sc.RealTypes := by
  induction fs generalizing sc with
  | nil => simp only [scriptEach, Option.some.injEq] at hs; rw [← hs]; trivial
  | cons f fs ih =>
    simp only [scriptEach, Option.bind_eq_bind, Option.bind_eq_some_iff, Option.pure_def, Option.some.injEq] at hs
    obtain ⟨x, h1, y, h2, h3⟩ := hs
    rw [← h3]; exact RealTypes.app (h _ _ _ h1) (ih h2)

theorem headScript_types {A : Arch} {o : Order} {dangle a : Nat} {h : Header} {body : Script} (hb : body.RealTypes) :
    (headScript A o dangle a h body).RealTypes := by
  unfold headScript fixEmpty
  split
  · split
    · cases o <;> trivial
    · trivial
  · split
    · exact hb
    · exact hb

theorem scriptVec_types {A : Arch} {P : Prog} {im : Mem} {rc : TyId → Nat → Option Script} {u a : Nat} {sc : Script} (hL : (P.layout u).OK)
    (h : ∀ t a s, rc t a = some s → s.RealTypes) (hs : scriptVec A P im rc u a = some sc) : sc.RealTypes := by
  unfold scriptVec at hs
  split at hs
  · simp only [Option.some.injEq] at hs; rw [← hs]; trivial
  · simp only [Option.bind_eq_bind, Option.bind_eq_some_iff, Option.pure_def, Option.some.injEq] at hs
    obtain ⟨x, h1, y, h2, h3⟩ := hs
    rw [← h3]; exact headScript_types ⟨hL, scriptEach_types h h2, trivial⟩

theorem layout_ok {A : Arch} {P : Prog} (hP : P.WF A) (t : TyId) : (P.layout t).OK := ⟨(hP t).1, (hP t).2.1⟩

theorem script_types {A : Arch} {P : Prog} (hP : P.WF A) {im : Mem} (n : Nat) :
    ∀ t a sc, script A P im n t a = some sc → sc.RealTypes := by
  induction n with
  | zero => intro t a sc h; simp [script] at h
  | succ n ih =>
    intro t a sc h
    rw [script] at h
    split at h <;> rename_i hd
    · simp only [Option.some.injEq] at h; rw [← h]; trivial
    · split at h
      · simp only [Option.some.injEq] at h; rw [← h]; trivial
      · simp only [Option.bind_eq_bind, Option.bind_eq_some_iff, Option.pure_def, Option.some.injEq] at h
        obtain ⟨x, h1, y, h2, h3⟩ := h
        rw [← h3]; exact ⟨layout_ok hP _, ih _ _ _ h2, trivial⟩
    · exact scriptVec_types (layout_ok hP _) ih h
    · simp only [Option.bind_eq_bind, Option.bind_eq_some_iff, Option.pure_def, Option.some.injEq] at h
      obtain ⟨x, h1, h3⟩ := h
      rw [← h3]
      exact headScript_types ⟨⟨⟨0, rfl⟩, Nat.dvd_refl _⟩, trivial⟩
    · exact scriptEach_types ih h
    · exact scriptEach_types ih h
    · simp only [Option.bind_eq_bind, Option.bind_eq_some_iff] at h
      obtain ⟨x, h1, y, h2, h3⟩ := h
      exact scriptEach_types ih h3
    · exact scriptVec_types (layout_ok hP _) ih h
    · exact ih _ _ _ h

/-- A job as a value for `gValues`. -/
def Job.gval (P : Prog) (j : Job) : UserRoot := ⟨j.r.im, P.layout j.r.t, j.r.a, j.sc⟩

section
variable {σ : Type} {I : RandomImpl σ} {Inv : σ → Prop} {content : σ → Mem} {P : Prog} {fl : Flags}

theorem Job.OK.gval (hA : 0 < I.C.arch.ptrBytes) (hP : P.WF I.C.arch) (hacc : P.Accepted I.C) {n : Nat} {j : Job} (h : j.OK I.C P fl n) :
    RandomImpl.GValueOK I.C (j.gval P) := by
  obtain ⟨hd, hs⟩ := h
  obtain ⟨hal, hlt⟩ := decode_guard hd
  refine ⟨layout_ok hP _, fun hz => ?_, fun hz => ?_, script_types hP n _ _ _ hs, fun hz => script_zst hA hP hz hs⟩
  · refine ⟨hz, (hP j.r.t).1, ?_, ?_⟩
    · have := hacc j.r.t hz; simpa [Cfg.accepts, Job.gval] using this
    · have := (hP j.r.t).2.2.1; simpa [Job.gval] using this
  · exact (script_wf hA hP hacc n _ _ _ _ _ hd hs (placed_root hal)).1

theorem runG_app {k : DKind} {im : Mem} (x y : Script) :
    (x.app y).runG I k im = (x.runG I k im >>= fun _ => y.runG I k im) := by
  induction x with
  | done => rfl
  | pushProcess L len src ptr inner rest _ ih => simp only [Script.app, Script.runG, ih, bind_assoc_M]
  | push L len src ptr rest ih => simp only [Script.app, Script.runG, ih, bind_assoc_M]
  | pushRaw L len src rest ih => simp only [Script.app, Script.runG, ih, bind_assoc_M]
  | overwrite a L data rest ih => simp only [Script.app, Script.runG, ih]

theorem gEach_eq {k : DKind} {im : Mem} {rs : TyId → Nat → M (GSer σ) Unit} {rd : TyId → Nat → Option Val}
    {rc : TyId → Nat → Option Script}
    (h : ∀ t a v, rd t a = some v → ∃ sc, rc t a = some sc ∧ rs t a = sc.runG I k im) (a : Nat) (fs : List Field) {vs : List Val}
    (hd : decodeEach rd a fs = some vs) : ∃ sc, scriptEach rc a fs = some sc ∧ gEach rs a fs = sc.runG I k im := by
  induction fs generalizing vs with
  | nil => exact ⟨.done, rfl, rfl⟩
  | cons f fs ih =>
    simp only [decodeEach, Option.bind_eq_bind, Option.bind_eq_some_iff, Option.pure_def, Option.some.injEq] at hd
    obtain ⟨v, h1, ws, h2, _⟩ := hd
    obtain ⟨s1, e1, e2⟩ := h _ _ _ h1
    obtain ⟨s2, e3, e4⟩ := ih h2
    refine ⟨s1.app s2, ?_, ?_⟩
    · simp [scriptEach, e1, e3]
    · rw [gEach, e2, e4, runG_app]

/-- Corrections of headers are no-ops for these kinds. -/
theorem headScript_runG {k : DKind} {im : Mem} {A : Arch} {o : Order} {dangle a : Nat} {h : Header} {body : Script} :
    (headScript A o dangle a h body).runG I k im = if h.len = 0 then pure () else body.runG I k im := by
  unfold headScript
  split
  · split
    · cases o <;> rfl
    · rfl
  · split <;> rfl

theorem ptrAddr_eq {k : DKind} {o : Order} {a : Nat} (ha : a + 3 * I.C.arch.ptrBytes < I.C.arch.usizeMod) :
    (addrFromRefOffset I.C.arch k.kind a (o.ptrIx * I.C.arch.ptrBytes) : M (GSer σ) Nat) =
      pure (addrFromRef k.kind (a + o.ptrIx * I.C.arch.ptrBytes)) := by
  have hp3 : o.ptrIx * I.C.arch.ptrBytes ≤ 2 * I.C.arch.ptrBytes := by cases o <;> simp [Order.ptrIx] <;> omega
  exact addrOff_eq (by omega)

theorem gVec_eq {k : DKind} (hP : P.WF I.C.arch) {im : Mem}
    {rs : TyId → Nat → M (GSer σ) Unit} {rd : TyId → Nat → Option Val} {rc : TyId → Nat → Option Script}
    (h : ∀ t a v, rd t a = some v → ∃ sc, rc t a = some sc ∧ rs t a = sc.runG I k im) {u : TyId} {a : Nat} {v : Val}
    (ha : a + 3 * I.C.arch.ptrBytes < I.C.arch.usizeMod) (hd : decodeVec I.C.arch P fl im rd u a = some v) :
    ∃ sc, scriptVec I.C.arch P im rc u a = some sc ∧ gVec I k P im rs u a = sc.runG I k im := by
  unfold scriptVec gVec
  by_cases hz : (P.layout u).size = 0
  · exact ⟨.done, by rw [if_pos hz], by simp only [if_pos hz]; rfl⟩
  · simp only [decodeVec, Option.bind_eq_bind, Option.bind_eq_some_iff, Option.pure_def, Option.some.injEq,
      Option.ite_none_right_eq_some] at hd
    obtain ⟨hh, h1, hval, vs, h2, _⟩ := hd
    obtain ⟨inner, e1, e2⟩ := gEach_eq h hh.ptr (elems P u hh.len) h2
    have hal : (P.layout u).align ≠ 0 := by
      obtain ⟨⟨e, he⟩, _⟩ := hP u
      rw [he]; exact Nat.ne_of_gt (Nat.two_pow_pos e)
    refine ⟨_, by rw [if_neg hz]; simp only [h1, e1, Option.bind_eq_bind, Option.bind_some]; rfl, ?_⟩
    simp only [if_neg hz]
    simp only [readHeader, Option.bind_eq_bind, Option.bind_eq_some_iff, Option.pure_def, Option.some.injEq] at h1
    obtain ⟨ptr, r1, cap, r2, len, r3, rfl⟩ := h1
    rw [headScript_runG]
    simp only [readIn, r1, r2, r3, pure_bind_M, vecOffsets_eq _ _ hal, constEval, ptrAddr_eq ha, e2, Script.runG]
    rfl

theorem gString_eq {k : DKind} {im : Mem} {a : Nat} {v : Val} (ha : a + 3 * I.C.arch.ptrBytes < I.C.arch.usizeMod)
    (hd : decodeStr I.C.arch P fl im a = some v) :
    ∃ h, readHeader I.C.arch im P.stringOrder a = some h ∧
      gString I k P im a = (headScript I.C.arch P.stringOrder 1 a h
        (.push ⟨1, 1⟩ h.len h.ptr (a + P.stringOrder.ptrIx * I.C.arch.ptrBytes) .done)).runG I k im := by
  simp only [decodeStr, Option.bind_eq_bind, Option.bind_eq_some_iff, Option.pure_def, Option.some.injEq,
    Option.ite_none_right_eq_some] at hd
  obtain ⟨hh, h1, _⟩ := hd
  refine ⟨hh, h1, ?_⟩
  simp only [readHeader, Option.bind_eq_bind, Option.bind_eq_some_iff, Option.pure_def, Option.some.injEq] at h1
  obtain ⟨ptr, r1, cap, r2, len, r3, rfl⟩ := h1
  rw [headScript_runG]
  unfold gString
  simp only [readIn, r1, r2, r3, pure_bind_M, vecOffsets_eq _ _ Nat.one_ne_zero, constEval, ptrAddr_eq ha, Script.runG]
  rfl

theorem gData_eq (hW : 0 < I.C.arch.ptrBytes) {k : DKind} (hP : P.WF I.C.arch) {im : Mem} {n t a : Nat} {v : Val}
    (hd : decode I.C.arch P fl im n t a = some v) :
    ∃ sc, script I.C.arch P im n t a = some sc ∧ gData I k P im n t a = sc.runG I k im := by
  induction n generalizing t a v with
  | zero => simp [decode] at hd
  | succ n ih =>
    have hw := hP t
    unfold TyWF at hw
    obtain ⟨_, _, _, hw⟩ := hw
    rw [script, gData]
    rw [decode] at hd
    split at hd
    · rename_i hg
      cases hdef : P.defn t <;> simp only [hdef] at hd hw ⊢
      case prim => exact ⟨_, rfl, rfl⟩
      case box u =>
        simp only [Option.bind_eq_bind, Option.bind_eq_some_iff, Option.pure_def, Option.some.injEq,
          Option.ite_none_right_eq_some] at hd
        obtain ⟨p, h1, h2, v', h3, _⟩ := hd
        unfold gBox
        by_cases hz : (P.layout u).size = 0
        · exact ⟨.done, by rw [if_pos hz], by rw [if_pos hz]; rfl⟩
        · obtain ⟨inner, e1, e2⟩ := ih h3
          refine ⟨_, by rw [if_neg hz]; simp only [h1, e1, Option.bind_eq_bind, Option.bind_some]; rfl, ?_⟩
          rw [if_neg hz]
          simp only [readIn, h1, pure_bind_M, e2, Slice.fromRef, Script.runG]
          rfl
      case vec u => exact gVec_eq hP (fun t a v => ih) (by have := hg.2; rw [hw] at this; exact this) hd
      case string =>
        obtain ⟨h, h1, h2⟩ := gString_eq (k := k) (by have := hg.2; rw [hw] at this; exact this) hd
        exact ⟨_, by rw [h1]; rfl, h2⟩
      case array u cnt =>
        simp only [Option.bind_eq_bind, Option.bind_eq_some_iff] at hd
        obtain ⟨vs, h1, _⟩ := hd
        exact gEach_eq (fun t a v => ih) a _ h1
      case struct fs =>
        simp only [Option.bind_eq_bind, Option.bind_eq_some_iff] at hd
        obtain ⟨vs, h1, _⟩ := hd
        exact gEach_eq (fun t a v => ih) a _ h1
      case enum tag vs =>
        simp only [Option.bind_eq_bind, Option.bind_eq_some_iff] at hd
        obtain ⟨i, h1, fs, h2, xs, h3, _⟩ := hd
        obtain ⟨sc, e1, e2⟩ := gEach_eq (fun t a v => ih) a _ h3
        refine ⟨sc, by simp [h1, h2, e1], ?_⟩
        unfold gEnum
        simp only [h1, h2, e2]
      case bigUint u => exact gVec_eq hP (fun t a v => ih) (by have := hg.2; rw [hw.1] at this; exact this) hd
      case bigInt u =>
        simp only [Option.bind_eq_bind, Option.bind_eq_some_iff] at hd
        obtain ⟨_, _, v', h2, _⟩ := hd
        obtain ⟨sc, e1, e2⟩ := ih h2
        refine ⟨sc, e1, ?_⟩
        obtain ⟨_, ⟨d, hu⟩, _⟩ := hw
        unfold gBigInt
        simp only [hu]
        funext s
        rw [bind_ok (bigintDataOffset_ok hW P d s), e2]
    · cases hd

theorem gRoots_eq (hW : 0 < I.C.arch.ptrBytes) (hP : P.WF I.C.arch) {k : DKind} {n : Nat} (js : List Job) (hj : ∀ j ∈ js, j.OK I.C P fl n) :
    gSession I k P n (js.map (·.r)) = gValues I k (js.map (Job.gval P)) := by
  induction js with
  | nil => rfl
  | cons j js ih =>
    obtain ⟨h1, h2⟩ := hj j (by simp)
    obtain ⟨sc, e1, e2⟩ := gData_eq hW (k := k) hP h1
    rw [h2] at e1
    obtain rfl := Option.some.inj e1
    simp only [List.map_cons, gSession, gValues, e2, ih (fun x hx => hj x (by simp [hx]))]
    rfl

/-! The recursion bound does not matter. -/

theorem FLe.gpush {k : DKind} {sl : Slice} {p : Nat} {x y : M (GSer σ) Unit} (h : FLe x y) :
    FLe (GSer.pushAndProcessSlice I k sl p x) (GSer.pushAndProcessSlice I k sl p y) := by
  cases k with
  | pureCopy => exact (FLe.refl _).bind fun _ => h.bind fun _ => FLe.refl _
  | posTracking =>
    exact (FLe.refl _).bind fun _ => (FLe.refl _).bind fun _ => (FLe.refl _).bind fun _ => h.bind fun _ => FLe.refl _
  | ptrOffset =>
    exact (FLe.refl _).bind fun _ => (FLe.refl _).bind fun _ => (FLe.refl _).bind fun _ => (FLe.refl _).bind fun _ =>
      (FLe.refl _).bind fun _ => h.bind fun _ => FLe.refl _

theorem FLe.gEach {r r' : TyId → Nat → M (GSer σ) Unit} (h : ∀ t a, FLe (r t a) (r' t a)) (a : Nat) (fs : List Field) :
    FLe (SerRaw.gEach r a fs) (SerRaw.gEach r' a fs) := by
  induction fs with
  | nil => exact FLe.refl _
  | cons f fs ih => exact (h _ _).bind fun _ => ih

theorem FLe.gVec {k : DKind} {im : Mem} {r r' : TyId → Nat → M (GSer σ) Unit} (h : ∀ t a, FLe (r t a) (r' t a)) (t a : Nat) :
    FLe (SerRaw.gVec I k P im r t a) (SerRaw.gVec I k P im r' t a) := by
  unfold SerRaw.gVec
  refine FLe.ite (FLe.refl _) ?_
  refine (FLe.refl _).bind fun _ => (FLe.refl _).bind fun _ => (FLe.refl _).bind fun _ => (FLe.refl _).bind fun _ => ?_
  refine FLe.ite (FLe.refl _) ?_
  exact (FLe.refl _).bind fun _ => (FLe.gpush (FLe.gEach h _ _)).bind fun _ => FLe.refl _

theorem gData_fle {k : DKind} {im : Mem} (n : Nat) (t a : Nat) : FLe (gData I k P im n t a) (gData I k P im (n + 1) t a) := by
  induction n generalizing t a with
  | zero => intro s; exact .inl rfl
  | succ n ih =>
    rw [gData, gData]
    cases P.defn t with
    | prim => exact FLe.refl _
    | box u =>
      refine FLe.ite (FLe.refl _) ?_
      exact (FLe.refl _).bind fun _ => (FLe.gpush (ih _ _)).bind fun _ => FLe.refl _
    | vec u => exact FLe.gVec ih _ _
    | string => exact FLe.refl _
    | array u k => exact FLe.gEach ih _ _
    | struct fs => exact FLe.gEach ih _ _
    | enum tag vs =>
      simp only [gEnum]
      split
      · exact FLe.refl _
      · split
        · exact FLe.refl _
        · exact FLe.gEach ih _ _
    | bigUint u => exact FLe.gVec ih _ _
    | bigInt u =>
      simp only [gBigInt]
      split
      · exact (FLe.refl _).bind fun _ => ih _ _
      · exact FLe.refl _

theorem gSession_fle {k : DKind} (n : Nat) (rs : List Root) : FLe (gSession I k P n rs) (gSession I k P (n + 1) rs) := by
  induction rs with
  | nil => exact FLe.refl _
  | cons r rs ih =>
    have h := gData_fle (I := I) (P := P) (k := k) (im := r.im) n r.t r.a
    refine FLe.bind ?_ fun _ => ih.bind fun _ => FLe.refl _
    cases k with
    | pureCopy => exact (FLe.refl _).bind fun _ => h.bind fun _ => FLe.refl _
    | _ => exact (FLe.refl _).bind fun _ => (FLe.refl _).bind fun _ => h.bind fun _ => FLe.refl _

theorem gRoots_fuel {k : DKind} {n m : Nat} (h : n ≤ m) (rs : List Root) (s : GSer σ) (hn : gSession I k P n rs s ≠ .fuel) :
    gSession I k P m rs s = gSession I k P n rs s := by
  induction h with
  | refl => rfl
  | step _ ih =>
    rcases gSession_fle (I := I) (k := k) (P := P) _ rs s with h | h
    · rw [ih] at h; exact absurd h hn
    · rw [← h, ih]

theorem gIdeal_jobs {A : Arch} {va : Nat} {md : Mode} (js : List Job) (st : Mem × Nat) :
    userIdeal A va md (js.map (Job.gval P)) st = jobsIdeal A va md P js st := by
  induction js generalizing st with
  | nil => rfl
  | cons j js ih => simp only [List.map_cons, userIdeal, jobsIdeal, ih]; rfl

theorem gPos_jobs {A : Arch} {va : Nat} {md : Mode} (js : List Job) (st : Mem × Nat) :
    gPos A va md (js.map (Job.gval P)) st = (jobsAt P va st.2 js).map (jobPos P) := by
  induction js generalizing st with
  | nil => rfl
  | cons j js ih =>
    simp only [List.map_cons, gPos, jobsAt, ih]
    rw [show (rootIdeal A va md (j.gval P).L (j.gval P).im (j.gval P).a (j.gval P).sc st).2 = placeEnd va st.2 (j.shapes P) from rootIdeal_end]
    rfl

/-- Contents that extend the reference output of a list of jobs. -/
structure GJobs (I : RandomImpl σ) (Inv : σ → Prop) (content : σ → Mem) (k : DKind) (P : Prog) (js : List Job) (t : σ) (ps : List Nat) (s' : GSer σ) : Prop where
  ps : ps = (jobsAt P I.C.valueAlign (I.pos t) js).map (jobPos P)
  le : (jobsIdeal I.C.arch I.C.valueAlign (RandomImpl.gmode k) P js (fun _ => none, I.pos t)).1.Le (content s'.sto)
  pos : I.pos s'.sto = placeEnd I.C.valueAlign (I.pos t) (jobsShapes P js)
  fresh : ∀ i, I.pos s'.sto ≤ i → (jobsIdeal I.C.arch I.C.valueAlign (RandomImpl.gmode k) P js (fun _ => none, I.pos t)).1 i = none
  kept : RandomImpl.GKept I Inv content (I.pos t) (GSer.fromStorage t) s'

/-- A session of a derived serializer. -/
theorem RandomImpl.Conforms.roots (h : I.Conforms Inv content) (hP : P.WF I.C.arch) (hacc : P.Accepted I.C) {k : DKind} {t : σ} (ht : Inv t)
    (hd : I.C.valueAlign ∣ I.pos t) {rs : List (Root × Val)} (hv : Inputs I.C.arch P fl rs) :
    ∃ N, ∀ n, N ≤ n → ∃ js : List Job, js.map (fun j => (j.r, j.v)) = rs ∧ (∀ j ∈ js, j.OK I.C P fl n) ∧
      (gSession I k P n (rs.map (·.1)) (GSer.fromStorage t)).Sat (fun ps s' => GJobs I Inv content k P js t ps s')
        (RandomImpl.GFull I Inv content (placeEnd I.C.valueAlign (I.pos t) (jobsShapes P js)) (I.pos t) (GSer.fromStorage t)) (¬ I.NeverAborts Inv) := by
  have hA := h.storage.arch.ptr_pos
  obtain ⟨N, hN⟩ := exists_jobs (C := I.C) hA hP hv
  refine ⟨N, fun n hn => ?_⟩
  obtain ⟨js, h1, h2⟩ := hN n hn
  refine ⟨js, h1, h2, ?_⟩
  have e : rs.map (·.1) = js.map (·.r) := by rw [← h1, List.map_map]; rfl
  rw [e, gRoots_eq hA hP js h2]
  have hg : ∀ v ∈ js.map (Job.gval P), RandomImpl.GValueOK I.C v := by
    intro v hv
    obtain ⟨j, hj, rfl⟩ := List.mem_map.1 hv
    exact (h2 j hj).gval hA hP hacc
  have hr : RandomImpl.GRel I Inv content (GSer.fromStorage t) fun _ => none :=
    ⟨ht, hd, fun _ _ => rfl, fun i b hb => by cases hb⟩
  refine (h.gvalues (k := k) _ hg hr).mono ?_ (fun _ _ hh => ⟨hh.1, fun hx => by have := hh.2 hx; rw [gIdeal_jobs, jobsIdeal_end] at this; exact this⟩) id
  rintro ps s' ⟨a1, a2, a3, a4⟩
  rw [gPos_jobs] at a1
  rw [gIdeal_jobs] at a2 a3
  exact ⟨a1, a2.sub, by rw [a3, jobsIdeal_end]; rfl, a2.fresh, a4⟩

/-- The outcome of any session that did not run out of fuel. -/
theorem RandomImpl.Conforms.rootsOut (h : I.Conforms Inv content) (hP : P.WF I.C.arch) (hacc : P.Accepted I.C) {k : DKind} {t : σ} (ht : Inv t)
    (hd : I.C.valueAlign ∣ I.pos t) {rs : List (Root × Val)} (hv : Inputs I.C.arch P fl rs) {fuel : Nat}
    (hne : gSession I k P fuel (rs.map (·.1)) (GSer.fromStorage t) ≠ .fuel) :
    ∃ n, ∃ js : List Job, js.map (fun j => (j.r, j.v)) = rs ∧ (∀ j ∈ js, j.OK I.C P fl n) ∧
      (gSession I k P fuel (rs.map (·.1)) (GSer.fromStorage t)).Sat (fun ps s' => GJobs I Inv content k P js t ps s')
        (RandomImpl.GFull I Inv content (placeEnd I.C.valueAlign (I.pos t) (jobsShapes P js)) (I.pos t) (GSer.fromStorage t)) (¬ I.NeverAborts Inv) := by
  obtain ⟨N, hN⟩ := h.roots hP hacc (k := k) ht hd hv
  obtain ⟨js, h1, h2, h3⟩ := hN (max N fuel) (Nat.le_max_left _ _)
  rw [gRoots_fuel (Nat.le_max_right N fuel) _ _ hne] at h3
  exact ⟨_, js, h1, h2, h3⟩

end
end SerRaw
