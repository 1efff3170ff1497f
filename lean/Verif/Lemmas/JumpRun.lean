import Verif.Lemmas.Jump
import Verif.Lemmas.CustomSerializer
/-
A derived serializer over any correct random-access storage — `reserve` may move the position — produces an output of the form `RootsLaid`.
-/
namespace SerRaw
namespace RandomImpl
variable {σ : Type} {I : RandomImpl σ} {Inv : σ → Prop} {content : σ → Mem}

/-- A push. -/
theorem Lawful.gpush (h : I.Lawful Inv content) {s : GSer σ} {m : Mem} (hr : GRel I Inv content s m) {L : Layout} {len src : Nat}
    (ho : PushOK I.C L len src) (hL : L.OK) (hlen : 0 < len ∨ 0 < I.pos s.sto) (data : Nat → Cell) {lo : Nat} (hlo : lo ≤ I.pos s.sto) :
    (GSer.lift (I.pushSlice L len data) s).Sat
      (fun p s' => I.pos s.sto ≤ p ∧ L.align ∣ p ∧ p + L.size * len ≤ I.pos s'.sto ∧ s'.map = s.map ∧
        GRel I Inv content s' (m.blit p (L.size * len) data) ∧ GKept I Inv content lo s s')
      (fun k s' => k = .capacity ∧ GKept I Inv content lo s s') True := by
  rw [sat_glift]
  refine (h.storage.pushSlice_sat (data := data) hr.inv hr.dvd hL ho.size_ne ho.align_le ho.size_le ?_).mono ?_ ?_ id
  · rcases hlen with hh | hh
    · exact Or.inl hh
    · have := h.storage.pos_le _ hr.inv; exact Or.inr (Or.inl (by omega))
  · rintro p t ⟨hst, hpu, hdata⟩
    have hpm := hst.pos_mono (by intro h; cases h)
    have ha := hpu.after; have he := hpu.end_ge
    refine ⟨ha, hpu.aligned, he, rfl, ⟨hst.inv, hst.dvd, ?_, ?_⟩, ⟨hst.inv, hst.dvd, hpm, fun i hi => hst.content i (by omega)⟩⟩
    · intro i hi
      simp only at hi
      rw [blit_out (by omega)]
      exact hr.fresh i (by omega)
    · intro i b hb
      simp only
      by_cases hin : p ≤ i ∧ i < p + L.size * len
      · have := hdata (i - p) (by omega)
        rw [show p + (i - p) = i by omega] at this
        rw [this]
        rw [show i = p + (i - p) by omega, blit_at (by omega)] at hb
        exact hb
      · rw [blit_out (by omega)] at hb
        have hlt : i < I.pos s.sto := by
          apply Nat.lt_of_not_le; intro hle
          rw [hr.fresh i hle] at hb; cases hb
        rw [hst.content i hlt]
        exact hr.sub i b hb
  · rintro k t ⟨hk, hst, _⟩
    exact ⟨hk, hst.inv, hst.dvd, hst.pos_mono (by intro h; cases h), fun i hi => hst.content i (by omega)⟩

/-- Writing a pointer. -/
theorem Lawful.goverwrite (h : I.Lawful Inv content) {s : GSer σ} {m : Mem} (hr : GRel I Inv content s m) {x target lo : Nat}
    (hx : x + I.C.arch.ptrBytes ≤ I.pos s.sto) (hxd : I.C.arch.ptrBytes ∣ x) (hpm : I.C.arch.ptrBytes ≤ I.C.maxValueAlign)
    (ht : target ≤ I.pos s.sto) (hlo : lo ≤ x) :
    ∃ s', GSer.doOverwritePtr I x target s = .ok () s' ∧ s'.map = s.map ∧ I.pos s'.sto = I.pos s.sto ∧
      GRel I Inv content s' (m.blit x I.C.arch.ptrBytes (wordCells I.C.arch target)) ∧ GKept I Inv content lo s s' := by
  have hS := h.storage
  have hpl := hS.pos_le _ hr.inv
  have hpp := hS.arch.ptr_pos
  obtain ⟨t, e, i1, p1, c1, hdata, hother⟩ := h.writeSlice s.sto x ⟨I.C.arch.ptrBytes, I.C.arch.ptrBytes⟩ 1
    (wordCells I.C.arch target) hr.inv ⟨hS.arch.ptr_pow2, Nat.dvd_refl _⟩ (by simp only; omega) hpm Nat.one_pos
    (by simp only; omega) hxd
  simp only [Nat.mul_one] at hdata hother
  refine ⟨{ s with sto := t }, ?_, rfl, p1, ⟨i1, by rw [p1]; exact hr.dvd, ?_, ?_⟩,
    ⟨i1, by rw [p1]; exact hr.dvd, by rw [p1], fun i hi => hother i (by omega) (by omega)⟩⟩
  · unfold GSer.doOverwritePtr
    rw [bind_ok (show GSer.getCapacity I.toStorageImpl s = .ok (I.capacity s.sto) s from rfl), bind_ok (debugAssertM_ok _ ?_),
      bind_ok (debugAssertM_ok _ ?_), bind_ok (debugAssert_true _ (decide_eq_true (by omega)) s)]
    · unfold GSer.lift RandomImpl.write; rw [e]
    · intro _; rw [isAlignedTo_ok hS.arch.ptr_pow2, decide_eq_true hxd]
    · intro _
      rw [bind_ok (usub_ok _ (by omega) s)]; simp only [pure_run]; rw [decide_eq_true]; omega
  · intro i hi
    simp only [p1] at hi
    rw [blit_out (by omega)]
    exact hr.fresh i hi
  · intro i b hb
    simp only
    by_cases hin : x ≤ i ∧ i < x + I.C.arch.ptrBytes
    · have := hdata (i - x) (by omega)
      rw [show x + (i - x) = i by omega] at this
      rw [this]
      rw [show i = x + (i - x) by omega, blit_at (by omega)] at hb
      exact hb
    · rw [blit_out (by omega)] at hb
      have hlt : i < I.pos s.sto := by
        apply Nat.lt_of_not_le; intro hle
        rw [hr.fresh i hle] at hb; cases hb
      rw [hother i hlt (by omega)]
      exact hr.sub i b hb

/-- A push followed by writing the pointer to it. -/
theorem Lawful.gpushPtr (h : I.Lawful Inv content) {s : GSer σ} {m : Mem} (hr : GRel I Inv content s m) {c : Ctx} {op : Nat}
    {L : Layout} {len src ptr : Nat} (ho : PushOK I.C L len src) (hL : L.OK) (ht : TouchOK I.C c ptr I.C.arch.ptrBytes)
    (hin : op + c.sz ≤ I.pos s.sto) (hpp : 0 < I.pos s.sto) (hal : c.al ∣ op) (hal0 : 0 < c.al) (hale : c.al ≤ I.C.maxValueAlign)
    (data : Nat → Cell) {α : Type} (f : Nat → M (GSer σ) α) {Q : α → GSer σ → Prop}
    (hf : ∀ (p : Nat) (s1 : GSer σ), I.pos s.sto ≤ p → L.align ∣ p → p + L.size * len ≤ I.pos s1.sto → s1.map = s.map →
      GRel I Inv content s1 ((m.blit p (L.size * len) data).blit (outPos c.ia op ptr) I.C.arch.ptrBytes (wordCells I.C.arch p)) →
      GKept I Inv content op s s1 → (f p s1).Sat Q (GStop I Inv content op s) True) :
    ((GSer.lift (I.pushSlice L len data) >>= fun pos => PosMapping.posForAddr I.C.arch ⟨c.ia, op⟩ ptr >>= fun pp =>
      GSer.doOverwritePtr I pp pos >>= fun _ => f pos) s).Sat Q (GStop I Inv content op s) True := by
  have hS := h.storage
  have F := hS.facts
  have hlo := ht.lo; have hhi := ht.hi
  rw [sat_bind]
  refine (h.gpush hr ho hL (Or.inr hpp) data (lo := op) (by omega)).mono ?_ (fun _ _ hh => hh) id
  rintro p s1 ⟨g1, g2, g3, hm1, hr1, hk1⟩
  have hpl := hS.pos_le _ hr.inv; have := hS.cap_le _ hr.inv; have := F.max_lt
  rw [bind_ok (posForAddr_ok I.C.arch hlo (by omega) s1)]
  obtain ⟨s2, e2, hm2, hp2, hr2, hk2⟩ := h.goverwrite (lo := op) hr1 (x := outPos c.ia op ptr) (target := p)
    (by unfold outPos; omega) (Nat.dvd_add (Nat.dvd_trans ht.al hal) ht.off) (Nat.le_trans (Nat.le_of_dvd hal0 ht.al) hale)
    (by omega) (outPos_ge _ _ _)
  rw [bind_ok e2]
  exact hf p s2 g1 g2 (by omega) (hm2.trans hm1) hr2 (hk1.trans hk2)

/-- Does this kind write pointers? -/
abbrev wr (k : DKind) : Bool := decide (k = .ptrOffset)

theorem putPtr_wr {k : DKind} {A : Arch} {m : Mem} {x t : Nat} :
    (Mode.mk (if wr k then some 0 else none) false).putPtr A m x t = if k = .ptrOffset then m.blit x A.ptrBytes (wordCells A t) else m := by
  cases k <;> simp [wr, Mode.putPtr]

/-- Running a well-formed script. -/
theorem Lawful.runG (h : I.Lawful Inv content) {k : DKind} {im : Mem} (sc : Script) {c : Ctx} {op : Nat} {s : GSer σ} {m : Mem}
    (hr : GRel I Inv content s m) (hwf : sc.WF I.C c) (hty : sc.RealTypes) (hmap : k = .ptrOffset → s.map = ⟨c.ia, op⟩)
    (hin : op + c.sz ≤ I.pos s.sto) (hpp : 0 < I.pos s.sto) (hal : c.al ∣ op) (hal0 : 0 < c.al) (hale : c.al ≤ I.C.maxValueAlign) :
    (sc.runG I k im s).Sat
      (fun _ s' => ∃ m', sc.Laid I.C.arch (wr k) im c.ia op (m, I.pos s.sto) (m', I.pos s'.sto) ∧ GRel I Inv content s' m' ∧ s'.map = s.map ∧
        GKept I Inv content op s s')
      (GStop I Inv content op s) True := by
  induction sc generalizing c op s m with
  | done => exact ⟨m, rfl, hr, rfl, hr.inv, hr.dvd, Nat.le_refl _, fun _ _ => rfl⟩
  | pushRaw L len src rest ih =>
    obtain ⟨ho, hw⟩ := hwf
    obtain ⟨hL, hty⟩ := hty
    simp only [Script.runG, GSer.pushRawSlice]
    rw [sat_bind]
    refine (h.gpush hr ho hL (Or.inr hpp) _ (lo := op) (by omega)).mono ?_ (fun _ _ hh => hh) id
    rintro p s1 ⟨g1, g2, g3, hm1, hr1, hk1⟩
    have hk1p := hk1.pos
    refine (ih hr1 hw hty (fun hk => by rw [hm1]; exact hmap hk) (by omega) (by omega) hal hal0 hale).mono ?_ (fun _ _ hh => hh.from hk1) id
    rintro _ s2 ⟨m', a1, a2, a3, a4⟩
    exact ⟨m', ⟨p, _, g1, g2, g3, a1⟩, a2, a3.trans hm1, hk1.trans a4⟩
  | overwrite a L data rest ih =>
    simp only [Script.runG]
    exact ih hr hwf.2 hty hmap hin hpp hal hal0 hale
  | push L len src ptr rest ih =>
    obtain ⟨ho, ht, _, hw⟩ := hwf
    obtain ⟨hL, hty⟩ := hty
    cases hk : k with
    | ptrOffset =>
      subst hk
      simp only [Script.runG, GSer.pushSlice, GSer.pushRawSlice, bind_assoc_M, pure_bind_M]
      have haddr : addrFromRef DKind.ptrOffset.kind ptr = ptr := rfl
      simp only [haddr]
      have hcore := h.gpushPtr hr ho hL ht hin hpp hal hal0 hale (fun i => im (src + i)) (fun _ => rest.runG I .ptrOffset im)
        (Q := fun _ s' => ∃ m', (Script.push L len src ptr rest).Laid I.C.arch (wr .ptrOffset) im c.ia op (m, I.pos s.sto) (m', I.pos s'.sto) ∧
          GRel I Inv content s' m' ∧ s'.map = s.map ∧ GKept I Inv content op s s') ?_
      · rw [sat_bind] at hcore ⊢
        rw [sat_glift] at hcore ⊢
        refine hcore.mono (fun p t hh => ?_) (fun _ _ hh => hh) id
        rw [bind_ok (show GSer.getMap { s with sto := t } = .ok ⟨c.ia, op⟩ { s with sto := t } from by rw [← hmap rfl]; rfl)]
        exact hh
      · intro p s1 g1 g2 g3 hm1 hr1 hk1
        have hk1p := hk1.pos
        refine (ih hr1 hw hty (fun _ => by rw [hm1]; exact hmap rfl) (by omega) (by omega) hal hal0 hale).mono ?_ (fun _ _ hh => hh.from hk1) id
        rintro _ s2 ⟨m', a1, a2, a3, a4⟩
        refine ⟨m', ⟨p, _, g1, g2, g3, ?_⟩, a2, a3.trans hm1, hk1.trans a4⟩
        rw [putPtr_wr, if_pos rfl]; exact a1
    | _ =>
      subst hk
      simp only [Script.runG, GSer.pushSlice, GSer.pushAndProcessSlice, GSer.pushRawSlice, bind_assoc_M, pure_bind_M]
      rw [sat_bind]
      refine (h.gpush hr ho hL (Or.inr hpp) _ (lo := op) (by omega)).mono ?_ (fun _ _ hh => hh) id
      rintro p s1 ⟨g1, g2, g3, hm1, hr1, hk1⟩
      have hk1p := hk1.pos
      refine (ih hr1 hw hty (fun hk => by cases hk) (by omega) (by omega) hal hal0 hale).mono ?_ (fun _ _ hh => hh.from hk1) id
      rintro _ s2 ⟨m', a1, a2, a3, a4⟩
      refine ⟨m', ⟨p, _, g1, g2, g3, ?_⟩, a2, a3.trans hm1, hk1.trans a4⟩
      rw [putPtr_wr, if_neg (by intro hh; cases hh)]; exact a1
  | pushProcess L len src ptr inner rest ih1 ih2 =>
    obtain ⟨ho, ht, _, hwi, hw⟩ := hwf
    obtain ⟨hL, hti, hty⟩ := hty
    -- after the push (and pointer): the contents, then the rest
    have after : ∀ (p : Nat) (s1 : GSer σ) (m1 : Mem), I.pos s.sto ≤ p → L.align ∣ p → p + L.size * len ≤ I.pos s1.sto → GRel I Inv content s1 m1 →
        (if k = .ptrOffset then (m.blit p (L.size * len) fun i => im (src + i)).blit (outPos c.ia op ptr) I.C.arch.ptrBytes (wordCells I.C.arch p)
          else m.blit p (L.size * len) fun i => im (src + i)) = m1 →
        (k = .ptrOffset → s1.map = ⟨src, p⟩) → GKept I Inv content op s s1 →
        (inner.runG I k im s1).Sat (fun _ s2 => s2.map = s1.map ∧ ∀ s3 : GSer σ, s3.sto = s2.sto → s3.map = s.map →
          (rest.runG I k im s3).Sat
            (fun _ s' => ∃ m', (Script.pushProcess L len src ptr inner rest).Laid I.C.arch (wr k) im c.ia op (m, I.pos s.sto) (m', I.pos s'.sto) ∧
              GRel I Inv content s' m' ∧ s'.map = s.map ∧ GKept I Inv content op s s')
            (GStop I Inv content op s) True) (GStop I Inv content op s) True := by
      intro p s1 m1 g1 g2 g3 hr1 hm' hm1 hk1
      refine (ih1 (c := ⟨src, L.size * len, L.align⟩) (op := p) hr1 hwi hti hm1 (by simp only; omega) (by have := hk1.pos; omega)
        g2 ho.pow2.pos ho.align_le).mono ?_ (fun _ _ hh => GStop.from hk1 ⟨hh.1, hh.2.lower (by omega)⟩) id
      rintro _ s2 ⟨m2, a1, a2, a3, a4⟩
      refine ⟨a3, fun s3 e1 e2 => ?_⟩
      have hk2 : GKept I Inv content op s s3 := by
        have := hk1.trans (a4.lower (lo' := op) (by omega))
        exact ⟨e1 ▸ this.inv, by rw [e1]; exact this.dvd, by rw [e1]; exact this.pos, by rw [e1]; exact this.below⟩
      have hk2p := hk2.pos
      have hr3 : GRel I Inv content s3 m2 := ⟨e1 ▸ a2.inv, by rw [e1]; exact a2.dvd, by rw [e1]; exact a2.fresh, by rw [e1]; exact a2.sub⟩
      refine (ih2 hr3 hw hty (fun hk => by rw [e2]; exact hmap hk) (by omega) (by omega) hal hal0 hale).mono ?_ (fun _ _ hh => hh.from hk2) id
      rintro _ s4 ⟨m3, b1, b2, b3, b4⟩
      rw [e1] at b1
      refine ⟨m3, ⟨p, _, _, g1, g2, g3, ?_, b1⟩, b2, b3.trans e2, hk2.trans b4⟩
      rw [putPtr_wr, hm']; exact a1
    cases k with
    | pureCopy =>
      simp only [Script.runG, GSer.pushAndProcessSlice, GSer.pushRawSlice, bind_assoc_M, pure_bind_M]
      rw [sat_bind]
      refine (h.gpush hr ho hL (Or.inr hpp) _ (lo := op) (by omega)).mono ?_ (fun _ _ hh => hh) id
      rintro p s1 ⟨g1, g2, g3, hm1, hr1, hk1⟩
      rw [sat_bind]
      refine (after p s1 _ g1 g2 g3 hr1 (if_neg (by intro hh; cases hh)) (fun hk => by cases hk) hk1).imp ?_
      rintro _ s2 ⟨h2, h3⟩
      exact h3 s2 rfl (h2.trans hm1)
    | posTracking =>
      simp only [Script.runG, GSer.pushAndProcessSlice, bind_assoc_M, pure_bind_M]
      rw [bind_ok (show GSer.getMap s = .ok s.map s from rfl), sat_bind]
      refine (h.gpush hr ho hL (Or.inr hpp) _ (lo := op) (by omega)).mono ?_ (fun _ _ hh => hh) id
      rintro p s1 ⟨g1, g2, g3, hm1, hr1, hk1⟩
      rw [bind_ok (show GSer.setMap ⟨src, p⟩ s1 = .ok () { s1 with map := ⟨src, p⟩ } from rfl), sat_bind]
      refine (after p { s1 with map := ⟨src, p⟩ } _ g1 g2 g3 ⟨hr1.inv, hr1.dvd, hr1.fresh, hr1.sub⟩ (if_neg (by intro hh; cases hh)) (fun hk => by cases hk)
        ⟨hk1.inv, hk1.dvd, hk1.pos, hk1.below⟩).imp ?_
      rintro _ s2 ⟨h2, h3⟩
      rw [bind_ok (show GSer.setMap s.map s2 = .ok () { s2 with map := s.map } from rfl)]
      exact h3 { s2 with map := s.map } rfl rfl
    | ptrOffset =>
      have haddr : addrFromRef DKind.ptrOffset.kind ptr = ptr := rfl
      simp only [Script.runG, GSer.pushAndProcessSlice, bind_assoc_M, pure_bind_M, haddr]
      rw [bind_ok (show GSer.getMap s = .ok s.map s from rfl), hmap rfl]
      refine h.gpushPtr hr ho hL ht hin hpp hal hal0 hale (fun i => im (src + i)) _ ?_
      intro p s1 g1 g2 g3 hm1 hr1 hk1
      rw [bind_ok (show GSer.setMap ⟨src, p⟩ s1 = .ok () { s1 with map := ⟨src, p⟩ } from rfl), sat_bind]
      refine (after p { s1 with map := ⟨src, p⟩ } _ g1 g2 g3 ⟨hr1.inv, hr1.dvd, hr1.fresh, hr1.sub⟩ (if_pos rfl) (fun _ => rfl)
        ⟨hk1.inv, hk1.dvd, hk1.pos, hk1.below⟩).imp ?_
      rintro _ s2 ⟨h2, h3⟩
      rw [bind_ok (show GSer.setMap ⟨c.ia, op⟩ s2 = .ok () { s2 with map := ⟨c.ia, op⟩ } from rfl)]
      rw [← hmap rfl]
      exact h3 { s2 with map := s.map } rfl rfl

/-- `serialize_value`. -/
theorem Lawful.gvalue (h : I.Lawful Inv content) {k : DKind} {v : UserRoot} (hv : GValueOK I.C v) {s : GSer σ} {m : Mem}
    (hr : GRel I Inv content s m) :
    (GSer.serializeValue I k v.L v.a (fun i => v.im (v.a + i)) (v.sc.runG I k v.im) s).Sat
      (fun p s' => ∃ m', RootLaid I.C.arch (wr k) v p (m, I.pos s.sto) (m', I.pos s'.sto) ∧ GRel I Inv content s' m' ∧
        GKept I Inv content (I.pos s.sto) s s')
      (GStop I Inv content (I.pos s.sto) s) True := by
  rw [gserializeValue_eq]
  by_cases hz : v.L.size = 0
  · have hpush : GSer.lift (I.pushSlice v.L 1 fun i => v.im (v.a + i)) s = .ok 0 s := by
      unfold GSer.lift StorageImpl.pushSlice; rw [if_pos hz]; rfl
    rw [bind_ok hpush, hv.zst hz]
    simp only [RootLaid, if_pos hz]
    have key : ∀ mp : PosMapping, GRel I Inv content { s with map := mp } m ∧ GKept I Inv content (I.pos s.sto) s { s with map := mp } :=
      fun mp => ⟨⟨hr.inv, hr.dvd, hr.fresh, hr.sub⟩, ⟨hr.inv, hr.dvd, Nat.le_refl _, fun _ _ => rfl⟩⟩
    cases k with
    | pureCopy => exact ⟨m, ⟨rfl, rfl⟩, hr, (key s.map).2⟩
    | _ => exact ⟨m, ⟨rfl, rfl⟩, (key _).1, (key _).2⟩
  · have ho := hv.push hz
    simp only [RootLaid, if_neg hz]
    rw [sat_bind]
    refine (h.gpush hr ho hv.layout (Or.inl Nat.one_pos) _ (lo := I.pos s.sto) (Nat.le_refl _)).mono ?_ (fun _ _ hh => hh) id
    rintro p s1 ⟨g1, g2, g3, hm1, hr1, hk1⟩
    rw [Nat.mul_one] at hr1 g3
    have hset : ∃ s2 : GSer σ, s2.sto = s1.sto ∧ (k = .ptrOffset → s2.map = ⟨v.a, p⟩) ∧
        (if k = .pureCopy then pure () else GSer.setMap ⟨v.a, p⟩ : M (GSer σ) Unit) s1 = .ok () s2 := by
      cases k with
      | pureCopy => exact ⟨s1, rfl, fun hk => (by cases hk), rfl⟩
      | _ => exact ⟨{ s1 with map := ⟨v.a, p⟩ }, rfl, fun _ => rfl, rfl⟩
    obtain ⟨s2, e1, e2, e3⟩ := hset
    rw [bind_ok e3, sat_bind]
    have hr2 : GRel I Inv content s2 _ := ⟨e1 ▸ hr1.inv, by rw [e1]; exact hr1.dvd, by rw [e1]; exact hr1.fresh, by rw [e1]; exact hr1.sub⟩
    have hk2 : GKept I Inv content (I.pos s.sto) s s2 :=
      ⟨e1 ▸ hk1.inv, by rw [e1]; exact hk1.dvd, by rw [e1]; exact hk1.pos, by rw [e1]; exact hk1.below⟩
    rw [← e1] at g3
    refine (h.runG v.sc (c := ⟨v.a, v.L.size, v.L.align⟩) (op := p) hr2 (hv.wf hz) hv.types e2
      (by simp only; omega) (by omega) g2 ho.pow2.pos ho.align_le).mono ?_
      (fun _ _ hh => GStop.from hk2 ⟨hh.1, hh.2.lower g1⟩) id
    rintro _ s3 ⟨m', a1, a2, _, a4⟩
    rw [pure_run, sat_ok]
    exact ⟨m', ⟨_, g1, g2, g3, a1⟩, a2, hk2.trans (a4.lower g1)⟩

/-- Several values. -/
theorem Lawful.gvalues (h : I.Lawful Inv content) {k : DKind} (vs : List UserRoot) (hv : ∀ v ∈ vs, GValueOK I.C v) {s : GSer σ} {m : Mem}
    (hr : GRel I Inv content s m) :
    (gValues I k vs s).Sat
      (fun ps s' => ∃ m', RootsLaid I.C.arch (wr k) vs ps (m, I.pos s.sto) (m', I.pos s'.sto) ∧ GRel I Inv content s' m' ∧
        GKept I Inv content (I.pos s.sto) s s')
      (GStop I Inv content (I.pos s.sto) s) True := by
  induction vs generalizing s m with
  | nil => exact ⟨m, ⟨rfl, rfl⟩, hr, hr.inv, hr.dvd, Nat.le_refl _, fun _ _ => rfl⟩
  | cons v vs ih =>
    simp only [gValues]
    rw [sat_bind]
    refine (h.gvalue (hv v (by simp)) hr).mono ?_ (fun _ _ hh => hh) id
    rintro p s1 ⟨m1, hl1, hr1, hk1⟩
    rw [sat_bind]
    refine (ih (fun x hx => hv x (by simp [hx])) hr1).mono ?_ (fun _ _ hh => GStop.from hk1 ⟨hh.1, hh.2.lower hk1.pos⟩) id
    rintro ps s2 ⟨m2, hl2, hr2, hk2⟩
    rw [pure_run, sat_ok]
    exact ⟨m2, ⟨p, ps, _, rfl, hl1, hl2⟩, hr2, hk1.trans (hk2.lower hk1.pos)⟩

end RandomImpl

/-! ### Several values -/

section
variable {A : Arch} {w : Bool}

theorem putPtr_false {A : Arch} {m : Mem} {x t : Nat} : (Mode.mk (if false = true then some 0 else none) false).putPtr A m x t = m := rfl

theorem rootLaid_mono {v : UserRoot} {p : Nat} {st st' : Mem × Nat} (h : RootLaid A w v p st st') : st.2 ≤ st'.2 := by
  unfold RootLaid at h
  split at h
  · rw [h.2]
  · obtain ⟨e, h1, _, h3, h4⟩ := h
    have := laid_mono _ h4; simp only at this; omega

theorem rootLaid_frame {v : UserRoot} {p : Nat} {st st' : Mem × Nat} (h : RootLaid A w v p st st') {i : Nat} (hi : i < st.2) : st'.1 i = st.1 i := by
  unfold RootLaid at h
  split at h
  · rw [h.2]
  · obtain ⟨e, h1, _, h3, h4⟩ := h
    rw [laid_frame _ h4 (by simp only; omega) fun t _ => Or.inl (by have := outPos_ge v.a p t.1; omega)]
    simp only
    rw [blit_out (by omega)]

theorem rootsLaid_mono {vs : List UserRoot} {ps : List Nat} {st st' : Mem × Nat} (h : RootsLaid A w vs ps st st') : st.2 ≤ st'.2 := by
  induction vs generalizing ps st with
  | nil => rw [h.2]
  | cons v vs ih =>
    obtain ⟨p, qs, st1, _, h1, h2⟩ := h
    have := rootLaid_mono h1; have := ih h2; omega

theorem rootsLaid_frame {vs : List UserRoot} {ps : List Nat} {st st' : Mem × Nat} (h : RootsLaid A w vs ps st st') {i : Nat} (hi : i < st.2) :
    st'.1 i = st.1 i := by
  induction vs generalizing ps st with
  | nil => rw [h.2]
  | cons v vs ih =>
    obtain ⟨p, qs, st1, _, h1, h2⟩ := h
    have := rootLaid_mono h1
    rw [ih h2 (by omega), rootLaid_frame h1 hi]

theorem rootsLaid_length {vs : List UserRoot} {ps : List Nat} {st st' : Mem × Nat} (h : RootsLaid A w vs ps st st') : ps.length = vs.length := by
  induction vs generalizing ps st with
  | nil => rw [h.1]; rfl
  | cons v vs ih =>
    obtain ⟨p, qs, st1, rfl, h1, h2⟩ := h
    simp [ih h2]

/-- The part of the output that belongs to one of the values. -/
theorem rootsLaid_get {vs : List UserRoot} {ps : List Nat} {st st' : Mem × Nat} (h : RootsLaid A w vs ps st st') {i : Nat} {v : UserRoot} {p : Nat}
    (hv : vs[i]? = some v) (hp : ps[i]? = some p) :
    ∃ s1 s2 : Mem × Nat, RootLaid A w v p s1 s2 ∧ st.2 ≤ s1.2 ∧ s2.2 ≤ st'.2 ∧ ∀ j < s2.2, st'.1 j = s2.1 j := by
  induction vs generalizing ps st i with
  | nil => cases hv
  | cons u vs ih =>
    obtain ⟨q, qs, st1, rfl, h1, h2⟩ := h
    cases i with
    | zero =>
      simp only [List.getElem?_cons_zero, Option.some.injEq] at hv hp
      subst hv hp
      exact ⟨st, st1, h1, Nat.le_refl _, rootsLaid_mono h2, fun j hj => rootsLaid_frame h2 hj⟩
    | succ i =>
      simp only [List.getElem?_cons_succ] at hv hp
      obtain ⟨s1, s2, g1, g2, g3, g4⟩ := ih h2 hv hp
      have := rootLaid_mono h1
      exact ⟨s1, s2, g1, by omega, g3, g4⟩

/-- An earlier value and a later one. -/
theorem rootsLaid_order {vs : List UserRoot} {ps : List Nat} {st st' : Mem × Nat} (h : RootsLaid A w vs ps st st') {i j : Nat} {v v' : UserRoot} {p p' : Nat}
    (hij : i < j) (hv : vs[i]? = some v) (hp : ps[i]? = some p) (hv' : vs[j]? = some v') (hp' : ps[j]? = some p') (hz : v'.L.size ≠ 0) :
    ∃ s1 s2 : Mem × Nat, RootLaid A w v p s1 s2 ∧ s2.2 ≤ p' ∧ s2.2 ≤ st'.2 ∧ ∀ x < s2.2, st'.1 x = s2.1 x := by
  induction vs generalizing ps st i j with
  | nil => cases hv
  | cons u vs ih =>
    obtain ⟨q, qs, st1, rfl, h1, h2⟩ := h
    cases j with
    | zero => omega
    | succ j =>
      simp only [List.getElem?_cons_succ] at hv' hp'
      cases i with
      | zero =>
        simp only [List.getElem?_cons_zero, Option.some.injEq] at hv hp
        subst hv hp
        obtain ⟨s1, s2, g1, g2, g3, g4⟩ := rootsLaid_get h2 hv' hp'
        unfold RootLaid at g1
        rw [if_neg hz] at g1
        obtain ⟨e, k1, _⟩ := g1
        exact ⟨st, st1, h1, by omega, rootsLaid_mono h2, fun x hx => rootsLaid_frame h2 hx⟩
      | succ i =>
        simp only [List.getElem?_cons_succ] at hv hp
        exact ih h2 (by omega) hv hp hv' hp'

end

/-! ### Reading the values back -/

section
variable {C : Cfg} {P : Prog} {fl : Flags}

/-- A reader that takes pointers for positions finds the value, and its blocks are in order between the value and the end. -/
theorem rootLaid_read (hW : 0 < C.arch.ptrBytes) (hP : P.WF C.arch) (hacc : P.Accepted C) {n : Nat} {j : Job} (hj : j.OK C P fl n) {p : Nat}
    {st st' : Mem × Nat} (h : RootLaid C.arch true (j.gval P) p st st') (hb : st'.2 < C.arch.usizeMod) {dm : Mem} (hdm : ∀ i, st.2 ≤ i → i < st'.2 → dm i = st'.1 i) :
    decode C.arch P ⟨fl.canon, false⟩ dm n j.r.t p = some j.v ∧
    ∃ as, owned C.arch P dm n j.r.t p = some as ∧ OwnIn (p + (P.layout j.r.t).size) st'.2 as := by
  obtain ⟨hd, hs⟩ := hj
  obtain ⟨hal, hlt⟩ := decode_guard hd
  unfold RootLaid at h
  split at h
  · rename_i hz
    change (P.layout j.r.t).size = 0 at hz
    obtain ⟨rfl, rfl⟩ := h
    have hsc := script_zst hW hP hz hs
    have key := (script_laid (fl := fl) (im := j.r.im) hW hP hacc n j.r.t j.r.a j.v j.sc ⟨j.r.a, (P.layout j.r.t).size, (P.layout j.r.t).align⟩
      0 st'.1 0 st'.1 0 hd hs (placed_root hal) (by simp only [hz]; omega) (by rw [outPos_self]; exact Nat.dvd_zero _) (by intro i hi; omega)
      (by rw [hsc]; rfl) (by omega)).2 dm (by intro i hi; rw [hz, outPos_self] at hi; omega)
    rw [outPos_self] at key
    obtain ⟨k1, as, k2, k3⟩ := key
    refine ⟨k1, as, k2, ⟨fun o ho => ?_, fun o ho => Nat.le_trans (k3.hi o ho) (Nat.zero_le _), k3.al, k3.fwd, k3.ord⟩⟩
    have := k3.lo o ho; rw [hz]; omega
  · rename_i hz
    change (P.layout j.r.t).size ≠ 0 at hz
    obtain ⟨e, h1, h2, h3, h4⟩ := h
    change p + (P.layout j.r.t).size ≤ e at h3
    change (P.layout j.r.t).align ∣ p at h2
    have hmono := laid_mono _ h4
    simp only at hmono
    have key := (script_laid (fl := fl) (im := j.r.im) hW hP hacc n j.r.t j.r.a j.v j.sc ⟨j.r.a, (P.layout j.r.t).size, (P.layout j.r.t).align⟩
      p _ e st'.1 st'.2 hd hs (placed_root hal) h3 (by rw [outPos_self]; exact h2) (by intro i hi; rw [outPos_self]; exact blit_at hi)
      h4 hb).2 dm (by intro i hi; rw [outPos_self] at hi; exact hdm i (by omega) (by omega))
    rw [outPos_self] at key
    obtain ⟨k1, as, k2, k3⟩ := key
    exact ⟨k1, as, k2, ⟨fun o ho => by have := k3.lo o ho; omega, k3.hi, k3.al, k3.fwd, k3.ord⟩⟩

end

/-! ### Plain copies -/

section
variable {A : Arch}

theorem laid_plain_frame {im : Mem} (sc : Script) {ia op : Nat} {st st' : Mem × Nat} (h : sc.Laid A false im ia op st st') {i : Nat} (hi : i < st.2) :
    st'.1 i = st.1 i := by
  induction sc generalizing ia op st st' with
  | done => rw [show st' = st from h]
  | pushProcess L len src ptr inner rest ih1 ih2 =>
    obtain ⟨pos, e, st3, h1, h2, h3, h4, h5⟩ := h
    have mono := laid_mono _ h4
    simp only at mono
    rw [ih2 h5 (by omega), ih1 h4 (by simp only; omega)]
    simp only [putPtr_false]
    rw [blit_out (by omega)]
  | push L len src ptr rest ih =>
    obtain ⟨pos, e, h1, h2, h3, h5⟩ := h
    rw [ih h5 (by simp only; omega)]
    simp only [putPtr_false]
    rw [blit_out (by omega)]
  | pushRaw L len src rest ih =>
    obtain ⟨pos, e, h1, h2, h3, h5⟩ := h
    rw [ih h5 (by simp only; omega)]
    simp only [putPtr_false]
    rw [blit_out (by omega)]
  | overwrite a L data rest ih => exact ih h hi

theorem Copied.le {im m : Mem} {lo hi : Nat} {xs : List (Shape × Nat)} {qs : List Nat} (h : Copied im m lo hi xs qs) : lo ≤ hi := by
  induction h with
  | nil h => exact h
  | cons _ _ _ _ _ ih => omega

theorem Copied.append {im m : Mem} {lo mid hi : Nat} {xs ys : List (Shape × Nat)} {qs rs : List Nat} (h1 : Copied im m lo mid xs qs)
    (h2 : Copied im m mid hi ys rs) : Copied im m lo hi (xs ++ ys) (qs ++ rs) := by
  induction h1 with
  | @nil lo mid h =>
    cases h2 with
    | nil h' => exact .nil (Nat.le_trans h h')
    | cons a b c d e => exact .cons (Nat.le_trans h a) b c d e
  | cons a b c d _ ih => exact .cons a b c d (ih h2)

theorem Copied.mono {im m m' : Mem} {lo hi : Nat} {xs : List (Shape × Nat)} {qs : List Nat} (h : Copied im m lo hi xs qs)
    (hm : ∀ i, lo ≤ i → i < hi → ∀ b, m i = some b → m' i = some b) : Copied im m' lo hi xs qs := by
  induction h with
  | nil h => exact .nil h
  | cons a b c d e ih =>
    have := e.le
    exact .cons a b c (fun i hi x hx => hm _ (by omega) (by omega) x (d i hi x hx)) (ih fun i hl hi => hm i (by omega) hi)

theorem laid_copied {im : Mem} (sc : Script) {ia op : Nat} {st st' : Mem × Nat} (h : sc.Laid A false im ia op st st') :
    ∃ qs, Copied im st'.1 st.2 st'.2 sc.pushes qs := by
  induction sc generalizing ia op st st' with
  | done => rw [show st' = st from h]; exact ⟨[], .nil (Nat.le_refl _)⟩
  | pushProcess L len src ptr inner rest ih1 ih2 =>
    obtain ⟨pos, e, st3, h1, h2, h3, h4, h5⟩ := h
    obtain ⟨q1, c1⟩ := ih1 h4
    obtain ⟨q2, c2⟩ := ih2 h5
    have m1 := laid_mono _ h4
    have m2 := laid_mono _ h5
    simp only at m1
    refine ⟨pos :: (q1 ++ q2), .cons h1 h2 h3 ?_ ((c1.mono fun i _ hi b hb => by rw [laid_plain_frame _ h5 hi]; exact hb).append c2)⟩
    intro i hi b hb
    change i < L.size * len at hi
    rw [laid_plain_frame _ h5 (by omega), laid_plain_frame _ h4 (by simp only; omega)]
    simp only [putPtr_false]
    rw [blit_at hi]; exact hb
  | push L len src ptr rest ih =>
    obtain ⟨pos, e, h1, h2, h3, h5⟩ := h
    obtain ⟨q2, c2⟩ := ih h5
    refine ⟨pos :: q2, .cons h1 h2 h3 ?_ c2⟩
    intro i hi b hb
    change i < L.size * len at hi
    rw [laid_plain_frame _ h5 (by simp only; omega)]
    simp only [putPtr_false]
    rw [blit_at hi]; exact hb
  | pushRaw L len src rest ih =>
    obtain ⟨pos, e, h1, h2, h3, h5⟩ := h
    obtain ⟨q2, c2⟩ := ih h5
    refine ⟨pos :: q2, .cons h1 h2 h3 ?_ c2⟩
    intro i hi b hb
    change i < L.size * len at hi
    rw [laid_plain_frame _ h5 (by simp only; omega)]
    simp only [putPtr_false]
    rw [blit_at hi]; exact hb
  | overwrite a L data rest ih => exact ih h

/-- A value in a plain copy: its bytes at `p`, then the blocks it owns. -/
theorem rootLaid_copied {v : UserRoot} {p : Nat} {st st' : Mem × Nat} (h : RootLaid A false v p st st') (hz : v.L.size ≠ 0) :
    (∀ i < v.L.size, st'.1 (p + i) = v.im (v.a + i)) ∧ ∃ qs, Copied v.im st'.1 (p + v.L.size) st'.2 v.sc.pushes qs := by
  unfold RootLaid at h
  rw [if_neg hz] at h
  obtain ⟨e, h1, h2, h3, h4⟩ := h
  obtain ⟨qs, hc⟩ := laid_copied _ h4
  refine ⟨fun i hi => ?_, qs, ?_⟩
  · rw [laid_plain_frame _ h4 (by simp only; omega)]
    simp only [putPtr_false]
    rw [blit_at hi]
  · exact (Copied.nil h3).append hc

end

/-! ### More memory, same allocations -/

section
variable {A : Arch} {P : Prog} {m m' : Mem}

theorem ownEach_le {r1 r2 : TyId → Nat → Option (List Own)} (hr : ∀ t a v, r1 t a = some v → r2 t a = some v) (a : Nat) (fs : List Field) {as : List Own}
    (h : ownEach r1 a fs = some as) : ownEach r2 a fs = some as := by
  induction fs generalizing as with
  | nil => exact h
  | cons f fs ih =>
    simp only [ownEach, Option.bind_eq_bind, Option.bind_eq_some_iff, Option.pure_def, Option.some.injEq] at h ⊢
    obtain ⟨x, h1, y, h2, h3⟩ := h
    exact ⟨x, hr _ _ _ h1, y, ih h2, h3⟩

theorem ownVec_le (h : m.Le m') {r1 r2 : TyId → Nat → Option (List Own)} (hr : ∀ t a v, r1 t a = some v → r2 t a = some v) {u a : Nat} {as : List Own}
    (ho : ownVec A P m r1 u a = some as) : ownVec A P m' r2 u a = some as := by
  unfold ownVec at ho ⊢
  split at ho
  · rename_i hz; rw [if_pos hz]; exact ho
  · rename_i hz
    rw [if_neg hz]
    simp only [Option.bind_eq_bind, Option.bind_eq_some_iff] at ho ⊢
    obtain ⟨hh, h1, h2⟩ := ho
    refine ⟨hh, readHeader_le h h1, ?_⟩
    split at h2
    · rename_i hl; rw [if_pos hl]; exact h2
    · rename_i hl; rw [if_neg hl]
      simp only [Option.bind_eq_some_iff] at h2 ⊢
      obtain ⟨x, h3, h4⟩ := h2
      exact ⟨x, ownEach_le hr _ _ h3, h4⟩

theorem owned_le (h : m.Le m') (n : Nat) : ∀ t a as, owned A P m n t a = some as → owned A P m' n t a = some as := by
  induction n with
  | zero => intro t a v hd; simp [owned] at hd
  | succ n ih =>
    intro t a v hd
    rw [owned] at hd ⊢
    cases hdef : P.defn t <;> simp only [hdef] at hd ⊢
    case prim => exact hd
    case box u =>
      split at hd
      · rename_i hz; rw [if_pos hz]; exact hd
      · rename_i hz
        rw [if_neg hz]
        simp only [Option.bind_eq_bind, Option.bind_eq_some_iff] at hd ⊢
        obtain ⟨p, h1, x, h2, h3⟩ := hd
        exact ⟨p, readWord_le h h1, x, ih _ _ _ h2, h3⟩
    case vec u => exact ownVec_le h ih hd
    case string =>
      simp only [Option.bind_eq_bind, Option.bind_eq_some_iff] at hd ⊢
      obtain ⟨hh, h1, h2⟩ := hd
      exact ⟨hh, readHeader_le h h1, h2⟩
    case array u k => exact ownEach_le ih _ _ hd
    case struct fs => exact ownEach_le ih _ _ hd
    case enum tag vs =>
      simp only [Option.bind_eq_bind, Option.bind_eq_some_iff] at hd ⊢
      obtain ⟨i, h1, fs, h2, h3⟩ := hd
      exact ⟨i, activeVariant_le h h1, fs, h2, ownEach_le ih _ _ h3⟩
    case bigUint u => exact ownVec_le h ih hd
    case bigInt u => exact ih _ _ _ hd

end

/-! ### Sessions -/

section
variable {σ : Type} {I : RandomImpl σ} {Inv : σ → Prop} {content : σ → Mem} {P : Prog} {fl : Flags}

/-- What a session leaves. -/
structure LJobs (I : RandomImpl σ) (Inv : σ → Prop) (content : σ → Mem) (k : DKind) (P : Prog) (js : List Job) (t : σ) (ps : List Nat) (s' : GSer σ) (m' : Mem) : Prop where
  laid : RootsLaid I.C.arch (RandomImpl.wr k) (js.map (Job.gval P)) ps (fun _ => none, I.pos t) (m', I.pos s'.sto)
  le : m'.Le (content s'.sto)
  fresh : ∀ i, I.pos s'.sto ≤ i → m' i = none
  kept : RandomImpl.GKept I Inv content (I.pos t) (GSer.fromStorage t) s'

theorem RandomImpl.Lawful.roots (h : I.Lawful Inv content) (hP : P.WF I.C.arch) (hacc : P.Accepted I.C) {k : DKind} {t : σ} (ht : Inv t)
    (hd : I.C.valueAlign ∣ I.pos t) {rs : List (Root × Val)} (hv : Inputs I.C.arch P fl rs) :
    ∃ N, ∀ n, N ≤ n → ∃ js : List Job, js.map (fun j => (j.r, j.v)) = rs ∧ (∀ j ∈ js, j.OK I.C P fl n) ∧
      (gSession I k P n (rs.map (·.1)) (GSer.fromStorage t)).Sat (fun ps s' => ∃ m', LJobs I Inv content k P js t ps s' m')
        (RandomImpl.GStop I Inv content (I.pos t) (GSer.fromStorage t)) True := by
  have hA := h.storage.arch.ptr_pos
  obtain ⟨N, hN⟩ := exists_jobs (C := I.C) hA hP hv
  refine ⟨N, fun n hn => ?_⟩
  obtain ⟨js, h1, h2⟩ := hN n hn
  refine ⟨js, h1, h2, ?_⟩
  have e : rs.map (·.1) = js.map (·.r) := by rw [← h1, List.map_map]; rfl
  rw [e, gRoots_eq hA hP js h2]
  have hg : ∀ v ∈ js.map (Job.gval P), RandomImpl.GValueOK I.C v := by
    intro v hv
    obtain ⟨j, hj, rfl⟩ := List.mem_map.1 hv
    exact (h2 j hj).gval hA hP hacc
  have hr : RandomImpl.GRel I Inv content (GSer.fromStorage t) fun _ => none :=
    ⟨ht, hd, fun _ _ => rfl, fun i b hb => by cases hb⟩
  refine (h.gvalues (k := k) _ hg hr).mono ?_ (fun _ _ hh => hh) id
  rintro ps s' ⟨m', a1, a2, a3⟩
  exact ⟨m', a1, a2.sub, a2.fresh, a3⟩

theorem RandomImpl.Lawful.rootsOut (h : I.Lawful Inv content) (hP : P.WF I.C.arch) (hacc : P.Accepted I.C) {k : DKind} {t : σ} (ht : Inv t)
    (hd : I.C.valueAlign ∣ I.pos t) {rs : List (Root × Val)} (hv : Inputs I.C.arch P fl rs) {fuel : Nat}
    (hne : gSession I k P fuel (rs.map (·.1)) (GSer.fromStorage t) ≠ .fuel) :
    ∃ n, ∃ js : List Job, js.map (fun j => (j.r, j.v)) = rs ∧ (∀ j ∈ js, j.OK I.C P fl n) ∧
      (gSession I k P fuel (rs.map (·.1)) (GSer.fromStorage t)).Sat (fun ps s' => ∃ m', LJobs I Inv content k P js t ps s' m')
        (RandomImpl.GStop I Inv content (I.pos t) (GSer.fromStorage t)) True := by
  obtain ⟨N, hN⟩ := h.roots hP hacc (k := k) ht hd hv
  obtain ⟨js, h1, h2, h3⟩ := hN (max N fuel) (Nat.le_max_left _ _)
  rw [gRoots_fuel (Nat.le_max_right N fuel) _ _ hne] at h3
  exact ⟨_, js, h1, h2, h3⟩

end
end SerRaw
