import Verif.Model.History
import Verif.Lemmas.Storage
import Verif.Lemmas.Words
/-
Every legal operation preserves the storage invariant.
-/
namespace SerRaw
section
variable {C : Cfg}

/-- The heap contents at `as_ptr() + i` are the storage's view at position `i`. -/
theorem load_eq_view {s : Sto} (h : s.WInv C) {i : Nat} (hi : i < s.vec.capacity) : s.w.load (s.vec.ptr + i) = s.view i := by
  rcases h.mem with ⟨h0, _, _⟩ | ⟨_, _, _, _, d, hl⟩
  · omega
  · rw [Sto.view_of_live hl]
    unfold World.load
    have : (⟨s.vec.ptr, s.vec.capacity, C.storageAlign, d⟩ : Block).contains (s.vec.ptr + i) 1 = true := by
      simp [Block.contains]; omega
    rw [hl, List.find?_cons, this]
    simp [hi]

theorem Layout.OK.pow2 {L : Layout} (h : L.OK) : Pow2 L.align := h.1
theorem accepts_iff {L : Layout} : C.accepts L = true ↔ L.align ≤ C.maxValueAlign := by simp [Cfg.accepts]

theorem pow2_usizeMod (A : Arch) : Pow2 A.usizeMod := ⟨_, rfl⟩

/-- Outcomes of `push_empty_slice`; `size` is `size_of::<T>() * len` as computed (it may have wrapped around). -/
structure EmptySpec (C : Cfg) (s : Sto) (L : Layout) (len p : Nat) (s' : Sto) : Prop where
  pos_eq : p = roundUp s.vec.pos L.align
  inv : s'.Inv C
  view : s'.view = s.view
  cap_le : s.vec.capacity ≤ s'.vec.capacity
  end_eq : s'.vec.pos = roundUp (p + L.size * len % C.arch.usizeMod) C.valueAlign
  within : p + L.size * len % C.arch.usizeMod ≤ s'.vec.capacity
  debug : C.arch.debug = true → L.size * len < C.arch.usizeMod ∧ C.valueAlign ∣ L.size * len
  calls : (s'.w.calls = s.w.calls ∧ s'.vec.capacity = s.vec.capacity ∧ s'.vec.ptr = s.vec.ptr) ∨ GrowSpec C (s.at p) (L.size * len % C.arch.usizeMod) (s'.at p)

structure EmptyPanic (C : Cfg) (s : Sto) (L : Layout) (len : Nat) (k : PanicKind) (s' : Sto) : Prop where
  inv : s'.Inv C
  pos : s'.vec.pos = roundUp s.vec.pos L.align
  view : s'.view = s.view
  cap_le : s.vec.capacity ≤ s'.vec.capacity
  why : (k = .capacity ∧ C.maxCapacity < roundUp s.vec.pos L.align + L.size * len % C.arch.usizeMod) ∨
    (C.arch.debug = true ∧ k = .arith ∧ C.arch.usizeMod ≤ L.size * len) ∨
    (C.arch.debug = true ∧ k = .debugAssert ∧ ¬ C.valueAlign ∣ L.size * len)
  calls : (s'.w.calls = s.w.calls ∧ s'.vec.capacity = s.vec.capacity ∧ s'.vec.ptr = s.vec.ptr) ∨ ∃ n, GrowSpec C (s.at (roundUp s.vec.pos L.align)) n s'

theorem va_dvd_usizeMod (F : C.Facts) : C.valueAlign ∣ C.arch.usizeMod :=
  F.va.dvd_of_le (pow2_usizeMod _) (by have := F.va_le; have := F.mva_le; have := F.max_lt; omega)

theorem at_inv_view {s s' : Sto} (p : Nat) (h : s'.view = s.view) : (s'.at p).view = s.view := h

theorem pushEmptySlice_sat (hC : C.OK) {s : Sto} (h : s.Inv C) {L : Layout} {len : Nat} (ha : Pow2 L.align) (hal : L.align ≤ C.maxValueAlign) :
    (Sto.pushEmptySlice C L len s).Sat (EmptySpec C s L len) (EmptyPanic C s L len) (¬ C.NeverFails) := by
  have F := hC.facts
  have hm := F.max_lt
  have hru := roundUp_le_cap F h.toWInv h.pos_le ha hal
  have hvd := va_dvd_roundUp F ha h.pos_dvd
  unfold Sto.pushEmptySlice
  rw [bind_ok (alignFor_ok F h ha hal)]
  generalize hq : roundUp s.vec.pos L.align = q at *
  have hI : (s.at q).Inv C := h.at hru hvd
  have hmul : umul C.arch L.size len (s.at q) = .ok (L.size * len % C.arch.usizeMod) (s.at q) ∧
      (C.arch.debug = true → L.size * len < C.arch.usizeMod) ∨
      (C.arch.debug = true ∧ C.arch.usizeMod ≤ L.size * len ∧ umul C.arch L.size len (s.at q) = .panic .arith (s.at q)) := by
    unfold umul
    by_cases h1 : L.size * len < C.arch.usizeMod
    · left; rw [if_pos h1, Nat.mod_eq_of_lt h1]; exact ⟨rfl, fun _ => h1⟩
    · rw [if_neg h1]
      by_cases h2 : C.arch.debug = true
      · right; rw [if_pos h2]; exact ⟨h2, by omega, rfl⟩
      · left; rw [if_neg h2]; exact ⟨rfl, fun h => absurd h h2⟩
  rcases hmul with ⟨hmul, hdbg⟩ | ⟨hdbg, hge, hmul⟩
  · rw [bind_ok hmul, sat_bind]
    generalize hsz : L.size * len % C.arch.usizeMod = size at *
    refine (reserve_sat hC hI.toWInv size).mono ?_ ?_ id
    · intro _ s1 r
      have w1 := r.inv hI.toWInv
      have hroom := r.room
      have hp1 : s1.vec.pos = q := r.pos
      have hv1 : s1.view = s.view := r.view
      have hcl : s.vec.capacity ≤ s1.vec.capacity := r.cap_le
      have hfit : q + size ≤ C.maxCapacity := r.fits hI.toWInv
      simp only [Sto.at_pos] at hroom
      rw [bind_ok (show Sto.getPos s1 = .ok s1.vec.pos s1 from rfl), hp1, bind_ok (uadd_ok _ (by omega) s1)]
      have hcalls : (s1.w.calls = s.w.calls ∧ s1.vec.capacity = s.vec.capacity ∧ s1.vec.ptr = s.vec.ptr) ∨ GrowSpec C (s.at q) size s1 := by
        cases r with
        | same e _ => left; rw [e]; exact ⟨rfl, rfl, rfl⟩
        | grown _ g => right; exact g
      by_cases hfail : C.arch.debug = true ∧ ¬ C.valueAlign ∣ q + size
      · have hset : Sto.setPos C (q + size) s1 = .panic .debugAssert s1 := by
          unfold Sto.setPos
          rw [bind_ok (show Sto.getCapacity s1 = .ok s1.vec.capacity s1 from rfl),
            bind_ok (debugAssert_true _ (decide_eq_true (by omega)) s1), bind_def]
          have : M.debugAssertM C.arch (isAlignedTo C.arch (q + size) C.valueAlign) s1 = .panic .debugAssert s1 := by
            unfold M.debugAssertM
            rw [if_pos hfail.1, bind_ok (isAlignedTo_ok F.va s1)]
            simp [M.debugAssert, hfail.1, hfail.2]
          rw [this]
        rw [bind_def, hset]
        refine ⟨⟨w1, by rw [hp1]; exact hvd⟩, by rw [hp1, hq], hv1, hcl, Or.inr (Or.inr ⟨hfail.1, rfl, ?_⟩), ?_⟩
        · intro hd
          have hlt := hdbg hfail.1
          rw [Nat.mod_eq_of_lt hlt] at hsz
          exact hfail.2 (Nat.dvd_add hvd (hsz ▸ hd))
        · rw [hq]
          rcases hcalls with hc | hc
          · exact Or.inl hc
          · exact Or.inr ⟨_, hc⟩
      · have hset : Sto.setPos C (q + size) s1 = .ok () (s1.at (q + size)) := by
          unfold Sto.setPos
          rw [bind_ok (show Sto.getCapacity s1 = .ok s1.vec.capacity s1 from rfl),
            bind_ok (debugAssert_true _ (decide_eq_true (by omega)) s1),
            bind_ok (debugAssertM_ok _ ?_)]
          · rfl
          · intro hd
            rw [isAlignedTo_ok F.va s1, decide_eq_true]
            exact Classical.byContradiction fun hn => hfail ⟨hd, hn⟩
        rw [bind_ok hset]
        have w2 : (s1.at (q + size)).WInv C := w1.at (by omega)
        have hafter : Sto.alignAfter C L (s1.at (q + size)) = .ok () (s1.at (roundUp (q + size) C.valueAlign)) := by
          unfold Sto.alignAfter
          split
          · exact alignAfterAny_ok F w2
          · rename_i h0
            have hdv : C.valueAlign ∣ size := by
              rw [← hsz]
              have : C.valueAlign ∣ L.size := Nat.dvd_of_mod_eq_zero (by omega)
              exact (Nat.dvd_mod_iff (va_dvd_usizeMod F)).2 (Nat.dvd_trans this (Nat.dvd_mul_right _ _))
            rw [roundUp_eq_of_dvd F.va.pos (Nat.dvd_add hvd hdv)]
            rfl
        rw [bind_ok hafter, pure_run, sat_ok]
        have hle : roundUp (q + size) C.valueAlign ≤ s1.vec.capacity := roundUp_le_cap F w1 (by omega) F.va F.va_le
        refine ⟨hq.symm, ⟨w1.at hle, dvd_roundUp _ _⟩, hv1, hcl, by rw [hsz]; rfl, by rw [hsz]; exact hroom, ?_, ?_⟩
        · intro hd
          refine ⟨hdbg hd, ?_⟩
          have hlt := hdbg hd
          rw [Nat.mod_eq_of_lt hlt] at hsz
          have : C.valueAlign ∣ q + size := Classical.byContradiction fun hn => hfail ⟨hd, hn⟩
          rw [hsz]; exact (Nat.dvd_add_right hvd).1 this
        · rcases hcalls with hc | hc
          · exact Or.inl hc
          · right; rw [hsz]
            have e : (s1.at (roundUp (q + size) C.valueAlign)).at q = s1 := by
              rw [Sto.at_at, ← hp1]; rfl
            rw [e]; exact hc
    · rintro k s1 ⟨hk, rfl, hov⟩
      exact ⟨hI, by rw [hq]; rfl, rfl, Nat.le_refl _, Or.inl ⟨hk, by rw [hq, hsz]; exact hov⟩, Or.inl ⟨rfl, rfl, rfl⟩⟩
  · rw [bind_def, hmul]
    exact ⟨hI, by rw [hq]; rfl, rfl, Nat.le_refl _, Or.inr (Or.inl ⟨hdbg, rfl, hge⟩), Or.inl ⟨rfl, rfl, rfl⟩⟩

theorem writeSlice_zst {s : Sto} {p len : Nat} {L : Layout} {data : Nat → Cell} (F : C.Facts) (h : s.WInv C) (hL : L.size = 0)
    (hp : p ≤ s.vec.capacity) (ha : Pow2 L.align) (hd : L.align ∣ p) :
    Sto.writeSlice C p L len data s = .ok () s := by
  unfold Sto.writeSlice
  rw [bind_ok (show Sto.getCapacity s = .ok s.vec.capacity s from rfl),
    bind_ok (debugAssert_true _ (decide_eq_true (by omega)) s), bind_ok (debugAssertM_ok _ ?_),
    bind_ok (debugAssertM_ok _ ?_), if_pos hL]
  · rfl
  · intro _; rw [isAlignedTo_ok ha, decide_eq_true hd]
  · intro _
    rw [bind_ok (usub_ok _ (by omega) s), bind_ok (umul_ok _ (by rw [hL, Nat.zero_mul]; exact F.mod_pos) s)]
    simp only [pure_run]; rw [decide_eq_true]; rw [hL]; omega

/-- What an operation may do to a consistent storage. -/
structure StepSpec (C : Cfg) (op : SOp) (s : Sto) (s' : Sto) : Prop where
  inv : s'.Inv C
  cap_le : (∀ h : op = .shrinkToFit, False) → s.vec.capacity ≤ s'.vec.capacity
  calls : (∀ h : op = .shrinkToFit, False) →
    (s'.w.calls = s.w.calls ∧ s'.vec.capacity = s.vec.capacity) ∨
    (s'.w.calls = s.w.calls + 1 ∧ s.vec.capacity < s'.vec.capacity ∧
      (Pow2 s'.vec.capacity ∨ s'.vec.capacity = C.maxCapacity))
  pos_mono : (∀ h : op = .clear, False) → s.vec.pos ≤ s'.vec.pos
  view : (∀ p L len d, op ≠ .writeSlice p L len d) → ∀ i < s.vec.pos, s'.view i = s.view i
  ptr : s'.vec.capacity = s.vec.capacity → s'.vec.ptr = s.vec.ptr

theorem GrowSpec.step {s : Sto} {n : Nat} {s' : Sto} (g : GrowSpec C s n s') :
    s'.w.calls = s.w.calls + 1 ∧ s.vec.capacity < s'.vec.capacity ∧ (Pow2 s'.vec.capacity ∨ s'.vec.capacity = C.maxCapacity) :=
  ⟨g.calls, g.cap_lt, g.shape⟩

/-- Every legal operation on a consistent storage leaves a consistent storage behind, whether it returns or panics. -/
theorem step_sat (hC : C.OK) {s : Sto} (h : s.Inv C) {op : SOp} (hl : op.Legal C s) :
    (op.run C s).Sat (fun _ s' => StepSpec C op s s') (fun _ s' => StepSpec C op s s') (¬ C.NeverFails) := by
  have F := hC.facts
  have hsame : StepSpec C op s s := ⟨h, fun _ => Nat.le_refl _, fun _ => Or.inl ⟨rfl, rfl⟩, fun _ => Nat.le_refl _, fun _ _ _ => rfl, fun _ => rfl⟩
  have hat : ∀ {p : Nat}, s.vec.pos ≤ p → p ≤ s.vec.capacity → C.valueAlign ∣ p → StepSpec C op s (s.at p) := by
    intro p h1 h2 h3
    exact ⟨h.at h2 h3, fun _ => Nat.le_refl _, fun _ => Or.inl ⟨rfl, rfl⟩, fun _ => h1, fun _ _ _ => rfl, fun _ => rfl⟩
  cases op with
  | pushSlice L len data =>
    obtain ⟨hL, hacc, hsz, hlen⟩ := hl
    simp only [SOp.run]
    by_cases hz : L.size = 0
    · rw [pushSlice_zst hz, sat_ok]; exact hsame
    · have hal := accepts_iff.1 (hacc hz)
      have hru := roundUp_le_cap F h.toWInv h.pos_le hL.pow2 hal
      refine (pushSlice_sat hC h data hz hL.pow2 hal (hlen.resolve_left hz) hsz).mono ?_ ?_ id
      · intro p s' hp
        have hge : s.vec.pos ≤ p := by rw [hp.pos_eq]; exact le_roundUp _ hL.pow2.pos
        refine ⟨hp.inv, fun _ => hp.cap_le, fun _ => ?_, fun _ => ?_, fun _ i hi => ?_, fun he => ?_⟩
        · rcases Nat.lt_or_ge s.vec.capacity (p + L.size * len) with hlt | hge'
          · right
            obtain ⟨g1, g2⟩ := hp.grow hlt
            refine ⟨g1, by have := hp.within; omega, ?_⟩
            have hg : s'.vec.capacity = C.maxCapacity ∨ s'.vec.capacity = nextPow2 (p + L.size * len) ∨ s'.vec.capacity = C.maxValueAlign := by omega
            rcases hg with g2 | g2 | g2
            · exact Or.inr g2
            · left; rw [g2]; exact nextPow2_pow2 _
            · left; rw [g2]; exact F.mva
          · obtain ⟨g1, _, g3⟩ := hp.stay hge'
            exact Or.inl ⟨g3, g1⟩
        · rw [hp.end_eq]; have := le_roundUp (p + L.size * len) F.va.pos; omega
        · rw [hp.view, blit_out (by omega)]
        · exact (hp.stay (by have := hp.within; omega)).2.1
      · rintro k s' ⟨_, rfl, _⟩
        exact hat (le_roundUp _ hL.pow2.pos) hru (va_dvd_roundUp F hL.pow2 h.pos_dvd)
  | pushEmptySlice L len =>
    obtain ⟨hL, hacc, _⟩ := hl
    have hge := le_roundUp s.vec.pos hL.pow2.pos
    refine (pushEmptySlice_sat hC h hL.pow2 (accepts_iff.1 hacc)).mono ?_ ?_ id
    · intro p s' hp
      refine ⟨hp.inv, fun _ => hp.cap_le, fun _ => ?_, fun _ => ?_, fun _ i _ => by rw [hp.view], fun he => ?_⟩
      · rcases hp.calls with hc | hc
        · exact Or.inl ⟨hc.1, hc.2.1⟩
        · exact Or.inr hc.step
      · rw [hp.end_eq, hp.pos_eq]
        have := le_roundUp (roundUp s.vec.pos L.align + L.size * len % C.arch.usizeMod) F.va.pos
        omega
      · rcases hp.calls with hc | hc
        · exact hc.2.2
        · have := hc.cap_lt; simp only [Sto.at_cap] at this; omega
    · intro k s' hp
      refine ⟨hp.inv, fun _ => hp.cap_le, fun _ => ?_, fun _ => by rw [hp.pos]; exact hge, fun _ i _ => by rw [hp.view], fun he => ?_⟩
      · rcases hp.calls with hc | ⟨n, hc⟩
        · exact Or.inl ⟨hc.1, hc.2.1⟩
        · exact Or.inr hc.step
      · rcases hp.calls with hc | ⟨n, hc⟩
        · exact hc.2.2
        · have := hc.cap_lt; simp only [Sto.at_cap] at this; omega
  | reserve n =>
    simp only [SOp.run]
    rw [sat_bind]
    refine (reserve_sat hC h.toWInv n).mono ?_ ?_ id
    · intro _ s' r
      refine ⟨⟨r.inv h.toWInv, by rw [r.pos]; exact h.pos_dvd⟩, fun _ => r.cap_le, fun _ => ?_, fun _ => by rw [r.pos], fun _ i _ => by rw [r.view], fun he => ?_⟩
      · cases r with
        | same e _ => rw [e]; exact Or.inl ⟨rfl, rfl⟩
        | grown _ g => exact Or.inr g.step
      · cases r with
        | same e _ => rw [e]
        | grown _ g => have := g.cap_lt; omega
    · rintro k s' ⟨_, rfl, _⟩; exact hsame
  | alignFor L =>
    obtain ⟨hL, hacc⟩ := hl
    have hal := accepts_iff.1 hacc
    simp only [SOp.run]
    rw [bind_ok (alignFor_ok F h hL.pow2 hal), pure_run, sat_ok]
    exact hat (le_roundUp _ hL.pow2.pos) (roundUp_le_cap F h.toWInv h.pos_le hL.pow2 hal) (va_dvd_roundUp F hL.pow2 h.pos_dvd)
  | alignAfter L =>
    simp only [SOp.run]
    have : Sto.alignAfter C L s = .ok () s := by
      unfold Sto.alignAfter
      split
      · rw [alignAfterAny_ok F h.toWInv, roundUp_eq_of_dvd F.va.pos h.pos_dvd]; rfl
      · rfl
    rw [bind_ok this, pure_run, sat_ok]; exact hsame
  | alignAfterAny =>
    simp only [SOp.run]
    have : Sto.alignAfterAny C s = .ok () s := by
      rw [alignAfterAny_ok F h.toWInv, roundUp_eq_of_dvd F.va.pos h.pos_dvd]; rfl
    rw [bind_ok this, pure_run, sat_ok]; exact hsame
  | clear =>
    simp only [SOp.run]
    rw [bind_ok (clear_ok F), pure_run, sat_ok]
    exact ⟨h.at (Nat.zero_le _) (Nat.dvd_zero _), fun _ => Nat.le_refl _, fun _ => Or.inl ⟨rfl, rfl⟩, fun hn => absurd rfl hn, fun _ _ _ => rfl, fun _ => rfl⟩
  | shrinkToFit =>
    simp only [SOp.run]
    rw [sat_bind]
    refine (shrinkToFit_sat hC h).imp ?_
    intro _ s' hs
    exact ⟨hs.inv, fun hn => absurd rfl hn, fun hn => absurd rfl hn, fun _ => by rw [hs.pos], fun _ => hs.view, hs.ptr⟩
  | writeSlice p L len data =>
    obtain ⟨hL, hfit, hd, hlast⟩ := hl
    simp only [SOp.run]
    by_cases hz : L.size = 0
    · rw [bind_ok (writeSlice_zst F h.toWInv hz (by omega) hL.pow2 hd), pure_run, sat_ok]; exact hsame
    · obtain ⟨hsa, hc⟩ := hlast.resolve_left hz
      obtain ⟨s', h1, h2, h3, h4, h5⟩ := writeSlice_ok hC h.toWInv data hz hc hfit hL.pow2 hd hsa
      rw [bind_ok h1, pure_run, sat_ok]
      refine ⟨⟨h4, by rw [h2]; exact h.pos_dvd⟩, fun _ => by rw [h2], fun _ => Or.inl ⟨h3, by rw [h2]⟩, fun _ => by rw [h2], fun hn => absurd rfl (hn p L len data), fun _ => by rw [h2]⟩

theorem Hist.inv (hC : C.OK) {es : List SEvent} {s : Sto} (h : Hist C es s) : s.Inv C := by
  induction h with
  | new => exact Sto.new_inv C
  | withCapacity _ h =>
    have := withCapacity_sat hC ‹_›
    rw [h] at this; exact this.inv
  | ok _ hl hr ih => have := step_sat hC ih hl; rw [hr] at this; exact this.inv
  | panic _ hl hr ih => have := step_sat hC ih hl; rw [hr] at this; exact this.inv

theorem read_ok (hC : C.OK) {s : Sto} (hI : s.Inv C) {p : Nat} {L : Layout} (hL : L.OK)
    (hfit : p + L.size ≤ s.vec.pos) (hd : L.align ∣ p) (hsa : L.align ≤ C.storageAlign)
    (hne : L.size ≠ 0 ∨ 0 < s.vec.capacity ∨ L.align = 1) :
    ∃ v, Sto.read C p L s = .ok v s ∧ ∀ i < L.size, v i = s.w.load (s.vec.ptr + (p + i)) := by
  have F := hC.facts
  have hp := hI.pos_le; have hm := F.max_lt; have hc := hI.cap_le
  unfold Sto.read
  rw [bind_ok (show Sto.getPos s = .ok s.vec.pos s from rfl), bind_ok (debugAssertM_ok _ ?_), bind_ok (debugAssertM_ok _ ?_),
    bind_ok (show Sto.getPtr s = .ok s.vec.ptr s from rfl)]
  · rcases hI.mem with ⟨h0, hp1, hl⟩ | ⟨hcap, hp0, hpd, hpe, d, hl⟩
    · have hz : L.size = 0 := by omega
      have ha1 : L.align = 1 := by rcases hne with h | h | h <;> omega
      have hp : p = 0 := by omega
      subst hp
      refine ⟨fun _ => none, ?_, by intro i hi; omega⟩
      rw [hp1]
      simp [bind_def, ptrAdd, memRef, ha1, hz]
    · have hadd : ptrAdd s.vec.ptr p s = .ok (s.vec.ptr + p) s := by
        unfold ptrAdd
        split
        · rename_i hz; simp [hz]
        · rw [if_pos]; simp [hl, Block.contains]; omega
      rw [bind_ok hadd]
      have hdv : L.align ∣ s.vec.ptr + p := Nat.dvd_add (Nat.dvd_trans (hL.pow2.dvd_of_le F.sa hsa) hpd) hd
      unfold memRef
      rw [if_neg (by rw [not_or]; exact ⟨by omega, by simp [Nat.dvd_iff_mod_eq_zero.1 hdv]⟩)]
      split
      · exact ⟨_, rfl, by intro i hi; omega⟩
      · rw [if_pos (by simp [hl, Block.contains]; omega)]
        exact ⟨_, rfl, fun i _ => by rw [Nat.add_assoc]⟩
  · intro _; rw [isAlignedTo_ok hL.pow2, decide_eq_true hd]
  · intro _
    rw [bind_ok (uadd_ok _ (by omega) s)]
    simp only [pure_run]; rw [decide_eq_true hfit]

end
end SerRaw
