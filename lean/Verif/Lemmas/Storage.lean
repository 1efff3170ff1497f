import Verif.Lemmas.Basic
/-
Storage invariant and exact specifications of every storage operation under it.
-/
namespace SerRaw

/-! ### Consequences of a legal configuration -/

structure Cfg.Facts (C : Cfg) : Prop where
  sa : Pow2 C.storageAlign
  mva : Pow2 C.maxValueAlign
  va : Pow2 C.valueAlign
  mva_le : C.maxValueAlign ≤ C.storageAlign
  va_le : C.valueAlign ≤ C.maxValueAlign
  max_pos : 0 < C.maxCapacity
  max_dvd : C.maxValueAlign ∣ C.maxCapacity
  max_le : C.maxCapacity + C.storageAlign ≤ C.arch.isizeMax + 1
  isize_lt : 2 * C.arch.isizeMax + 1 < C.arch.usizeMod
  isize_pow : Pow2 (C.arch.isizeMax + 1)

theorem Cfg.OK.facts {C : Cfg} (h : C.OK) : C.Facts := by
  have hv := h.valid
  unfold Cfg.assertAlignmentsValid at hv
  simp only [Bool.and_eq_true, decide_eq_true_eq, isPow2_iff, beq_iff_eq] at hv
  obtain ⟨⟨⟨⟨⟨⟨⟨⟨⟨⟨⟨h1, h2⟩, h3⟩, h4⟩, h5⟩, h6⟩, h7⟩, h8⟩, h9⟩, h10⟩, h11⟩, h12⟩ := hv
  refine ⟨h3, h6, h9, h5, h8, h10, Nat.dvd_of_mod_eq_zero h12, by omega, h.arch.isize_lt, ?_⟩
  rcases h.arch.cases with ⟨_, _, h2⟩ | ⟨_, _, h2⟩ <;> rw [h2]
  · exact ⟨31, by decide⟩
  · exact ⟨63, by decide⟩

namespace Cfg.Facts
variable {C : Cfg} (F : C.Facts)
include F
theorem va_dvd_mva : C.valueAlign ∣ C.maxValueAlign := F.va.dvd_of_le F.mva F.va_le
theorem mva_dvd_sa : C.maxValueAlign ∣ C.storageAlign := F.mva.dvd_of_le F.sa F.mva_le
theorem mva_le_max : C.maxValueAlign ≤ C.maxCapacity := Nat.le_of_dvd F.max_pos F.max_dvd
theorem max_lt : C.maxCapacity + C.storageAlign < C.arch.usizeMod := by
  have := F.max_le; have := F.isize_lt; omega
theorem mod_pos : 0 < C.arch.usizeMod := by have := F.isize_lt; omega
end Cfg.Facts

/-! ### The invariant -/

/-- Everything but alignment of `pos`. -/
structure Sto.WInv (C : Cfg) (s : Sto) : Prop where
  pos_le : s.vec.pos ≤ s.vec.capacity
  cap_le : s.vec.capacity ≤ C.maxCapacity
  cap_dvd : C.maxValueAlign ∣ s.vec.capacity
  mem : (s.vec.capacity = 0 ∧ s.vec.ptr = 1 ∧ s.w.live = []) ∨
    (0 < s.vec.capacity ∧ s.vec.ptr ≠ 0 ∧ C.storageAlign ∣ s.vec.ptr ∧
      s.vec.ptr + s.vec.capacity < C.arch.usizeMod ∧
      ∃ data, s.w.live = [⟨s.vec.ptr, s.vec.capacity, C.storageAlign, data⟩])

structure Sto.Inv (C : Cfg) (s : Sto) : Prop extends Sto.WInv C s where
  pos_dvd : C.valueAlign ∣ s.vec.pos

/-- The same storage at another position. -/
def Sto.at (s : Sto) (p : Nat) : Sto := { s with vec := { s.vec with pos := p } }

@[simp] theorem Sto.at_view (s : Sto) (p : Nat) : (s.at p).view = s.view := rfl
@[simp] theorem Sto.at_pos (s : Sto) (p : Nat) : (s.at p).vec.pos = p := rfl
@[simp] theorem Sto.at_cap (s : Sto) (p : Nat) : (s.at p).vec.capacity = s.vec.capacity := rfl
@[simp] theorem Sto.at_ptr (s : Sto) (p : Nat) : (s.at p).vec.ptr = s.vec.ptr := rfl
@[simp] theorem Sto.at_w (s : Sto) (p : Nat) : (s.at p).w = s.w := rfl
@[simp] theorem Sto.at_at (s : Sto) (p q : Nat) : (s.at p).at q = s.at q := rfl
theorem Sto.at_self (s : Sto) : s.at s.vec.pos = s := rfl

theorem Sto.WInv.at {C : Cfg} {s : Sto} (h : s.WInv C) {p : Nat} (hp : p ≤ s.vec.capacity) :
    (s.at p).WInv C := ⟨hp, h.cap_le, h.cap_dvd, h.mem⟩

theorem Sto.Inv.at {C : Cfg} {s : Sto} (h : s.Inv C) {p : Nat} (hp : p ≤ s.vec.capacity)
    (hd : C.valueAlign ∣ p) : (s.at p).Inv C := ⟨h.toWInv.at hp, hd⟩

theorem Sto.new_inv (C : Cfg) : Sto.new.Inv C :=
  ⟨⟨Nat.le_refl _, Nat.zero_le _, Nat.dvd_zero _, Or.inl ⟨rfl, rfl, rfl⟩⟩, Nat.dvd_zero _⟩

@[simp] theorem Sto.new_view : Sto.new.view = fun _ => none := rfl

theorem Sto.view_of_live {s : Sto} {b : Block} (h : s.w.live = [b]) :
    s.view = fun i => if i < b.size then b.data i else none := by
  funext i; simp [Sto.view, h]

theorem Sto.view_none {C : Cfg} {s : Sto} (h : s.WInv C) {i : Nat} (hi : s.vec.capacity ≤ i) : s.view i = none := by
  rcases h.mem with ⟨_, _, hl⟩ | ⟨_, _, _, _, d, hl⟩
  · simp [Sto.view, hl]
  · simp [Sto.view, hl]; omega

/-! ### Position-only operations -/

section
variable {C : Cfg}

theorem setPos_ok (F : C.Facts) {s : Sto} {p : Nat} (hp : p ≤ s.vec.capacity) (hd : C.valueAlign ∣ p) :
    Sto.setPos C p s = .ok () (s.at p) := by
  unfold Sto.setPos
  rw [bind_ok (show Sto.getCapacity s = .ok s.vec.capacity s from rfl),
    bind_ok (debugAssert_true _ (decide_eq_true hp) s), bind_ok (debugAssertM_ok _ ?_)]
  · rfl
  · intro _; rw [isAlignedTo_ok F.va, decide_eq_true hd]

theorem align_ok (F : C.Facts) {s : Sto} (h : s.WInv C) {a : Nat} (ha : Pow2 a)
    (h1 : C.valueAlign ≤ a) (h2 : a ≤ C.maxValueAlign) :
    Sto.align C a s = .ok () (s.at (roundUp s.vec.pos a)) := by
  have hdv : a ∣ s.vec.capacity := Nat.dvd_trans (ha.dvd_of_le F.mva h2) h.cap_dvd
  have := F.max_lt; have := h.pos_le; have := h.cap_le; have := F.mva_le
  unfold Sto.align
  rw [bind_ok (debugAssert_true _ (decide_eq_true h1) s), bind_ok (debugAssert_true _ (decide_eq_true h2) s),
    bind_ok (debugAssert_true _ (isPow2_iff.2 ha) s), bind_ok (show Sto.getPos s = .ok s.vec.pos s from rfl),
    bind_ok (alignUpTo_ok ha (by omega) s)]
  exact setPos_ok F (roundUp_le_of_dvd ha.pos h.pos_le hdv)
    (Nat.dvd_trans (F.va.dvd_of_le ha h1) (dvd_roundUp _ _))

theorem roundUp_small {p a v : Nat} (ha : Pow2 a) (hv : Pow2 v) (h : a ≤ v) (hd : v ∣ p) : roundUp p a = p :=
  roundUp_eq_of_dvd ha.pos (Nat.dvd_trans (ha.dvd_of_le hv h) hd)

theorem alignFor_ok (F : C.Facts) {s : Sto} (h : s.Inv C) {L : Layout} (ha : Pow2 L.align)
    (h2 : L.align ≤ C.maxValueAlign) :
    Sto.alignFor C L s = .ok () (s.at (roundUp s.vec.pos L.align)) := by
  unfold Sto.alignFor
  split
  · exact align_ok F h.toWInv ha (by omega) h2
  · rw [roundUp_small ha F.va (by omega) h.pos_dvd]; rfl

theorem va_dvd_roundUp (F : C.Facts) {p a : Nat} (ha : Pow2 a) (hd : C.valueAlign ∣ p) :
    C.valueAlign ∣ roundUp p a := by
  by_cases h : C.valueAlign ≤ a
  · exact Nat.dvd_trans (F.va.dvd_of_le ha h) (dvd_roundUp _ _)
  · rw [roundUp_small ha F.va (by omega) hd]; exact hd

theorem roundUp_le_cap (F : C.Facts) {s : Sto} (h : s.WInv C) {p a : Nat} (hp : p ≤ s.vec.capacity) (ha : Pow2 a)
    (h2 : a ≤ C.maxValueAlign) : roundUp p a ≤ s.vec.capacity :=
  roundUp_le_of_dvd ha.pos hp (Nat.dvd_trans (ha.dvd_of_le F.mva h2) h.cap_dvd)

theorem alignAfterAny_ok (F : C.Facts) {s : Sto} (h : s.WInv C) :
    Sto.alignAfterAny C s = .ok () (s.at (roundUp s.vec.pos C.valueAlign)) :=
  align_ok F h F.va (Nat.le_refl _) F.va_le

theorem alignAfter_ok (F : C.Facts) {s : Sto} (h : s.WInv C) {L : Layout} {q n : Nat}
    (hpos : s.vec.pos = q + L.size * n) (hq : C.valueAlign ∣ q) :
    Sto.alignAfter C L s = .ok () (s.at (roundUp s.vec.pos C.valueAlign)) := by
  unfold Sto.alignAfter
  split
  · exact alignAfterAny_ok F h
  · rename_i hz
    have h1 : C.valueAlign ∣ L.size := Nat.dvd_of_mod_eq_zero (by omega)
    have : C.valueAlign ∣ s.vec.pos := by
      rw [hpos]; exact Nat.dvd_add hq (Nat.dvd_trans h1 (Nat.dvd_mul_right _ _))
    rw [roundUp_eq_of_dvd F.va.pos this]; rfl

/-! ### Allocation -/

theorem layoutValid_ok (F : C.Facts) {n : Nat} (hn : n ≤ C.maxCapacity) :
    layoutValid C.arch ⟨n, C.storageAlign⟩ = true := by
  unfold layoutValid
  rw [Bool.and_eq_true]
  refine ⟨isPow2_iff.2 F.sa, decide_eq_true ?_⟩
  have h1 := Nat.div_mul_le_self (n + C.storageAlign - 1) C.storageAlign
  have h2 := F.max_le
  have := F.sa.pos
  simp only at *
  omega

theorem alignedMaxCapacity_ok {σ} (F : C.Facts) (s : σ) :
    alignedMaxCapacity C.arch C.storageAlign s = .ok (C.arch.isizeMax - (C.storageAlign - 1)) s := by
  have h1 := F.sa.pos; have h2 := F.max_le; have h3 := F.max_pos
  have hne : C.storageAlign ≠ C.arch.isizeMax := by
    intro he
    -- a power of two cannot be `isize::MAX` unless they are 1
    have := F.max_le
    have hp := F.isize_pow
    rw [← he] at hp this
    obtain ⟨e, he1⟩ := F.sa; obtain ⟨f, hf⟩ := hp
    rw [he1] at hf
    have : (2:Nat)^f < 2^(e+2) := by rw [← hf, Nat.pow_add]; have := Nat.two_pow_pos e; omega
    have hlt : f < e + 2 := (Nat.pow_lt_pow_iff_right (by decide)).1 this
    have hgt : e < f := (Nat.pow_lt_pow_iff_right (a := 2) (by decide)).1 (by omega)
    have : f = e + 1 := by omega
    subst this
    rw [Nat.pow_succ] at hf
    have : e = 0 := by
      rcases Nat.eq_zero_or_pos e with h | h
      · exact h
      · have : 2 ≤ 2 ^ e := by
          calc 2 = 2 ^ 1 := rfl
            _ ≤ 2 ^ e := Nat.pow_le_pow_right (by decide) h
        omega
    subst this
    have h4 := F.isize_lt
    have h5 := C.arch
    have hi : C.arch.isizeMax = 1 := he.symm.trans (he1.trans rfl)
    unfold Arch.isizeMax at hi
    -- 2^(bits-1) = 2
    have h6 : 2 ^ (C.arch.usizeBits - 1) = 2 ^ 1 := by omega
    have h7 := Nat.pow_right_injective (Nat.le_refl 2) h6
    have : C.arch.usizeBits = 8 * C.arch.ptrBytes := rfl
    omega
  unfold alignedMaxCapacity
  have e1 : (M.assert .assertion (C.storageAlign != 0) : M σ Unit) s = .ok () s := by
    simp [M.assert]; omega
  have e2 : (M.assert .assertion (isPow2 C.storageAlign) : M σ Unit) s = .ok () s := by
    simp [M.assert, isPow2_iff.2 F.sa]
  have e3 : (M.assert .assertion (decide (C.storageAlign < C.arch.isizeMax)) : M σ Unit) s = .ok () s := by
    simp [M.assert]; omega
  rw [bind_ok e1, bind_ok e2, bind_ok e3, bind_ok (usub_ok _ (by omega) s), usub_ok _ (by omega) s]

/-- `alloc`: aborts if the allocator fails, else yields a fresh block. -/
theorem alloc_sat (F : C.Facts) (hA : C.AllocOK) {s : Sto} (hl : s.w.live = []) {n : Nat} (h0 : 0 < n) (hn : n ≤ C.maxCapacity)
    {R : PanicKind → Sto → Prop} :
    (Sto.alloc C n s).Sat (fun a s' => a ≠ 0 ∧ C.storageAlign ∣ a ∧ a + n < C.arch.usizeMod ∧
        s' = { s with w := ⟨[⟨a, n, C.storageAlign, fun _ => none⟩], s.w.calls + 1⟩ }) R (¬ C.NeverFails) := by
  unfold Sto.alloc
  have hmax := F.max_le
  rw [bind_ok (debugAssert_true _ (decide_eq_true h0) s), bind_ok (debugAssertM_ok _ ?_)]
  · rw [sat_bind]
    unfold heapAlloc
    rw [if_neg (by simp [layoutValid_ok F hn]; omega)]
    simp only
    split
    · rename_i hz
      simp only [sat_ok, if_true]
      exact fun hnf => hnf _ _ h0 hn hz
    · rename_i hz
      simp only [sat_ok, if_neg hz, pure_run, hl]
      obtain ⟨h1, h2⟩ := hA _ _ hz
      exact ⟨hz, Nat.dvd_of_mod_eq_zero h1, h2, trivial⟩
  · intro _
    rw [bind_ok (alignedMaxCapacity_ok F s)]
    simp only [pure_run]
    rw [decide_eq_true]
    have := F.sa.pos; omega

/-- `realloc`: aborts if the allocator fails, else moves the contents. -/
theorem realloc_sat (F : C.Facts) (hA : C.AllocOK) {s : Sto} {data : Mem}
    (hl : s.w.live = [⟨s.vec.ptr, s.vec.capacity, C.storageAlign, data⟩]) (hc : 0 < s.vec.capacity)
    {n : Nat} (h0 : 0 < n) (hn : n ≤ C.maxCapacity) {R : PanicKind → Sto → Prop} :
    (Sto.realloc C n s).Sat (fun a s' => a ≠ 0 ∧ C.storageAlign ∣ a ∧ a + n < C.arch.usizeMod ∧
        s' = { s with w := ⟨[⟨a, n, C.storageAlign, fun i => if i < min s.vec.capacity n then data i else none⟩],
          s.w.calls + 1⟩ }) R (¬ C.NeverFails) := by
  unfold Sto.realloc
  have hmax := F.max_le
  rw [bind_ok (show M.get s = .ok s s from rfl), bind_ok (debugAssert_true _ (decide_eq_true hc) s),
    bind_ok (debugAssert_true _ (decide_eq_true h0) s), bind_ok (debugAssertM_ok _ ?_)]
  · rw [sat_bind]
    unfold heapRealloc
    rw [if_neg (by simp [Sto.layout, layoutValid_ok F hn]; omega)]
    simp only [hl, Sto.layout, List.find?, Block.matches, beq_self_eq_true, Bool.and_self, List.eraseP_cons, cond_true]
    split
    · rename_i hz
      simp only [sat_ok, if_true]
      exact fun hnf => hnf _ _ h0 hn hz
    · rename_i hz
      simp only [sat_ok, if_neg hz, pure_run]
      obtain ⟨h1, h2⟩ := hA _ _ hz
      exact ⟨hz, Nat.dvd_of_mod_eq_zero h1, h2, trivial⟩
  · intro _
    rw [bind_ok (alignedMaxCapacity_ok F s)]
    simp only [pure_run]
    rw [decide_eq_true]
    have := F.sa.pos; omega

theorem dealloc_ok {s : Sto} {data : Mem}
    (hl : s.w.live = [⟨s.vec.ptr, s.vec.capacity, C.storageAlign, data⟩]) (hc : 0 < s.vec.capacity) :
    Sto.dealloc C s = .ok () { s with w := ⟨[], s.w.calls⟩ } := by
  unfold Sto.dealloc
  rw [bind_ok (show M.get s = .ok s s from rfl), bind_ok (debugAssert_true _ (decide_eq_true hc) s)]
  unfold heapDealloc
  simp [hl, Sto.layout, Block.matches]

/-! ### `reserve` -/

/-- The new capacity is what `grow_for_reserve` documents. -/
structure GrowSpec (C : Cfg) (s : Sto) (additional : Nat) (s' : Sto) : Prop where
  inv : s'.WInv C
  pos : s'.vec.pos = s.vec.pos
  view : s'.view = s.view
  room : s.vec.pos + additional ≤ s'.vec.capacity
  cap_lt : s.vec.capacity < s'.vec.capacity
  shape : Pow2 s'.vec.capacity ∨ s'.vec.capacity = C.maxCapacity
  exact : s'.vec.capacity = min C.maxCapacity (max (nextPow2 (s.vec.pos + additional)) C.maxValueAlign)
  fits : s.vec.pos + additional ≤ C.maxCapacity
  calls : s'.w.calls = s.w.calls + 1
  nonempty : 0 < s'.vec.capacity

theorem growForReserve_sat (hC : C.OK) {s : Sto} (h : s.WInv C) {n : Nat} (hn : s.vec.capacity < s.vec.pos + n) :
    (Sto.growForReserve C n s).Sat (fun _ s' => GrowSpec C s n s')
      (fun k s' => k = .capacity ∧ s' = s ∧ C.maxCapacity < s.vec.pos + n) (¬ C.NeverFails) := by
  have F := hC.facts
  have hposle := h.pos_le
  unfold Sto.growForReserve
  rw [bind_ok (debugAssert_true _ (decide_eq_true (by omega : n > 0)) s),
    bind_ok (show Sto.getPos s = .ok s.vec.pos s from rfl)]
  rw [sat_bind]
  simp only [M.assert]
  split
  swap
  · rename_i hov
    simp only [decide_eq_true_eq] at hov
    have := F.max_lt
    simp only [sat_panic, true_and]; omega
  simp only [sat_ok]
  have hm1 : nextPow2 C.maxCapacity ≤ C.arch.isizeMax + 1 := nextPow2_le F.isize_pow (by have := F.max_le; omega)
  have hmlt : nextPow2 C.maxCapacity < C.arch.usizeMod := by have := F.isize_lt; omega
  rw [bind_ok (show unextPow2 C.arch C.maxCapacity s = .ok (nextPow2 C.maxCapacity) s by simp [unextPow2, hmlt])]
  rw [sat_bind]
  -- the chosen capacity
  have key : ∀ newCap, s.vec.pos + n ≤ newCap → newCap ≤ C.maxCapacity → (Pow2 newCap ∨ newCap = C.maxCapacity) →
      newCap = min C.maxCapacity (nextPow2 (s.vec.pos + n)) → s.vec.pos + n ≤ C.maxCapacity →
      ((do
        let cap ← Sto.getCapacity
        if cap = 0 then
          let newCap := max newCap C.maxValueAlign
          let q ← Sto.alloc C newCap
          Sto.putPtr q
          Sto.putCapacity newCap
        else
          let q ← Sto.realloc C newCap
          Sto.putPtr q
          Sto.putCapacity newCap : M Sto Unit) s).Sat (fun _ s' => GrowSpec C s n s')
        (fun k s' => k = .capacity ∧ s' = s ∧ C.maxCapacity < s.vec.pos + n) (¬ C.NeverFails) := by
    intro newCap hge hle hshape hsmall hfit
    rw [bind_ok (show Sto.getCapacity s = .ok s.vec.capacity s from rfl)]
    have hmvamax := F.mva_le_max
    split
    · rename_i hc0
      rcases h.mem with ⟨_, _, hl⟩ | ⟨hc, _⟩
      swap
      · omega
      rw [sat_bind]
      have hle' : max newCap C.maxValueAlign ≤ C.maxCapacity := Nat.max_le.2 ⟨hle, F.mva_le_max⟩
      refine (alloc_sat F hC.alloc hl (by omega) hle').mono ?_ (fun _ _ h => h) id
      rintro a s' ⟨ha0, had, hab, rfl⟩
      simp only [Sto.putPtr, Sto.putCapacity, bind_def, sat_ok]
      have hdvd : C.maxValueAlign ∣ max newCap C.maxValueAlign := by
        rcases Nat.le_total newCap C.maxValueAlign with hh | hh
        · rw [Nat.max_eq_right hh]
        · rw [Nat.max_eq_left hh]
          rcases hshape with hp | hp
          · exact F.mva.dvd_of_le hp hh
          · rw [hp]; exact F.max_dvd
      refine ⟨⟨?_, hle', hdvd, Or.inr ⟨?_, ha0, had, hab, _, rfl⟩⟩, rfl, ?_, ?_, ?_, ?_, ?_, hfit, rfl, ?_⟩
      · dsimp only; omega
      · dsimp only; omega
      · funext i; simp only [Sto.view, hl]; split <;> rfl
      · simp only; omega
      · simp only; omega
      · simp only
        rcases Nat.le_total newCap C.maxValueAlign with hh | hh
        · rw [Nat.max_eq_right hh]; exact Or.inl F.mva
        · rw [Nat.max_eq_left hh]; exact hshape
      · simp only
        omega
      · simp only; omega
    · rename_i hc0
      rcases h.mem with ⟨hc, _, _⟩ | ⟨hc, _, _, _, data, hl⟩
      · omega
      rw [sat_bind]
      refine (realloc_sat F hC.alloc hl hc (by omega) hle).mono ?_ (fun _ _ h => h) id
      rintro a s' ⟨ha0, had, hab, rfl⟩
      simp only [Sto.putPtr, Sto.putCapacity, bind_def, sat_ok]
      have hmvale : C.maxValueAlign ≤ newCap := by
        have := Nat.le_of_dvd hc h.cap_dvd; omega
      have hdvd : C.maxValueAlign ∣ newCap := by
        rcases hshape with hp | hp
        · exact F.mva.dvd_of_le hp hmvale
        · rw [hp]; exact F.max_dvd
      refine ⟨⟨?_, hle, hdvd, Or.inr ⟨?_, ha0, had, hab, _, rfl⟩⟩, rfl, ?_, hge, ?_, hshape, ?_, hfit, rfl, ?_⟩
      · dsimp only; omega
      · dsimp only; omega
      · funext i; simp only [Sto.view, hl]
        by_cases h1 : i < s.vec.capacity
        · have : i < newCap := by omega
          simp [h1, this]
        · simp [h1]
      · simp only; omega
      · simp only
        omega
      · simp only; omega
  split
  · rename_i hbig
    rw [sat_bind]
    simp only [M.assert]
    split
    swap
    · rename_i hov
      simp only [decide_eq_true_eq] at hov
      simp only [sat_panic, true_and]; omega
    rename_i hfit
    simp only [decide_eq_true_eq] at hfit
    simp only [sat_ok, pure_run]
    refine key C.maxCapacity hfit (Nat.le_refl _) (Or.inr rfl) ?_ hfit
    -- the next power of two is at least `MAX_CAPACITY`
    have hbp : C.maxCapacity ≤ nextPow2 (s.vec.pos + n) := by
      refine Nat.le_trans (le_nextPow2 _) ?_
      obtain ⟨e, he⟩ := nextPow2_pow2 C.maxCapacity
      obtain ⟨f, hf⟩ := nextPow2_pow2 (s.vec.pos + n)
      have h3 := le_nextPow2 (s.vec.pos + n)
      rw [he] at hbig ⊢
      rw [hf] at h3 ⊢
      apply Nat.pow_le_pow_right (by omega)
      by_contra hlt
      have h4 : 2 ^ f ≤ 2 ^ (e - 1) := Nat.pow_le_pow_right (by omega) (by omega)
      have h5 : 2 ^ e = 2 * 2 ^ (e - 1) := by rw [← Nat.pow_succ']; congr 1; omega
      omega
    omega
  · rename_i hsml
    have hle2 : nextPow2 (s.vec.pos + n) ≤ nextPow2 C.maxCapacity / 2 := by
      obtain ⟨e, he⟩ := nextPow2_pow2 C.maxCapacity
      cases e with
      | zero => simp [he] at hsml; omega
      | succ e =>
        rw [he] at hsml ⊢
        have hh : 2 ^ (e + 1) / 2 = 2 ^ e := by rw [Nat.pow_succ]; omega
        rw [hh] at hsml ⊢
        exact nextPow2_le ⟨e, rfl⟩ (by omega)
    have h2 := nextPow2_lt F.max_pos
    have hge := le_nextPow2 (s.vec.pos + n)
    have hlt : nextPow2 (s.vec.pos + n) < C.arch.usizeMod := by omega
    rw [show unextPow2 C.arch (s.vec.pos + n) s = .ok (nextPow2 (s.vec.pos + n)) s by simp [unextPow2, hlt]]
    simp only [sat_ok]
    exact key _ hge (by omega) (Or.inl (nextPow2_pow2 _)) (by omega) (by omega)

/-- What `reserve` did: nothing, or a growth. -/
inductive ReserveSpec (C : Cfg) (s : Sto) (n : Nat) (s' : Sto) : Prop
  | same : s' = s → s.vec.pos + n ≤ s.vec.capacity → ReserveSpec C s n s'
  | grown : s.vec.capacity < s.vec.pos + n → GrowSpec C s n s' → ReserveSpec C s n s'

theorem reserve_sat (hC : C.OK) {s : Sto} (h : s.WInv C) (n : Nat) :
    (Sto.reserve C n s).Sat (fun _ s' => ReserveSpec C s n s')
      (fun k s' => k = .capacity ∧ s' = s ∧ C.maxCapacity < s.vec.pos + n) (¬ C.NeverFails) := by
  have F := hC.facts
  have hp := h.pos_le; have hc := h.cap_le; have hm := F.max_lt
  unfold Sto.reserve
  rw [bind_ok (show Sto.getCapacity s = .ok s.vec.capacity s from rfl),
    bind_ok (show Sto.getPos s = .ok s.vec.pos s from rfl)]
  have hw : wrappingSub C.arch s.vec.capacity s.vec.pos = s.vec.capacity - s.vec.pos := by
    unfold wrappingSub
    rw [show s.vec.capacity + C.arch.usizeMod - s.vec.pos = (s.vec.capacity - s.vec.pos) + C.arch.usizeMod by omega,
      Nat.add_mod_right, Nat.mod_eq_of_lt (by omega)]
  simp only [hw]
  split
  · exact (growForReserve_sat hC h (by omega)).imp fun _ s' hg => .grown (by omega) hg
  · exact ReserveSpec.same rfl (by omega)

theorem reserve_overflow (hC : C.OK) {s : Sto} (h : s.WInv C) {n : Nat} (hn : C.maxCapacity < s.vec.pos + n) :
    Sto.reserve C n s = .panic .capacity s := by
  have F := hC.facts
  have hp := h.pos_le; have hc := h.cap_le; have hm := F.max_lt
  unfold Sto.reserve
  rw [bind_ok (show Sto.getCapacity s = .ok s.vec.capacity s from rfl),
    bind_ok (show Sto.getPos s = .ok s.vec.pos s from rfl)]
  have hw : wrappingSub C.arch s.vec.capacity s.vec.pos = s.vec.capacity - s.vec.pos := by
    unfold wrappingSub
    rw [show s.vec.capacity + C.arch.usizeMod - s.vec.pos = (s.vec.capacity - s.vec.pos) + C.arch.usizeMod by omega,
      Nat.add_mod_right, Nat.mod_eq_of_lt (by omega)]
  simp only [hw]
  rw [if_pos (by omega)]
  unfold Sto.growForReserve
  rw [bind_ok (debugAssert_true _ (decide_eq_true (by omega : n > 0)) s),
    bind_ok (show Sto.getPos s = .ok s.vec.pos s from rfl), bind_def]
  simp only [M.assert]
  split
  · rename_i a s' he
    split at he
    · rename_i hlt
      simp only [Out.ok.injEq] at he
      obtain ⟨_, rfl⟩ := he
      have h1 := nextPow2_lt F.max_pos
      have hmod : nextPow2 C.maxCapacity < C.arch.usizeMod := by
        have := nextPow2_le (n := C.maxCapacity) F.isize_pow (by have := F.max_le; have := F.sa.pos; omega)
        have := F.isize_lt; omega
      rw [bind_ok (show unextPow2 C.arch C.maxCapacity s = .ok (nextPow2 C.maxCapacity) s by simp [unextPow2, hmod])]
      rw [if_pos (by omega)]
      have e : (M.assert .capacity (decide (s.vec.pos + n ≤ C.maxCapacity)) : M Sto Unit) s = .panic .capacity s := by
        simp [M.assert]; omega
      simp only [bind_def, e]
    · simp at he
  · rename_i he
    split at he
    · simp at he
    · simp only [Out.panic.injEq] at he
      obtain ⟨rfl, rfl⟩ := he; rfl
  all_goals (rename_i he; split at he <;> simp at he)

namespace ReserveSpec
variable {s s' : Sto} {n : Nat} (r : ReserveSpec C s n s')
include r
theorem inv (h : s.WInv C) : s'.WInv C := by cases r with | same e _ => exact e ▸ h | grown _ g => exact g.inv
theorem view : s'.view = s.view := by cases r with | same e _ => rw [e] | grown _ g => exact g.view
theorem pos : s'.vec.pos = s.vec.pos := by cases r with | same e _ => rw [e] | grown _ g => exact g.pos
theorem room : s.vec.pos + n ≤ s'.vec.capacity := by
  cases r with | same e h => rw [e]; exact h | grown _ g => exact g.room
theorem cap_le : s.vec.capacity ≤ s'.vec.capacity := by
  cases r with | same e h => rw [e] | grown _ g => exact Nat.le_of_lt g.cap_lt
theorem fits (h : s.WInv C) : s.vec.pos + n ≤ C.maxCapacity := by
  cases r with | same e h' => have := h.cap_le; omega | grown _ g => exact g.fits
end ReserveSpec

/-! ### Writing -/

theorem writeSlice_ok (hC : C.OK) {s : Sto} (h : s.WInv C) {p len : Nat} {L : Layout} (data : Nat → Cell)
    (hL : L.size ≠ 0) (hcap : 0 < s.vec.capacity ∨ L.align = 1) (hfit : p + L.size * len ≤ s.vec.capacity)
    (ha : Pow2 L.align) (hd : L.align ∣ p) (hsa : L.align ≤ C.storageAlign) :
    ∃ s', Sto.writeSlice C p L len data s = .ok () s' ∧ s'.vec = s.vec ∧ s'.w.calls = s.w.calls ∧ s'.WInv C ∧
      s'.view = s.view.blit p (L.size * len) data := by
  have F := hC.facts
  have hm := F.max_lt; have hc := h.cap_le
  rcases h.mem with ⟨h0, hp1, _⟩ | ⟨hcap, hp0, hpd, hpe, d, hl⟩
  · have ha1 : L.align = 1 := by omega
    have hp : p = 0 := by omega
    have hz : L.size * len = 0 := by omega
    subst hp
    refine ⟨s, ?_, rfl, rfl, h, ?_⟩
    · unfold Sto.writeSlice
      rw [bind_ok (show Sto.getCapacity s = .ok s.vec.capacity s from rfl),
        bind_ok (debugAssert_true _ (decide_eq_true (by omega)) s), bind_ok (debugAssertM_ok _ ?_),
        bind_ok (debugAssertM_ok _ ?_), if_neg hL, bind_ok (show Sto.getPtr s = .ok s.vec.ptr s from rfl)]
      · rw [hp1]
        simp [bind_def, ptrAdd, memWrite, ha1, hz]
      · intro _; rw [isAlignedTo_ok ha, decide_eq_true hd]
      · intro _
        rw [bind_ok (usub_ok _ (by omega) s), bind_ok (umul_ok _ (by omega) s)]
        simp only [pure_run]; rw [decide_eq_true]; omega
    · funext i; simp only [Mem.blit, hz]; rw [if_neg (by omega)]
  have hdv : L.align ∣ s.vec.ptr + p := Nat.dvd_add (Nat.dvd_trans (ha.dvd_of_le F.sa hsa) hpd) hd
  have run : Sto.writeSlice C p L len data s = memWrite (s.vec.ptr + p) L.align (L.size * len) data s := by
    unfold Sto.writeSlice
    rw [bind_ok (show Sto.getCapacity s = .ok s.vec.capacity s from rfl),
      bind_ok (debugAssert_true _ (decide_eq_true (by omega)) s), bind_ok (debugAssertM_ok _ ?_),
      bind_ok (debugAssertM_ok _ ?_), if_neg hL, bind_ok (show Sto.getPtr s = .ok s.vec.ptr s from rfl)]
    · have : ptrAdd s.vec.ptr p s = .ok (s.vec.ptr + p) s := by
        unfold ptrAdd
        split
        · rename_i hz; simp [hz]
        · rw [if_pos]; simp [hl, Block.contains]; omega
      rw [bind_ok this]
    · intro _; rw [isAlignedTo_ok ha, decide_eq_true hd]
    · intro _
      rw [bind_ok (usub_ok _ (by omega) s), bind_ok (umul_ok _ (by omega) s)]
      simp only [pure_run]; rw [decide_eq_true]; omega
  rw [run]
  unfold memWrite
  rw [if_neg (by rw [not_or]; exact ⟨by omega, by simp [Nat.dvd_iff_mod_eq_zero.1 hdv]⟩)]
  split
  · rename_i hz
    refine ⟨s, rfl, rfl, rfl, h, ?_⟩
    funext i; simp only [Mem.blit, hz]; rw [if_neg (by omega)]
  · have hcont : (⟨s.vec.ptr, s.vec.capacity, C.storageAlign, d⟩ : Block).contains (s.vec.ptr + p) (L.size * len) = true := by
      simp [Block.contains]; omega
    rw [if_pos (by simp only [hl, List.any_cons, hcont, Bool.true_or])]
    refine ⟨_, rfl, rfl, rfl, ⟨h.pos_le, h.cap_le, h.cap_dvd, Or.inr ⟨hcap, hp0, hpd, hpe, ?_⟩⟩, ?_⟩
    · simp only [hl, writeLive, hcont, if_true]
      exact ⟨_, rfl⟩
    · rw [Sto.view_of_live hl, Sto.view_of_live (s := { s with w := { s.w with live := _ } })
        (show writeLive (s.vec.ptr + p) (L.size * len) data s.w.live = _ by simp only [hl, writeLive, hcont, if_true]; rfl)]
      funext i
      simp only [Mem.blit, Nat.add_sub_cancel_left]
      by_cases h1 : p ≤ i ∧ i < p + L.size * len
      · have : i < s.vec.capacity := by omega
        simp [h1, this]
      · simp only [if_neg h1]

/-- Effect of a successful push of `n` bytes at position `p`. -/
structure PushSpec (C : Cfg) (s : Sto) (L : Layout) (len : Nat) (data : Nat → Cell) (p : Nat) (s' : Sto) : Prop where
  pos_eq : p = roundUp s.vec.pos L.align
  inv : s'.Inv C
  end_eq : s'.vec.pos = roundUp (p + L.size * len) C.valueAlign
  view : s'.view = s.view.blit p (L.size * len) data
  cap_le : s.vec.capacity ≤ s'.vec.capacity
  fits : p + L.size * len ≤ C.maxCapacity
  within : p + L.size * len ≤ s'.vec.capacity
  stay : p + L.size * len ≤ s.vec.capacity →
    s'.vec.capacity = s.vec.capacity ∧ s'.vec.ptr = s.vec.ptr ∧ s'.w.calls = s.w.calls
  grow : s.vec.capacity < p + L.size * len → s'.w.calls = s.w.calls + 1 ∧
    s'.vec.capacity = min C.maxCapacity (max (nextPow2 (p + L.size * len)) C.maxValueAlign)

theorem pushSlice_sat (hC : C.OK) {s : Sto} (h : s.Inv C) {L : Layout} {len : Nat} (data : Nat → Cell)
    (hL : L.size ≠ 0) (ha : Pow2 L.align) (hal : L.align ≤ C.maxValueAlign) (hlen : 0 < len ∨ 0 < s.vec.capacity ∨ L.align = 1)
    (hsz : L.size * len ≤ C.arch.isizeMax) :
    (Sto.pushSlice C L len data s).Sat (fun p s' => PushSpec C s L len data p s')
      (fun k s' => k = .capacity ∧ s' = s.at (roundUp s.vec.pos L.align) ∧
        C.maxCapacity < roundUp s.vec.pos L.align + L.size * len) (¬ C.NeverFails) := by
  have F := hC.facts
  unfold Sto.pushSlice
  rw [if_neg hL, bind_ok (alignFor_ok F h ha hal)]
  have hru := roundUp_le_cap F h.toWInv h.pos_le ha hal
  have hvd := va_dvd_roundUp F ha h.pos_dvd
  generalize hq : roundUp s.vec.pos L.align = q at *
  have hI : (s.at q).Inv C := h.at hru hvd
  rw [bind_ok (umul_ok _ (by have := F.isize_lt; omega) _), sat_bind]
  refine (reserve_sat hC hI.toWInv _).mono ?_ ?_ id
  · intro _ s1 r
    have w1 := r.inv hI.toWInv
    have hroom := r.room
    have hp1 : s1.vec.pos = q := r.pos
    have hv1 : s1.view = s.view := r.view
    have hcl : s.vec.capacity ≤ s1.vec.capacity := r.cap_le
    have hfit : q + L.size * len ≤ C.maxCapacity := r.fits hI.toWInv
    simp only [Sto.at_pos] at hroom
    rw [bind_ok (show Sto.getPos s1 = .ok s1.vec.pos s1 from rfl), hp1]
    have hcap : 0 < s1.vec.capacity ∨ L.align = 1 := by
      rcases hlen with hh | hh | hh
      · have := Nat.mul_pos (Nat.pos_of_ne_zero hL) hh; omega
      · omega
      · exact Or.inr hh
    obtain ⟨s2, hw, hvec, hcalls, w2, hv2⟩ := writeSlice_ok hC w1 data hL hcap (p := q) (len := len) hroom ha
      (hq ▸ dvd_roundUp _ _) (Nat.le_trans hal F.mva_le)
    have hm := F.max_lt
    have run : Sto.pushSliceUnchecked C L len data (L.size * len) s1 = .ok () (s2.at (q + L.size * len)) := by
      unfold Sto.pushSliceUnchecked
      rw [bind_ok (show Sto.getCapacity s1 = .ok s1.vec.capacity s1 from rfl),
        bind_ok (show Sto.getPos s1 = .ok s1.vec.pos s1 from rfl), hp1,
        bind_ok (debugAssertM_ok _ ?_), bind_ok (debugAssertM_ok _ ?_), bind_ok (debugAssertM_ok _ ?_), if_neg hL,
        bind_ok hw, bind_ok (uadd_ok _ (by omega) s2)]
      · rfl
      · intro _; rw [isAlignedTo_ok ha, decide_eq_true (hq ▸ dvd_roundUp _ _)]
      · intro _
        rw [bind_ok (umul_ok _ (by have := F.isize_lt; omega) _)]; simp
      · intro _
        rw [bind_ok (usub_ok _ (by omega) _)]; simp only [pure_run]; rw [decide_eq_true]; omega
    rw [bind_ok run]
    have hc2 : s2.vec.capacity = s1.vec.capacity := by rw [hvec]
    have w3 : (s2.at (q + L.size * len)).WInv C := w2.at (by omega)
    rw [bind_ok (alignAfter_ok F w3 (q := q) (n := len) rfl hvd)]
    simp only [Sto.at_at, Sto.at_pos, pure_run, sat_ok]
    have hle : roundUp (q + L.size * len) C.valueAlign ≤ s2.vec.capacity :=
      roundUp_le_cap F w2 (by omega) F.va F.va_le
    refine ⟨hq.symm, ⟨w2.at hle, dvd_roundUp _ _⟩, rfl, ?_, ?_, hfit, ?_, ?_, ?_⟩
    · rw [Sto.at_view, hv2, hv1]
    · simp only [Sto.at_cap]; omega
    · simp only [Sto.at_cap]; omega
    · intro hst
      cases r with
      | same e _ => subst e; exact ⟨hc2, by simp [hvec], hcalls⟩
      | grown hg _ => simp at hg; omega
    · intro hgr
      cases r with
      | same e hh => simp at hh; omega
      | grown _ g =>
        have := g.exact; have := g.calls
        simp only [Sto.at_pos, Sto.at_w, Sto.at_cap, hc2] at *
        exact ⟨by omega, by assumption⟩
  · rintro k s1 ⟨hk, rfl, hov⟩
    exact ⟨hk, rfl, hov⟩

theorem pushSlice_zst {s : Sto} {L : Layout} {len : Nat} {data : Nat → Cell} (hL : L.size = 0) :
    Sto.pushSlice C L len data s = .ok 0 s := by
  unfold Sto.pushSlice; rw [if_pos hL]; rfl

/-! ### `clear`, `shrink_to_fit`, `with_capacity`, `drop` -/

theorem clear_ok (F : C.Facts) {s : Sto} : Sto.clear C s = .ok () (s.at 0) :=
  setPos_ok F (Nat.zero_le _) (Nat.dvd_zero _)

structure ShrinkSpec (C : Cfg) (s s' : Sto) : Prop where
  inv : s'.Inv C
  pos : s'.vec.pos = s.vec.pos
  cap : s'.vec.capacity = roundUp s.vec.pos C.maxValueAlign
  view : ∀ i < s.vec.pos, s'.view i = s.view i
  ptr : s'.vec.capacity = s.vec.capacity → s'.vec.ptr = s.vec.ptr

theorem shrinkToFit_sat (hC : C.OK) {s : Sto} (h : s.Inv C) {R : PanicKind → Sto → Prop} :
    (Sto.shrinkToFit C s).Sat (fun _ s' => ShrinkSpec C s s') R (¬ C.NeverFails) := by
  have F := hC.facts
  have hp := h.pos_le; have hc := h.cap_le; have hm := F.max_lt; have := F.mva_le
  have hle := roundUp_le_cap F h.toWInv hp F.mva (Nat.le_refl _)
  have hge := le_roundUp s.vec.pos F.mva.pos
  unfold Sto.shrinkToFit
  rw [bind_ok (show Sto.getPos s = .ok s.vec.pos s from rfl), bind_ok (alignUpTo_ok F.mva (by omega) s),
    bind_ok (show Sto.getCapacity s = .ok s.vec.capacity s from rfl)]
  split
  · rename_i hne
    rcases h.mem with ⟨h0, _, _⟩ | ⟨hcp, hp0, hpd, hpe, d, hl⟩
    · omega
    split
    · rename_i hz
      simp only
      rw [bind_ok (dealloc_ok hl hcp)]
      simp only [bind_def, Sto.putPtr, Sto.putCapacity, sat_ok]
      exact ⟨⟨⟨by simp only; omega, by simp only; omega, by simp [hz], Or.inl ⟨hz, rfl, rfl⟩⟩, h.pos_dvd⟩,
        rfl, rfl, by intro i hi; omega, by simp only; omega⟩
    · simp only
      rw [sat_bind]
      refine (realloc_sat F hC.alloc hl hcp (by omega) (by omega)).mono ?_ (fun _ _ h => h) id
      rintro a s' ⟨ha0, had, hab, rfl⟩
      simp only [Sto.putPtr, Sto.putCapacity, bind_def, sat_ok]
      refine ⟨⟨⟨hge, by simp only; omega, dvd_roundUp _ _, Or.inr ⟨by simp only; omega, ha0, had, hab, _, rfl⟩⟩, h.pos_dvd⟩,
        rfl, rfl, ?_, by simp only; omega⟩
      intro i hi
      simp only [Sto.view, hl]
      have h1 : i < roundUp s.vec.pos C.maxValueAlign := by omega
      have h2 : i < s.vec.capacity := by omega
      simp [h1, h2]
  · rename_i he
    simp only [pure_run, sat_ok]
    exact ⟨h, rfl, by omega, fun _ _ => rfl, fun _ => rfl⟩

structure WithCapSpec (C : Cfg) (c : Nat) (s' : Sto) : Prop where
  inv : s'.Inv C
  pos : s'.vec.pos = 0
  cap : s'.vec.capacity = roundUp c C.maxValueAlign
  view : s'.view = fun _ => none
  le : c ≤ C.maxCapacity

theorem withCapacity_sat (hC : C.OK) (c : Nat) :
    (Sto.withCapacity C c Sto.new).Sat (fun _ s' => WithCapSpec C c s')
      (fun k s' => k = .capacity ∧ C.maxCapacity < c ∧ s' = Sto.new) (¬ C.NeverFails) := by
  have F := hC.facts
  have hm := F.max_lt; have := F.mva_le
  unfold Sto.withCapacity
  split
  · rename_i hz
    subst hz
    simp only [pure_run, sat_ok]
    exact ⟨Sto.new_inv C, rfl, by rw [roundUp_zero F.mva.pos]; rfl, rfl, Nat.zero_le _⟩
  · rename_i hz
    rw [sat_bind]
    simp only [M.assert]
    split
    · rename_i hle
      simp only [decide_eq_true_eq] at hle
      simp only [sat_ok]
      have hr : roundUp c C.maxValueAlign ≤ C.maxCapacity := roundUp_le_of_dvd F.mva.pos hle F.max_dvd
      have hge := le_roundUp c F.mva.pos
      rw [bind_ok (alignUpTo_ok F.mva (by omega) _)]
      unfold Sto.withCapacityUnchecked
      rw [bind_ok (debugAssert_true _ (decide_eq_true (by omega)) _),
        bind_ok (debugAssert_true _ (decide_eq_true hr) _), bind_ok (debugAssertM_ok _ ?_), sat_bind]
      · refine (alloc_sat F hC.alloc rfl (by omega) hr).mono ?_ (fun _ _ h => h) id
        rintro a s' ⟨ha0, had, hab, rfl⟩
        simp only [Sto.putPtr, Sto.putCapacity, Sto.putPos, bind_def, sat_ok]
        refine ⟨⟨⟨Nat.zero_le _, hr, dvd_roundUp _ _, Or.inr ⟨by simp only; omega, ha0, had, hab, _, rfl⟩⟩,
          Nat.dvd_zero _⟩, rfl, rfl, ?_, hle⟩
        funext i; simp [Sto.view]
      · intro _; rw [isAlignedTo_ok F.mva, decide_eq_true (dvd_roundUp _ _)]
    · rename_i hle
      simp only [decide_eq_true_eq] at hle
      simp only [sat_panic, true_and]
      exact ⟨by omega, trivial⟩

theorem drop_ok {s : Sto} (h : s.WInv C) :
    ∃ s', Sto.drop C s = .ok () s' ∧ s'.w.live = [] := by
  unfold Sto.drop
  rw [bind_ok (show Sto.getCapacity s = .ok s.vec.capacity s from rfl)]
  rcases h.mem with ⟨h0, _, hl⟩ | ⟨hcp, hp0, hpd, hpe, d, hl⟩
  · rw [if_neg (by omega)]; exact ⟨s, rfl, hl⟩
  · rw [if_pos hcp, dealloc_ok hl hcp]; exact ⟨_, rfl, rfl⟩

end
end SerRaw
