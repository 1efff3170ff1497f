import Verif.Props.Storage
/-
C11–C17, C19, C04: capacity management, zero-sized types, placeholders, random access, u32 capacities.
-/
namespace SerRaw
section
variable {C : Cfg}

/-! ### C11 -/

/-- C11. `with_capacity(c)`: panics exactly when `c > MAX_CAPACITY`; otherwise (allocator permitting) an empty storage whose
capacity is the least multiple of `MAX_VALUE_ALIGNMENT` at or above `c`. -/
theorem C11_with_capacity (hC : C.OK) (c : Nat) :
    (C.maxCapacity < c → Sto.withCapacity C c Sto.new = .panic .capacity Sto.new) ∧
    (c ≤ C.maxCapacity →
      (∃ s, Sto.withCapacity C c Sto.new = .ok () s ∧ s.vec.pos = 0 ∧ c ≤ s.vec.capacity ∧ s.vec.capacity ≤ C.maxCapacity ∧
        C.maxValueAlign ∣ s.vec.capacity ∧ (∀ m, C.maxValueAlign ∣ m → c ≤ m → s.vec.capacity ≤ m) ∧
        (c = 0 → s = Sto.new)) ∨
      (Sto.withCapacity C c Sto.new = .abort ∧ ¬ C.NeverFails)) := by
  have F := hC.facts
  have hs := withCapacity_sat hC c
  constructor
  · intro hlt
    unfold Sto.withCapacity
    rw [if_neg (by omega), bind_def]
    simp only [M.assert]
    rw [if_neg (by simp; omega)]
  · intro hle
    cases hr : Sto.withCapacity C c Sto.new with
    | ok u s =>
      rw [hr] at hs
      refine Or.inl ⟨s, rfl, hs.pos, ?_, hs.inv.cap_le, hs.inv.cap_dvd, ?_, ?_⟩
      · rw [hs.cap]; exact le_roundUp _ F.mva.pos
      · intro m h1 h2; rw [hs.cap]; exact roundUp_le_of_dvd F.mva.pos h2 h1
      · intro h0; subst h0
        have : Sto.withCapacity C 0 Sto.new = .ok () Sto.new := rfl
        rw [this] at hr; cases hr; rfl
    | panic k s => rw [hr] at hs; have := hs.2.1; omega
    | abort => rw [hr] at hs; exact Or.inr ⟨rfl, hs⟩
    | ub => rw [hr] at hs; exact hs.elim
    | fuel => rw [hr] at hs; exact hs.elim

/-- A sequence of operations starting from a given storage. -/
inductive Steps (C : Cfg) (s0 : Sto) : List SEvent → Sto → Prop
  | nil : Steps C s0 [] s0
  | ok {es s op p s'} : Steps C s0 es s → op.Legal C s → op.run C s = .ok p s' → Steps C s0 (es ++ [⟨op, some p⟩]) s'
  | panic {es s op k s'} : Steps C s0 es s → op.Legal C s → op.run C s = .panic k s' → Steps C s0 (es ++ [⟨op, none⟩]) s'

theorem Steps.hist {s0 s : Sto} {es es' : List SEvent} (h0 : Hist C es s0) (h : Steps C s0 es' s) : Hist C (es ++ es') s := by
  induction h with
  | nil => rw [List.append_nil]; exact h0
  | ok _ hl hr ih => rw [← List.append_assoc]; exact .ok ih hl hr
  | panic _ hl hr ih => rw [← List.append_assoc]; exact .panic ih hl hr

/-- C11. After `with_capacity(c)`, pushes all of whose bytes lie below position `c` never reallocate: buffer address, capacity
and number of allocator calls stay what they were. -/
theorem C11_no_realloc (hC : C.OK) {c : Nat} {s0 s : Sto} (hc : c < C.arch.usizeMod) (h0 : Sto.withCapacity C c Sto.new = .ok () s0)
    {es : List SEvent} (h : Steps C s0 es s)
    (hes : ∀ e ∈ es, ∃ L len data p, e = ⟨.pushSlice L len data, some p⟩ ∧ (L.size * len ≠ 0 → p + L.size * len ≤ c)) :
    s.vec.ptr = s0.vec.ptr ∧ s.vec.capacity = s0.vec.capacity ∧ s.w.calls = s0.w.calls := by
  have hs0 := withCapacity_sat hC c
  rw [h0] at hs0
  have hcap : c ≤ s0.vec.capacity := by rw [hs0.cap]; exact le_roundUp _ hC.facts.mva.pos
  induction h with
  | nil => exact ⟨rfl, rfl, rfl⟩
  | @ok es s op p s' hst hl hr ih =>
    have hI := (Steps.hist (.withCapacity hc h0) hst).inv hC
    obtain ⟨i1, i2, i3⟩ := ih (fun e he => hes e (List.mem_append_left _ he))
    obtain ⟨L, len, data, q, he, hq⟩ := hes ⟨op, some p⟩ (List.mem_append_right _ (List.mem_singleton_self _))
    cases he
    simp only [SOp.run] at hr
    obtain ⟨hL, hacc, hsz, hlen⟩ := hl
    by_cases hz : L.size = 0
    · rw [pushSlice_zst hz] at hr; cases hr; exact ⟨i1, i2, i3⟩
    · have hps := pushSlice_sat hC hI data hz hL.pow2 (accepts_iff.1 (hacc hz)) (hlen.resolve_left hz) hsz
      rw [hr] at hps
      have hfit : p + L.size * len ≤ s.vec.capacity := by
        by_cases hn : L.size * len = 0
        · have h1 := hps.pos_eq
          have := roundUp_le_cap hC.facts hI.toWInv hI.pos_le hL.pow2 (accepts_iff.1 (hacc hz))
          omega
        · have := hq hn; omega
      obtain ⟨g1, g2, g3⟩ := hps.stay hfit
      exact ⟨g2.trans i1, g1.trans i2, g3.trans i3⟩
  | panic =>
    obtain ⟨L, len, data, q, he, hq⟩ := hes _ (List.mem_append_right _ (List.mem_singleton_self _))
    cases he

/-! ### C12 -/

theorem growth_shape_of_inv (hC : C.OK) {s s' : Sto} (hI : s.Inv C) {op : SOp} (hl : op.Legal C s)
    (hop : op ≠ .shrinkToFit) (hr : (∃ p, op.run C s = .ok p s') ∨ ∃ k, op.run C s = .panic k s') :
    (s'.vec.capacity = s.vec.capacity ∧ s'.w.calls = s.w.calls) ∨
    (s.vec.capacity < s'.vec.capacity ∧ s'.w.calls = s.w.calls + 1 ∧ C.maxValueAlign ≤ s'.vec.capacity ∧
      (Pow2 s'.vec.capacity ∨ s'.vec.capacity = C.maxCapacity)) := by
  have hst : StepSpec C op s s' := by
    have := step_sat hC hI hl
    rcases hr with ⟨p, hr⟩ | ⟨k, hr⟩ <;> rw [hr] at this <;> exact this
  rcases hst.calls hop with ⟨h1, h2⟩ | ⟨h1, h2, h3⟩
  · exact Or.inl ⟨h2, h1⟩
  · exact Or.inr ⟨h2, h1, Nat.le_of_dvd (by omega) hst.inv.cap_dvd, h3⟩

/-- C12. When an operation other than `shrink_to_fit` changes the capacity, it grows, with one allocator call, to a power of
two or to `MAX_CAPACITY`, in any case at least `MAX_VALUE_ALIGNMENT`. -/
theorem C12_growth_shape (hC : C.OK) {es : List SEvent} {s s' : Sto} (h : Hist C es s) {op : SOp} (hl : op.Legal C s)
    (hop : op ≠ .shrinkToFit) (hr : (∃ p, op.run C s = .ok p s') ∨ ∃ k, op.run C s = .panic k s') :
    (s'.vec.capacity = s.vec.capacity ∧ s'.w.calls = s.w.calls) ∨
    (s.vec.capacity < s'.vec.capacity ∧ s'.w.calls = s.w.calls + 1 ∧ C.maxValueAlign ≤ s'.vec.capacity ∧
      (Pow2 s'.vec.capacity ∨ s'.vec.capacity = C.maxCapacity)) :=
  growth_shape_of_inv hC (h.inv hC) hl hop hr

theorem calls_inv (hC : C.OK) {es : List SEvent} {s : Sto} (h : Hist C es s) (hno : ∀ e ∈ es, e.op ≠ .shrinkToFit) :
    (s.vec.capacity = 0 ∧ s.w.calls = 0) ∨
    (0 < s.vec.capacity ∧ (s.w.calls ≤ Nat.log2 s.vec.capacity + 1 ∨
      (s.vec.capacity = C.maxCapacity ∧ s.w.calls ≤ Nat.log2 C.maxCapacity + 2))) := by
  have step : ∀ {es : List SEvent} {s s' : Sto} {op : SOp} {res : Option Nat}, Hist C es s → op.Legal C s →
      ((∃ p, op.run C s = .ok p s') ∨ ∃ k, op.run C s = .panic k s') →
      ((∀ e ∈ es, e.op ≠ .shrinkToFit) → (s.vec.capacity = 0 ∧ s.w.calls = 0) ∨
        (0 < s.vec.capacity ∧ (s.w.calls ≤ Nat.log2 s.vec.capacity + 1 ∨
          (s.vec.capacity = C.maxCapacity ∧ s.w.calls ≤ Nat.log2 C.maxCapacity + 2)))) →
      (∀ e ∈ es ++ [⟨op, res⟩], e.op ≠ .shrinkToFit) →
      (s'.vec.capacity = 0 ∧ s'.w.calls = 0) ∨
        (0 < s'.vec.capacity ∧ (s'.w.calls ≤ Nat.log2 s'.vec.capacity + 1 ∨
          (s'.vec.capacity = C.maxCapacity ∧ s'.w.calls ≤ Nat.log2 C.maxCapacity + 2))) := by
    intro es s s' op res h hl hr ih hno
    have hop := hno ⟨op, res⟩ (List.mem_append_right _ (List.mem_singleton_self _))
    have ih := ih (fun e he => hno e (List.mem_append_left _ he))
    have hle : s'.vec.capacity ≤ C.maxCapacity := by
      have hst : StepSpec C op s s' := by
        have := step_sat hC (h.inv hC) hl
        rcases hr with ⟨p, hr⟩ | ⟨k, hr⟩ <;> rw [hr] at this <;> exact this
      exact hst.inv.cap_le
    rcases C12_growth_shape hC h hl hop hr with ⟨h1, h2⟩ | ⟨h1, h2, h3, h4⟩
    · rw [h1, h2]; exact ih
    · right
      refine ⟨by omega, ?_⟩
      rcases ih with ⟨i1, i2⟩ | ⟨i1, i2⟩
      · left; omega
      · rcases i2 with i2 | ⟨i2, _⟩
        · rcases h4 with ⟨e, he⟩ | h4
          · left
            have : Nat.log2 s.vec.capacity < e := (Nat.log2_lt (by omega)).2 (he ▸ h1)
            have h5 : Nat.log2 s'.vec.capacity = e := by rw [he, Nat.log2_two_pow]
            omega
          · right
            refine ⟨h4, ?_⟩
            have hmono : Nat.log2 s.vec.capacity ≤ Nat.log2 C.maxCapacity := by
              rw [Nat.le_log2 (by omega)]
              exact Nat.le_trans (Nat.log2_self_le (by omega)) (by omega)
            omega
        · omega
  induction h with
  | new => exact Or.inl ⟨rfl, rfl⟩
  | @withCapacity c s _ h0 =>
    by_cases hz : c = 0
    · subst hz
      have : Sto.withCapacity C 0 Sto.new = .ok () Sto.new := rfl
      rw [this] at h0; cases h0; exact Or.inl ⟨rfl, rfl⟩
    · right
      have hs := withCapacity_sat hC c
      rw [h0] at hs
      have hpos : c ≤ s.vec.capacity := by rw [hs.cap]; exact le_roundUp _ hC.facts.mva.pos
      have hcalls : s.w.calls = 1 := by
        have F := hC.facts
        have hm := F.max_lt; have := F.mva_le
        unfold Sto.withCapacity at h0
        rw [if_neg hz, bind_def] at h0
        have hle := hs.le
        have hru : roundUp c C.maxValueAlign ≤ C.maxCapacity := roundUp_le_of_dvd F.mva.pos hle F.max_dvd
        have hge := le_roundUp c F.mva.pos
        simp only [M.assert, decide_eq_true hle, if_true] at h0
        rw [bind_ok (alignUpTo_ok F.mva (by omega) _)] at h0
        unfold Sto.withCapacityUnchecked at h0
        rw [bind_ok (debugAssert_true _ (decide_eq_true (by omega)) _),
          bind_ok (debugAssert_true _ (decide_eq_true hru) _), bind_ok (debugAssertM_ok _ ?_)] at h0
        · have ha := alloc_sat F hC.alloc (s := Sto.new) rfl (n := roundUp c C.maxValueAlign) (by omega) hru (R := fun _ _ => False)
          rw [bind_def] at h0
          cases hal : Sto.alloc C (roundUp c C.maxValueAlign) Sto.new with
          | ok a s1 =>
            rw [hal] at h0 ha
            simp only [Sto.putPtr, Sto.putCapacity, Sto.putPos, bind_def, Out.ok.injEq, true_and] at h0
            obtain ⟨_, _, _, rfl⟩ := ha
            rw [← h0]; rfl
          | panic k s1 => rw [hal] at h0; cases h0
          | abort => rw [hal] at h0; cases h0
          | ub => rw [hal] at h0; cases h0
          | fuel => rw [hal] at h0; cases h0
        · intro _; rw [isAlignedTo_ok F.mva, decide_eq_true (dvd_roundUp _ _)]
      exact ⟨by omega, Or.inl (by omega)⟩
  | ok h hl hr ih => exact step h hl (Or.inl ⟨_, hr⟩) ih hno
  | panic h hl hr ih => exact step h hl (Or.inr ⟨_, hr⟩) ih hno

/-- C12. In any history without `shrink_to_fit`, of any length, there are at most `log2(MAX_CAPACITY) + 2` calls of the
allocator (including the initial allocation of `with_capacity`). -/
theorem C12_log_growths (hC : C.OK) {es : List SEvent} {s : Sto} (h : Hist C es s) (hno : ∀ e ∈ es, e.op ≠ .shrinkToFit) :
    s.w.calls ≤ Nat.log2 C.maxCapacity + 2 := by
  have hle := (h.inv hC).cap_le
  rcases calls_inv hC h hno with ⟨_, h1⟩ | ⟨h0, h1 | ⟨_, h1⟩⟩
  · omega
  · have hmono : Nat.log2 s.vec.capacity ≤ Nat.log2 C.maxCapacity := by
      rw [Nat.le_log2 (by omega)]
      exact Nat.le_trans (Nat.log2_self_le (by omega)) hle
    omega
  · exact h1

/-! ### C13, C14, C15 -/

theorem shrink_of_inv (hC : C.OK) {s : Sto} (hI : s.Inv C) :
    (∃ s', Sto.shrinkToFit C s = .ok () s' ∧ s'.vec.pos = s.vec.pos ∧ s'.vec.capacity ≤ s.vec.capacity ∧
      s.vec.pos ≤ s'.vec.capacity ∧ C.maxValueAlign ∣ s'.vec.capacity ∧
      (∀ m, C.maxValueAlign ∣ m → s.vec.pos ≤ m → s'.vec.capacity ≤ m) ∧
      (∀ i < s.vec.pos, s'.w.load (s'.vec.ptr + i) = s.w.load (s.vec.ptr + i)) ∧
      (s.vec.pos = 0 → s'.vec.capacity = 0 ∧ s'.w.live = [])) ∨
    (Sto.shrinkToFit C s = .abort ∧ ¬ C.NeverFails) := by
  have F := hC.facts
  have hs := shrinkToFit_sat hC hI (R := fun _ _ => False)
  cases hr : Sto.shrinkToFit C s with
  | ok u s' =>
    rw [hr] at hs
    have hge := le_roundUp s.vec.pos F.mva.pos
    have hle := hI.pos_le
    have hcap : s'.vec.capacity = roundUp s.vec.pos C.maxValueAlign := hs.cap
    refine Or.inl ⟨s', rfl, hs.pos, ?_, ?_, hs.inv.cap_dvd, ?_, ?_, ?_⟩
    · rw [hcap]; exact roundUp_le_cap F hI.toWInv hI.pos_le F.mva (Nat.le_refl _)
    · omega
    · intro m h1 h2; rw [hcap]; exact roundUp_le_of_dvd F.mva.pos h2 h1
    · intro i hi
      rw [load_eq_view hs.inv.toWInv (by omega), load_eq_view hI.toWInv (by omega)]
      exact hs.view i hi
    · intro h0
      have hc0 : s'.vec.capacity = 0 := by rw [hcap, h0, roundUp_zero F.mva.pos]
      refine ⟨hc0, ?_⟩
      rcases hs.inv.mem with ⟨_, _, hl⟩ | ⟨hc, _⟩
      · exact hl
      · omega
  | panic k s' => rw [hr] at hs; exact hs.elim
  | abort => rw [hr] at hs; exact Or.inr ⟨rfl, hs⟩
  | ub => rw [hr] at hs; exact hs.elim
  | fuel => rw [hr] at hs; exact hs.elim

/-- C13. `shrink_to_fit` keeps position and contents, and makes the capacity the least multiple of `MAX_VALUE_ALIGNMENT` at or
above `pos()`; it never grows the storage, and with `pos() = 0` it owns no memory afterwards. -/
theorem C13_shrink (hC : C.OK) {es : List SEvent} {s : Sto} (h : Hist C es s) :
    (∃ s', Sto.shrinkToFit C s = .ok () s' ∧ s'.vec.pos = s.vec.pos ∧ s'.vec.capacity ≤ s.vec.capacity ∧
      s.vec.pos ≤ s'.vec.capacity ∧ C.maxValueAlign ∣ s'.vec.capacity ∧
      (∀ m, C.maxValueAlign ∣ m → s.vec.pos ≤ m → s'.vec.capacity ≤ m) ∧
      (∀ i < s.vec.pos, s'.w.load (s'.vec.ptr + i) = s.w.load (s.vec.ptr + i)) ∧
      (s.vec.pos = 0 → s'.vec.capacity = 0 ∧ s'.w.live = [])) ∨
    (Sto.shrinkToFit C s = .abort ∧ ¬ C.NeverFails) :=
  shrink_of_inv hC (h.inv hC)

/-- C14. `clear` always succeeds and changes nothing but the position. -/
theorem C14_clear (hC : C.OK) (s : Sto) : Sto.clear C s = .ok () { s with vec := { s.vec with pos := 0 } } :=
  clear_ok hC.facts

theorem owned_of_inv (hC : C.OK) {s : Sto} (hI : s.Inv C) :
    (s.vec.capacity = 0 ∧ s.w.live = []) ∨
    (0 < s.vec.capacity ∧ ∃ data, s.w.live = [⟨s.vec.ptr, s.vec.capacity, C.storageAlign, data⟩]) := by
  rcases hI.mem with ⟨h0, _, hl⟩ | ⟨hc, _, _, _, hl⟩
  · exact Or.inl ⟨h0, hl⟩
  · exact Or.inr ⟨hc, hl⟩

/-- C15. At every moment the storage owns exactly its buffer: one block with the base address, size and alignment it will be
reallocated or freed with, or nothing when its capacity is 0. -/
theorem C15_owned (hC : C.OK) {es : List SEvent} {s : Sto} (h : Hist C es s) :
    (s.vec.capacity = 0 ∧ s.w.live = []) ∨
    (0 < s.vec.capacity ∧ ∃ data, s.w.live = [⟨s.vec.ptr, s.vec.capacity, C.storageAlign, data⟩]) :=
  owned_of_inv hC (h.inv hC)

/-- C15. Dropping the storage after any history meets the allocator's contract and leaves nothing allocated. -/
theorem C15_drop (hC : C.OK) {es : List SEvent} {s : Sto} (h : Hist C es s) :
    ∃ s', Sto.drop C s = .ok () s' ∧ s'.w.live = [] :=
  drop_ok (h.inv hC).toWInv

/-- C15. A panicking `with_capacity` has allocated nothing. -/
theorem C15_with_capacity_panic (hC : C.OK) {c : Nat} {k : PanicKind} {s : Sto} (h : Sto.withCapacity C c Sto.new = .panic k s) :
    s.w.live = [] := by
  have := withCapacity_sat hC c
  rw [h] at this
  rw [this.2.2]; rfl

/-! ### C16 -/

/-- C16. Pushing a zero-sized value, or a slice of any number of them, returns 0 and does nothing at all. -/
theorem C16_zst (s : Sto) {L : Layout} (hL : L.size = 0) (len : Nat) (data : Nat → Cell) :
    Sto.pushSlice C L len data s = .ok 0 s := pushSlice_zst hL

/-! ### C17 -/

theorem push_empty_of_inv (hC : C.OK) {s : Sto} (hI : s.Inv C) {L : Layout} {len : Nat}
    (hl : (SOp.pushEmptySlice L len).Legal C s) (hov : L.size * len < C.arch.usizeMod)
    (hdbg : C.arch.debug = true → C.valueAlign ∣ L.size * len) {q : Nat}
    (hq : L.align ∣ q ∧ s.vec.pos ≤ q ∧ ∀ m, L.align ∣ m → s.vec.pos ≤ m → q ≤ m) :
    (C.maxCapacity < q + L.size * len →
      Sto.pushEmptySlice C L len s = .panic .capacity { s with vec := { s.vec with pos := q } }) ∧
    (q + L.size * len ≤ C.maxCapacity →
      (∃ s', Sto.pushEmptySlice C L len s = .ok q s' ∧ q + L.size * len ≤ s'.vec.pos ∧
        s'.vec.pos < q + L.size * len + C.valueAlign ∧ s'.vec.pos ≤ s'.vec.capacity ∧
        (∀ i < s.vec.capacity, s'.w.load (s'.vec.ptr + i) = s.w.load (s.vec.ptr + i))) ∨
      (Sto.pushEmptySlice C L len s = .abort ∧ ¬ C.NeverFails)) := by
  have F := hC.facts
  obtain ⟨hL, hacc, hlen⟩ := hl
  have hal := accepts_iff.1 hacc
  have hqe : q = roundUp s.vec.pos L.align :=
    Nat.le_antisymm (hq.2.2 _ (dvd_roundUp _ _) (le_roundUp _ hL.pow2.pos)) (roundUp_le_of_dvd hL.pow2.pos hq.2.1 hq.1)
  have hs := pushEmptySlice_sat hC hI (L := L) (len := len) hL.pow2 hal
  have hmod : L.size * len % C.arch.usizeMod = L.size * len := Nat.mod_eq_of_lt hov
  constructor
  · intro hbig
    have hru := roundUp_le_cap F hI.toWInv hI.pos_le hL.pow2 hal
    unfold Sto.pushEmptySlice
    rw [bind_ok (alignFor_ok F hI hL.pow2 hal), bind_ok (umul_ok _ hov _), bind_def,
      reserve_overflow hC (hI.toWInv.at hru) (by rw [hqe] at hbig; exact hbig), hqe]
    rfl
  · intro hfit
    cases hr : Sto.pushEmptySlice C L len s with
    | ok p s' =>
      rw [hr] at hs
      have hpe : p = q := by rw [hs.pos_eq, hqe]
      subst hpe
      have hend : s'.vec.pos = _ := hs.end_eq
      rw [hmod] at hend
      have hcl : s.vec.capacity ≤ s'.vec.capacity := hs.cap_le
      refine Or.inl ⟨s', rfl, ?_, ?_, hs.inv.pos_le, ?_⟩
      · rw [hend]; exact le_roundUp _ F.va.pos
      · rw [hend]; exact roundUp_lt _ F.va.pos
      · intro i hi
        rw [load_eq_view hs.inv.toWInv (by omega), load_eq_view hI.toWInv hi, hs.view]
    | panic k s' =>
      rw [hr] at hs
      rcases hs.why with ⟨_, h1⟩ | ⟨_, _, h1⟩ | ⟨hd, _, h1⟩
      · rw [hmod, ← hqe] at h1; omega
      · omega
      · exact absurd (hdbg hd) h1
    | abort => rw [hr] at hs; exact Or.inr ⟨rfl, hs⟩
    | ub => rw [hr] at hs; exact hs.elim
    | fuel => rw [hr] at hs; exact hs.elim

/-- C17. `push_empty_slice` reserves room for `len` values at the next aligned position `q`, provided the size in bytes does
not overflow `usize` and, in debug builds, is a multiple of `VALUE_ALIGNMENT`. -/
theorem C17_push_empty (hC : C.OK) {es : List SEvent} {s : Sto} (h : Hist C es s) {L : Layout} {len : Nat}
    (hl : (SOp.pushEmptySlice L len).Legal C s) (hov : L.size * len < C.arch.usizeMod)
    (hdbg : C.arch.debug = true → C.valueAlign ∣ L.size * len) {q : Nat}
    (hq : L.align ∣ q ∧ s.vec.pos ≤ q ∧ ∀ m, L.align ∣ m → s.vec.pos ≤ m → q ≤ m) :
    (C.maxCapacity < q + L.size * len →
      Sto.pushEmptySlice C L len s = .panic .capacity { s with vec := { s.vec with pos := q } }) ∧
    (q + L.size * len ≤ C.maxCapacity →
      (∃ s', Sto.pushEmptySlice C L len s = .ok q s' ∧ q + L.size * len ≤ s'.vec.pos ∧
        s'.vec.pos < q + L.size * len + C.valueAlign ∧ s'.vec.pos ≤ s'.vec.capacity ∧
        (∀ i < s.vec.capacity, s'.w.load (s'.vec.ptr + i) = s.w.load (s.vec.ptr + i))) ∨
      (Sto.pushEmptySlice C L len s = .abort ∧ ¬ C.NeverFails)) :=
  push_empty_of_inv hC (h.inv hC) hl hov hdbg hq

/-- C17, the provisos are necessary, debug builds: `push_empty_slice` never returns if the size in bytes overflows `usize` or is not a multiple
of `VALUE_ALIGNMENT`. It panics, with position `q` and all contents kept (or the allocator failed). -/
theorem C17_debug_otherwise (hC : C.OK) {es : List SEvent} {s : Sto} (h : Hist C es s) {L : Layout} {len : Nat}
    (hl : (SOp.pushEmptySlice L len).Legal C s) (hd : C.arch.debug = true)
    (hno : ¬ (L.size * len < C.arch.usizeMod ∧ C.valueAlign ∣ L.size * len)) {q : Nat}
    (hq : L.align ∣ q ∧ s.vec.pos ≤ q ∧ ∀ m, L.align ∣ m → s.vec.pos ≤ m → q ≤ m) :
    (∃ k s', Sto.pushEmptySlice C L len s = .panic k s' ∧ s'.vec.pos = q ∧
      ∀ i < s.vec.capacity, s'.w.load (s'.vec.ptr + i) = s.w.load (s.vec.ptr + i)) ∨
    (Sto.pushEmptySlice C L len s = .abort ∧ ¬ C.NeverFails) := by
  have hI := h.inv hC
  obtain ⟨hL, hacc, hlen⟩ := hl
  have hqe : q = roundUp s.vec.pos L.align :=
    Nat.le_antisymm (hq.2.2 _ (dvd_roundUp _ _) (le_roundUp _ hL.pow2.pos)) (roundUp_le_of_dvd hL.pow2.pos hq.2.1 hq.1)
  have hs := pushEmptySlice_sat hC hI (L := L) (len := len) hL.pow2 (accepts_iff.1 hacc)
  cases hr : Sto.pushEmptySlice C L len s with
  | ok p s' => rw [hr] at hs; exact (hno (hs.debug hd)).elim
  | panic k s' =>
    rw [hr] at hs
    refine .inl ⟨k, s', rfl, hqe ▸ hs.pos, fun i hi => ?_⟩
    have hcl : s.vec.capacity ≤ s'.vec.capacity := hs.cap_le
    rw [load_eq_view hs.inv.toWInv (by omega), load_eq_view hI.toWInv hi, hs.view]
  | abort => rw [hr] at hs; exact .inr ⟨rfl, hs⟩
  | ub => rw [hr] at hs; exact hs.elim
  | fuel => rw [hr] at hs; exact hs.elim

theorem roundUp_add {a b v : Nat} (hv : 0 < v) (h : v ∣ a) : roundUp (a + b) v = a + roundUp b v := by
  obtain ⟨c, rfl⟩ := h
  unfold roundUp
  rw [Nat.add_assoc, Nat.mul_add_div hv, Nat.add_mul, Nat.mul_comm c v]

/-- C17, the provisos are necessary, release builds: when the size in bytes overflows `usize`, `push_empty_slice` makes room for the size
modulo `2^32` or `2^64` only, which is less than asked for; still without undefined behaviour and with all contents kept. -/
theorem C17_release_otherwise (hC : C.OK) {es : List SEvent} {s : Sto} (h : Hist C es s) {L : Layout} {len : Nat}
    (hl : (SOp.pushEmptySlice L len).Legal C s) (hd : C.arch.debug = false) (hno : C.arch.usizeMod ≤ L.size * len) {q : Nat}
    (hq : L.align ∣ q ∧ s.vec.pos ≤ q ∧ ∀ m, L.align ∣ m → s.vec.pos ≤ m → q ≤ m) :
    (∃ s', Sto.pushEmptySlice C L len s = .ok q s' ∧ s'.vec.pos = q + L.size * len % C.arch.usizeMod + (roundUp (L.size * len) C.valueAlign - L.size * len) ∧
      s'.vec.pos < q + L.size * len ∧ ∀ i < s.vec.capacity, s'.w.load (s'.vec.ptr + i) = s.w.load (s.vec.ptr + i)) ∨
    (∃ s', Sto.pushEmptySlice C L len s = .panic .capacity s' ∧ C.maxCapacity < q + L.size * len % C.arch.usizeMod) ∨
    (Sto.pushEmptySlice C L len s = .abort ∧ ¬ C.NeverFails) := by
  have F := hC.facts
  have hI := h.inv hC
  obtain ⟨hL, hacc, hlen⟩ := hl
  have hqe : q = roundUp s.vec.pos L.align :=
    Nat.le_antisymm (hq.2.2 _ (dvd_roundUp _ _) (le_roundUp _ hL.pow2.pos)) (roundUp_le_of_dvd hL.pow2.pos hq.2.1 hq.1)
  have hs := pushEmptySlice_sat hC hI (L := L) (len := len) hL.pow2 (accepts_iff.1 hacc)
  cases hr : Sto.pushEmptySlice C L len s with
  | ok p s' =>
    rw [hr] at hs
    have hpe : p = q := by rw [hs.pos_eq, hqe]
    subst hpe
    have hcl : s.vec.capacity ≤ s'.vec.capacity := hs.cap_le
    have h1 := hs.inv.pos_le
    have h2 := hs.inv.cap_le
    have h3 := F.max_lt
    refine .inl ⟨s', rfl, ?_, by omega, fun i hi => ?_⟩
    · have hv : C.valueAlign ∣ p := hqe ▸ va_dvd_roundUp F hL.pow2 hI.pos_dvd
      have e1 : s'.vec.pos = _ := hs.end_eq
      have e2 : L.size * len = C.arch.usizeMod * (L.size * len / C.arch.usizeMod) + L.size * len % C.arch.usizeMod := (Nat.div_add_mod _ _).symm
      have hv2 : C.valueAlign ∣ C.arch.usizeMod * (L.size * len / C.arch.usizeMod) := Nat.dvd_mul_right_of_dvd (va_dvd_usizeMod F) _
      have e3 : roundUp (L.size * len) C.valueAlign =
          C.arch.usizeMod * (L.size * len / C.arch.usizeMod) + roundUp (L.size * len % C.arch.usizeMod) C.valueAlign := by
        conv_lhs => rw [e2]
        exact roundUp_add F.va.pos hv2
      have e4 : roundUp (p + L.size * len % C.arch.usizeMod) C.valueAlign = p + roundUp (L.size * len % C.arch.usizeMod) C.valueAlign :=
        roundUp_add F.va.pos hv
      have e5 := le_roundUp (L.size * len % C.arch.usizeMod) F.va.pos
      omega
    · rw [load_eq_view hs.inv.toWInv (by omega), load_eq_view hI.toWInv hi, hs.view]
  | panic k s' =>
    rw [hr] at hs
    rcases hs.why with ⟨rfl, h1⟩ | ⟨h1, _⟩ | ⟨h1, _⟩
    · exact .inr (.inl ⟨s', rfl, hqe ▸ h1⟩)
    · rw [hd] at h1; cases h1
    · rw [hd] at h1; cases h1
  | abort => rw [hr] at hs; exact .inr (.inr ⟨rfl, hs⟩)
  | ub => rw [hr] at hs; exact hs.elim
  | fuel => rw [hr] at hs; exact hs.elim

/-- Finding F1: in a debug build `push_empty::<u32>()` on a storage with `VALUE_ALIGNMENT = 8` panics, although there is room
(it calls `set_pos` with the unaligned end position before aligning). -/
theorem C17_unaligned_panics : ∃ s, Sto.pushEmpty cfg64 ⟨4, 4⟩ Sto.new = .panic .debugAssert s := ⟨_, rfl⟩

/-- Finding F2: in a release build the size computation wraps: `push_empty_slice::<u64>(1 << 61)` "succeeds" and reserves
nothing. -/
theorem C17_size_wraps : Sto.pushEmptySlice cfg64r ⟨8, 8⟩ (2 ^ 61) Sto.new = .ok 0 Sto.new := rfl

/-! ### C19 -/

theorem write_of_inv (hC : C.OK) {s : Sto} (hI : s.Inv C) {p : Nat} {L : Layout} {len : Nat} {data : Nat → Cell}
    (hl : (SOp.writeSlice p L len data).Legal C s) :
    ∃ s', Sto.writeSlice C p L len data s = .ok () s' ∧ s'.vec = s.vec ∧
      (∀ i < L.size * len, s'.w.load (s'.vec.ptr + (p + i)) = data i) ∧
      (∀ i < s.vec.capacity, i < p ∨ p + L.size * len ≤ i → s'.w.load (s'.vec.ptr + i) = s.w.load (s.vec.ptr + i)) := by
  obtain ⟨hL, hfit, hd, hlast⟩ := hl
  by_cases hz : L.size = 0
  · refine ⟨s, writeSlice_zst hC.facts hI.toWInv hz (by omega) hL.pow2 hd, rfl, ?_, fun _ _ _ => rfl⟩
    intro i hi; rw [hz, Nat.zero_mul] at hi; omega
  · obtain ⟨hsa, hc⟩ := hlast.resolve_left hz
    obtain ⟨s1, h1, h2, h3, h4, h5⟩ := writeSlice_ok hC hI.toWInv data hz hc hfit hL.pow2 hd hsa
    refine ⟨s1, h1, h2, ?_, ?_⟩
    · intro i hi
      rw [load_eq_view h4 (by rw [h2]; omega), h5, blit_at hi]
    · intro i hi ho
      rw [load_eq_view h4 (by rw [h2]; omega), load_eq_view hI.toWInv hi, h5, blit_out ho]

/-- C19. A random-access write within its contract changes exactly the bytes of its range. -/
theorem C19_write (hC : C.OK) {es : List SEvent} {s : Sto} (h : Hist C es s) {p : Nat} {L : Layout} {len : Nat} {data : Nat → Cell}
    (hl : (SOp.writeSlice p L len data).Legal C s) :
    ∃ s', Sto.writeSlice C p L len data s = .ok () s' ∧ s'.vec = s.vec ∧
      (∀ i < L.size * len, s'.w.load (s'.vec.ptr + (p + i)) = data i) ∧
      (∀ i < s.vec.capacity, i < p ∨ p + L.size * len ≤ i → s'.w.load (s'.vec.ptr + i) = s.w.load (s.vec.ptr + i)) :=
  write_of_inv hC (h.inv hC) hl

/-- C19. Reading a `T` that lies below `pos()` at an aligned position yields the bytes stored there, and changes nothing. -/
theorem C19_read (hC : C.OK) {es : List SEvent} {s : Sto} (h : Hist C es s) {p : Nat} {L : Layout} (hL : L.OK)
    (hfit : p + L.size ≤ s.vec.pos) (hd : L.align ∣ p) (hsa : L.align ≤ C.storageAlign)
    (hne : L.size ≠ 0 ∨ 0 < s.vec.capacity ∨ L.align = 1) :
    ∃ v, Sto.read C p L s = .ok v s ∧ ∀ i < L.size, v i = s.w.load (s.vec.ptr + (p + i)) :=
  read_ok hC (h.inv hC) hL hfit hd hsa hne

/-- C19. Write a value, read it back. -/
theorem C19_write_read (hC : C.OK) {es : List SEvent} {s : Sto} (h : Hist C es s) {p : Nat} {L : Layout} {data : Nat → Cell}
    (hl : (SOp.writeSlice p L 1 data).Legal C s) (hz : L.size ≠ 0) (hfit : p + L.size ≤ s.vec.pos) :
    ∃ s' v, Sto.write C p L data s = .ok () s' ∧ Sto.read C p L s' = .ok v s' ∧ ∀ i < L.size, v i = data i := by
  obtain ⟨s', h1, h2, h3, _⟩ := C19_write hC h hl
  have h' : Hist C (es ++ [⟨.writeSlice p L 1 data, some 0⟩]) s' := .ok h hl (by simp only [SOp.run]; rw [bind_ok h1]; rfl)
  obtain ⟨hL, _, hd, hlast⟩ := hl
  obtain ⟨v, hv1, hv2⟩ := C19_read hC h' hL (by rw [h2]; exact hfit) hd (hlast.resolve_left hz).1 (Or.inl hz)
  exact ⟨s', v, h1, hv1, fun i hi => by rw [hv2 i hi, h3 i (by omega)]⟩

/-- An allocator that always answers 8, the least aligned address for `STORAGE_ALIGNMENT = 8`. -/
def at8 : Oracle := fun _ L => if 8 % L.align = 0 ∧ L.size < 2 ^ 31 then 8 else 0

/-- `AlignedVec<8, 8, 8, 2^30>` with that allocator. -/
def cfgAt8 : Cfg := ⟨x64, 8, 8, 8, 2 ^ 30, at8⟩

theorem cfgAt8_ok : cfgAt8.OK := by
  refine ⟨⟨Or.inr rfl⟩, by decide, ?_⟩
  intro n L h
  simp only [cfgAt8, at8] at h ⊢
  split at h
  · rename_i hc
    rw [if_pos hc]
    exact ⟨hc.1, by rw [show x64.usizeMod = 2 ^ 64 from rfl]; omega⟩
  · exact absurd rfl h

/-- Finding F14: the documented contract of `write` (in bounds, position a multiple of `align_of::<T>()`; storage/mod.rs:477-487)
does not exclude a `T` more aligned than the storage. With `STORAGE_ALIGNMENT = 8` a 16-aligned `T` written at position 0 is a
misaligned write. -/
theorem C19_overaligned_ub : ∃ s, Sto.withCapacity cfgAt8 64 Sto.new = .ok () s ∧
    Sto.write cfgAt8 0 ⟨16, 16⟩ (fun _ => some 0) s = .ub := ⟨_, rfl, rfl⟩

/-! ### C04 -/

/-- The alignments `aligned_max_u32_capacity` takes. -/
def LegalU32Align (A : Arch) (a : Nat) : Prop := Pow2 a ∧ a < 2 ^ 32 - 1 ∧ a < A.isizeMax

/-- C04. For a legal alignment the result `m` is at most `2^32`, and a legal `MAX_CAPACITY` of every storage type whose
`STORAGE_ALIGNMENT` is the argument and whose other alignments are legal. -/
theorem C04_u32_capacity {σ : Type} {A : Arch} (hA : A.Valid) {a : Nat} (ha : LegalU32Align A a) (s : σ) :
    ∃ m, alignedMaxU32Capacity A a s = .ok m s ∧ m ≤ 2 ^ 32 ∧
      ∀ C : Cfg, C.arch = A → C.storageAlign = a → C.maxCapacity = m → Pow2 C.maxValueAlign → Pow2 C.valueAlign →
        C.valueAlign ≤ C.maxValueAlign → C.maxValueAlign ≤ a → C.assertAlignmentsValid = true := by
  obtain ⟨hp, h1, h2⟩ := ha
  have hpos := hp.pos
  have legal : ∀ m, 0 < m → m ≤ A.isizeMax - (a - 1) → a ∣ m →
      ∀ C : Cfg, C.arch = A → C.storageAlign = a → C.maxCapacity = m → Pow2 C.maxValueAlign → Pow2 C.valueAlign →
        C.valueAlign ≤ C.maxValueAlign → C.maxValueAlign ≤ a → C.assertAlignmentsValid = true := by
    rintro m hm hle hd C rfl rfl rfl hmv hv hv1 hv2
    unfold Cfg.assertAlignmentsValid
    simp only [Bool.and_eq_true, decide_eq_true_eq, isPow2_iff, beq_iff_eq]
    exact ⟨⟨⟨⟨⟨⟨⟨⟨⟨⟨⟨hpos, h2⟩, hp⟩, hmv.pos⟩, hv2⟩, hmv⟩, hv.pos⟩, hv1⟩, hv⟩, hm⟩, hle⟩,
      Nat.mod_eq_zero_of_dvd (Nat.dvd_trans (hmv.dvd_of_le hp hv2) hd)⟩
  have run : alignedMaxU32Capacity A a s =
      (if A.ptrBytes ≥ 8 then uadd A u32Max 1 else (usub A a 1 >>= fun z => usub A A.isizeMax z)) s := by
    unfold alignedMaxU32Capacity
    simp only [bind_def, M.assert]
    rw [if_pos (by simp; omega)]; simp only
    rw [if_pos (isPow2_iff.2 hp)]; simp only
    rw [if_pos (by rw [decide_eq_true (show a < u32Max from h1), decide_eq_true h2]; rfl)]
  rcases hA.cases with ⟨hw, hm, hi⟩ | ⟨hw, hm, hi⟩
  · refine ⟨A.isizeMax - (a - 1), ?_, by rw [hi]; omega, legal _ (by omega) (Nat.le_refl _) ?_⟩
    · rw [run, if_neg (by omega), bind_ok (usub_ok A hpos s), usub_ok A (by omega)]
    · have hd : a ∣ A.isizeMax + 1 := hp.dvd_of_le (isizeMax_succ_pow2 A) (by omega)
      have : A.isizeMax - (a - 1) = (A.isizeMax + 1) - a := by omega
      rw [this]; exact Nat.dvd_sub hd (Nat.dvd_refl a)
  · refine ⟨2 ^ 32, ?_, Nat.le_refl _, legal _ (by decide) ?_ ?_⟩
    · rw [run, if_pos (by omega), uadd_ok A (by rw [hm]; decide)]; rfl
    · rw [hi]; omega
    · exact hp.dvd_of_le ⟨32, rfl⟩ (by omega)

/-- C04. Every other alignment is rejected by a panic, in debug and release builds. -/
theorem C04_u32_illegal {σ : Type} (A : Arch) {a : Nat} (ha : ¬ LegalU32Align A a) (s : σ) :
    alignedMaxU32Capacity A a s = .panic .assertion s := by
  unfold alignedMaxU32Capacity
  simp only [bind_def, M.assert]
  by_cases h0 : a = 0
  · simp [h0]
  · rw [if_pos (by simpa using h0)]; simp only
    by_cases h1 : isPow2 a = true
    · rw [if_pos h1]; simp only
      rw [if_neg]
      intro h2
      rw [Bool.and_eq_true, decide_eq_true_eq, decide_eq_true_eq] at h2
      exact ha ⟨isPow2_iff.1 h1, h2.1, h2.2⟩
    · rw [if_neg h1]

/-- On a 32-bit target `2^31` is too large, although it is below `u32::MAX`; on a 64-bit target it is legal. -/
example : ¬ LegalU32Align be32 (2 ^ 31) ∧ LegalU32Align x64 (2 ^ 31) :=
  ⟨fun h => absurd h.2.2 (by decide), ⟨31, rfl⟩, by decide, by decide⟩

/-- C04. With such a capacity every non-empty value pushed in any history has a position that fits in a `u32`. -/
theorem C04_positions_u32 (hC : C.OK) (hm : C.maxCapacity ≤ 2 ^ 32) {es : List SEvent} {s : Sto} (h : Hist C es s)
    {r : Rec} (hr : r ∈ stored es) (hs : 0 < r.size) : r.pos < 2 ^ 32 := by
  have h1 := (storedInv hC h).ends r hr
  have h2 := C05_consistent hC h
  omega

/-- Finding F6: the position of an *empty* slice can be `2^32`: push one to a full storage. (Stated for a smaller
`MAX_CAPACITY`, where the state is easy to write down: the position is `MAX_CAPACITY`.) -/
theorem C04_empty_slice_at_end : ∃ s p s', Sto.withCapacity cfg32 1000 Sto.new = .ok () s ∧
    Sto.pushSlice cfg32 ⟨1, 1⟩ 1000 (fun _ => some 0) s = .ok p s' ∧
    Sto.pushSlice cfg32 ⟨1, 1⟩ 0 (fun _ => none) s' = .ok 1000 s' := ⟨_, _, _, rfl, rfl, rfl⟩

/-- Finding F7: the docs of `aligned_max_capacity` and `aligned_max_u32_capacity` (util.rs:31-32, 71) tell to pass
`MAX_VALUE_ALIGNMENT`; the result is then not a legal `MAX_CAPACITY` if `STORAGE_ALIGNMENT` is larger. -/
theorem C04_doc_argument : ∃ m, alignedMaxCapacity x64 8 () = .ok m () ∧ (mkCfg x64 16 8 8 m).assertAlignmentsValid = false ∧
    ∃ m', alignedMaxU32Capacity be32 8 () = .ok m' () ∧ (mkCfg be32 16 8 8 m').assertAlignmentsValid = false :=
  ⟨_, rfl, by decide, _, rfl, by decide⟩

end
end SerRaw
