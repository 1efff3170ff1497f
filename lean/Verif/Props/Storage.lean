import Verif.Lemmas.History
import Verif.Props.Util
import Verif.Props.Concrete
/-
C04–C19: `AlignedVec` as used through `Storage` / `RandomAccessStorage`.

`Hist C es s` (Model/History.lean): any history of a storage, including operations that panicked and were caught.
`s.vec.pos`, `s.vec.capacity`, `s.vec.ptr` are what `pos()`, `capacity()`, `as_ptr()` return;
`s.w.load a` is the byte of the process's heap at address `a`; `s.w.calls` counts calls of `alloc`/`realloc`.
-/
namespace SerRaw
section
variable {C : Cfg}

/-! ### C05, C06: consistency -/

theorem consistent_of_inv (hC : C.OK) {s : Sto} (hI : s.Inv C) :
    s.vec.pos ≤ s.vec.capacity ∧ s.vec.capacity ≤ C.maxCapacity ∧ C.maxValueAlign ∣ s.vec.capacity ∧ C.valueAlign ∣ s.vec.pos :=
  ⟨hI.pos_le, hI.cap_le, hI.cap_dvd, hI.pos_dvd⟩

/-- C05. In every history the position, capacity and their alignments are consistent. -/
theorem C05_consistent (hC : C.OK) {es : List SEvent} {s : Sto} (h : Hist C es s) :
    s.vec.pos ≤ s.vec.capacity ∧ s.vec.capacity ≤ C.maxCapacity ∧ C.maxValueAlign ∣ s.vec.capacity ∧ C.valueAlign ∣ s.vec.pos :=
  consistent_of_inv hC (h.inv hC)

/-- Without `push_empty` the only panic is "storage full". -/
theorem panic_of_inv (hC : C.OK) {s s' : Sto} (hI : s.Inv C) {op : SOp} {k : PanicKind} (hl : op.Legal C s)
    (hr : op.run C s = .panic k s') : k = .capacity ∨ ∃ L n, op = .pushEmptySlice L n := by
  cases op with
  | pushEmptySlice L n => exact Or.inr ⟨L, n, rfl⟩
  | pushSlice L len data =>
    left
    obtain ⟨hL, hacc, hsz, hlen⟩ := hl
    by_cases hz : L.size = 0
    · simp only [SOp.run] at hr; rw [pushSlice_zst hz] at hr; cases hr
    · have := pushSlice_sat hC hI data hz hL.pow2 (accepts_iff.1 (hacc hz)) (hlen.resolve_left hz) hsz
      simp only [SOp.run] at hr; rw [hr] at this; exact this.1
  | reserve n =>
    left
    have : (((SOp.reserve n).run C) s).Sat (fun _ _ => True) (fun k _ => k = .capacity) True := by
      simp only [SOp.run]; rw [sat_bind]
      exact (reserve_sat hC hI.toWInv n).mono (fun _ _ _ => trivial) (fun _ _ h => h.1) (fun _ => trivial)
    rw [hr] at this; exact this
  | shrinkToFit =>
    left
    have : ((SOp.shrinkToFit.run C) s).Sat (fun _ _ => True) (fun k _ => k = .capacity) True := by
      simp only [SOp.run]; rw [sat_bind]
      exact (shrinkToFit_sat hC hI (R := fun _ _ => False)).mono (fun _ _ _ => trivial) (fun _ _ h => h.elim) (fun _ => trivial)
    rw [hr] at this; exact this
  | alignFor L =>
    simp only [SOp.run] at hr
    rw [bind_ok (alignFor_ok hC.facts hI hl.1.pow2 (accepts_iff.1 hl.2))] at hr; cases hr
  | alignAfter L =>
    simp only [SOp.run] at hr
    unfold Sto.alignAfter at hr
    split at hr
    · rw [bind_ok (alignAfterAny_ok hC.facts hI.toWInv)] at hr; cases hr
    · cases hr
  | alignAfterAny => simp only [SOp.run] at hr; rw [bind_ok (alignAfterAny_ok hC.facts hI.toWInv)] at hr; cases hr
  | clear => simp only [SOp.run] at hr; rw [bind_ok (clear_ok hC.facts)] at hr; cases hr
  | writeSlice p L len data =>
    obtain ⟨hL, hfit, hd, hlast⟩ := hl
    simp only [SOp.run] at hr
    by_cases hz : L.size = 0
    · rw [bind_ok (writeSlice_zst hC.facts hI.toWInv hz (by omega) hL.pow2 hd)] at hr; cases hr
    · obtain ⟨hsa, hc⟩ := hlast.resolve_left hz
      obtain ⟨s', h1, _⟩ := writeSlice_ok hC hI.toWInv data hz hc hfit hL.pow2 hd hsa
      rw [bind_ok h1] at hr; cases hr

/-- C05. No operation of any history has undefined behaviour (or leaves the model); it returns, panics, or aborts because the
allocator failed, and without `push_empty` the only panic is "storage full". -/
theorem C05_no_ub (hC : C.OK) {es : List SEvent} {s : Sto} (h : Hist C es s) {op : SOp} (hl : op.Legal C s) :
    (∃ p s', op.run C s = .ok p s' ∧ Hist C (es ++ [⟨op, some p⟩]) s') ∨
    (∃ k s', op.run C s = .panic k s' ∧ Hist C (es ++ [⟨op, none⟩]) s' ∧ (k = .capacity ∨ ∃ L n, op = .pushEmptySlice L n)) ∨
    (op.run C s = .abort ∧ ¬ C.NeverFails) := by
  have hs := step_sat hC (h.inv hC) hl
  cases hr : op.run C s with
  | ok p s' => exact Or.inl ⟨p, s', rfl, .ok h hl hr⟩
  | panic k s' =>
    exact Or.inr (Or.inl ⟨k, s', rfl, .panic h hl hr, panic_of_inv hC (h.inv hC) hl hr⟩)
  | abort => rw [hr] at hs; exact Or.inr (Or.inr ⟨rfl, hs⟩)
  | ub => rw [hr] at hs; exact hs.elim
  | fuel => rw [hr] at hs; exact hs.elim

theorem base_aligned_of_inv (hC : C.OK) {s : Sto} (hI : s.Inv C) (hc : 0 < s.vec.capacity) :
    s.vec.ptr ≠ 0 ∧ C.storageAlign ∣ s.vec.ptr ∧ s.vec.ptr + s.vec.capacity < C.arch.usizeMod := by
  rcases hI.mem with ⟨h0, _⟩ | ⟨_, h1, h2, h3, _⟩
  · omega
  · exact ⟨h1, h2, h3⟩

/-- C06. A storage that owns memory has a non-null base address which is a multiple of `STORAGE_ALIGNMENT`, and its
buffer does not reach the end of the address space. -/
theorem C06_base_aligned (hC : C.OK) {es : List SEvent} {s : Sto} (h : Hist C es s) (hc : 0 < s.vec.capacity) :
    s.vec.ptr ≠ 0 ∧ C.storageAlign ∣ s.vec.ptr ∧ s.vec.ptr + s.vec.capacity < C.arch.usizeMod :=
  base_aligned_of_inv hC (h.inv hC) hc

/-- C06. A position aligned for an accepted `T` is an address aligned for `T`. -/
theorem C06_position_is_address (hC : C.OK) {es : List SEvent} {s : Sto} (h : Hist C es s) (hc : 0 < s.vec.capacity)
    {L : Layout} (hL : L.OK) (hacc : C.accepts L = true) (p : Nat) : L.align ∣ s.vec.ptr + p ↔ L.align ∣ p := by
  have F := hC.facts
  have := (C06_base_aligned hC h hc).2.1
  have hd : L.align ∣ s.vec.ptr :=
    Nat.dvd_trans (hL.pow2.dvd_of_le F.sa (Nat.le_trans (accepts_iff.1 hacc) F.mva_le)) this
  exact Nat.dvd_add_right hd

/-- Finding F12: `push_slice::<u64>(&[])` on a storage that has not allocated calls `copy_nonoverlapping` with a destination
(the dangling pointer, address 1) that is not aligned for `u64`: undefined behaviour by std's contract. This is the case that
`SOp.Legal` excludes. -/
theorem C05_empty_slice_ub : Sto.pushSlice cfg64 ⟨8, 8⟩ 0 (fun _ => none) Sto.new = .ub := rfl

/-! ### C07: positions -/

theorem position_of_inv (hC : C.OK) {s s' : Sto} (hI : s.Inv C) {L : Layout} {len p : Nat} {data : Nat → Cell}
    (hl : (SOp.pushSlice L len data).Legal C s) (hz : L.size ≠ 0) (hr : Sto.pushSlice C L len data s = .ok p s') :
    L.align ∣ p ∧ C.valueAlign ∣ p ∧ s.vec.pos ≤ p ∧ ∀ q, L.align ∣ q → C.valueAlign ∣ q → s.vec.pos ≤ q → p ≤ q := by
  obtain ⟨hL, hacc, hsz, hlen⟩ := hl
  have := pushSlice_sat hC hI data hz hL.pow2 (accepts_iff.1 (hacc hz)) (hlen.resolve_left hz) hsz
  rw [hr] at this
  have hp : p = roundUp s.vec.pos L.align := this.pos_eq
  subst hp
  exact ⟨dvd_roundUp _ _, va_dvd_roundUp hC.facts hL.pow2 hI.pos_dvd, le_roundUp _ hL.pow2.pos,
    fun q h1 _ h3 => roundUp_le_of_dvd hL.pow2.pos h3 h1⟩

/-- C07. A pushed value of a non-zero-sized type gets the smallest position at or after `pos()` that is aligned for the type
and for `VALUE_ALIGNMENT`. -/
theorem C07_position (hC : C.OK) {es : List SEvent} {s s' : Sto} (h : Hist C es s) {L : Layout} {len p : Nat} {data : Nat → Cell}
    (hl : (SOp.pushSlice L len data).Legal C s) (hz : L.size ≠ 0) (hr : Sto.pushSlice C L len data s = .ok p s') :
    L.align ∣ p ∧ C.valueAlign ∣ p ∧ s.vec.pos ≤ p ∧ ∀ q, L.align ∣ q → C.valueAlign ∣ q → s.vec.pos ≤ q → p ≤ q :=
  position_of_inv hC (h.inv hC) hl hz hr

/-! ### C08, C18: contents -/

/-- A stored slice: position, size in bytes, bytes. -/
structure Rec where
  pos : Nat
  size : Nat
  data : Nat → Cell

/-- Bookkeeping of what a history should have stored: a push appends its bytes; `clear` forgets everything; a random-access
write forgets the slices it overlaps; everything else (also panicking operations) changes nothing. -/
def keep (rs : List Rec) (e : SEvent) : List Rec :=
  match e.op, e.res with
  | .pushSlice L len data, some p => if L.size * len = 0 then rs else rs ++ [⟨p, L.size * len, data⟩]
  | .clear, some _ => []
  | .writeSlice p L len _, some _ =>
    if L.size * len = 0 then rs else rs.filter fun r => decide (r.pos + r.size ≤ p) || decide (p + L.size * len ≤ r.pos)
  | _, _ => rs

/-- What a history has stored, in push order. -/
def stored (es : List SEvent) : List Rec := es.foldl keep []

theorem stored_snoc (es : List SEvent) (e : SEvent) : stored (es ++ [e]) = keep (stored es) e := by
  simp [stored, List.foldl_append]

/-- Invariant behind C08 and C18. -/
structure StoredInv (s : Sto) (rs : List Rec) : Prop where
  ends : ∀ r ∈ rs, r.pos + r.size ≤ s.vec.pos
  view : ∀ r ∈ rs, ∀ i < r.size, s.view (r.pos + i) = r.data i
  order : rs.Pairwise fun a b => a.pos + a.size ≤ b.pos

theorem StoredInv.step {s s' : Sto} {rs : List Rec} (h : StoredInv s rs) (hp : s.vec.pos ≤ s'.vec.pos)
    (hv : ∀ i < s.vec.pos, s'.view i = s.view i) : StoredInv s' rs where
  ends r hr := Nat.le_trans (h.ends r hr) hp
  view r hr i hi := by rw [hv _ (by have := h.ends r hr; omega)]; exact h.view r hr i hi
  order := h.order

theorem storedInv_event (hC : C.OK) {s s' : Sto} {rs : List Rec} (hI : s.Inv C) {op : SOp} (hl : op.Legal C s)
    (h : StoredInv s rs) {res : Option Nat}
    (hr : (∃ p, op.run C s = .ok p s' ∧ res = some p) ∨ (∃ k, op.run C s = .panic k s' ∧ res = none)) :
    StoredInv s' (keep rs ⟨op, res⟩) := by
  have hstep : StepSpec C op s s' := by
    have := step_sat hC hI hl
    rcases hr with ⟨p, hr, _⟩ | ⟨k, hr, _⟩ <;> rw [hr] at this <;> exact this
  cases op with
  | pushSlice L len data =>
    have hgen := h.step (hstep.pos_mono (by intro h; cases h)) (hstep.view (by intro _ _ _ _ h; cases h))
    rcases hr with ⟨p, hr, rfl⟩ | ⟨k, hr, rfl⟩
    · simp only [keep]
      split
      · exact hgen
      · rename_i hne
        obtain ⟨hL, hacc, hsz, hlen⟩ := hl
        have hz : L.size ≠ 0 := by intro h0; rw [h0, Nat.zero_mul] at hne; exact hne rfl
        have hps := pushSlice_sat hC hI data hz hL.pow2 (accepts_iff.1 (hacc hz)) (hlen.resolve_left hz) hsz
        simp only [SOp.run] at hr
        rw [hr] at hps
        have hge : s.vec.pos ≤ p := by rw [hps.pos_eq]; exact le_roundUp _ hL.pow2.pos
        have hend := hps.end_eq
        have hup := le_roundUp (p + L.size * len) hC.facts.va.pos
        refine ⟨?_, ?_, ?_⟩
        · intro r hr
          rcases List.mem_append.1 hr with hr | hr
          · exact hgen.ends r hr
          · simp only [List.mem_singleton] at hr; subst hr; simp only; omega
        · intro r hr
          rcases List.mem_append.1 hr with hr | hr
          · exact hgen.view r hr
          · simp only [List.mem_singleton] at hr; subst hr
            intro i hi
            simp only at hi ⊢
            rw [hps.view, blit_at hi]
        · refine List.pairwise_append.2 ⟨h.order, List.pairwise_singleton _ _, ?_⟩
          intro a ha b hb
          simp only [List.mem_singleton] at hb; subst hb
          exact Nat.le_trans (h.ends a ha) hge
    · exact hgen
  | clear =>
    rcases hr with ⟨p, hr, rfl⟩ | ⟨k, hr, rfl⟩
    · exact ⟨fun r hr => (by cases hr), fun r hr => (by cases hr), List.Pairwise.nil⟩
    · simp only [SOp.run] at hr
      rw [bind_ok (clear_ok hC.facts)] at hr; cases hr
  | writeSlice p L len data =>
    obtain ⟨hL, hfit, hd, hlast⟩ := hl
    rcases hr with ⟨q, hr, rfl⟩ | ⟨k, hr, rfl⟩
    · simp only [keep]
      simp only [SOp.run] at hr
      by_cases hz : L.size = 0
      · rw [bind_ok (writeSlice_zst hC.facts hI.toWInv hz (by omega) hL.pow2 hd)] at hr
        cases hr
        rw [if_pos (by rw [hz, Nat.zero_mul])]; exact h
      · obtain ⟨hsa, hc⟩ := hlast.resolve_left hz
        obtain ⟨s1, h1, h2, h3, h4, h5⟩ := writeSlice_ok hC hI.toWInv data hz hc hfit hL.pow2 hd hsa
        rw [bind_ok h1] at hr
        simp only [pure_run, Out.ok.injEq] at hr
        obtain ⟨_, rfl⟩ := hr
        split
        · rename_i h0
          refine h.step (by rw [h2]) ?_
          intro i _; rw [h5, blit_out (by omega)]
        · refine ⟨?_, ?_, h.order.filter _⟩
          · intro r hr; rw [h2]; exact h.ends r (List.mem_filter.1 hr).1
          · intro r hr i hi
            obtain ⟨hr1, hr2⟩ := List.mem_filter.1 hr
            simp only [Bool.or_eq_true, decide_eq_true_eq] at hr2
            rw [h5, blit_out (by omega)]; exact h.view r hr1 i hi
    · simp only [SOp.run] at hr
      by_cases hz : L.size = 0
      · rw [bind_ok (writeSlice_zst hC.facts hI.toWInv hz (by omega) hL.pow2 hd)] at hr; cases hr
      · obtain ⟨hsa, hc⟩ := hlast.resolve_left hz
        obtain ⟨s1, h1, _⟩ := writeSlice_ok hC hI.toWInv data hz hc hfit hL.pow2 hd hsa
        rw [bind_ok h1] at hr; cases hr
  | pushEmptySlice L len =>
    exact h.step (hstep.pos_mono (by intro h; cases h)) (hstep.view (by intro _ _ _ _ h; cases h))
  | reserve n => exact h.step (hstep.pos_mono (by intro h; cases h)) (hstep.view (by intro _ _ _ _ h; cases h))
  | alignFor L => exact h.step (hstep.pos_mono (by intro h; cases h)) (hstep.view (by intro _ _ _ _ h; cases h))
  | alignAfter L => exact h.step (hstep.pos_mono (by intro h; cases h)) (hstep.view (by intro _ _ _ _ h; cases h))
  | alignAfterAny => exact h.step (hstep.pos_mono (by intro h; cases h)) (hstep.view (by intro _ _ _ _ h; cases h))
  | shrinkToFit => exact h.step (hstep.pos_mono (by intro h; cases h)) (hstep.view (by intro _ _ _ _ h; cases h))

theorem storedInv (hC : C.OK) {es : List SEvent} {s : Sto} (h : Hist C es s) : StoredInv s (stored es) := by
  induction h with
  | new => exact ⟨fun r hr => (by cases hr), fun r hr => (by cases hr), List.Pairwise.nil⟩
  | withCapacity => exact ⟨fun r hr => (by cases hr), fun r hr => (by cases hr), List.Pairwise.nil⟩
  | ok h hl hr ih => rw [stored_snoc]; exact storedInv_event hC (h.inv hC) hl ih (Or.inl ⟨_, hr, rfl⟩)
  | panic h hl hr ih => rw [stored_snoc]; exact storedInv_event hC (h.inv hC) hl ih (Or.inr ⟨_, hr, rfl⟩)

/-- C08. Every byte of every slice pushed since the last `clear` (and not overwritten by a random-access write) is in the heap
at the address `as_ptr() + position`, whatever happened since. -/
theorem C08_contents (hC : C.OK) {es : List SEvent} {s : Sto} (h : Hist C es s) {r : Rec} (hr : r ∈ stored es) {i : Nat}
    (hi : i < r.size) : s.w.load (s.vec.ptr + (r.pos + i)) = r.data i := by
  have hs := storedInv hC h
  have := hs.ends r hr; have := (h.inv hC).pos_le
  rw [load_eq_view (h.inv hC).toWInv (by omega)]
  exact hs.view r hr i hi

/-- C18. Slices pushed since the last `clear` occupy disjoint ranges, in push order, all below `pos()`. -/
theorem C18_disjoint (hC : C.OK) {es : List SEvent} {s : Sto} (h : Hist C es s) :
    (stored es).Pairwise (fun a b => a.pos + a.size ≤ b.pos) ∧ ∀ r ∈ stored es, r.pos + r.size ≤ s.vec.pos :=
  ⟨(storedInv hC h).order, (storedInv hC h).ends⟩

/-! ### C09, C10: `reserve` and `push_slice`, exactly -/

theorem reserve_of_inv (hC : C.OK) {s : Sto} (hI : s.Inv C) (n : Nat) :
    (C.maxCapacity < s.vec.pos + n → Sto.reserve C n s = .panic .capacity s) ∧
    (s.vec.pos + n ≤ C.maxCapacity →
      (∃ s', Sto.reserve C n s = .ok () s' ∧ s.vec.pos + n ≤ s'.vec.capacity ∧ s.vec.capacity ≤ s'.vec.capacity ∧
        s'.vec.pos = s.vec.pos ∧ (∀ i < s.vec.capacity, s'.w.load (s'.vec.ptr + i) = s.w.load (s.vec.ptr + i)) ∧
        (s.vec.pos + n ≤ s.vec.capacity → s' = s)) ∨
      (Sto.reserve C n s = .abort ∧ ¬ C.NeverFails)) := by
  replace hI := hI.toWInv
  refine ⟨reserve_overflow hC hI, fun hfit => ?_⟩
  have hs := reserve_sat hC hI n
  cases hr : Sto.reserve C n s with
  | ok u s' =>
    rw [hr] at hs
    replace hs : ReserveSpec C s n s' := hs
    have hc := hs.cap_le
    refine Or.inl ⟨s', rfl, hs.room, hc, hs.pos, ?_, ?_⟩
    · intro i hi
      rw [load_eq_view hI hi, load_eq_view (hs.inv hI) (by omega), hs.view]
    · intro hroom
      cases hs with
      | same e _ => exact e
      | grown hlt _ => omega
  | panic k s' => rw [hr] at hs; have := hs.2.2; omega
  | abort => rw [hr] at hs; exact Or.inr ⟨rfl, hs⟩
  | ub => rw [hr] at hs; exact hs.elim
  | fuel => rw [hr] at hs; exact hs.elim

/-- C09. `reserve(n)` panics exactly when `pos() + n > MAX_CAPACITY`, leaving the storage as it was; otherwise it returns (or
the allocator failed), with room for `n` bytes, at least the old capacity, and the same position and contents. -/
theorem C09_reserve (hC : C.OK) {es : List SEvent} {s : Sto} (h : Hist C es s) (n : Nat) :
    (C.maxCapacity < s.vec.pos + n → Sto.reserve C n s = .panic .capacity s) ∧
    (s.vec.pos + n ≤ C.maxCapacity →
      (∃ s', Sto.reserve C n s = .ok () s' ∧ s.vec.pos + n ≤ s'.vec.capacity ∧ s.vec.capacity ≤ s'.vec.capacity ∧
        s'.vec.pos = s.vec.pos ∧ (∀ i < s.vec.capacity, s'.w.load (s'.vec.ptr + i) = s.w.load (s.vec.ptr + i)) ∧
        (s.vec.pos + n ≤ s.vec.capacity → s' = s)) ∨
      (Sto.reserve C n s = .abort ∧ ¬ C.NeverFails)) :=
  reserve_of_inv hC (h.inv hC) n

theorem push_of_inv (hC : C.OK) {s : Sto} (hI : s.Inv C) {L : Layout} {len : Nat} {data : Nat → Cell}
    (hl : (SOp.pushSlice L len data).Legal C s) (hz : L.size ≠ 0) {q : Nat}
    (hq : L.align ∣ q ∧ s.vec.pos ≤ q ∧ ∀ m, L.align ∣ m → s.vec.pos ≤ m → q ≤ m) :
    (C.maxCapacity < q + L.size * len →
      Sto.pushSlice C L len data s = .panic .capacity { s with vec := { s.vec with pos := q } }) ∧
    (q + L.size * len ≤ C.maxCapacity →
      (∃ s', Sto.pushSlice C L len data s = .ok q s' ∧ q + L.size * len ≤ s'.vec.pos ∧ s'.vec.pos < q + L.size * len + C.valueAlign ∧
        s.vec.capacity ≤ s'.vec.capacity ∧
        (∀ i < L.size * len, s'.w.load (s'.vec.ptr + (q + i)) = data i) ∧
        (∀ i < s.vec.capacity, i < q ∨ q + L.size * len ≤ i → s'.w.load (s'.vec.ptr + i) = s.w.load (s.vec.ptr + i))) ∨
      (Sto.pushSlice C L len data s = .abort ∧ ¬ C.NeverFails)) := by
  have F := hC.facts
  obtain ⟨hL, hacc, hsz, hlen⟩ := hl
  have hal := accepts_iff.1 (hacc hz)
  have hqe : q = roundUp s.vec.pos L.align :=
    Nat.le_antisymm (hq.2.2 _ (dvd_roundUp _ _) (le_roundUp _ hL.pow2.pos)) (roundUp_le_of_dvd hL.pow2.pos hq.2.1 hq.1)
  have hs := pushSlice_sat hC hI data hz hL.pow2 hal (hlen.resolve_left hz) hsz
  constructor
  · intro hov
    have hru := roundUp_le_cap F hI.toWInv hI.pos_le hL.pow2 hal
    unfold Sto.pushSlice
    rw [if_neg hz, bind_ok (alignFor_ok F hI hL.pow2 hal), bind_ok (umul_ok _ (by have := F.isize_lt; omega) _), bind_def,
      reserve_overflow hC (hI.toWInv.at hru) (by rw [hqe] at hov; exact hov), hqe]
    rfl
  · intro hfit
    cases hr : Sto.pushSlice C L len data s with
    | ok p s' =>
      rw [hr] at hs
      have hpe : p = q := by rw [hs.pos_eq, hqe]
      subst hpe
      have hw : p + L.size * len ≤ s'.vec.capacity := hs.within
      have hcl : s.vec.capacity ≤ s'.vec.capacity := hs.cap_le
      refine Or.inl ⟨s', rfl, ?_, ?_, hcl, ?_, ?_⟩
      · rw [hs.end_eq]; exact le_roundUp _ F.va.pos
      · rw [hs.end_eq]; exact roundUp_lt _ F.va.pos
      · intro i hi
        rw [load_eq_view hs.inv.toWInv (by omega), hs.view, blit_at hi]
      · intro i hi ho
        rw [load_eq_view hs.inv.toWInv (by omega), load_eq_view hI.toWInv hi, hs.view, blit_out ho]
    | panic k s' => rw [hr] at hs; have := hs.2.2; omega
    | abort => rw [hr] at hs; exact Or.inr ⟨rfl, hs⟩
    | ub => rw [hr] at hs; exact hs.elim
    | fuel => rw [hr] at hs; exact hs.elim

/-- C10. `push_slice` panics exactly when the slice, placed at the next aligned position `q`, would end beyond
`MAX_CAPACITY`; then only alignment padding has been skipped. Otherwise it returns (or the allocator failed). -/
theorem C10_push (hC : C.OK) {es : List SEvent} {s : Sto} (h : Hist C es s) {L : Layout} {len : Nat} {data : Nat → Cell}
    (hl : (SOp.pushSlice L len data).Legal C s) (hz : L.size ≠ 0) {q : Nat}
    (hq : L.align ∣ q ∧ s.vec.pos ≤ q ∧ ∀ m, L.align ∣ m → s.vec.pos ≤ m → q ≤ m) :
    (C.maxCapacity < q + L.size * len →
      Sto.pushSlice C L len data s = .panic .capacity { s with vec := { s.vec with pos := q } }) ∧
    (q + L.size * len ≤ C.maxCapacity →
      (∃ s', Sto.pushSlice C L len data s = .ok q s' ∧ q + L.size * len ≤ s'.vec.pos ∧ s'.vec.pos < q + L.size * len + C.valueAlign ∧
        s.vec.capacity ≤ s'.vec.capacity ∧
        (∀ i < L.size * len, s'.w.load (s'.vec.ptr + (q + i)) = data i) ∧
        (∀ i < s.vec.capacity, i < q ∨ q + L.size * len ≤ i → s'.w.load (s'.vec.ptr + i) = s.w.load (s.vec.ptr + i))) ∨
      (Sto.pushSlice C L len data s = .abort ∧ ¬ C.NeverFails)) :=
  push_of_inv hC (h.inv hC) hl hz hq

end
end SerRaw
