import Verif.Lemmas.CustomStorage
import Verif.Props.SafeCalls
/-
C61: the alignment logic of `Storage` (its default methods) is right for *every* correct implementation of the trait, not only `AlignedVec`.

`StorageImpl` (Model/CustomStorage.lean): what a user writes. `Conforms` (Spec/CustomStorage.lean): the contract of those methods.
`KHist I es s`: `s` is reached by a constructor and any safe calls `es`, with panics caught.
-/
namespace SerRaw
open StorageImpl
section
variable {σ : Type} {I : StorageImpl σ} {Inv : σ → Prop} {content : σ → Mem}

/-- C61. At every moment `pos() ≤ capacity() ≤ MAX_CAPACITY` and `pos()` is a multiple of `VALUE_ALIGNMENT`. -/
theorem C61_consistent (h : I.Conforms Inv content) {es : List KEvent} {s : σ} (hh : KHist I es s) :
    I.pos s ≤ I.capacity s ∧ I.capacity s ≤ I.C.maxCapacity ∧ I.C.maxValueAlign ∣ I.capacity s ∧ I.C.valueAlign ∣ I.pos s := by
  obtain ⟨hI, hd⟩ := h.hist_inv hh
  exact ⟨h.pos_le s hI, h.cap_le s hI, h.cap_dvd s hI, hd⟩

/-- C61. Every safe call is within the contract of the required methods: it never has undefined behaviour, never fails a debug assertion, and
panics only for lack of capacity (or, for `push_empty_slice`, in debug builds, because `size_of::<T>() * len` overflows). -/
theorem C61_safe_calls (h : I.Conforms Inv content) {es : List KEvent} {s : σ} (hh : KHist I es s) {op : KOp} (hl : op.Legal I s) :
    (∃ p s', op.run I s = .ok p s') ∨
    (∃ k s', op.run I s = .panic k s' ∧
      (k = .capacity ∨ k = .arith ∧ ∃ L n, op = .pushEmptySlice L n ∧ I.C.arch.usizeMod ≤ L.size * n)) ∨
    op.run I s = .abort := by
  obtain ⟨hI, hd⟩ := h.hist_inv hh
  have hs := h.step_sat hI hd hl
  cases hr : op.run I s with
  | ok p s' => exact Or.inl ⟨p, s', rfl⟩
  | panic k s' => rw [hr] at hs; exact Or.inr (Or.inl ⟨k, s', rfl, hs.1⟩)
  | abort => exact Or.inr (Or.inr rfl)
  | ub => rw [hr] at hs; exact hs.elim
  | fuel => rw [hr] at hs; exact hs.elim

/-- C61. `push_slice` (hence `push`, `push_bytes`) returns a position aligned for `T` and to `VALUE_ALIGNMENT`, at or after the old position — the
next position aligned for `T`, unless `reserve` moved on to a multiple of `MAX_VALUE_ALIGNMENT`; the bytes of the slice are there; everything stored
before is untouched; and the new position is the first multiple of `VALUE_ALIGNMENT` from the end of the slice. -/
theorem C61_push (h : I.Conforms Inv content) {es : List KEvent} {s : σ} (hh : KHist I es s) {L : Layout} {len : Nat} {data : Nat → Cell}
    (hl : (KOp.pushSlice L len data).Legal I s) (hz : L.size ≠ 0) {p : Nat} {s' : σ} (hr : I.pushSlice L len data s = .ok p s') :
    L.align ∣ p ∧ I.C.valueAlign ∣ p ∧ I.pos s ≤ p ∧
    ((∀ m, L.align ∣ m → I.pos s ≤ m → p ≤ m) ∨ I.C.maxValueAlign ∣ p) ∧
    (∀ i < L.size * len, content s' (p + i) = data i) ∧
    (∀ i < I.pos s, content s' i = content s i) ∧
    p + L.size * len ≤ I.pos s' ∧ I.pos s' < p + L.size * len + I.C.valueAlign := by
  obtain ⟨hI, hd⟩ := h.hist_inv hh
  obtain ⟨hL, hacc, hsz, hlen⟩ := hl
  have hs := h.pushSlice_sat (data := data) hI hd hL hz (accepts_iff.1 (hacc hz)) hsz (hlen.resolve_left hz)
  rw [hr] at hs
  obtain ⟨_, hp, hb⟩ := hs
  refine ⟨hp.aligned, hp.valueAligned, hp.after, ?_, hb, hp.below, hp.end_ge, hp.end_lt⟩
  rcases hp.where_ with hw | hw
  · left; intro m h1 h2; rw [hw]; exact roundUp_le_of_dvd hL.pow2.pos h2 h1
  · exact Or.inr hw

/-- C61. `push_empty_slice` (hence `push_empty`): the same, without bytes. -/
theorem C61_push_empty (h : I.Conforms Inv content) {es : List KEvent} {s : σ} (hh : KHist I es s) {L : Layout} {len : Nat}
    (hl : (KOp.pushEmptySlice L len).Legal I s) (hov : L.size * len < I.C.arch.usizeMod) {p : Nat} {s' : σ}
    (hr : I.pushEmptySlice L len s = .ok p s') :
    L.align ∣ p ∧ I.C.valueAlign ∣ p ∧ I.pos s ≤ p ∧ ((∀ m, L.align ∣ m → I.pos s ≤ m → p ≤ m) ∨ I.C.maxValueAlign ∣ p) ∧
    (∀ i < I.pos s, content s' i = content s i) ∧ I.pos s' = p + L.size * len := by
  obtain ⟨hI, hd⟩ := h.hist_inv hh
  obtain ⟨hL, hacc, _, hv⟩ := hl
  have hs := h.pushEmptySlice_sat hI hd hL (accepts_iff.1 hacc) hv
  rw [hr] at hs
  obtain ⟨hst, hp⟩ := hs
  have hp := hp hov
  refine ⟨hp.aligned, hp.valueAligned, hp.after, ?_, hp.below, ?_⟩
  · rcases hp.where_ with hw | hw
    · left; intro m h1 h2; rw [hw]; exact roundUp_le_of_dvd hL.pow2.pos h2 h1
    · exact Or.inr hw
  · have h1 := hp.end_ge
    have h2 := hp.end_lt
    obtain ⟨k, hk⟩ := (Nat.dvd_sub hst.dvd (Nat.dvd_add hp.valueAligned hv) : I.C.valueAlign ∣ I.pos s' - (p + L.size * len))
    rcases Nat.eq_zero_or_pos k with rfl | hk0
    · omega
    · have := Nat.le_mul_of_pos_right I.C.valueAlign hk0; omega

/-- C61. A call that panics has lost nothing: contents below the old position and the position's consistency are as before. -/
theorem C61_panic_keeps (h : I.Conforms Inv content) {es : List KEvent} {s : σ} (hh : KHist I es s) {op : KOp} (hl : op.Legal I s)
    {k : PanicKind} {s' : σ} (hr : op.run I s = .panic k s') (hc : op ≠ .clear) :
    (∀ i < I.pos s, content s' i = content s i) ∧ I.pos s ≤ I.pos s' ∧ I.pos s' ≤ I.capacity s' ∧ I.C.valueAlign ∣ I.pos s' := by
  obtain ⟨hI, hd⟩ := h.hist_inv hh
  have hs := h.step_sat hI hd hl
  rw [hr] at hs
  exact ⟨hs.2.content, hs.2.pos_mono hc, h.pos_le _ hs.2.inv, hs.2.dvd⟩

/-- C61. What was pushed stays: whatever safe calls follow (pushes, reservations, shrinking, caught panics — everything but `clear`), the bytes of a
pushed slice are still at the position the push returned, and are not among the free space. -/
theorem C61_durable (h : I.Conforms Inv content) {pre post : List KEvent} {L : Layout} {len p : Nat} {data : Nat → Cell} {s : σ}
    (hh : KHist I (pre ++ ⟨.pushSlice L len data, some p⟩ :: post) s) (hz : L.size ≠ 0) (hc : ∀ e ∈ post, e.op ≠ .clear) :
    L.align ∣ p ∧ p + L.size * len ≤ I.pos s ∧ ∀ i < L.size * len, content s (p + i) = data i := by
  rw [show pre ++ ⟨.pushSlice L len data, some p⟩ :: post = (pre ++ [⟨.pushSlice L len data, some p⟩]) ++ post by simp] at hh
  obtain ⟨t, h1, h2⟩ := StorageImpl.KHist.split hh
  obtain ⟨j1, j2⟩ := h.hist_inv h1
  obtain ⟨_, _, j3, j4⟩ := h.later j1 j2 h2 hc
  generalize he : pre ++ [(⟨.pushSlice L len data, some p⟩ : KEvent)] = es at h1
  cases h1 with
  | new => simp at he
  | withCapacity _ _ => simp at he
  | panic _ _ _ =>
    have := (List.append_inj' he rfl).2
    simp at this
  | ok h0 hl hr =>
    have := (List.append_inj' he rfl).2
    simp only [List.cons.injEq, KEvent.mk.injEq, Option.some.injEq, and_true] at this
    obtain ⟨rfl, rfl⟩ := this
    obtain ⟨g1, _, _, _, g5, _, g7, _⟩ := C61_push h h0 hl hz hr
    exact ⟨g1, by omega, fun i hi => by rw [j4 _ (by omega), g5 i hi]⟩

/-- C61. Different pushes never overlap: a push after another (no `clear` between them) starts at or after its end. -/
theorem C61_disjoint (h : I.Conforms Inv content) {pre mid post : List KEvent} {L L' : Layout} {len len' p p' : Nat} {data data' : Nat → Cell}
    {s : σ} (hh : KHist I (pre ++ ⟨.pushSlice L len data, some p⟩ :: (mid ++ ⟨.pushSlice L' len' data', some p'⟩ :: post)) s)
    (hz : L.size ≠ 0) (hz' : L'.size ≠ 0) (hc : ∀ e ∈ mid, e.op ≠ .clear) : p + L.size * len ≤ p' := by
  rw [show pre ++ ⟨.pushSlice L len data, some p⟩ :: (mid ++ ⟨.pushSlice L' len' data', some p'⟩ :: post) =
    (pre ++ ⟨.pushSlice L len data, some p⟩ :: mid ++ [⟨.pushSlice L' len' data', some p'⟩]) ++ post by simp] at hh
  obtain ⟨t, h1, _⟩ := StorageImpl.KHist.split hh
  generalize he : pre ++ ⟨.pushSlice L len data, some p⟩ :: mid ++ [(⟨.pushSlice L' len' data', some p'⟩ : KEvent)] = es at h1
  cases h1 with
  | new => simp at he
  | withCapacity _ _ => simp at he
  | panic _ _ _ =>
    have := (List.append_inj' he rfl).2
    simp at this
  | ok h0 hl hr =>
    obtain ⟨e1, e2⟩ := List.append_inj' he rfl
    simp only [List.cons.injEq, KEvent.mk.injEq, Option.some.injEq, and_true] at e2
    obtain ⟨rfl, rfl⟩ := e2
    subst e1
    obtain ⟨_, g2, _⟩ := C61_durable h h0 hz hc
    obtain ⟨_, _, g3, _⟩ := C61_push h h0 hl hz' hr
    omega

/-- C61. `with_capacity(n)`: panics exactly when `n > MAX_CAPACITY`; otherwise the storage is empty with room for `n` bytes. -/
theorem C61_with_capacity (h : I.Conforms Inv content) (c : Nat) :
    (∃ s', I.withCapacity c I.new = .ok () s' ∧ c ≤ I.C.maxCapacity ∧ I.pos s' = 0 ∧ c ≤ I.capacity s') ∨
    (I.withCapacity c I.new = .panic .capacity I.new ∧ I.C.maxCapacity < c) ∨
    I.withCapacity c I.new = .abort := by
  have hs := h.withCapacity_sat c
  cases hr : I.withCapacity c I.new with
  | ok p s' =>
    rw [hr] at hs
    exact Or.inl ⟨s', rfl, by have := h.cap_le s' hs.1; have := hs.2.2; omega, hs.2.1, hs.2.2⟩
  | panic k s' =>
    rw [hr] at hs
    obtain ⟨rfl, h1, rfl⟩ := hs
    exact Or.inr (Or.inl ⟨rfl, h1⟩)
  | abort => exact Or.inr (Or.inr rfl)
  | ub => rw [hr] at hs; exact hs.elim
  | fuel => rw [hr] at hs; exact hs.elim
end

/-! ### `AlignedVec` is a conforming implementation -/

/-- C61. `AlignedVec` keeps the contract. -/
theorem C61_aligned_vec {C : Cfg} (hC : C.OK) : (alignedVecImpl C).Conforms (Sto.WInv C) Sto.view where
  arch := hC.arch
  consts := hC.valid
  pos_le _ h := h.pos_le
  cap_le _ h := h.cap_le
  cap_dvd _ h := h.cap_dvd
  new := ⟨(Sto.new_inv C).toWInv, rfl⟩
  withCapacity c h0 hc hd := by
    change c ≤ C.maxCapacity at hc
    change C.maxValueAlign ∣ c at hd
    have F := hC.facts
    have hs := withCapacity_sat hC c
    have e : Sto.withCapacity C c Sto.new = Sto.withCapacityUnchecked C c Sto.new := by
      have := F.max_lt; have := F.mva_le
      unfold Sto.withCapacity
      rw [if_neg (by omega)]
      rw [bind_ok (show (M.assert .capacity (decide (c ≤ C.maxCapacity)) : M Sto Unit) Sto.new = .ok () Sto.new by simp [M.assert, hc]),
        bind_ok (alignUpTo_ok F.mva (by omega) _), roundUp_eq_of_dvd F.mva.pos hd]
    rw [e] at hs
    show (∃ s', Sto.withCapacityUnchecked C c Sto.new = .ok () s' ∧ _) ∨ Sto.withCapacityUnchecked C c Sto.new = .abort
    cases hr : Sto.withCapacityUnchecked C c Sto.new with
    | ok a s' =>
      rw [hr] at hs
      exact Or.inl ⟨s', rfl, hs.inv.toWInv, hs.pos, by
        show c ≤ s'.vec.capacity
        rw [hs.cap]; exact le_roundUp _ F.mva.pos⟩
    | panic k s' => rw [hr] at hs; have := hs.2.1; omega
    | abort => exact Or.inr rfl
    | ub => rw [hr] at hs; exact hs.elim
    | fuel => rw [hr] at hs; exact hs.elim
  setPos s p h hp hd := ⟨s.at p, setPos_ok hC.facts hp hd, h.at hp, rfl, rfl, rfl⟩
  pushSliceUnchecked s L len data h hL hz hal hroom hd hlen := by
    have F := hC.facts
    have hm := F.max_lt; have hc := h.cap_le
    change s.vec.pos + L.size * len ≤ s.vec.capacity at hroom
    change L.align ∣ s.vec.pos at hd
    change 0 < len ∨ 0 < s.vec.capacity ∨ L.align = 1 at hlen
    have hcap : 0 < s.vec.capacity ∨ L.align = 1 := by
      rcases hlen with hh | hh | hh
      · have := Nat.mul_pos (Nat.pos_of_ne_zero hz) hh; omega
      · exact Or.inl hh
      · exact Or.inr hh
    obtain ⟨s2, hw, hvec, hcalls, w2, hv2⟩ := writeSlice_ok hC h data hz hcap hroom hL.pow2 hd (Nat.le_trans hal F.mva_le)
    refine ⟨s2.at (s.vec.pos + L.size * len), ?_, w2.at (by rw [hvec]; exact hroom), rfl, ?_, ?_, ?_⟩
    · show Sto.pushSliceUnchecked C L len data (L.size * len) s = _
      unfold Sto.pushSliceUnchecked
      rw [bind_ok (show Sto.getCapacity s = .ok s.vec.capacity s from rfl),
        bind_ok (show Sto.getPos s = .ok s.vec.pos s from rfl),
        bind_ok (debugAssertM_ok _ ?_), bind_ok (debugAssertM_ok _ ?_), bind_ok (debugAssertM_ok _ ?_), if_neg hz,
        bind_ok hw, bind_ok (uadd_ok _ (by omega) s2)]
      · rfl
      · intro _; rw [isAlignedTo_ok hL.pow2, decide_eq_true hd]
      · intro _
        rw [bind_ok (umul_ok _ (by omega) _)]; simp
      · intro _
        rw [bind_ok (usub_ok _ (by omega) _)]; simp only [pure_run]; rw [decide_eq_true]; omega
    · show s2.vec.capacity = s.vec.capacity
      rw [hvec]
    · intro i hi
      rw [Sto.at_view, hv2, Mem.blit]
      show (if s.vec.pos ≤ s.vec.pos + i ∧ s.vec.pos + i < s.vec.pos + L.size * len then data (s.vec.pos + i - s.vec.pos) else _) = _
      rw [if_pos (by omega), Nat.add_sub_cancel_left]
    · intro i hi
      change i < s.vec.pos at hi
      rw [Sto.at_view, hv2, Mem.blit, if_neg (by omega)]
  reserve s n h := by
    have hs := reserve_sat hC h n
    show (∃ s', Sto.reserve C n s = .ok () s' ∧ _) ∨ (∃ s', Sto.reserve C n s = .panic .capacity s' ∧ _) ∨ Sto.reserve C n s = .abort
    cases hr : Sto.reserve C n s with
    | ok a s' =>
      rw [hr] at hs
      exact Or.inl ⟨s', rfl, hs.inv h, by show s'.vec.pos + n ≤ s'.vec.capacity; rw [hs.pos]; exact hs.room, hs.cap_le, Or.inl hs.pos,
        fun i _ => by rw [hs.view]⟩
    | panic k s' =>
      rw [hr] at hs
      obtain ⟨rfl, rfl, _⟩ := hs
      exact Or.inr (Or.inl ⟨s', rfl, h, rfl, Nat.le_refl _, fun _ _ => rfl⟩)
    | abort => exact Or.inr (Or.inr rfl)
    | ub => rw [hr] at hs; exact hs.elim
    | fuel => rw [hr] at hs; exact hs.elim
  shrinkToFit s h hd := by
    have hs := shrinkToFit_sat hC (R := fun _ _ => False) ⟨h, hd⟩
    show (∃ s', Sto.shrinkToFit C s = .ok () s' ∧ _) ∨ Sto.shrinkToFit C s = .abort
    cases hr : Sto.shrinkToFit C s with
    | ok a s' =>
      rw [hr] at hs
      exact Or.inl ⟨s', rfl, hs.inv.toWInv, hs.pos, by
        show s'.vec.capacity ≤ s.vec.capacity
        rw [hs.cap]; exact roundUp_le_of_dvd hC.facts.mva.pos h.pos_le h.cap_dvd, hs.view⟩
    | panic k s' => rw [hr] at hs; exact hs.elim
    | abort => exact Or.inr rfl
    | ub => rw [hr] at hs; exact hs.elim
    | fuel => rw [hr] at hs; exact hs.elim

/-- C61. The model of `AlignedVec` used by all other properties is the default methods applied to this implementation. -/
theorem C61_aligned_vec_methods (C : Cfg) (L : Layout) (len c : Nat) (data : Nat → Cell) (s : Sto) :
    (alignedVecImpl C).withCapacity c = Sto.withCapacity C c ∧
    (alignedVecImpl C).pushSlice L len data s = Sto.pushSlice C L len data s ∧
    (alignedVecImpl C).pushEmptySlice L len s = Sto.pushEmptySlice C L len s ∧
    (alignedVecImpl C).alignFor L s = Sto.alignFor C L s ∧ (alignedVecImpl C).alignAfter L s = Sto.alignAfter C L s ∧
    (alignedVecImpl C).alignAfterAny s = Sto.alignAfterAny C s ∧ (alignedVecImpl C).clear s = Sto.clear C s :=
  ⟨rfl, rfl, rfl, rfl, rfl, rfl, rfl⟩

/-! ### Another conforming implementation -/

/-- A storage of a user: memory in chunks that are never moved. When the current chunk has no room, `reserve` opens a new one and continues there, so
that it alters the position. Positions number the bytes of all chunks consecutively. (A hypothetical implementation, not part of /repo: it only
shows that the contract admits implementations other than `AlignedVec`, including ones whose `reserve` alters `pos`, storage/mod.rs:276.) -/
structure Chunked where
  cap : Nat
  pos : Nat
  mem : Mem

/-- The methods of the hypothetical storage. -/
def chunkedImpl (C : Cfg) : StorageImpl Chunked where
  C := C
  new := ⟨0, 0, fun _ => none⟩
  withCapacityUnchecked c := fun _ => .ok () ⟨c, 0, fun _ => none⟩
  capacity s := s.cap
  pos s := s.pos
  setPos p := fun s =>
    -- an implementation may rely on the safety contract of `set_pos`: outside it, anything can happen
    if p ≤ s.cap ∧ C.valueAlign ∣ p then .ok () { s with pos := p } else .ub
  pushSliceUnchecked L len data size := fun s =>
    if s.pos + size ≤ s.cap ∧ L.align ∣ s.pos ∧ size = L.size * len then
      .ok () { s with pos := s.pos + size, mem := s.mem.blit s.pos size data } else .ub
  reserve n := fun s =>
    if s.pos + n ≤ s.cap then .ok () s
    else if s.cap + roundUp n C.maxValueAlign ≤ C.maxCapacity then
      .ok () { s with pos := s.cap, cap := s.cap + roundUp n C.maxValueAlign }
    else .panic .capacity s
  shrinkToFit := fun s => .ok () { s with cap := roundUp s.pos C.maxValueAlign }

/-- C61. The chunked storage keeps the contract. -/
theorem C61_chunked {C : Cfg} (hC : C.OK) :
    (chunkedImpl C).Conforms (fun s => s.pos ≤ s.cap ∧ s.cap ≤ C.maxCapacity ∧ C.maxValueAlign ∣ s.cap) Chunked.mem where
  arch := hC.arch
  consts := hC.valid
  pos_le _ h := h.1
  cap_le _ h := h.2.1
  cap_dvd _ h := h.2.2
  new := ⟨⟨Nat.le_refl _, Nat.zero_le _, Nat.dvd_zero _⟩, rfl⟩
  withCapacity c _ h1 h2 := Or.inl ⟨_, rfl, ⟨Nat.zero_le _, h1, h2⟩, rfl, Nat.le_refl _⟩
  setPos s p h h1 h2 := ⟨{ s with pos := p }, if_pos ⟨h1, h2⟩, ⟨h1, h.2⟩, rfl, rfl, rfl⟩
  pushSliceUnchecked s L len data h hL hz hal hroom hd hlen := by
    refine ⟨{ s with pos := s.pos + L.size * len, mem := s.mem.blit s.pos (L.size * len) data }, if_pos ⟨hroom, hd, rfl⟩, ⟨hroom, h.2⟩, rfl, rfl, ?_, ?_⟩
    · intro i hi
      show Mem.blit s.mem s.pos (L.size * len) data (s.pos + i) = data i
      rw [Mem.blit, if_pos (by omega), Nat.add_sub_cancel_left]
    · intro i hi
      change i < s.pos at hi
      show Mem.blit s.mem s.pos (L.size * len) data i = s.mem i
      rw [Mem.blit, if_neg (by omega)]
  reserve s n h := by
    have F := hC.facts
    have hge := le_roundUp n F.mva.pos
    by_cases h1 : s.pos + n ≤ s.cap
    · exact Or.inl ⟨s, if_pos h1, h, h1, Nat.le_refl _, Or.inl rfl, fun _ _ => rfl⟩
    · by_cases h2 : s.cap + roundUp n C.maxValueAlign ≤ C.maxCapacity
      · refine Or.inl ⟨{ s with pos := s.cap, cap := s.cap + roundUp n C.maxValueAlign }, (if_neg h1).trans (if_pos h2),
          ⟨Nat.le_add_right _ _, h2, Nat.dvd_add h.2.2 (dvd_roundUp _ _)⟩, ?_, Nat.le_add_right _ _, Or.inr ⟨h.1, h.2.2⟩, fun _ _ => rfl⟩
        show s.cap + n ≤ s.cap + roundUp n C.maxValueAlign
        omega
      · exact Or.inr (Or.inl ⟨s, (if_neg h1).trans (if_neg h2), h, rfl, Nat.le_refl _, fun _ _ => rfl⟩)
  shrinkToFit s h _ := by
    have F := hC.facts
    have hle := roundUp_le_of_dvd F.mva.pos h.1 h.2.2
    exact Or.inl ⟨{ s with cap := roundUp s.pos C.maxValueAlign }, rfl,
      ⟨le_roundUp _ F.mva.pos, Nat.le_trans hle h.2.1, dvd_roundUp _ _⟩, rfl, hle, fun _ _ => rfl⟩

/-! ### The limits of the contract -/

/-- C61, finding. `push_empty` itself breaks the safety contract of `set_pos` when the size of `T` is not a multiple of `VALUE_ALIGNMENT`: it passes
a position that is not a multiple of it (storage/mod.rs:359 against 241). So there is a correct `Storage` implementation — the chunked one above, whose
`set_pos` relies on its documented contract — on which the safe call `push_empty::<u32>()` has undefined behaviour (`VALUE_ALIGNMENT` 8). -/
theorem C61_push_empty_breaks_contract :
    ∃ C : Cfg, C.OK ∧ ∃ Inv content, (chunkedImpl C).Conforms Inv content ∧ (chunkedImpl C).pushEmpty ⟨4, 4⟩ (chunkedImpl C).new = .ub :=
  ⟨cfg64, cfg64_ok, _, _, C61_chunked cfg64_ok, Out.eq_ub (by decide +kernel)⟩

/-- A hypothetical storage whose `reserve` moves the position forward by `VALUE_ALIGNMENT` only. -/
def skippingImpl (C : Cfg) : StorageImpl Chunked :=
  { chunkedImpl C with
    pushSliceUnchecked := fun _ _ data size => fun s => .ok () { s with pos := s.pos + size, mem := s.mem.blit s.pos size data }
    reserve := fun n => fun s =>
      .ok () { s with pos := s.pos + C.valueAlign, cap := s.cap + roundUp (C.valueAlign + n) C.maxValueAlign } }

/-- C61, finding. The comment "`reserve` is allowed to alter `pos`" (storage/mod.rs:276) must be read with the restriction in `Conforms`: a `reserve`
that moves the position to a multiple of `VALUE_ALIGNMENT` but not of `MAX_VALUE_ALIGNMENT` makes `push` return a misaligned position (here 8 for a
type of alignment 16), because `push_slice` aligns before it reserves. -/
theorem C61_reserve_must_align :
    ∃ s', (skippingImpl cfg64).push ⟨16, 16⟩ (fun _ => some 7) (skippingImpl cfg64).new = .ok 8 s' :=
  ⟨_, rfl⟩

/-! ### Concrete histories -/

/-- Five bytes, then nine bytes that do not fit in the rest of the first chunk: they go to the start of the second, at 16. -/
theorem chunked_hist : ∃ s, KHist (chunkedImpl cfg64)
    ([] ++ ⟨.pushSlice ⟨1, 1⟩ 5 (fun i => some (UInt8.ofNat i)), some 0⟩ ::
      ([] ++ ⟨.pushSlice ⟨1, 1⟩ 9 (fun _ => some 9), some 16⟩ :: [])) s := by
  have hleg : ∀ (s : Chunked) (n : Nat) (d : Nat → Cell), n ≤ 9 → (KOp.pushSlice ⟨1, 1⟩ n d).Legal (chunkedImpl cfg64) s := by
    intro s n d hn
    refine ⟨⟨⟨0, rfl⟩, Nat.dvd_refl _⟩, fun _ => rfl, ?_, Or.inr (Or.inr (Or.inr rfl))⟩
    have : 9 ≤ (chunkedImpl cfg64).C.arch.isizeMax := by decide
    simp only; omega
  exact ⟨_, .ok (es := [⟨.pushSlice ⟨1, 1⟩ 5 (fun i => some (UInt8.ofNat i)), some 0⟩])
    (.ok .new (hleg _ 5 _ (by decide)) rfl) (hleg _ 9 _ (by decide)) rfl⟩

example : ∃ s : Chunked, (∀ i < 1 * 5, s.mem (0 + i) = some (UInt8.ofNat i)) ∧ (∀ i < 1 * 9, s.mem (16 + i) = some 9) ∧ 0 + 1 * 5 ≤ 16 := by
  obtain ⟨s, hs⟩ := chunked_hist
  refine ⟨s, ?_, ?_, ?_⟩
  · exact (C61_durable (C61_chunked cfg64_ok) hs (by decide) (by intro e he; simp at he; subst he; simp)).2.2
  · exact (C61_durable (C61_chunked cfg64_ok) (pre := [_]) (post := []) hs (by decide) (by intro e he; cases he)).2.2
  · exact C61_disjoint (C61_chunked cfg64_ok) hs (by decide) (by decide) (by intro e he; cases he)

end SerRaw
