import Verif.Lemmas.Catching
import Verif.Lemmas.SharedHeap
/-
A storage on a heap with blocks of others: what implementations that catch panics need of it (`Housing`, Lemmas/Catching.lean).
-/
namespace SerRaw

open StepRel.Holds

/-! ### Writes keep the blocks where they are -/

/-- The same block, with other contents. -/
def Block.Same (b c : Block) : Prop := c.addr = b.addr ∧ c.size = b.size ∧ c.align = b.align

/-- The same blocks, with other contents. -/
abbrev SameBlocks (l l' : List Block) : Prop := List.Forall₂ Block.Same l l'

theorem SameBlocks.refl (l : List Block) : SameBlocks l l := by
  induction l with
  | nil => exact .nil
  | cons b l ih => exact .cons ⟨rfl, rfl, rfl⟩ ih

theorem SameBlocks.trans {l1 l2 l3 : List Block} (h : SameBlocks l1 l2) (h' : SameBlocks l2 l3) : SameBlocks l1 l3 := by
  induction h generalizing l3 with
  | nil => exact h'
  | cons h _ ih =>
    cases h' with
    | cons g h' => exact .cons ⟨g.1.trans h.1, g.2.1.trans h.2.1, g.2.2.trans h.2.2⟩ (ih h')

theorem SameBlocks.mem {l l' : List Block} (h : SameBlocks l l') {c : Block} (hc : c ∈ l') : ∃ b ∈ l, b.Same c := by
  induction h with
  | nil => cases hc
  | @cons b c' l l' h _ ih =>
    rcases List.mem_cons.1 hc with rfl | hc
    · exact ⟨b, List.mem_cons_self, h⟩
    · obtain ⟨b', hb', h'⟩ := ih hc
      exact ⟨b', List.mem_cons_of_mem _ hb', h'⟩

theorem sameBlocks_write (a n : Nat) (d : Nat → Cell) (l : List Block) : SameBlocks l (writeLive a n d l) := by
  induction l with
  | nil => exact .nil
  | cons b l ih =>
    unfold writeLive
    split
    · exact .cons ⟨rfl, rfl, rfl⟩ (SameBlocks.refl l)
    · exact .cons ⟨rfl, rfl, rfl⟩ ih

theorem Mix.same {w F l : List Block} (h : Mix w F l) {l' : List Block} (hs : SameBlocks l l') :
    ∃ w' F', Mix w' F' l' ∧ SameBlocks w w' ∧ SameBlocks F F' := by
  induction h generalizing l' with
  | nil => cases hs; exact ⟨[], [], .nil, .nil, .nil⟩
  | own _ ih =>
    cases hs with
    | cons h hs =>
      obtain ⟨w', F', h1, h2, h3⟩ := ih hs
      exact ⟨_, _, .own h1, .cons h h2, h3⟩
  | other _ ih =>
    cases hs with
    | cons h hs =>
      obtain ⟨w', F', h1, h2, h3⟩ := ih hs
      exact ⟨_, _, .other h1, h2, .cons h h3⟩

section
variable {C : Cfg} {k : Kind}

/-- The storage is where it was, and so are all blocks. -/
def placeSto : StepRel Sto where
  R s t := t.vec = s.vec ∧ SameBlocks s.w.live t.w.live
  refl s := ⟨rfl, SameBlocks.refl _⟩
  trans h1 h2 := ⟨h2.1.trans h1.1, h1.2.trans h2.2⟩

/-- The same for a serializer. -/
def placeSer : StepRel Ser where
  R s t := t.sto.vec = s.sto.vec ∧ SameBlocks s.sto.w.live t.sto.w.live
  refl s := ⟨rfl, SameBlocks.refl _⟩
  trans h1 h2 := ⟨h2.1.trans h1.1, h1.2.trans h2.2⟩

theorem place_memWrite (a al n : Nat) (d : Nat → Cell) : placeSto.Holds (memWrite a al n d) := by
  intro s
  unfold memWrite
  split
  · trivial
  · split
    · exact placeSto.refl s
    · split
      · exact ⟨rfl, sameBlocks_write _ _ _ _⟩
      · trivial

theorem place_ptrAdd (p off : Nat) : placeSto.Holds (ptrAdd p off) := by
  intro s
  unfold ptrAdd
  split
  · exact placeSto.refl s
  · split
    · exact placeSto.refl s
    · trivial

theorem place_write (p : Nat) (L : Layout) (d : Nat → Cell) : placeSto.Holds (Sto.write C p L d) := by
  unfold Sto.write Sto.writeSlice
  refine h_bind (fun s => placeSto.refl s) fun _ => h_bind (h_debugAssert _ _) fun _ =>
    h_bind (h_debugAssertM _ (h_bind (h_usub _ _ _) fun _ => h_bind (h_umul _ _ _) fun _ => h_pure _)) fun _ =>
    h_bind (h_debugAssertM _ (h_isAlignedTo _ _ _)) fun _ => h_ite (h_pure _) ?_
  exact h_bind (fun s => placeSto.refl s) fun _ => h_bind (place_ptrAdd _ _) fun _ => place_memWrite _ _ _ _

theorem place_lift {α : Type} {x : M Sto α} (h : placeSto.Holds x) : placeSer.Holds (Ser.lift x) := by
  intro s
  have h := h s.sto
  unfold Ser.lift
  cases hx : x s.sto with
  | ok a t => rw [hx] at h; exact ⟨h.1, h.2⟩
  | panic k t => rw [hx] at h; exact ⟨h.1, h.2⟩
  | _ => trivial

theorem place_getMap : placeSer.Holds Ser.getMap := fun s => placeSer.refl s
theorem place_getCapacity : placeSer.Holds Ser.getCapacity := fun s => placeSer.refl s
theorem place_setMap (m : PosMapping) : placeSer.Holds (Ser.setMap m) := fun s => ⟨rfl, SameBlocks.refl _⟩

theorem place_overwritePtr (p q : Nat) : placeSer.Holds (overwritePtr C k p q) := by
  unfold overwritePtr
  cases k with
  | pureCopy => exact h_pure _
  | posTracking => exact h_pure _
  | ptrOffset =>
    exact h_bind place_getCapacity fun _ => h_bind (h_debugAssertM _ (h_bind (h_usub _ _ _) fun _ => h_pure _)) fun _ =>
      h_bind (h_debugAssertM _ (h_isAlignedTo _ _ _)) fun _ => h_bind (h_debugAssert _ _) fun _ => place_lift (place_write _ _ _)
  | complete =>
    exact h_bind place_getCapacity fun _ => h_bind (h_debugAssertM _ (h_bind (h_usub _ _ _) fun _ => h_pure _)) fun _ =>
      h_bind (h_debugAssertM _ (h_isAlignedTo _ _ _)) fun _ => h_bind (h_debugAssert _ _) fun _ => h_bind (fun s => placeSer.refl s) fun _ =>
      h_bind (h_uadd _ _ _) fun _ => h_bind (place_lift (place_write _ _ _)) fun _ => fun s => ⟨rfl, SameBlocks.refl _⟩

theorem place_overwriteWith (a : Nat) (L : Layout) (d : Nat → Cell) : placeSer.Holds (overwriteWith k (SerRaw.overwrite C k a L d)) := by
  cases k with
  | complete => exact h_bind place_getMap fun _ => h_bind (h_posForAddr _ _ _) fun _ => place_lift (place_write _ _ _)
  | _ => exact h_pure _

theorem place_link (ptr pos : Nat) : placeSer.Holds (link C k ptr pos) := by
  cases k with
  | pureCopy => exact h_pure _
  | posTracking => exact h_pure _
  | ptrOffset => exact h_bind place_getMap fun _ => h_bind (h_posForAddr _ _ _) fun _ => place_overwritePtr _ _
  | complete => exact h_bind place_getMap fun _ => h_bind (h_posForAddr _ _ _) fun _ => place_overwritePtr _ _

theorem place_enter (sl : Slice) (ptr : Nat) (b : PosMapping) (pos : Nat) : placeSer.Holds (enter C k sl ptr b pos) := by
  cases k with
  | pureCopy => exact h_pure _
  | posTracking => exact place_setMap _
  | ptrOffset => exact h_bind (h_posForAddr _ _ _) fun _ => h_bind (place_overwritePtr _ _) fun _ => place_setMap _
  | complete => exact h_bind (h_posForAddr _ _ _) fun _ => h_bind (place_overwritePtr _ _) fun _ => place_setMap _

/-! ### A storage among blocks of others -/

/-- Consistent, among blocks of others that the allocator will not hand out. -/
def Housed (C : Cfg) (s : Sto) : Prop := ∃ F t, Among F s t ∧ t.Inv C ∧ FreshFor F C.alloc

theorem Housed.same {s s' : Sto} (h : Housed C s) (hv : s'.vec = s.vec) (hs : SameBlocks s.w.live s'.w.live) : Housed C s' := by
  obtain ⟨F, t, ham, hI, hf⟩ := h
  obtain ⟨w', F', h1, h2, h3⟩ := ham.mix.same hs
  refine ⟨F', ⟨t.vec, ⟨w', 0⟩⟩, ⟨hv.trans ham.vec, h1, fun b hb f hf => ?_, fun b hb => ?_, fun f hf => ?_⟩, ⟨⟨hI.pos_le, hI.cap_le, hI.cap_dvd, ?_⟩, hI.pos_dvd⟩,
    fun n L h0 f hm => ?_⟩
  · obtain ⟨b0, hb0, e1, e2, _⟩ := h2.mem hb
    obtain ⟨f0, hf0, e3, e4, _⟩ := h3.mem hf
    have := ham.apart b0 hb0 f0 hf0
    unfold Block.Apart at this ⊢
    rw [e1, e2, e3, e4]; exact this
  · obtain ⟨b0, hb0, _, e2, _⟩ := h2.mem hb
    rw [e2]; exact ham.size b0 hb0
  · obtain ⟨b0, hb0, _, e2, _⟩ := h3.mem hf
    rw [e2]; exact ham.others b0 hb0
  · rcases hI.mem with ⟨g1, g2, g3⟩ | ⟨g1, g2, g3, g4, d, g5⟩
    · rw [g3] at h2; cases h2; exact .inl ⟨g1, g2, rfl⟩
    · rw [g5] at h2
      cases h2 with
      | @cons _ c _ _ e h2 =>
        cases h2
        obtain ⟨c1, c2, c3, c4⟩ := c
        obtain ⟨e1, e2, e3⟩ := e
        simp only at e1 e2 e3
        subst e1 e2 e3
        exact .inr ⟨g1, g2, g3, g4, c4, rfl⟩
  · obtain ⟨f0, hf0, e1, e2, _⟩ := h3.mem hm
    have := hf n L h0 f0 hf0
    unfold Block.Apart at this ⊢
    rw [e1, e2]; exact this

/-- Its own block is on the heap. -/
theorem Housed.block {s : Sto} (h : Housed C s) (h0 : 0 < s.vec.capacity) :
    s.vec.ptr ≠ 0 ∧ C.storageAlign ∣ s.vec.ptr ∧ ∃ b ∈ s.w.live, b.addr = s.vec.ptr ∧ b.size = s.vec.capacity := by
  obtain ⟨F, t, ham, hI, hf⟩ := h
  rcases hI.mem with ⟨g1, _⟩ | ⟨g1, g2, g3, g4, d, g5⟩
  · rw [ham.vec] at h0; omega
  · rw [ham.vec]
    refine ⟨g2, g3, ⟨t.vec.ptr, t.vec.capacity, C.storageAlign, d⟩, (ham.mix.mem_iff _).2 (.inl ?_), rfl, rfl⟩
    rw [g5]; exact List.mem_cons_self

/-- The numbers. -/
structure Sto.Num (C : Cfg) (s : Sto) : Prop where
  pos_le : s.vec.pos ≤ s.vec.capacity
  cap_le : s.vec.capacity ≤ C.maxCapacity
  cap_dvd : C.maxValueAlign ∣ s.vec.capacity
  pos_dvd : C.valueAlign ∣ s.vec.pos

theorem Housed.num {s : Sto} (h : Housed C s) : s.Num C := by
  obtain ⟨F, t, ham, hI, hf⟩ := h
  have e := ham.vec
  exact ⟨by rw [e]; exact hI.pos_le, by rw [e]; exact hI.cap_le, by rw [e]; exact hI.cap_dvd, by rw [e]; exact hI.pos_dvd⟩

theorem Housed.at {s : Sto} (h : Housed C s) {p : Nat} (hp : p ≤ s.vec.capacity) (hd : C.valueAlign ∣ p) : Housed C (s.at p) := by
  obtain ⟨F, t, ham, hI, hf⟩ := h
  have e := ham.vec
  refine ⟨F, t.at p, ⟨?_, ham.mix, ham.apart, ham.size, ham.others⟩, hI.at (by rw [← e]; exact hp) hd, hf⟩
  show ({ s.vec with pos := p } : AVec) = { t.vec with pos := p }
  rw [e]

theorem Sto.Num.align_ok (F : C.Facts) {s : Sto} (h : s.Num C) {a : Nat} (ha : Pow2 a) (h1 : C.valueAlign ≤ a) (h2 : a ≤ C.maxValueAlign) :
    Sto.align C a s = .ok () (s.at (roundUp s.vec.pos a)) := by
  have hdv : a ∣ s.vec.capacity := Nat.dvd_trans (ha.dvd_of_le F.mva h2) h.cap_dvd
  have := F.max_lt; have := h.pos_le; have := h.cap_le; have := F.mva_le
  unfold Sto.align
  rw [bind_ok (debugAssert_true _ (decide_eq_true h1) s), bind_ok (debugAssert_true _ (decide_eq_true h2) s),
    bind_ok (debugAssert_true _ (isPow2_iff.2 ha) s), bind_ok (show Sto.getPos s = .ok s.vec.pos s from rfl),
    bind_ok (alignUpTo_ok ha (by omega) s)]
  exact setPos_ok F (roundUp_le_of_dvd ha.pos h.pos_le hdv)
    (Nat.dvd_trans (F.va.dvd_of_le ha h1) (dvd_roundUp _ _))

theorem Sto.Num.alignFor_ok (F : C.Facts) {s : Sto} (h : s.Num C) {L : Layout} (ha : Pow2 L.align) (h2 : L.align ≤ C.maxValueAlign) :
    Sto.alignFor C L s = .ok () (s.at (roundUp s.vec.pos L.align)) := by
  unfold Sto.alignFor
  split
  · exact h.align_ok F ha (by omega) h2
  · rw [roundUp_small ha F.va (by omega) h.pos_dvd]; rfl

theorem Sto.Num.room (F : C.Facts) {s : Sto} (h : s.Num C) {a : Nat} (ha : Pow2 a) (h2 : a ≤ C.maxValueAlign) :
    roundUp s.vec.pos a ≤ s.vec.capacity := roundUp_le_of_dvd ha.pos h.pos_le (Nat.dvd_trans (ha.dvd_of_le F.mva h2) h.cap_dvd)

theorem Sto.Num.at {s : Sto} (h : s.Num C) {p : Nat} (hp : p ≤ s.vec.capacity) (hd : C.valueAlign ∣ p) : (s.at p).Num C := ⟨hp, h.cap_le, h.cap_dvd, hd⟩

theorem Sto.Num.reserve_overflow (hC : C.OK) {s : Sto} (h : s.Num C) {n : Nat} (hn : C.maxCapacity < s.vec.pos + n) :
    Sto.reserve C n s = .panic .capacity s := by
  have F := hC.facts
  have hp := h.pos_le; have hc := h.cap_le; have hm := F.max_lt
  unfold Sto.reserve
  rw [bind_ok (show Sto.getCapacity s = .ok s.vec.capacity s from rfl),
    bind_ok (show Sto.getPos s = .ok s.vec.pos s from rfl)]
  have hw : wrappingSub C.arch s.vec.capacity s.vec.pos = s.vec.capacity - s.vec.pos := by
    unfold wrappingSub
    rw [show s.vec.capacity + C.arch.usizeMod - s.vec.pos = (s.vec.capacity - s.vec.pos) + C.arch.usizeMod by omega,
      Nat.add_mod_right, Nat.mod_eq_of_lt (by omega)]
  simp only [hw]
  rw [if_pos (by omega)]
  unfold Sto.growForReserve
  rw [bind_ok (debugAssert_true _ (decide_eq_true (by omega : n > 0)) s),
    bind_ok (show Sto.getPos s = .ok s.vec.pos s from rfl), bind_def]
  simp only [M.assert]
  split
  · rename_i a s' he
    split at he
    · rename_i hlt
      simp only [Out.ok.injEq] at he
      obtain ⟨_, rfl⟩ := he
      have h1 := nextPow2_lt F.max_pos
      have hmod : nextPow2 C.maxCapacity < C.arch.usizeMod := by
        have := nextPow2_le (n := C.maxCapacity) F.isize_pow (by have := F.max_le; have := F.sa.pos; omega)
        have := F.isize_lt; omega
      rw [bind_ok (show unextPow2 C.arch C.maxCapacity s = .ok (nextPow2 C.maxCapacity) s by simp [unextPow2, hmod])]
      rw [if_pos (by omega)]
      have e : (M.assert .capacity (decide (s.vec.pos + n ≤ C.maxCapacity)) : M Sto Unit) s = .panic .capacity s := by
        simp [M.assert]; omega
      simp only [bind_def, e]
    · simp at he
  · rename_i he
    split at he
    · simp at he
    · simp only [Out.panic.injEq] at he
      obtain ⟨rfl, rfl⟩ := he; rfl
  all_goals (rename_i he; split at he <;> simp at he)

/-- Pushing no elements only aligns. -/
theorem Housed.pushNone (hC : C.OK) {L : Layout} {s : Sto} (h : Housed C s) (hz : L.size ≠ 0) (ha : Pow2 L.align) (hal : L.align ≤ C.maxValueAlign)
    (hpos : 0 < s.vec.pos) (data : Nat → Cell) :
    Sto.pushSlice C L 0 data s = .ok (roundUp s.vec.pos L.align) (s.at (roundUp s.vec.pos L.align)) := by
  have F := hC.facts
  have hN := h.num
  have hru := hN.room F ha hal
  have hvd := va_dvd_roundUp F ha hN.pos_dvd
  have hm := F.max_lt; have hc := hN.cap_le
  have hp := hN.pos_le
  obtain ⟨h2, h3, b, hb, hb1, hb2⟩ := h.block (by omega)
  unfold Sto.pushSlice
  rw [if_neg hz, bind_ok (hN.alignFor_ok F ha hal)]
  generalize hq : roundUp s.vec.pos L.align = q at *
  have hI : (s.at q).Num C := hN.at hru hvd
  rw [bind_ok (umul_ok _ (by have := F.isize_lt; omega) _)]
  have hres : Sto.reserve C (L.size * 0) (s.at q) = .ok () (s.at q) := by
    unfold Sto.reserve
    rw [bind_ok (show Sto.getCapacity (s.at q) = .ok s.vec.capacity (s.at q) from rfl),
      bind_ok (show Sto.getPos (s.at q) = .ok q (s.at q) from rfl)]
    simp only [Nat.mul_zero]
    rw [if_neg (Nat.not_lt_zero _)]
    rfl
  rw [bind_ok hres, bind_ok (show Sto.getPos (s.at q) = .ok q (s.at q) from rfl)]
  have hw : Sto.writeSlice C q L 0 data (s.at q) = .ok () (s.at q) := by
    unfold Sto.writeSlice
    rw [bind_ok (show Sto.getCapacity (s.at q) = .ok s.vec.capacity (s.at q) from rfl),
      bind_ok (debugAssert_true _ (decide_eq_true hru) _), bind_ok (debugAssertM_ok _ ?_), bind_ok (debugAssertM_ok _ ?_), if_neg hz,
      bind_ok (show Sto.getPtr (s.at q) = .ok s.vec.ptr (s.at q) from rfl)]
    · have hadd : ptrAdd s.vec.ptr q (s.at q) = .ok (s.vec.ptr + q) (s.at q) := by
        unfold ptrAdd
        split
        · rename_i h0; rw [h0]; rfl
        · rw [if_pos]
          refine List.any_eq_true.2 ⟨b, hb, ?_⟩
          simp [Block.contains, hb1, hb2, hru]
      rw [bind_ok hadd]
      unfold memWrite
      rw [if_neg, if_pos (Nat.mul_zero _)]
      rintro (h6 | h6)
      · omega
      · refine h6 (Nat.mod_eq_zero_of_dvd ?_)
        refine Nat.dvd_add (Nat.dvd_trans (ha.dvd_of_le F.sa (Nat.le_trans hal F.mva_le)) h3) (hq ▸ dvd_roundUp _ _)
    · intro _; rw [isAlignedTo_ok ha, decide_eq_true (hq ▸ dvd_roundUp _ _)]
    · intro _
      rw [bind_ok (usub_ok _ (by omega) _), bind_ok (umul_ok _ (by have := F.isize_lt; omega) _)]; simp
  have run : Sto.pushSliceUnchecked C L 0 data (L.size * 0) (s.at q) = .ok () (s.at q) := by
    unfold Sto.pushSliceUnchecked
    rw [bind_ok (show Sto.getCapacity (s.at q) = .ok s.vec.capacity (s.at q) from rfl),
      bind_ok (show Sto.getPos (s.at q) = .ok q (s.at q) from rfl),
      bind_ok (debugAssertM_ok _ ?_), bind_ok (debugAssertM_ok _ ?_), bind_ok (debugAssertM_ok _ ?_), if_neg hz,
      bind_ok hw, bind_ok (uadd_ok _ (by omega) _)]
    · rfl
    · intro _; rw [isAlignedTo_ok ha, decide_eq_true (hq ▸ dvd_roundUp _ _)]
    · intro _
      rw [bind_ok (umul_ok _ (by have := F.isize_lt; omega) _)]; simp
    · intro _
      rw [bind_ok (usub_ok _ (by omega) _)]; simp
  have hafter : Sto.alignAfter C L (s.at q) = .ok () (s.at q) := by
    unfold Sto.alignAfter
    split
    · unfold Sto.alignAfterAny
      rw [hI.align_ok F F.va (Nat.le_refl _) F.va_le, Sto.at_at, Sto.at_pos, roundUp_eq_of_dvd F.va.pos hvd]
    · rfl
  rw [bind_ok run, bind_ok hafter]
  rfl

theorem Housed.push (hC : C.OK) {L : Layout} {len src : Nat} (ho : PushOK C L len src) {s : Ser} (h : Housed C s.sto)
    (hne : 0 < len ∨ 0 < s.sto.vec.pos) (data : Nat → Cell) :
    (∃ p t, Ser.lift (Sto.pushSlice C L len data) s = .ok p { s with sto := t } ∧ PushedTo C (Housed C) s.sto L len p t ∧
      roundUp s.sto.vec.pos L.align + L.size * len ≤ C.maxCapacity) ∨
    (Ser.lift (Sto.pushSlice C L len data) s = .panic .capacity { s with sto := s.sto.at (roundUp s.sto.vec.pos L.align) } ∧
      ¬ roundUp s.sto.vec.pos L.align + L.size * len ≤ C.maxCapacity) ∨
    Ser.lift (Sto.pushSlice C L len data) s = .abort := by
  have F := hC.facts
  have hN := h.num
  by_cases hfit : C.maxCapacity < roundUp s.sto.vec.pos L.align + L.size * len
  · refine .inr (.inl ⟨?_, Nat.not_le.2 hfit⟩)
    have e : Sto.pushSlice C L len data s.sto = .panic .capacity (s.sto.at (roundUp s.sto.vec.pos L.align)) := by
      unfold Sto.pushSlice
      rw [if_neg ho.size_ne, bind_ok (hN.alignFor_ok F ho.pow2 ho.align_le),
        bind_ok (umul_ok _ (by have := F.isize_lt; have := ho.size_le; omega) _), bind_def,
        (hN.at (hN.room F ho.pow2 ho.align_le) (va_dvd_roundUp F ho.pow2 hN.pos_dvd)).reserve_overflow hC hfit]
    unfold Ser.lift
    rw [e]
  · obtain ⟨Fs, t, ham, hI, hf⟩ := h
    have hI' : (⟨t.vec, ⟨t.w.live, s.sto.w.calls⟩⟩ : Sto).Inv C := ⟨⟨hI.pos_le, hI.cap_le, hI.cap_dvd, hI.mem⟩, hI.pos_dvd⟩
    have ham' : Among Fs s.sto ⟨t.vec, ⟨t.w.live, s.sto.w.calls⟩⟩ := ⟨ham.vec, ham.mix, ham.apart, ham.size, ham.others⟩
    have hcalls : (⟨t.vec, ⟨t.w.live, s.sto.w.calls⟩⟩ : Sto).w.calls = s.sto.w.calls := rfl
    generalize (⟨t.vec, ⟨t.w.live, s.sto.w.calls⟩⟩ : Sto) = u at ham' hI' hcalls
    have hsat := pushSlice_sat hC hI' data ho.size_ne ho.pow2 ho.align_le
      (hne.imp_right fun hp => Or.inl (Nat.lt_of_lt_of_le (by rw [ham'.vec] at hp; exact hp) hI'.pos_le)) ho.size_le
    have hrel := (iso_pushSlice (C := C) (o' := C.alloc) hf L len data).2 s.sto u ham' fun n _ => by show C.alloc (s.sto.w.calls + n) = C.alloc (u.w.calls + n); rw [hcalls]
    rw [show C.withAlloc C.alloc = C from rfl] at hrel
    unfold Ser.lift
    cases hy : Sto.pushSlice C L len data u with
    | ok p t' =>
      rw [hy] at hsat hrel
      cases hx : Sto.pushSlice C L len data s.sto with
      | ok p' s' =>
        rw [hx] at hrel
        obtain ⟨rfl, h1, _⟩ := hrel
        refine .inl ⟨_, s', rfl, ⟨⟨Fs, t', h1, hsat.inv, hf⟩, by rw [ham'.vec]; exact hsat.pos_eq, by rw [h1.vec]; exact hsat.end_eq, ?_⟩, Nat.le_of_not_lt hfit⟩
        rw [h1.vec]
        exact PushSpec.pos_pos (src := src) hC ho hsat (by rw [← ham'.vec]; exact hne)
      | _ => rw [hx] at hrel; exact hrel.elim
    | panic pk t' =>
      rw [hy] at hsat
      obtain ⟨_, _, h3⟩ := hsat
      rw [← ham'.vec] at h3
      exact (hfit h3).elim
    | abort =>
      rw [hy] at hrel
      cases hx : Sto.pushSlice C L len data s.sto with
      | abort => exact .inr (.inr rfl)
      | _ => rw [hx] at hrel; exact hrel.elim
    | ub => rw [hy] at hsat; exact hsat.elim
    | fuel => rw [hy] at hsat; exact hsat.elim

theorem Housing.shared (hC : C.OK) (k : Kind) : Housing C k (Housed C) where
  push ho h hne data := h.push hC ho hne data
  none ho h hpos data := by
    have F := hC.facts
    exact ⟨h.pushNone hC ho.size_ne ho.pow2 ho.align_le hpos _,
      h.at (h.num.room F ho.pow2 ho.align_le) (va_dvd_roundUp F ho.pow2 h.num.pos_dvd)⟩
  over {a L d u s s1} e h := by
    have := place_overwriteWith (C := C) (k := k) a L d s
    rw [e] at this
    exact h.same this.1 this.2
  link {ptr pos u s s1} e h := by
    have := place_link (C := C) (k := k) ptr pos s
    rw [e] at this
    exact h.same this.1 this.2
  enter {sl ptr b pos u s s1} e h := by
    have := place_enter (C := C) (k := k) sl ptr b pos s
    rw [e] at this
    exact h.same this.1 this.2

end
end SerRaw
