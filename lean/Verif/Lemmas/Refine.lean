import Verif.Lemmas.Storage
import Verif.Lemmas.Words
import Verif.Spec.Ideal
import Verif.Spec.Discipline
/-
Refinement: running a well-formed script on a concrete serializer (a buffer that moves, pointer groups, position mapping,
debug checks) gives the reference output of `Script.ideal`, up to relocation of recorded pointers.
-/
namespace SerRaw

/-! ### Pointer records -/

/-- All recorded pointers, oldest first: (buffer address when written, position). -/
def Ptrs.entries (p : Ptrs) : List (Nat × Nat) :=
  (p.past ++ [p.current]).flatMap fun g => g.positions.map fun x => (g.addr, x)

theorem entries_new : Ptrs.new.entries = [] := rfl

theorem entries_record (p : Ptrs) (a x : Nat) : (recordPtr p a x).entries = p.entries ++ [(a, x)] := by
  unfold recordPtr newPtrGroup Ptrs.entries PtrGroup.pushPos
  by_cases h1 : a ≠ p.current.addr
  · by_cases h2 : p.current.isEmpty
    · have h3 : p.current.positions = [] := by
        unfold PtrGroup.isEmpty at h2; simpa using h2
      simp [h1, h2, PtrGroup.setAddr, h3]
    · simp [h1, h2, PtrGroup.new]
  · have : a = p.current.addr := by simpa using h1
    simp [this]

/-! ### Well-formed scripts (Spec/Discipline.lean) -/

/-- `n` bytes at `x` are inside the allocation. -/
structure InCtx (c : Ctx) (x n : Nat) : Prop where
  lo : c.ia ≤ x
  hi : x + n ≤ c.ia + c.sz

theorem Script.WF.touchOK {C : Cfg} {sc : Script} {c : Ctx} (h : sc.WF C c) :
    ∀ t ∈ sc.touch C.arch, InCtx c t.1 t.2 := by
  induction sc with
  | done => simp [Script.touch]
  | pushProcess L len src ptr inner rest _ ih =>
    obtain ⟨_, h1, _, _, h2⟩ := h
    intro t ht; simp only [Script.touch, List.mem_cons] at ht
    rcases ht with rfl | ht
    · exact ⟨h1.lo, h1.hi⟩
    · exact ih h2 t ht
  | push L len src ptr rest ih =>
    obtain ⟨_, h1, _, h2⟩ := h
    intro t ht; simp only [Script.touch, List.mem_cons] at ht
    rcases ht with rfl | ht
    · exact ⟨h1.lo, h1.hi⟩
    · exact ih h2 t ht
  | pushRaw L len src rest ih => exact ih h.2
  | overwrite a L data rest ih =>
    obtain ⟨h1, h2⟩ := h
    intro t ht; simp only [Script.touch, List.mem_cons] at ht
    rcases ht with rfl | ht
    · exact ⟨h1.lo, h1.hi⟩
    · exact ih h2 t ht

/-! ### Reference output: position is monotone -/

theorem ideal_mono {A : Arch} {va : Nat} (hva : 0 < va) {md : Mode} {im : Mem} {C : Cfg} (sc : Script) {c : Ctx} (h : sc.WF C c)
    (ia op : Nat) (st : Mem × Nat) : st.2 ≤ (sc.ideal A va md im ia op st).2 := by
  induction sc generalizing ia op st c with
  | done => exact Nat.le_refl _
  | pushProcess L len src ptr inner rest ih1 ih2 =>
    obtain ⟨ho, _, _, h1, h2⟩ := h
    have e1 := le_roundUp st.2 ho.pow2.pos
    have e2 := le_roundUp (roundUp st.2 L.align + L.size * len) hva
    simp only [Script.ideal]
    refine Nat.le_trans ?_ (ih2 h2 _ _ _)
    refine Nat.le_trans ?_ (ih1 h1 _ _ _)
    simp only; omega
  | push L len src ptr rest ih =>
    obtain ⟨ho, _, _, h2⟩ := h
    have e1 := le_roundUp st.2 ho.pow2.pos
    have e2 := le_roundUp (roundUp st.2 L.align + L.size * len) hva
    simp only [Script.ideal]
    refine Nat.le_trans ?_ (ih h2 _ _ _)
    simp only; omega
  | pushRaw L len src rest ih =>
    obtain ⟨ho, h2⟩ := h
    have e1 := le_roundUp st.2 ho.pow2.pos
    have e2 := le_roundUp (roundUp st.2 L.align + L.size * len) hva
    simp only [Script.ideal]
    refine Nat.le_trans ?_ (ih h2 _ _ _)
    simp only; omega
  | overwrite a L data rest ih =>
    simp only [Script.ideal]
    exact ih h.2 ia op (md.putValue st.1 (outPos ia op a) L.size data, st.2)

theorem putPtr_out {A : Arch} {md : Mode} {m : Mem} {x target i : Nat} (h : i < x ∨ x + A.ptrBytes ≤ i) :
    md.putPtr A m x target i = m i := by
  unfold Mode.putPtr
  cases md.ptrBase with
  | none => rfl
  | some B => exact blit_out h

theorem putValue_out {md : Mode} {m : Mem} {x n i : Nat} {data : Nat → Cell}
    (h : i < x ∨ x + n ≤ i) : md.putValue m x n data i = m i := by
  unfold Mode.putValue; split
  · exact blit_out h
  · rfl

theorem outPos_ge (ia op x : Nat) : op ≤ outPos ia op x := Nat.le_add_right _ _

/-- The reference output never changes below the position of the allocation being processed. -/
theorem ideal_below {C : Cfg} {va : Nat} (hva : 0 < va) {md : Mode} {im : Mem} (sc : Script) {c : Ctx} (h : sc.WF C c)
    (ia op : Nat) (st : Mem × Nat) (ho : op ≤ st.2) {i : Nat} (hi : i < op) :
    (sc.ideal C.arch va md im ia op st).1 i = st.1 i := by
  induction sc generalizing ia op st c with
  | done => rfl
  | pushProcess L len src ptr inner rest ih1 ih2 =>
    obtain ⟨hp, _, _, h1, h2⟩ := h
    have e1 := le_roundUp st.2 hp.pow2.pos
    have e2 := le_roundUp (roundUp st.2 L.align + L.size * len) hva
    have e3 := outPos_ge ia op ptr
    simp only [Script.ideal]
    rw [ih2 h2 _ _ _ (Nat.le_trans (by simp only; omega) (ideal_mono hva inner h1 _ _ _)) hi, ih1 h1 _ _ _ (by simp only; omega) (by omega)]
    simp only
    rw [putPtr_out (by omega), blit_out (by omega)]
  | push L len src ptr rest ih =>
    obtain ⟨hp, _, _, h2⟩ := h
    have e1 := le_roundUp st.2 hp.pow2.pos
    have e2 := le_roundUp (roundUp st.2 L.align + L.size * len) hva
    have e3 := outPos_ge ia op ptr
    simp only [Script.ideal]
    rw [ih h2 _ _ _ (by simp only; omega) hi]
    simp only
    rw [putPtr_out (by omega), blit_out (by omega)]
  | pushRaw L len src rest ih =>
    obtain ⟨hp, h2⟩ := h
    have e1 := le_roundUp st.2 hp.pow2.pos
    have e2 := le_roundUp (roundUp st.2 L.align + L.size * len) hva
    simp only [Script.ideal]
    rw [ih h2 _ _ _ (by simp only; omega) hi]
    simp only
    rw [blit_out (by omega)]
  | overwrite a L data rest ih =>
    have e3 := outPos_ge ia op a
    simp only [Script.ideal]
    rw [ih h.2 _ _ _ (by simp only; omega) hi]
    simp only
    exact putValue_out (by omega)

/-! ### Relation between a concrete serializer and the reference contents -/

/-- `s` holds the reference contents `m` for final buffer address `B`: recorded pointers hold the same target relative
to the buffer address at which they were written, every other byte is equal. -/
structure Rel (C : Cfg) (B : Nat) (s : Ser) (m : Mem) : Prop where
  inv : s.sto.Inv C
  bound : ∀ e ∈ s.ptrs.entries, e.2 + C.arch.ptrBytes ≤ s.sto.vec.pos ∧ C.arch.ptrBytes ∣ e.2 ∧
    C.arch.ptrBytes ≤ C.maxValueAlign
  nodup : (s.ptrs.entries.map (·.2)).Nodup
  word : ∀ e ∈ s.ptrs.entries, ∃ w, readWord C.arch s.sto.view e.2 = some w ∧
    readWord C.arch m e.2 = some (wrappingAdd C.arch w (wrappingSub C.arch B e.1))
  rest : ∀ i, (∀ e ∈ s.ptrs.entries, i < e.2 ∨ e.2 + C.arch.ptrBytes ≤ i) → s.sto.view i = m i

theorem sat_lift {α} {x : M Sto α} {s : Ser} {Q : α → Ser → Prop} {R : PanicKind → Ser → Prop} {Ab : Prop} :
    (Ser.lift x s).Sat Q R Ab ↔
      (x s.sto).Sat (fun a t => Q a { s with sto := t }) (fun k t => R k { s with sto := t }) Ab := by
  unfold Ser.lift; cases x s.sto <;> simp

theorem lift_ok {α} {x : M Sto α} {s : Ser} {a : α} {t : Sto} (h : x s.sto = .ok a t) :
    Ser.lift x s = .ok a { s with sto := t } := by unfold Ser.lift; rw [h]

theorem lift_map {α} {x : M Sto α} {s t : Ser} {a : α} (h : Ser.lift x s = .ok a t) : t.map = s.map := by
  unfold Ser.lift at h
  split at h <;> first | (injection h with _ h2; rw [← h2]) | cases h

section
variable {C : Cfg}

/-- A push keeps the relation. -/
theorem Rel.push {B : Nat} {s : Ser} {m : Mem} (h : Rel C B s m) {L : Layout} {len p : Nat} {data : Nat → Cell} {t : Sto}
    (hp : PushSpec C s.sto L len data p t) (ha : 0 < L.align) (hva : 0 < C.valueAlign) :
    Rel C B { s with sto := t } (m.blit p (L.size * len) data) := by
  have hge : s.sto.vec.pos ≤ p := by rw [hp.pos_eq]; exact le_roundUp _ ha
  have hend : p ≤ t.vec.pos := by rw [hp.end_eq]; have := le_roundUp (p + L.size * len) hva; omega
  refine ⟨hp.inv, ?_, h.nodup, ?_, ?_⟩
  · intro e he
    obtain ⟨h1, h2, h3⟩ := h.bound e he
    exact ⟨by simp only; omega, h2, h3⟩
  · intro e he
    obtain ⟨h1, _, _⟩ := h.bound e he
    obtain ⟨w, hw1, hw2⟩ := h.word e he
    refine ⟨w, ?_, ?_⟩
    · simp only [hp.view]; rw [readWord_blit_disj (by omega)]; exact hw1
    · rw [readWord_blit_disj (by omega)]; exact hw2
  · intro i hi
    have := h.rest i hi
    simp only [hp.view, Mem.blit]
    split <;> simp_all

/-- Writing the same cells in both, away from recorded pointers, keeps the relation. -/
theorem Rel.write {B : Nat} {s : Ser} {m : Mem} (h : Rel C B s m) {x n : Nat} {data : Nat → Cell} {t : Sto}
    (hvec : t.vec = s.sto.vec) (hw : t.WInv C) (hv : t.view = s.sto.view.blit x n data)
    (hd : ∀ e ∈ s.ptrs.entries, DisjRange e.2 C.arch.ptrBytes x n) :
    Rel C B { s with sto := t } (m.blit x n data) := by
  refine ⟨⟨hw, by simp only [hvec]; exact h.inv.pos_dvd⟩, ?_, h.nodup, ?_, ?_⟩
  · intro e he; simp only [hvec]; exact h.bound e he
  · intro e he
    obtain ⟨w, hw1, hw2⟩ := h.word e he
    have hdj := hd e he
    unfold DisjRange at hdj
    refine ⟨w, ?_, ?_⟩
    · simp only [hv]; rw [readWord_blit_disj (by omega)]; exact hw1
    · rw [readWord_blit_disj (by omega)]; exact hw2
  · intro i hi
    have := h.rest i hi
    simp only [hv, Mem.blit]
    split <;> simp_all

theorem wrap_shift (A : Arch) {a B t : Nat} (ha : a < A.usizeMod) :
    wrappingAdd A ((a + t) % A.usizeMod) (wrappingSub A B a) = (B + t) % A.usizeMod := by
  unfold wrappingAdd wrappingSub
  rw [← Nat.add_mod]
  rw [show a + t + (B + A.usizeMod - a) = B + t + A.usizeMod by omega, Nat.add_mod_right]

/-- Writing a pointer (relative to the current buffer address) and recording it keeps the relation. -/
theorem Rel.record {B : Nat} {s : Ser} {m : Mem} (h : Rel C B s m) {x target : Nat} {t : Sto}
    (hvec : t.vec = s.sto.vec) (hw : t.WInv C)
    (hv : t.view = s.sto.view.blit x C.arch.ptrBytes (wordCells C.arch (s.sto.vec.ptr + target)))
    (hptr : s.sto.vec.ptr < C.arch.usizeMod)
    (hx : x + C.arch.ptrBytes ≤ s.sto.vec.pos) (hxd : C.arch.ptrBytes ∣ x) (hpm : C.arch.ptrBytes ≤ C.maxValueAlign)
    (hpp : 0 < C.arch.ptrBytes)
    (hd : ∀ e ∈ s.ptrs.entries, DisjRange e.2 C.arch.ptrBytes x C.arch.ptrBytes) :
    Rel C B { s with sto := t, ptrs := recordPtr s.ptrs s.sto.vec.ptr x }
      (m.blit x C.arch.ptrBytes (wordCells C.arch (B + target))) := by
  refine ⟨⟨hw, by simp only [hvec]; exact h.inv.pos_dvd⟩, ?_, ?_, ?_, ?_⟩
  · intro e he
    simp only [entries_record, List.mem_append, List.mem_singleton] at he
    simp only [hvec]
    rcases he with he | rfl
    · exact h.bound e he
    · exact ⟨hx, hxd, hpm⟩
  · simp only [entries_record, List.map_append, List.map_cons, List.map_nil]
    rw [List.nodup_append]
    refine ⟨h.nodup, by simp, ?_⟩
    intro a ha b hb
    simp only [List.mem_singleton] at hb
    subst hb
    obtain ⟨e, he, rfl⟩ := List.mem_map.1 ha
    have := hd e he
    unfold DisjRange at this
    intro heq
    omega
  · intro e he
    simp only [entries_record, List.mem_append, List.mem_singleton] at he
    rcases he with he | rfl
    · obtain ⟨w, hw1, hw2⟩ := h.word e he
      have hdj := hd e he
      unfold DisjRange at hdj
      refine ⟨w, ?_, ?_⟩
      · simp only [hv]; rw [readWord_blit_disj (by omega)]; exact hw1
      · rw [readWord_blit_disj (by omega)]; exact hw2
    · refine ⟨(s.sto.vec.ptr + target) % C.arch.usizeMod, ?_, ?_⟩
      · simp only [hv]; exact readWord_blit_same
      · rw [readWord_blit_same, wrap_shift C.arch hptr]
  · intro i hi
    simp only [entries_record, List.mem_append, List.mem_singleton] at hi
    have h1 := h.rest i fun e he => hi e (Or.inl he)
    have h2 := hi _ (Or.inr rfl)
    simp only [hv]
    rw [blit_out h2, blit_out h2]; exact h1

/-! ### Single steps -/

theorem posForAddr_ok {σ} (A : Arch) {ia op x : Nat} (h1 : ia ≤ x) (h2 : op + (x - ia) < A.usizeMod) (s : σ) :
    PosMapping.posForAddr A ⟨ia, op⟩ x s = .ok (outPos ia op x) s := by
  unfold PosMapping.posForAddr outPos
  rw [bind_ok (usub_ok A h1 s), uadd_ok A (by simp only; omega) s]
  simp only; rw [Nat.add_comm]

/-- `RandomAccessStorage::write` of whole words inside the output. -/
theorem write_ok' (hC : C.OK) {s : Sto} (h : s.WInv C) {x n : Nat} (data : Nat → Cell) (hn : 0 < n)
    (hx : x + n * C.arch.ptrBytes ≤ s.vec.capacity) (hxd : C.arch.ptrBytes ∣ x) (hpm : C.arch.ptrBytes ≤ C.maxValueAlign) :
    ∃ s', Sto.write C x ⟨n * C.arch.ptrBytes, C.arch.ptrBytes⟩ data s = .ok () s' ∧ s'.vec = s.vec ∧ s'.WInv C ∧
      s'.view = s.view.blit x (n * C.arch.ptrBytes) data ∧ s'.w.calls = s.w.calls := by
  have F := hC.facts
  have hpp := hC.arch.ptr_pos
  have hnp : 0 < n * C.arch.ptrBytes := Nat.mul_pos hn hpp
  obtain ⟨s', h1, h2, h5, h3, h4⟩ := writeSlice_ok hC h (p := x) (len := 1) (L := ⟨n * C.arch.ptrBytes, C.arch.ptrBytes⟩) data
    (by simp only; omega) (by omega) (by simp only; omega) hC.arch.ptr_pow2 hxd (Nat.le_trans hpm F.mva_le)
  exact ⟨s', h1, h2, h3, by simpa using h4, h5⟩

theorem write_ok (hC : C.OK) {s : Sto} (h : s.WInv C) {x n : Nat} (data : Nat → Cell) (hn : 0 < n)
    (hx : x + n * C.arch.ptrBytes ≤ s.vec.capacity) (hxd : C.arch.ptrBytes ∣ x) (hpm : C.arch.ptrBytes ≤ C.maxValueAlign) :
    ∃ s', Sto.write C x ⟨n * C.arch.ptrBytes, C.arch.ptrBytes⟩ data s = .ok () s' ∧ s'.vec = s.vec ∧ s'.WInv C ∧
      s'.view = s.view.blit x (n * C.arch.ptrBytes) data := by
  obtain ⟨s', h1, h2, h3, h4, _⟩ := write_ok' hC h data hn hx hxd hpm
  exact ⟨s', h1, h2, h3, h4⟩

theorem debug_prefix (hC : C.OK) {s : Ser} {x target : Nat}
    (hx : x + C.arch.ptrBytes ≤ s.sto.vec.capacity) (hxd : C.arch.ptrBytes ∣ x) (ht : target ≤ s.sto.vec.capacity)
    {α} (f : M Ser α) :
    ((do
      let cap ← Ser.getCapacity
      M.debugAssertM C.arch (do let y ← usub C.arch cap C.arch.ptrBytes; pure (decide (x ≤ y)))
      M.debugAssertM C.arch (isAlignedTo C.arch x C.arch.ptrBytes)
      M.debugAssert C.arch (decide (target ≤ cap))
      f : M Ser α) s) = f s := by
  rw [bind_ok (show Ser.getCapacity s = .ok s.sto.vec.capacity s from rfl), bind_ok (debugAssertM_ok _ ?_),
    bind_ok (debugAssertM_ok _ ?_), bind_ok (debugAssert_true _ (decide_eq_true ht) s)]
  · intro _; rw [isAlignedTo_ok hC.arch.ptr_pow2, decide_eq_true hxd]
  · intro _
    rw [bind_ok (usub_ok _ (by omega) s)]; simp only [pure_run]; rw [decide_eq_true]; omega

/-- Effect of `overwrite_ptr` for the pointer-writing kinds. -/
structure PtrPost (C : Cfg) (k : Kind) (B : Nat) (s : Ser) (m : Mem) (x target : Nat) (s' : Ser) : Prop where
  rel : Rel C B s' ((k.mode B).putPtr C.arch m x target)
  vec : s'.sto.vec = s.sto.vec
  map : s'.map = s.map
  ents : ∃ new, s'.ptrs.entries = s.ptrs.entries ++ new ∧ ∀ e ∈ new, e.2 = x
  calls : s'.sto.w.calls = s.sto.w.calls

theorem overwritePtr_ok (hC : C.OK) {k : Kind} (hk : k.tracking = true) {B : Nat} {s : Ser} {m : Mem} (h : Rel C B s m)
    {x target : Nat}
    (hx : x + C.arch.ptrBytes ≤ s.sto.vec.pos) (hxd : C.arch.ptrBytes ∣ x) (hpm : C.arch.ptrBytes ≤ C.maxValueAlign)
    (ht : target ≤ s.sto.vec.capacity)
    (hd : ∀ e ∈ s.ptrs.entries, DisjRange e.2 C.arch.ptrBytes x C.arch.ptrBytes) :
    ∃ s', overwritePtr C k x target s = .ok () s' ∧ PtrPost C k B s m x target s' := by
  have hpl := h.inv.pos_le
  have F := hC.facts
  have hpp := hC.arch.ptr_pos
  cases k with
  | pureCopy => cases hk
  | posTracking => cases hk
  | ptrOffset =>
    obtain ⟨t, h1, h2, h3, h4, h5⟩ := write_ok' hC h.inv.toWInv (x := x) (n := 1) (wordCells C.arch target) (by omega)
      (by omega) hxd hpm
    simp only [Nat.one_mul] at h1 h4
    refine ⟨{ s with sto := t }, ?_, ?_, h2, rfl, ⟨[], by simp, by simp⟩, h5⟩
    · unfold overwritePtr PtrOffset.doOverwritePtr
      simp only
      rw [debug_prefix hC (by omega) hxd ht]
      exact lift_ok h1
    · simp only [Kind.mode, Mode.putPtr, Nat.zero_add]
      exact h.write h2 h3 h4 hd
  | complete =>
    obtain ⟨t, h1, h2, h3, h4, h5⟩ := write_ok' hC h.inv.toWInv (x := x) (n := 1)
      (wordCells C.arch (s.sto.vec.ptr + target)) (by omega) (by omega) hxd hpm
    simp only [Nat.one_mul] at h1 h4
    have hlt : s.sto.vec.ptr + s.sto.vec.capacity < C.arch.usizeMod := by
      rcases h.inv.mem with ⟨h0, _, _⟩ | ⟨_, _, _, hh, _⟩
      · omega
      · exact hh
    refine ⟨{ s with sto := t, ptrs := recordPtr s.ptrs s.sto.vec.ptr x }, ?_, ?_, h2, rfl, ⟨[(s.sto.vec.ptr, x)], ?_, by simp⟩, h5⟩
    · unfold overwritePtr Complete.doOverwritePtr
      simp only [Sto.asPtr]
      rw [debug_prefix hC (by omega) hxd ht, bind_ok (show M.get s = .ok s s from rfl),
        bind_ok (uadd_ok C.arch (by omega) s), bind_ok (lift_ok h1)]
      rfl
    · simp only [Kind.mode, Mode.putPtr]
      exact h.record h2 h3 h4 (by omega) hx hxd hpm hpp hd
    · simp only [entries_record]

theorem overwrite_ok (hC : C.OK) {k : Kind} {B : Nat} {s : Ser} {m : Mem} (h : Rel C B s m)
    {ia op a : Nat} {L : Layout} (data : Nat → Cell) (hL : L.size ≠ 0) (hpow : Pow2 L.align)
    (hmap : k.tracking = true → s.map = ⟨ia, op⟩) (hia : ia ≤ a)
    (hx : outPos ia op a + L.size ≤ s.sto.vec.pos) (hxd : L.align ∣ outPos ia op a)
    (hpm : L.align ≤ C.maxValueAlign)
    (hd : ∀ e ∈ s.ptrs.entries, DisjRange e.2 C.arch.ptrBytes (outPos ia op a) L.size) :
    ∃ s', overwriteWith k (overwrite C k (addrFromRef k a) L data) s = .ok () s' ∧
      Rel C B s' ((k.mode B).putValue m (outPos ia op a) L.size data) ∧ s'.sto.vec = s.sto.vec ∧ s'.map = s.map ∧
      s'.ptrs = s.ptrs ∧ s'.sto.w.calls = s.sto.w.calls := by
  have hpl := h.inv.pos_le
  have hcl := h.inv.cap_le
  have hml := hC.facts.max_lt
  cases k with
  | pureCopy => exact ⟨s, rfl, h, rfl, rfl, rfl, rfl⟩
  | posTracking => exact ⟨s, rfl, h, rfl, rfl, rfl, rfl⟩
  | ptrOffset => exact ⟨s, rfl, h, rfl, rfl, rfl, rfl⟩
  | complete =>
    obtain ⟨t, h1, h2, h5, h3, h4⟩ := writeSlice_ok hC h.inv.toWInv (p := outPos ia op a) (len := 1) (L := L) data
      (by omega) (by omega) (by omega) hpow hxd (Nat.le_trans hpm hC.facts.mva_le)
    simp only [Nat.mul_one] at h4
    refine ⟨{ s with sto := t }, ?_, ?_, h2, rfl, rfl, h5⟩
    · unfold overwriteWith Complete.doOverwriteWith overwrite Writable.doOverwrite
      simp only [addrFromRef, Kind.tracking, if_true]
      rw [bind_ok (show Ser.getMap s = .ok s.map s from rfl),
        bind_ok (show PosMapping.posForAddr C.arch s.map a s = .ok (outPos ia op a) s by
          rw [hmap rfl]; exact posForAddr_ok C.arch hia (by unfold outPos at hx; omega) s)]
      exact lift_ok h1
    · simp only [Kind.mode, Mode.putValue, if_true]
      exact h.write h2 h3 h4 hd

/-! ### Running a script -/

/-- An upper bound for the number of allocations that lead to a capacity: growth at least doubles it, except the last step to
`MAX_CAPACITY`. -/
def growCost (C : Cfg) (cap : Nat) : Nat :=
  if cap = 0 then 0 else Nat.log2 cap + 1 + (if cap = C.maxCapacity then 1 else 0)

/-- Unless the output outgrew the capacity, the buffer is the same and the allocator was not called. If it did, the new capacity is
less than twice the output, and the number of allocator calls is logarithmic in it. -/
structure Stays (C : Cfg) (s s' : Sto) : Prop where
  fit : s'.vec.pos ≤ s.vec.capacity → s'.vec.capacity = s.vec.capacity ∧ s'.vec.ptr = s.vec.ptr ∧ s'.w.calls = s.w.calls
  small : s'.vec.capacity ≤ s.vec.capacity ∨ s'.vec.capacity ≤ C.maxValueAlign ∨ s'.vec.capacity < 2 * s'.vec.pos
  calls : s'.w.calls + growCost C s.vec.capacity ≤ s.w.calls + growCost C s'.vec.capacity

theorem Stays.of_eq {s s' : Sto} (h1 : s'.vec.capacity = s.vec.capacity) (h2 : s'.vec.ptr = s.vec.ptr) (h3 : s'.w.calls = s.w.calls) :
    Stays C s s' := ⟨fun _ => ⟨h1, h2, h3⟩, Or.inl (by omega), by rw [h1, h3]⟩

theorem Stays.trans {s s1 s2 : Sto} (h1 : Stays C s s1) (h2 : Stays C s1 s2) (hp : s1.vec.pos ≤ s2.vec.pos) : Stays C s s2 := by
  refine ⟨fun h => ?_, ?_, ?_⟩
  · obtain ⟨a1, a2, a3⟩ := h1.fit (by omega)
    obtain ⟨b1, b2, b3⟩ := h2.fit (by omega)
    exact ⟨by omega, by omega, by omega⟩
  · have := h1.small; have := h2.small; omega
  · have := h1.calls; have := h2.calls; omega

theorem Stays.congr {s s1 s2 : Sto} (h : Stays C s s1) (h1 : s2.vec = s1.vec) (h2 : s2.w.calls = s1.w.calls) : Stays C s s2 :=
  ⟨by rw [h1, h2]; exact h.fit, by rw [h1]; exact h.small, by rw [h1, h2]; exact h.calls⟩

theorem growCost_lt {a b : Nat} (hab : a < b) (hb : b ≤ C.maxCapacity) (h : Pow2 b ∨ b = C.maxCapacity) : growCost C a + 1 ≤ growCost C b := by
  unfold growCost
  rw [if_neg (by omega : ¬ b = 0)]
  by_cases ha : a = 0
  · rw [if_pos ha]; omega
  rw [if_neg ha, if_neg (by omega : ¬ a = C.maxCapacity)]
  rcases h with ⟨e, rfl⟩ | rfl
  · have : Nat.log2 a < e := (Nat.log2_lt ha).2 hab
    rw [Nat.log2_two_pow]; omega
  · have : Nat.log2 a ≤ Nat.log2 C.maxCapacity := by
      rw [Nat.le_log2 (by omega)]
      exact Nat.le_trans (Nat.log2_self_le ha) (by omega)
    rw [if_pos rfl]; omega

theorem PushSpec.stays {s t : Sto} {L : Layout} {len p : Nat} {data : Nat → Cell} (h : PushSpec C s L len data p t)
    (F : C.Facts) : Stays C s t := by
  have hva := F.va.pos
  have hge := le_roundUp (p + L.size * len) hva
  by_cases hfit : p + L.size * len ≤ s.vec.capacity
  · obtain ⟨a, b, c⟩ := h.stay hfit
    exact .of_eq a b c
  · obtain ⟨g1, g2⟩ := h.grow (by omega)
    have hlt := nextPow2_lt (n := p + L.size * len) (by omega)
    have hend := h.end_eq
    have hw := h.within
    have hle := h.inv.cap_le
    refine ⟨fun hh => absurd (show p + L.size * len ≤ s.vec.capacity by omega) hfit, by omega, ?_⟩
    have := growCost_lt (a := s.vec.capacity) (b := t.vec.capacity) (by omega) hle ?_
    · omega
    · by_cases hc : t.vec.capacity = C.maxCapacity
      · exact Or.inr hc
      · left
        have : t.vec.capacity = nextPow2 (p + L.size * len) ∨ t.vec.capacity = C.maxValueAlign := by omega
        rcases this with e | e <;> rw [e]
        · exact nextPow2_pow2 _
        · exact F.mva

/-- What holds between the state before some calls and the state when they returned or panicked: the contents below `lo` are as
they were, and pointers were recorded only above. -/
structure Kept (C : Cfg) (B lo : Nat) (s : Ser) (m : Mem) (s' : Ser) (m' : Mem) : Prop where
  rel : Rel C B s' m'
  frame : ∀ i < lo, m' i = m i
  ents : ∃ new, s'.ptrs.entries = s.ptrs.entries ++ new ∧ ∀ e ∈ new, lo ≤ e.2
  pos : s.sto.vec.pos ≤ s'.sto.vec.pos
  cap : s.sto.vec.capacity ≤ s'.sto.vec.capacity
  stay : Stays C s.sto s'.sto

theorem Kept.refl {B lo : Nat} {s : Ser} {m : Mem} (h : Rel C B s m) : Kept C B lo s m s m :=
  ⟨h, fun _ _ => rfl, ⟨[], by simp, by simp⟩, Nat.le_refl _, Nat.le_refl _, Stays.of_eq rfl rfl rfl⟩

theorem Kept.trans {B lo : Nat} {s s1 s2 : Ser} {m m1 m2 : Mem} (h1 : Kept C B lo s m s1 m1) (h2 : Kept C B lo s1 m1 s2 m2) :
    Kept C B lo s m s2 m2 := by
  obtain ⟨n1, e1, f1⟩ := h1.ents
  obtain ⟨n2, e2, f2⟩ := h2.ents
  refine ⟨h2.rel, fun i hi => (h2.frame i hi).trans (h1.frame i hi), ⟨n1 ++ n2, by rw [e2, e1, List.append_assoc], ?_⟩,
    Nat.le_trans h1.pos h2.pos, Nat.le_trans h1.cap h2.cap, h1.stay.trans h2.stay h2.pos⟩
  intro e he
  rcases List.mem_append.1 he with he | he
  · exact f1 e he
  · exact f2 e he

theorem Kept.lower {B lo lo' : Nat} {s s1 : Ser} {m m1 : Mem} (h : Kept C B lo s m s1 m1) (hl : lo' ≤ lo) :
    Kept C B lo' s m s1 m1 := by
  obtain ⟨n1, e1, f1⟩ := h.ents
  exact ⟨h.rel, fun i hi => h.frame i (by omega), ⟨n1, e1, fun e he => Nat.le_trans hl (f1 e he)⟩, h.pos, h.cap, h.stay⟩

theorem Rel.congr {B : Nat} {s s' : Ser} {m : Mem} (h : Rel C B s m) (h1 : s'.sto = s.sto) (h2 : s'.ptrs = s.ptrs) : Rel C B s' m := by
  refine ⟨?_, ?_, ?_, ?_, ?_⟩
  · rw [h1]; exact h.inv
  · rw [h1, h2]; exact h.bound
  · rw [h2]; exact h.nodup
  · rw [h1, h2]; exact h.word
  · rw [h1, h2]; exact h.rest

theorem Kept.congr {B lo : Nat} {s s' t t' : Ser} {m m1 : Mem} (h : Kept C B lo s m t m1) (h1 : s'.sto = s.sto) (h2 : s'.ptrs = s.ptrs)
    (h3 : t'.sto = t.sto) (h4 : t'.ptrs = t.ptrs) : Kept C B lo s' m t' m1 :=
  ⟨h.rel.congr h3 h4, h.frame, by rw [h2, h4]; exact h.ents, by rw [h1, h3]; exact h.pos, by rw [h1, h3]; exact h.cap,
    by rw [h1, h3]; exact h.stay⟩

theorem Kept.push {B lo : Nat} {s : Ser} {m : Mem} (h : Rel C B s m) {L : Layout} {len p : Nat} {data : Nat → Cell} {t : Sto}
    (hp : PushSpec C s.sto L len data p t) (ha : 0 < L.align) (F : C.Facts) (hlo : lo ≤ s.sto.vec.pos) :
    Kept C B lo s m { s with sto := t } (m.blit p (L.size * len) data) := by
  have hva := F.va.pos
  have hge : s.sto.vec.pos ≤ p := by rw [hp.pos_eq]; exact le_roundUp _ ha
  have hend := hp.end_eq
  have := le_roundUp (p + L.size * len) hva
  exact ⟨h.push hp ha hva, fun i hi => blit_out (by omega), ⟨[], by simp, by simp⟩, by simp only; omega, hp.cap_le, hp.stays F⟩

structure RunPre (C : Cfg) (k : Kind) (B : Nat) (sc : Script) (c : Ctx) (op : Nat) (s : Ser) (m : Mem) : Prop where
  rel : Rel C B s m
  wf : sc.WF C c
  map : k.tracking = true → s.map = ⟨c.ia, op⟩
  within : op + c.sz ≤ s.sto.vec.pos
  pos_pos : 0 < s.sto.vec.pos
  al : c.al ∣ op
  al_pos : 0 < c.al
  al_le : c.al ≤ C.maxValueAlign
  disj : ∀ e ∈ s.ptrs.entries, ∀ t ∈ sc.touch C.arch, DisjRange e.2 C.arch.ptrBytes (outPos c.ia op t.1) t.2

structure RunPost (C : Cfg) (B : Nat) (sc : Script) (c : Ctx) (op : Nat) (s : Ser) (st : Mem × Nat) (s' : Ser) : Prop where
  rel : Rel C B s' st.1
  pos : s'.sto.vec.pos = st.2
  map : s'.map = s.map
  cap : s.sto.vec.capacity ≤ s'.sto.vec.capacity
  ents : ∃ new, s'.ptrs.entries = s.ptrs.entries ++ new ∧
    ∀ e ∈ new, s.sto.vec.pos ≤ e.2 ∨ ∃ t ∈ sc.touch C.arch, e.2 = outPos c.ia op t.1 ∧ t.2 = C.arch.ptrBytes
  stay : Stays C s.sto s'.sto

/-- A capacity panic, with the storage still consistent. -/
def CapPanic (C : Cfg) (need : Nat) (k : PanicKind) (s : Ser) : Prop :=
  k = .capacity ∧ s.sto.Inv C ∧ C.maxCapacity < need

theorem CapPanic.mono {need need' : Nat} (h : need ≤ need') {k : PanicKind} {s : Ser} (hp : CapPanic C need k s) :
    CapPanic C need' k s := ⟨hp.1, hp.2.1, by have := hp.2.2; omega⟩

/-- Calls that did not complete because the capacity limit was reached. -/
structure Stopped (C : Cfg) (B lo need : Nat) (s : Ser) (m : Mem) (k : PanicKind) (s' : Ser) : Prop where
  panic : CapPanic C need k s'
  kept : ∃ m', Kept C B lo s m s' m'

theorem Stopped.from {B lo need need' : Nat} {s s1 s2 : Ser} {m m1 : Mem} {k : PanicKind} (h : Stopped C B lo need' s1 m1 k s2)
    (h1 : Kept C B lo s m s1 m1) (hn : need' ≤ need) : Stopped C B lo need s m k s2 := by
  obtain ⟨h2, m2, h3⟩ := h
  exact ⟨h2.mono hn, m2, h1.trans h3⟩

theorem Stopped.lower {B lo lo' need : Nat} {s s2 : Ser} {m : Mem} {k : PanicKind} (h : Stopped C B lo need s m k s2) (hl : lo' ≤ lo) :
    Stopped C B lo' need s m k s2 := by
  obtain ⟨h2, m2, h3⟩ := h
  exact ⟨h2, m2, h3.lower hl⟩

theorem pushRawSlice_stop (hC : C.OK) {L : Layout} {len src : Nat} (ho : PushOK C L len src) {B lo : Nat} {s : Ser} {m : Mem}
    (h : Rel C B s m) (hlo : lo ≤ s.sto.vec.pos) (hne : 0 < len ∨ 0 < s.sto.vec.pos) {need : Nat}
    (hneed : roundUp (roundUp s.sto.vec.pos L.align + L.size * len) C.valueAlign ≤ need) (data : Nat → Cell) :
    (Ser.lift (Sto.pushSlice C L len data) s).Sat
      (fun p s' => ∃ t, s' = { s with sto := t } ∧ PushSpec C s.sto L len data p t)
      (Stopped C B lo need s m) (¬ C.NeverFails) := by
  rw [sat_lift]
  refine (pushSlice_sat hC h.inv data ho.size_ne ho.pow2 ho.align_le (hne.imp_right fun hp => Or.inl (Nat.lt_of_lt_of_le hp h.inv.pos_le)) ho.size_le).mono ?_ ?_ id
  · intro p t hp; exact ⟨t, rfl, hp⟩
  · rintro k t ⟨hk, rfl, hov⟩
    have hinv := h.inv.at (roundUp_le_cap hC.facts h.inv.toWInv h.inv.pos_le ho.pow2 ho.align_le) (va_dvd_roundUp hC.facts ho.pow2 h.inv.pos_dvd)
    have hge := le_roundUp s.sto.vec.pos ho.pow2.pos
    refine ⟨⟨hk, hinv, ?_⟩, m, ⟨hinv, ?_, h.nodup, h.word, h.rest⟩, fun _ _ => rfl, ⟨[], by simp, by simp⟩, hge, Nat.le_refl _,
      Stays.of_eq rfl rfl rfl⟩
    · have := le_roundUp (roundUp s.sto.vec.pos L.align + L.size * len) hC.facts.va.pos; omega
    · intro e he
      obtain ⟨h1, h2, h3⟩ := h.bound e he
      exact ⟨Nat.le_trans h1 hge, h2, h3⟩

theorem pushRawSlice_sat (hC : C.OK) {L : Layout} {len src : Nat} (ho : PushOK C L len src) {s : Ser} (h : s.sto.Inv C)
    (hne : 0 < len ∨ 0 < s.sto.vec.pos)
    (data : Nat → Cell) :
    (Ser.lift (Sto.pushSlice C L len data) s).Sat
      (fun p s' => ∃ t, s' = { s with sto := t } ∧ PushSpec C s.sto L len data p t)
      (CapPanic C (roundUp (roundUp s.sto.vec.pos L.align + L.size * len) C.valueAlign)) (¬ C.NeverFails) := by
  rw [sat_lift]
  refine (pushSlice_sat hC h data ho.size_ne ho.pow2 ho.align_le (hne.imp_right fun hp => Or.inl (Nat.lt_of_lt_of_le hp h.pos_le)) ho.size_le).mono ?_ ?_ id
  · intro p t hp; exact ⟨t, rfl, hp⟩
  · rintro k t ⟨hk, rfl, hov⟩
    refine ⟨hk, ?_, ?_⟩
    · exact h.at (roundUp_le_cap hC.facts h.toWInv h.pos_le ho.pow2 ho.align_le) (va_dvd_roundUp hC.facts ho.pow2 h.pos_dvd)
    · have := le_roundUp (roundUp s.sto.vec.pos L.align + L.size * len) hC.facts.va.pos; omega

theorem outPos_disj {ia op a m b n : Nat} (ha : ia ≤ a) (hb : ia ≤ b) (h : DisjRange a m b n) :
    DisjRange (outPos ia op a) m (outPos ia op b) n := by
  unfold DisjRange outPos at *; omega


/-- Pushing a slice and writing the pointer to it (both `do_push_slice` and the first half of
`do_push_and_process_slice` of the pointer-writing kinds). -/
theorem pushPtr_sat (hC : C.OK) {k : Kind} (hk : k.tracking = true) {B : Nat} {s : Ser} {m : Mem} (h : Rel C B s m)
    {L : Layout} {len src : Nat} (ho : PushOK C L len src) {data : Nat → Cell} {c : Ctx} {op ptr : Nat}
    (ht : TouchOK C c ptr C.arch.ptrBytes) (hwithin : op + c.sz ≤ s.sto.vec.pos) (hpp : 0 < s.sto.vec.pos) (hal : c.al ∣ op) (hal0 : 0 < c.al)
    (hall : c.al ≤ C.maxValueAlign)
    (hd : ∀ e ∈ s.ptrs.entries, DisjRange e.2 C.arch.ptrBytes (outPos c.ia op ptr) C.arch.ptrBytes)
    {α} {Q : α → Ser → Prop} {need : Nat} (f : Nat → M Ser α)
    (hneed : roundUp (roundUp s.sto.vec.pos L.align + L.size * len) C.valueAlign ≤ need)
    (hf : ∀ p s', p = roundUp s.sto.vec.pos L.align →
      s'.sto.vec.pos = roundUp (p + L.size * len) C.valueAlign → s'.map = s.map →
      (∃ new, s'.ptrs.entries = s.ptrs.entries ++ new ∧ ∀ e ∈ new, e.2 = outPos c.ia op ptr) →
      Kept C B op s m s' ((k.mode B).putPtr C.arch (m.blit p (L.size * len) data) (outPos c.ia op ptr) p) →
      (f p s').Sat Q (Stopped C B op need s m) (¬ C.NeverFails)) :
    ((do
      let pos ← Ser.lift (Sto.pushSlice C L len data)
      let ptrPos ← PosMapping.posForAddr C.arch ⟨c.ia, op⟩ ptr
      overwritePtr C k ptrPos pos
      f pos : M Ser α) s).Sat Q (Stopped C B op need s m) (¬ C.NeverFails) := by
  rw [sat_bind]
  refine (pushRawSlice_stop hC ho h (by omega) (Or.inr hpp) hneed data).imp ?_
  rintro p s1 ⟨t, rfl, hp⟩
  have hrel1 := h.push hp ho.pow2.pos hC.facts.va.pos
  have hml := hC.facts.max_lt
  have e1 := h.inv.pos_le; have e2 := h.inv.cap_le
  have hpge : s.sto.vec.pos ≤ p := by rw [hp.pos_eq]; exact le_roundUp _ ho.pow2.pos
  have hend : p + L.size * len ≤ t.vec.pos := by rw [hp.end_eq]; exact le_roundUp _ hC.facts.va.pos
  have hpm : C.arch.ptrBytes ≤ C.maxValueAlign := Nat.le_trans (Nat.le_of_dvd hal0 ht.al) hall
  have hlo := ht.lo; have hhi := ht.hi
  rw [bind_ok (posForAddr_ok C.arch ht.lo (by omega) _)]
  have hxd : C.arch.ptrBytes ∣ outPos c.ia op ptr := Nat.dvd_add (Nat.dvd_trans ht.al hal) ht.off
  obtain ⟨s2, hrun, hpost⟩ := overwritePtr_ok hC hk hrel1 (x := outPos c.ia op ptr) (target := p)
    (by unfold outPos; simp only; omega) hxd hpm (by have := hp.within; simp only; omega) hd
  rw [bind_ok hrun]
  have hk1 := Kept.push (lo := op) h hp ho.pow2.pos hC.facts (by omega)
  have hge := outPos_ge c.ia op ptr
  refine hf p s2 hp.pos_eq ?_ hpost.map hpost.ents (hk1.trans ⟨hpost.rel, ?_, ?_, ?_, ?_, ?_⟩)
  · rw [hpost.vec]; exact hp.end_eq
  · intro i hi; exact putPtr_out (by omega)
  · obtain ⟨new, e1, e2⟩ := hpost.ents
    exact ⟨new, e1, fun e he => by rw [e2 e he]; exact hge⟩
  · rw [hpost.vec]
  · rw [hpost.vec]
  · exact .of_eq (by rw [hpost.vec]) (by rw [hpost.vec]) hpost.calls

theorem RunPost.kept (hva : 0 < C.valueAlign) {md : Mode} {B : Nat} {im : Mem} {sc : Script} {c : Ctx} (hw : sc.WF C c) {op : Nat} {s s' : Ser} {m : Mem} {q : Nat}
    (hq : q = s.sto.vec.pos) (hop : op ≤ s.sto.vec.pos)
    (h : RunPost C B sc c op s (sc.ideal C.arch C.valueAlign md im c.ia op (m, q)) s') :
    Kept C B op s m s' (sc.ideal C.arch C.valueAlign md im c.ia op (m, q)).1 := by
  subst hq
  refine ⟨h.rel, fun i hi => ideal_below hva sc hw _ _ (m, _) hop hi, ?_, ?_, h.cap, h.stay⟩
  · obtain ⟨new, h1, h2⟩ := h.ents
    refine ⟨new, h1, fun e he => ?_⟩
    rcases h2 e he with h3 | ⟨t, _, h3, _⟩
    · omega
    · rw [h3]; exact outPos_ge _ _ _
  · rw [h.pos]; exact ideal_mono hva sc hw _ _ (m, _)

/-- Main refinement theorem. -/
theorem run_stop (hC : C.OK) {k : Kind} {B : Nat} {im : Mem} (sc : Script) {c : Ctx} {op : Nat} {s : Ser} {m : Mem}
    (h : RunPre C k B sc c op s m) :
    (sc.run C k im s).Sat
      (fun _ s' => RunPost C B sc c op s (sc.ideal C.arch C.valueAlign (k.mode B) im c.ia op (m, s.sto.vec.pos)) s')
      (Stopped C B op (sc.ideal C.arch C.valueAlign (k.mode B) im c.ia op (m, s.sto.vec.pos)).2 s m) (¬ C.NeverFails) := by
  have hva := hC.facts.va.pos
  induction sc generalizing c op s m with
  | done => exact ⟨h.rel, rfl, rfl, Nat.le_refl _, ⟨[], by simp, by simp⟩, Stays.of_eq rfl rfl rfl⟩
  | pushRaw L len src rest ih =>
    obtain ⟨ho, hw⟩ := h.wf
    simp only [Script.run, Script.ideal, pushRawSlice]
    rw [sat_bind]
    have hwithin := h.within
    have hpp := h.pos_pos
    refine (pushRawSlice_stop hC ho h.rel (by omega) (Or.inr h.pos_pos) (ideal_mono hva rest hw _ _ (_, _)) _).imp ?_
    rintro p s1 ⟨t, rfl, hp⟩
    have hk1 := Kept.push (lo := op) h.rel hp ho.pow2.pos hC.facts (by omega)
    have hpge : s.sto.vec.pos ≤ p := by rw [hp.pos_eq]; exact le_roundUp _ ho.pow2.pos
    have hend : p + L.size * len ≤ t.vec.pos := by rw [hp.end_eq]; exact le_roundUp _ hva
    have := ih (c := c) (op := op) (s := { s with sto := t }) (m := m.blit p (L.size * len) fun i => im (src + i))
      ⟨h.rel.push hp ho.pow2.pos hva, hw, h.map, by simp only; omega, by simp only; omega, h.al, h.al_pos, h.al_le, h.disj⟩
    have hmono := ideal_mono (A := C.arch) (md := k.mode B) (im := im) hva rest hw c.ia op (m.blit p (L.size * len) fun i => im (src + i), t.vec.pos)
    simp only [hp.end_eq, hp.pos_eq] at this hmono hk1 ⊢
    refine this.mono (fun _ s' r => ⟨r.rel, r.pos, r.map, Nat.le_trans hp.cap_le r.cap, ?_,
      (hp.stays hC.facts).trans r.stay (by rw [r.pos, hp.end_eq, hp.pos_eq]; exact hmono)⟩) (fun _ _ hs => hs.from hk1 (Nat.le_refl _)) id
    obtain ⟨new, hn1, hn2⟩ := r.ents
    refine ⟨new, hn1, fun e he => ?_⟩
    rcases hn2 e he with h1 | h1
    · left; simp only at h1; omega
    · right; exact h1
  | overwrite a L data rest ih =>
    obtain ⟨ht, hw⟩ := h.wf
    simp only [Script.run, Script.ideal]
    have hlo := ht.lo; have hhi := ht.hi; have hwithin := h.within
    have hpm : L.align ≤ C.maxValueAlign := Nat.le_trans (Nat.le_of_dvd h.al_pos ht.al) h.al_le
    obtain ⟨s1, hrun, hrel, hvec, hmap, hptrs, hcalls⟩ := overwrite_ok hC h.rel data ht.size_ne ht.pow2 h.map hlo
      (by unfold outPos; omega) (Nat.dvd_add (Nat.dvd_trans ht.al h.al) ht.off) hpm
      (fun e he => h.disj e he (a, L.size) (by simp [Script.touch]))
    rw [bind_ok hrun]
    have := ih (c := c) (op := op) (s := s1) ⟨hrel, hw, by rw [hmap]; exact h.map, by rw [hvec]; exact h.within, by rw [hvec]; exact h.pos_pos, h.al, h.al_pos, h.al_le,
      fun e he t ht => h.disj e (hptrs ▸ he) t (by simp [Script.touch, ht])⟩
    rw [hvec] at this
    have hst : Stays C s.sto s1.sto := .of_eq (by rw [hvec]) (by rw [hvec]) hcalls
    have hge := outPos_ge c.ia op a
    have hk1 : Kept C B op s m s1 _ := ⟨hrel, fun i hi => putValue_out (by omega), ⟨[], by rw [hptrs]; simp, by simp⟩, by rw [hvec],
      by rw [hvec], hst⟩
    have hmono := ideal_mono (A := C.arch) (md := k.mode B) (im := im) hva rest hw c.ia op ((k.mode B).putValue m (outPos c.ia op a) L.size data, s.sto.vec.pos)
    refine this.mono (fun _ s' r => ⟨r.rel, r.pos, by rw [r.map, hmap], by have := r.cap; rwa [hvec] at this, ?_,
      hst.trans r.stay (by rw [r.pos, hvec]; exact hmono)⟩) (fun _ _ hs => hs.from hk1 (Nat.le_refl _)) id
    obtain ⟨new, hn1, hn2⟩ := r.ents
    refine ⟨new, by rw [hn1, hptrs], fun e he => ?_⟩
    rcases hn2 e he with h1 | ⟨t, h1, h2⟩
    · left; rwa [hvec] at h1
    · right; exact ⟨t, by simp [Script.touch, h1], h2⟩
  | push L len src ptr rest ih =>
    obtain ⟨ho, ht, hdj, hw⟩ := h.wf
    have hwithin := h.within
    have hpp := h.pos_pos
    have hlo := ht.lo; have hhi := ht.hi
    cases hk : k.tracking with
    | false =>
      have hmode : (k.mode B).putPtr C.arch = fun m _ _ => m := by
        cases k <;> first | rfl | cases hk
      have hsl : ∀ x, pushSlice C k ⟨L, len, src, fun i => im (src + i)⟩ x =
          Ser.lift (Sto.pushSlice C L len fun i => im (src + i)) := by
        intro x
        cases k with
        | pureCopy =>
          funext s
          simp only [pushSlice, pushAndProcessSlice, pushRawSlice, bind_def]
          cases Ser.lift (Sto.pushSlice C L len fun i => im (src + i)) s <;> rfl
        | posTracking => rfl
        | ptrOffset => cases hk
        | complete => cases hk
      simp only [Script.run, Script.ideal, hsl, hmode]
      rw [sat_bind]
      refine (pushRawSlice_stop hC ho h.rel (by omega) (Or.inr h.pos_pos) (ideal_mono hva rest hw _ _ (_, _)) _).imp ?_
      rintro p s1 ⟨t, rfl, hp⟩
      have hk1 := Kept.push (lo := op) h.rel hp ho.pow2.pos hC.facts (by omega)
      have hpge : s.sto.vec.pos ≤ p := by rw [hp.pos_eq]; exact le_roundUp _ ho.pow2.pos
      have hend : p + L.size * len ≤ t.vec.pos := by rw [hp.end_eq]; exact le_roundUp _ hva
      have := ih (c := c) (op := op) (s := { s with sto := t }) (m := m.blit p (L.size * len) fun i => im (src + i))
        ⟨h.rel.push hp ho.pow2.pos hva, hw, h.map, by simp only; omega, by simp only; omega, h.al, h.al_pos, h.al_le,
          fun e he t ht => h.disj e he t (by simp [Script.touch, ht])⟩
      have hmono := ideal_mono (A := C.arch) (md := k.mode B) (im := im) hva rest hw c.ia op (m.blit p (L.size * len) fun i => im (src + i), t.vec.pos)
      simp only [hp.end_eq, hp.pos_eq] at this hmono hk1 ⊢
      refine this.mono (fun _ s' r => ⟨r.rel, r.pos, r.map, Nat.le_trans hp.cap_le r.cap, ?_,
        (hp.stays hC.facts).trans r.stay (by rw [r.pos, hp.end_eq, hp.pos_eq]; exact hmono)⟩) (fun _ _ hs => hs.from hk1 (Nat.le_refl _)) id
      obtain ⟨new, hn1, hn2⟩ := r.ents
      refine ⟨new, hn1, fun e he => ?_⟩
      rcases hn2 e he with h1 | ⟨t, h1, h2⟩
      · left; simp only at h1; omega
      · right; exact ⟨t, by simp [Script.touch, h1], h2⟩
    | true =>
      have hsl : pushSlice C k ⟨L, len, src, fun i => im (src + i)⟩ (addrFromRef k ptr) =
          PtrWriting.doPushSlice C k ⟨L, len, src, fun i => im (src + i)⟩ ptr := by
        cases k <;> first | rfl | cases hk
      simp only [Script.run, Script.ideal, hsl, PtrWriting.doPushSlice, pushRawSlice, bind_assoc_M, pure_bind_M]
      have hcomm : ∀ (f : Nat → M Ser Unit) (s : Ser), s.map = ⟨c.ia, op⟩ →
          (Ser.lift (Sto.pushSlice C L len fun i => im (src + i)) >>= fun a => Ser.getMap >>= fun a_1 =>
            PosMapping.posForAddr C.arch a_1 ptr >>= fun a_2 => overwritePtr C k a_2 a >>= fun _ => f a) s =
          (Ser.lift (Sto.pushSlice C L len fun i => im (src + i)) >>= fun a =>
            PosMapping.posForAddr C.arch ⟨c.ia, op⟩ ptr >>= fun a_2 => overwritePtr C k a_2 a >>= fun _ => f a) s := by
        intro f s hm
        rw [bind_def, bind_def]
        cases hl : Ser.lift (Sto.pushSlice C L len fun i => im (src + i)) s with
        | ok a t =>
          have hm' : t.map = ⟨c.ia, op⟩ := by rw [lift_map hl, hm]
          simp only
          rw [bind_ok (show Ser.getMap t = .ok t.map t from rfl), hm']
        | panic _ _ => rfl
        | abort => rfl
        | ub => rfl
        | fuel => rfl
      have hmap := h.map hk
      rw [hcomm (fun _ => rest.run C k im) s hmap]
      refine pushPtr_sat hC hk h.rel ho ht hwithin h.pos_pos h.al h.al_pos h.al_le
        (fun e he => h.disj e he (ptr, C.arch.ptrBytes) (by simp [Script.touch])) _ (ideal_mono hva rest hw _ _ (_, _)) ?_
      intro p s1 hp1 hpos1 hmap1 hents1 hk1
      have hrel1 := hk1.rel
      have hpge : s.sto.vec.pos ≤ p := by rw [hp1]; exact le_roundUp _ ho.pow2.pos
      have hend : p + L.size * len ≤ s1.sto.vec.pos := by rw [hpos1]; exact le_roundUp _ hva
      obtain ⟨new1, hn1, hn2⟩ := hents1
      have := ih (c := c) (op := op) (s := s1) ⟨hrel1, hw, fun _ => by rw [hmap1, hmap], by omega, by omega, h.al, h.al_pos, h.al_le, by
        intro e he t htt
        rw [hn1, List.mem_append] at he
        rcases he with he | he
        · exact h.disj e he t (by simp [Script.touch, htt])
        · rw [hn2 e he]
          exact outPos_disj hlo (hw.touchOK t htt).lo (hdj t htt)⟩
      have hmono := ideal_mono (A := C.arch) (md := k.mode B) (im := im) hva rest hw c.ia op
        ((k.mode B).putPtr C.arch (m.blit p (L.size * len) fun i => im (src + i)) (outPos c.ia op ptr) p, s1.sto.vec.pos)
      simp only [hpos1, hp1] at this hmono hk1 ⊢
      refine this.mono (fun _ s' r => ⟨r.rel, r.pos, by rw [r.map, hmap1], Nat.le_trans hk1.cap r.cap, ?_,
        hk1.stay.trans r.stay (by rw [r.pos, hpos1, hp1]; exact hmono)⟩) (fun _ _ hs => hs.from hk1 (Nat.le_refl _)) id
      obtain ⟨new, hn3, hn4⟩ := r.ents
      refine ⟨new1 ++ new, by rw [hn3, hn1, List.append_assoc], fun e he => ?_⟩
      rw [List.mem_append] at he
      rcases he with he | he
      · right; exact ⟨(ptr, C.arch.ptrBytes), by simp [Script.touch], hn2 e he, rfl⟩
      · rcases hn4 e he with h1 | ⟨t, h1, h2⟩
        · left; omega
        · right; exact ⟨t, by simp [Script.touch, h1], h2⟩
  | pushProcess L len src ptr inner rest ih1 ih2 =>
    obtain ⟨ho, ht, hdj, hwi, hw⟩ := h.wf
    have hwithin := h.within
    have hpp := h.pos_pos
    have hlo := ht.lo; have hhi := ht.hi
    cases hk : k.tracking with
    | false =>
      have hmode : (k.mode B).putPtr C.arch = fun m _ _ => m := by
        cases k <;> first | rfl | cases hk
      simp only [Script.ideal, hmode]
      -- what happens after the push, whatever is done to the mapping
      have after : ∀ p t (m1 : PosMapping) (_ : PushSpec C s.sto L len (fun i => im (src + i)) p t),
          ((inner.run C k im) { s with sto := t, map := m1 }).Sat
            (fun _ s2 => s2.map = m1 ∧ ∀ (s3 : Ser), s3.sto = s2.sto → s3.ptrs = s2.ptrs → s3.map = s.map →
              (rest.run C k im s3).Sat
                (fun _ s' => RunPost C B (.pushProcess L len src ptr inner rest) c op s
                  (rest.ideal C.arch C.valueAlign (k.mode B) im c.ia op
                    (inner.ideal C.arch C.valueAlign (k.mode B) im src (roundUp s.sto.vec.pos L.align)
                      (m.blit (roundUp s.sto.vec.pos L.align) (L.size * len) fun i => im (src + i),
                        roundUp (roundUp s.sto.vec.pos L.align + L.size * len) C.valueAlign))) s')
                (Stopped C B op (rest.ideal C.arch C.valueAlign (k.mode B) im c.ia op
                    (inner.ideal C.arch C.valueAlign (k.mode B) im src (roundUp s.sto.vec.pos L.align)
                      (m.blit (roundUp s.sto.vec.pos L.align) (L.size * len) fun i => im (src + i),
                        roundUp (roundUp s.sto.vec.pos L.align + L.size * len) C.valueAlign))).2 s m) (¬ C.NeverFails))
            (Stopped C B op (rest.ideal C.arch C.valueAlign (k.mode B) im c.ia op
                    (inner.ideal C.arch C.valueAlign (k.mode B) im src (roundUp s.sto.vec.pos L.align)
                      (m.blit (roundUp s.sto.vec.pos L.align) (L.size * len) fun i => im (src + i),
                        roundUp (roundUp s.sto.vec.pos L.align + L.size * len) C.valueAlign))).2 s m) (¬ C.NeverFails) := by
        intro p t m1 hp
        have hpge : s.sto.vec.pos ≤ p := by rw [hp.pos_eq]; exact le_roundUp _ ho.pow2.pos
        have hend : p + L.size * len ≤ t.vec.pos := by rw [hp.end_eq]; exact le_roundUp _ hva
        have hrel1 := h.rel.push hp ho.pow2.pos hva
        have hrel1' : Rel C B { s with sto := t, map := m1 } (m.blit p (L.size * len) fun i => im (src + i)) :=
          ⟨hrel1.inv, hrel1.bound, hrel1.nodup, hrel1.word, hrel1.rest⟩
        have i1 := ih1 (c := ⟨src, L.size * len, L.align⟩) (op := p) (s := { s with sto := t, map := m1 })
          (m := m.blit p (L.size * len) fun i => im (src + i))
          ⟨hrel1', hwi, fun hh => (by rw [hk] at hh; cases hh), hend, by simp only; omega, by rw [hp.pos_eq]; exact dvd_roundUp _ _, ho.pow2.pos,
            ho.align_le, by
              intro e he t' ht'
              have h1 := (h.rel.bound e he).1
              have h2 := (hwi.touchOK t' ht').lo
              unfold DisjRange outPos; simp only; omega⟩
        have hk1 : Kept C B op s m { s with sto := t, map := m1 } _ :=
          (Kept.push (lo := op) h.rel hp ho.pow2.pos hC.facts (by omega)).congr rfl rfl rfl rfl
        simp only [hp.end_eq, hp.pos_eq] at i1 hk1
        refine i1.mono ?_ (fun _ _ hh => (hh.lower (by rw [← hp.pos_eq]; omega)).from hk1 (ideal_mono hva rest hw _ _ _)) id
        intro _ s2 r1
        have hk2 := hk1.trans ((r1.kept hva hwi (by simp only; rw [hp.end_eq, hp.pos_eq]) (by simp only; rw [← hp.pos_eq]; omega)).lower
          (by rw [← hp.pos_eq]; omega))
        refine ⟨r1.map, fun s3 e1 e2 e3 => ?_⟩
        obtain ⟨new1, hn1, hn2⟩ := r1.ents
        have hnew : ∀ e ∈ new1, s.sto.vec.pos ≤ e.2 := by
          intro e he
          rcases hn2 e he with h1 | ⟨t', h1, h2, _⟩
          · simp only at h1; omega
          · have := (hwi.touchOK t' h1).lo
            have := hp.pos_eq
            rw [h2]; unfold outPos; simp only; omega
        have hr3 : Rel C B s3 _ := ⟨e1 ▸ r1.rel.inv, by rw [e1, e2]; exact r1.rel.bound, by rw [e2]; exact r1.rel.nodup,
          by rw [e1, e2]; exact r1.rel.word, by rw [e1, e2]; exact r1.rel.rest⟩
        have hmono := ideal_mono (A := C.arch) (md := k.mode B) (im := im) hva inner hwi src (roundUp s.sto.vec.pos L.align)
          (m.blit (roundUp s.sto.vec.pos L.align) (L.size * len) fun i => im (src + i),
            roundUp (roundUp s.sto.vec.pos L.align + L.size * len) C.valueAlign)
        have hpos3 := (congrArg (fun z : Sto => z.vec.pos) e1).trans r1.pos
        have hge3 : s.sto.vec.pos ≤ s3.sto.vec.pos := by
          rw [hpos3]; refine Nat.le_trans ?_ hmono; simp only; rw [← hp.pos_eq, ← hp.end_eq]; omega
        have i2 := ih2 (c := c) (op := op) (s := s3) ⟨hr3, hw, fun hh => (by rw [hk] at hh; cases hh),
          by omega, by omega, h.al, h.al_pos, h.al_le, by
            intro e he t' ht'
            rw [e2, hn1, List.mem_append] at he
            rcases he with he | he
            · exact h.disj e he t' (by simp [Script.touch, ht'])
            · have h1 := hnew e he
              have h2 := hw.touchOK t' ht'
              have h3 := h2.lo; have h4 := h2.hi
              unfold DisjRange outPos; omega⟩
        have hk3 : Kept C B op s m s3 _ := hk2.congr rfl rfl e1 e2
        rw [hpos3] at i2
        refine i2.mono (fun _ s' r => ⟨r.rel, r.pos, by rw [r.map, e3], (hk3.trans (r.kept hva hw hpos3.symm (by omega))).cap, ?_,
          (hk3.trans (r.kept hva hw hpos3.symm (by omega))).stay⟩)
          (fun _ _ hs => hs.from hk3 (Nat.le_refl _)) id
        · obtain ⟨new, hn3, hn4⟩ := r.ents
          refine ⟨new1 ++ new, by rw [hn3, e2, hn1, List.append_assoc], fun e he => ?_⟩
          rw [List.mem_append] at he
          rcases he with he | he
          · left; exact hnew e he
          · rcases hn4 e he with h1 | ⟨t, h1, h2⟩
            · left; omega
            · right; exact ⟨t, by simp [Script.touch, h1], h2⟩
      have hpanic := ideal_mono (A := C.arch) (md := k.mode B) (im := im) hva inner hwi src (roundUp s.sto.vec.pos L.align)
          (m.blit (roundUp s.sto.vec.pos L.align) (L.size * len) fun i => im (src + i),
            roundUp (roundUp s.sto.vec.pos L.align + L.size * len) C.valueAlign)
      have hpanic2 := Nat.le_trans hpanic (ideal_mono (A := C.arch) (md := k.mode B) (im := im) hva rest hw c.ia op _)
      cases k with
      | ptrOffset => cases hk
      | complete => cases hk
      | pureCopy =>
        simp only [Script.run, pushAndProcessSlice, pushRawSlice, bind_assoc_M, pure_bind_M]
        rw [sat_bind]
        refine (pushRawSlice_stop hC ho h.rel (by omega) (Or.inr h.pos_pos) hpanic2 _).imp ?_
        rintro p s1 ⟨t, rfl, hp⟩
        rw [sat_bind]
        refine (after p t s.map hp).imp fun _ s2 hs2 => ?_
        exact hs2.2 s2 rfl rfl hs2.1
      | posTracking =>
        simp only [Script.run, pushAndProcessSlice, PosTracking.doPushAndProcessSlice, bind_assoc_M, pure_bind_M]
        rw [bind_ok (show Ser.getMap s = .ok s.map s from rfl), sat_bind]
        refine (pushRawSlice_stop hC ho h.rel (by omega) (Or.inr h.pos_pos) hpanic2 _).imp ?_
        rintro p s1 ⟨t, rfl, hp⟩
        rw [bind_ok (show Ser.setMap ⟨src, p⟩ { s with sto := t } = .ok () { s with sto := t, map := ⟨src, p⟩ } from rfl), sat_bind]
        refine (after p t ⟨src, p⟩ hp).imp fun _ s2 hs2 => ?_
        rw [bind_ok (show Ser.setMap s.map s2 = .ok () { s2 with map := s.map } from rfl)]
        exact hs2.2 { s2 with map := s.map } rfl rfl rfl
    | true =>
      have hsl : pushAndProcessSlice C k ⟨L, len, src, fun i => im (src + i)⟩ (addrFromRef k ptr) (inner.run C k im) =
          PtrWriting.doPushAndProcessSlice C k ⟨L, len, src, fun i => im (src + i)⟩ ptr (inner.run C k im) := by
        cases k <;> first | rfl | cases hk
      simp only [Script.run, Script.ideal, hsl, PtrWriting.doPushAndProcessSlice, bind_assoc_M, pure_bind_M]
      have hmap := h.map hk
      rw [bind_ok (show Ser.getMap s = .ok s.map s from rfl), hmap]
      refine pushPtr_sat hC hk h.rel ho ht hwithin h.pos_pos h.al h.al_pos h.al_le
        (fun e he => h.disj e he (ptr, C.arch.ptrBytes) (by simp [Script.touch])) _ ?_ ?_
      · exact Nat.le_trans (ideal_mono (A := C.arch) (md := k.mode B) (im := im) hva inner hwi _ _ (_, _))
          (ideal_mono hva rest hw _ _ _)
      intro p s1 hp1 hpos1 hmap1 hents1 hk1
      have hrel1 := hk1.rel
      subst hp1
      have hpge : s.sto.vec.pos ≤ roundUp s.sto.vec.pos L.align := le_roundUp _ ho.pow2.pos
      have hend : roundUp s.sto.vec.pos L.align + L.size * len ≤ s1.sto.vec.pos := by rw [hpos1]; exact le_roundUp _ hva
      obtain ⟨new0, hn01, hn02⟩ := hents1
      rw [bind_ok (show Ser.setMap ⟨src, roundUp s.sto.vec.pos L.align⟩ s1 = .ok () { s1 with map := ⟨src, roundUp s.sto.vec.pos L.align⟩ } from rfl), sat_bind]
      have hrel1' : Rel C B { s1 with map := ⟨src, roundUp s.sto.vec.pos L.align⟩ } _ :=
        ⟨hrel1.inv, hrel1.bound, hrel1.nodup, hrel1.word, hrel1.rest⟩
      have hbnd : ∀ e ∈ s1.ptrs.entries, e.2 + C.arch.ptrBytes ≤ s.sto.vec.pos := by
        intro e he
        rw [hn01, List.mem_append] at he
        rcases he with he | he
        · exact (h.rel.bound e he).1
        · rw [hn02 e he]; unfold outPos; omega
      have i1 := ih1 (c := ⟨src, L.size * len, L.align⟩) (op := roundUp s.sto.vec.pos L.align) (s := { s1 with map := ⟨src, roundUp s.sto.vec.pos L.align⟩ })
        ⟨hrel1', hwi, fun _ => rfl, hend, by simp only; omega, dvd_roundUp _ _, ho.pow2.pos, ho.align_le, by
          intro e he t' ht'
          have h1 := hbnd e he
          have h2 := (hwi.touchOK t' ht').lo
          unfold DisjRange outPos; simp only; omega⟩
      have hk1' : Kept C B op s m { s1 with map := ⟨src, roundUp s.sto.vec.pos L.align⟩ } _ := hk1.congr rfl rfl rfl rfl
      simp only [hpos1] at i1
      refine i1.mono ?_ (fun _ _ hh => (hh.lower (by omega)).from hk1' (ideal_mono hva rest hw _ _ _)) id
      intro _ s2 r1
      have hk1b := RunPost.kept (op := roundUp s.sto.vec.pos L.align) (s := { s1 with map := ⟨src, roundUp s.sto.vec.pos L.align⟩ }) (s' := s2) hva hwi hpos1.symm
        (by simp only; omega) r1
      have hk2 : Kept C B op s m { s2 with map := ⟨c.ia, op⟩ } _ :=
        (hk1'.trans (hk1b.lower (lo' := op) (by omega))).congr rfl rfl rfl rfl
      rw [bind_ok (show Ser.setMap ⟨c.ia, op⟩ s2 = .ok () { s2 with map := ⟨c.ia, op⟩ } from rfl)]
      obtain ⟨new1, hn1, hn2⟩ := r1.ents
      simp only at hn1
      have hnew : ∀ e ∈ new1, s.sto.vec.pos ≤ e.2 := by
        intro e he
        rcases hn2 e he with h1 | ⟨t', h1, h2, _⟩
        · simp only at h1; omega
        · have := (hwi.touchOK t' h1).lo
          rw [h2]; unfold outPos; simp only; omega
      have hr3 : Rel C B { s2 with map := ⟨c.ia, op⟩ } _ :=
        ⟨r1.rel.inv, r1.rel.bound, r1.rel.nodup, r1.rel.word, r1.rel.rest⟩
      have hpos2 := r1.pos
      have hmono := ideal_mono (A := C.arch) (md := k.mode B) (im := im) hva inner hwi src (roundUp s.sto.vec.pos L.align)
        ((k.mode B).putPtr C.arch (m.blit (roundUp s.sto.vec.pos L.align) (L.size * len) fun i => im (src + i))
          (outPos c.ia op ptr) (roundUp s.sto.vec.pos L.align),
          roundUp (roundUp s.sto.vec.pos L.align + L.size * len) C.valueAlign)
      have hge3 : s.sto.vec.pos ≤ s2.sto.vec.pos := by
        rw [hpos2]; refine Nat.le_trans ?_ hmono; simp only; rw [← hpos1]; omega
      have i2 := ih2 (c := c) (op := op) (s := { s2 with map := ⟨c.ia, op⟩ }) ⟨hr3, hw, fun _ => rfl,
        by simp only; omega, by simp only; omega, h.al, h.al_pos, h.al_le, by
          intro e he t' ht'
          simp only [hn1, hn01, List.mem_append] at he
          rcases he with (he | he) | he
          · exact h.disj e he t' (by simp [Script.touch, ht'])
          · rw [hn02 e he]
            exact outPos_disj hlo (hw.touchOK t' ht').lo (hdj t' ht')
          · have h1 := hnew e he
            have h2 := hw.touchOK t' ht'
            have h3 := h2.lo; have h4 := h2.hi
            unfold DisjRange outPos; omega⟩
      simp only [hpos2] at i2
      refine i2.mono (fun _ s' r => ⟨r.rel, r.pos, by rw [r.map, hmap], (hk2.trans (r.kept hva hw hpos2.symm (by simp only; omega))).cap, ?_,
          (hk2.trans (r.kept hva hw hpos2.symm (by simp only; omega))).stay⟩)
        (fun _ _ hs => hs.from hk2 (Nat.le_refl _)) id
      · obtain ⟨new, hn3, hn4⟩ := r.ents
        refine ⟨new0 ++ (new1 ++ new), by rw [hn3]; simp only [hn1, hn01, List.append_assoc], fun e he => ?_⟩
        rw [List.mem_append, List.mem_append] at he
        rcases he with he | he | he
        · right; exact ⟨(ptr, C.arch.ptrBytes), by simp [Script.touch], hn02 e he, rfl⟩
        · left; exact hnew e he
        · rcases hn4 e he with h1 | ⟨t, h1, h2⟩
          · left; simp only at h1; omega
          · right; exact ⟨t, by simp [Script.touch, h1], h2⟩

theorem run_sat (hC : C.OK) {k : Kind} {B : Nat} {im : Mem} (sc : Script) {c : Ctx} {op : Nat} {s : Ser} {m : Mem}
    (h : RunPre C k B sc c op s m) :
    (sc.run C k im s).Sat
      (fun _ s' => RunPost C B sc c op s (sc.ideal C.arch C.valueAlign (k.mode B) im c.ia op (m, s.sto.vec.pos)) s')
      (CapPanic C (sc.ideal C.arch C.valueAlign (k.mode B) im c.ia op (m, s.sto.vec.pos)).2) (¬ C.NeverFails) :=
  (run_stop hC sc h).mono (fun _ _ h => h) (fun _ _ h => h.panic) id

end
end SerRaw
