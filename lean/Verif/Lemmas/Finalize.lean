import Verif.Lemmas.Refine
/-
`finalize` of the `complete` kind: recorded pointers end up relative to the final buffer address.
-/
namespace SerRaw

section
variable {C : Cfg}

/-- Contents `v` equal `m` except that the words at the entries `es` are still relative to the address they were
written at. -/
structure Pend (A : Arch) (B : Nat) (v m : Mem) (es : List (Nat × Nat)) : Prop where
  word : ∀ e ∈ es, ∃ w, readWord A v e.2 = some w ∧
    readWord A m e.2 = some (wrappingAdd A w (wrappingSub A B e.1))
  rest : ∀ i, (∀ e ∈ es, i < e.2 ∨ e.2 + A.ptrBytes ≤ i) → v i = m i

/-- Recorded entries: in bounds, aligned, pairwise different. -/
structure EntOK (C : Cfg) (pos : Nat) (es : List (Nat × Nat)) : Prop where
  bound : ∀ e ∈ es, e.2 + C.arch.ptrBytes ≤ pos ∧ C.arch.ptrBytes ∣ e.2 ∧ C.arch.ptrBytes ≤ C.maxValueAlign
  nodup : (es.map (·.2)).Nodup

theorem Rel.pend {B : Nat} {s : Ser} {m : Mem} (h : Rel C B s m) : Pend C.arch B s.sto.view m s.ptrs.entries :=
  ⟨h.word, h.rest⟩
theorem Rel.entOK {B : Nat} {s : Ser} {m : Mem} (h : Rel C B s m) : EntOK C s.sto.vec.pos s.ptrs.entries :=
  ⟨h.bound, h.nodup⟩

theorem dvd_disj {W a b : Nat} (ha : W ∣ a) (hb : W ∣ b) (hne : a ≠ b) : a + W ≤ b ∨ b + W ≤ a := by
  obtain ⟨i, rfl⟩ := ha; obtain ⟨j, rfl⟩ := hb
  have : i ≠ j := fun h => hne (by rw [h])
  rcases Nat.lt_or_gt_of_ne this with h | h
  · left
    have := Nat.mul_le_mul_left W (show i + 1 ≤ j from h)
    rw [Nat.mul_add] at this; omega
  · right
    have := Nat.mul_le_mul_left W (show j + 1 ≤ i from h)
    rw [Nat.mul_add] at this; omega

theorem EntOK.disj {pos : Nat} {e : Nat × Nat} {es : List (Nat × Nat)} (h : EntOK C pos (e :: es)) :
    ∀ e' ∈ es, e'.2 + C.arch.ptrBytes ≤ e.2 ∨ e.2 + C.arch.ptrBytes ≤ e'.2 := by
  intro e' he'
  have hn := h.nodup
  simp only [List.map_cons, List.nodup_cons, List.mem_map, not_exists, not_and] at hn
  exact dvd_disj (h.bound e' (by simp [he'])).2.1 (h.bound e (by simp)).2.1 (hn.1 e' he')

theorem EntOK.tail {pos : Nat} {e : Nat × Nat} {es : List (Nat × Nat)} (h : EntOK C pos (e :: es)) : EntOK C pos es :=
  ⟨fun e' he' => h.bound e' (by simp [he']), by have := h.nodup; simp only [List.map_cons, List.nodup_cons] at this; exact this.2⟩

theorem readWord_lt {A : Arch} {m : Mem} {a w : Nat} (h : readWord A m a = some w) : w < A.usizeMod :=
  (readWord_some_iff.1 h).1

/-- An entry written at the final address needs no correction. -/
theorem Pend.skip {B : Nat} {v m : Mem} {e : Nat × Nat} {es : List (Nat × Nat)} (h : Pend C.arch B v m (e :: es))
    (he : e.1 = B) : Pend C.arch B v m es := by
  refine ⟨fun e' he' => h.word e' (by simp [he']), fun i hi => ?_⟩
  by_cases hin : e.2 ≤ i ∧ i < e.2 + C.arch.ptrBytes
  · obtain ⟨w, h1, h2⟩ := h.word e (by simp)
    have hw := readWord_lt h1
    have hz : wrappingAdd C.arch w (wrappingSub C.arch B e.1) = w := by
      unfold wrappingAdd wrappingSub
      rw [he, show B + C.arch.usizeMod - B = C.arch.usizeMod by omega, Nat.mod_self, Nat.add_zero, Nat.mod_eq_of_lt hw]
    rw [hz] at h2
    have c1 := (readWord_some_iff.1 h1).2 (i - e.2) (by omega)
    have c2 := (readWord_some_iff.1 h2).2 (i - e.2) (by omega)
    rw [show e.2 + (i - e.2) = i by omega] at c1 c2
    rw [c1, c2]
  · refine h.rest i fun e' he' => ?_
    rcases List.mem_cons.1 he' with rfl | he'
    · omega
    · exact hi e' he'

/-- One pointer corrected. -/
theorem correctPtr_ok (hC : C.OK) {t : Sto} (h : t.WInv C) {B : Nat} (hB : B = t.vec.ptr) {m : Mem} {e : Nat × Nat}
    {es : List (Nat × Nat)} (hp : Pend C.arch B t.view m (e :: es)) (he : EntOK C t.vec.pos (e :: es)) :
    ∃ t', correctPtr C.arch B (wrappingSub C.arch B e.1) e.2 t = .ok () t' ∧ t'.vec = t.vec ∧ t'.WInv C ∧
      Pend C.arch B t'.view m es := by
  have F := hC.facts
  have hpp := hC.arch.ptr_pos
  obtain ⟨hb, hdv, hpm⟩ := he.bound e (by simp)
  have hpl := h.pos_le
  obtain ⟨w, hw1, hw2⟩ := hp.word e (by simp)
  rcases h.mem with ⟨h0, _, _⟩ | ⟨hc0, hp0, hpd, hpe, d, hl⟩
  · omega
  have hsa : C.arch.ptrBytes ∣ C.storageAlign := hC.arch.ptr_pow2.dvd_of_le F.sa (Nat.le_trans hpm F.mva_le)
  have hda : C.arch.ptrBytes ∣ t.vec.ptr + e.2 := Nat.dvd_add (Nat.dvd_trans hsa hpd) hdv
  have hadd : ptrAdd t.vec.ptr e.2 t = .ok (t.vec.ptr + e.2) t := by
    unfold ptrAdd
    split
    · rename_i hz; simp [hz]
    · rw [if_pos]; simp [hl, Block.contains]; omega
  have hcont : (⟨t.vec.ptr, t.vec.capacity, C.storageAlign, d⟩ : Block).contains (t.vec.ptr + e.2) C.arch.ptrBytes = true := by
    simp [Block.contains]; omega
  have hal : ¬ (t.vec.ptr + e.2 = 0 ∨ (t.vec.ptr + e.2) % C.arch.ptrBytes ≠ 0) := by
    rw [not_or]; exact ⟨by omega, by simp [Nat.dvd_iff_mod_eq_zero.1 hda]⟩
  have hrd : memRef (t.vec.ptr + e.2) C.arch.ptrBytes C.arch.ptrBytes t = .ok (fun i => t.w.load (t.vec.ptr + e.2 + i)) t := by
    unfold memRef
    rw [if_neg hal, if_neg (by omega), if_pos (by simp only [hl, List.any_cons, hcont, Bool.true_or])]
  have hload : readWord C.arch (fun i => t.w.load (t.vec.ptr + e.2 + i)) 0 = some w := by
    rw [← hw1]
    refine readWord_congr fun i hi => ?_
    rw [Sto.view_of_live hl]
    simp only [World.load, hl, List.find?_cons, Nat.zero_add]
    have : (⟨t.vec.ptr, t.vec.capacity, C.storageAlign, d⟩ : Block).contains (t.vec.ptr + e.2 + i) 1 = true := by
      simp [Block.contains]; omega
    simp only [this]
    rw [if_pos (by omega)]
    congr 1; omega
  -- the write is the same as that of `write_slice`
  obtain ⟨t', h1, h2, _, h3, h4⟩ := writeSlice_ok hC h (p := e.2) (len := 1) (L := ⟨C.arch.ptrBytes, C.arch.ptrBytes⟩)
    (wordCells C.arch (wrappingAdd C.arch w (wrappingSub C.arch B e.1)))
    (by simp only; omega) (by omega) (by simp only; omega) hC.arch.ptr_pow2 hdv (Nat.le_trans hpm F.mva_le)
  simp only [Nat.mul_one] at h1 h4
  refine ⟨t', ?_, h2, h3, ?_⟩
  · unfold correctPtr
    subst hB
    rw [bind_ok hadd, bind_ok hrd]
    simp only [hload]
    rw [← h1]
    unfold Sto.writeSlice
    rw [bind_ok (show Sto.getCapacity t = .ok t.vec.capacity t from rfl),
      bind_ok (debugAssert_true _ (decide_eq_true (by omega)) t), bind_ok (debugAssertM_ok _ ?_),
      bind_ok (debugAssertM_ok _ ?_), if_neg (by simp only; omega), bind_ok (show Sto.getPtr t = .ok t.vec.ptr t from rfl),
      bind_ok hadd]
    · simp only [Nat.mul_one]
    · intro _; rw [isAlignedTo_ok hC.arch.ptr_pow2, decide_eq_true hdv]
    · intro _
      have := h.cap_le; have := F.max_lt
      rw [bind_ok (usub_ok _ (by omega) t), bind_ok (umul_ok _ (by simp only; omega) t)]
      simp only [pure_run]; rw [decide_eq_true]; omega
  · have hdj := he.disj
    refine ⟨fun e' he' => ?_, fun i hi => ?_⟩
    · obtain ⟨w', g1, g2⟩ := hp.word e' (by simp [he'])
      refine ⟨w', ?_, g2⟩
      rw [h4, readWord_blit_disj (hdj e' he')]; exact g1
    · rw [h4]
      by_cases hin : e.2 ≤ i ∧ i < e.2 + C.arch.ptrBytes
      · rw [blit_in hin.1 hin.2]
        have c2 := (readWord_some_iff.1 hw2).2 (i - e.2) (by omega)
        rw [show e.2 + (i - e.2) = i by omega] at c2
        rw [c2]
      · rw [blit_out (by omega)]
        refine hp.rest i fun e' he' => ?_
        rcases List.mem_cons.1 he' with rfl | he'
        · omega
        · exact hi e' he'

/-- The loop over one group. -/
theorem correctLoop_ok (hC : C.OK) {B a : Nat} {m : Mem} (ps : List Nat) {es : List (Nat × Nat)} {t : Sto} (h : t.WInv C)
    (hB : B = t.vec.ptr) (hp : Pend C.arch B t.view m (ps.map (fun x => (a, x)) ++ es))
    (he : EntOK C t.vec.pos (ps.map (fun x => (a, x)) ++ es)) :
    ∃ t', correctLoop C.arch B (wrappingSub C.arch B a) ps t = .ok () t' ∧ t'.vec = t.vec ∧ t'.WInv C ∧
      Pend C.arch B t'.view m es ∧ EntOK C t.vec.pos es := by
  induction ps generalizing t with
  | nil => exact ⟨t, rfl, rfl, h, hp, he⟩
  | cons p ps ih =>
    obtain ⟨t1, h1, h2, h3, h4⟩ := correctPtr_ok hC h hB (e := (a, p)) hp he
    obtain ⟨t2, g1, g2, g3, g4, g5⟩ := ih h3 (by rw [h2]; exact hB) h4 (by rw [h2]; exact he.tail)
    refine ⟨t2, ?_, by rw [g2, h2], g3, g4, by rw [h2] at g5; exact g5⟩
    unfold correctLoop
    rw [bind_ok h1]; exact g1

/-- A group written at the final address. -/
theorem skip_group {B : Nat} {v m : Mem} (ps : List Nat) {es : List (Nat × Nat)} {pos : Nat}
    (hp : Pend C.arch B v m (ps.map (fun x => (B, x)) ++ es)) (he : EntOK C pos (ps.map (fun x => (B, x)) ++ es)) :
    Pend C.arch B v m es ∧ EntOK C pos es := by
  induction ps with
  | nil => exact ⟨hp, he⟩
  | cons p ps ih => exact ih (hp.skip rfl) he.tail

theorem group_ok (hC : C.OK) {B : Nat} {m : Mem} (g : PtrGroup) {es : List (Nat × Nat)} {t : Sto} (h : t.WInv C)
    (hB : B = t.vec.ptr)
    (hp : Pend C.arch B t.view m (g.positions.map (fun x => (g.addr, x)) ++ es))
    (he : EntOK C t.vec.pos (g.positions.map (fun x => (g.addr, x)) ++ es)) :
    ∃ t', (if g.addr ≠ B then g.correctPtrs C.arch B else pure ()) t = .ok () t' ∧ t'.vec = t.vec ∧ t'.WInv C ∧
      Pend C.arch B t'.view m es ∧ EntOK C t.vec.pos es := by
  by_cases hg : g.addr = B
  · rw [hg] at hp he
    rw [if_neg (by simp [hg])]
    obtain ⟨h1, h2⟩ := skip_group _ hp he
    exact ⟨t, rfl, rfl, h, h1, h2⟩
  · rw [if_pos hg]
    exact correctLoop_ok hC _ h hB hp he

theorem correctPast_ok (hC : C.OK) {B : Nat} {m : Mem} (gs : List PtrGroup) {es : List (Nat × Nat)} {t : Sto} (h : t.WInv C)
    (hB : B = t.vec.ptr)
    (hp : Pend C.arch B t.view m (gs.flatMap (fun g => g.positions.map fun x => (g.addr, x)) ++ es))
    (he : EntOK C t.vec.pos (gs.flatMap (fun g => g.positions.map fun x => (g.addr, x)) ++ es)) :
    ∃ t', Complete.correctPast C.arch B gs t = .ok () t' ∧ t'.vec = t.vec ∧ t'.WInv C ∧
      Pend C.arch B t'.view m es ∧ EntOK C t.vec.pos es := by
  induction gs generalizing t with
  | nil => exact ⟨t, rfl, rfl, h, hp, he⟩
  | cons g gs ih =>
    rw [List.flatMap_cons, List.append_assoc] at hp he
    obtain ⟨t1, h1, h2, h3, h4, h5⟩ := group_ok hC g h hB hp he
    obtain ⟨t2, g1, g2, g3, g4, g5⟩ := ih h3 (by rw [h2]; exact hB) h4 (by rw [h2]; exact h5)
    refine ⟨t2, ?_, by rw [g2, h2], g3, g4, by rw [h2] at g5; exact g5⟩
    unfold Complete.correctPast
    rw [bind_ok h1]; exact g1

theorem Pend.perm {B : Nat} {v m : Mem} {es es' : List (Nat × Nat)} (h : Pend C.arch B v m es) (hp : ∀ e, e ∈ es ↔ e ∈ es') :
    Pend C.arch B v m es' :=
  ⟨fun e he => h.word e ((hp e).2 he), fun i hi => h.rest i fun e he => hi e ((hp e).1 he)⟩

/-- `finalize` turns the contents into the reference contents for the buffer's final address. -/
theorem finalize_ok (hC : C.OK) (k : Kind) {s : Ser} {m : Mem} (h : Rel C s.sto.vec.ptr s m)
    (hnone : k ≠ .complete → s.ptrs.entries = []) :
    ∃ s', finalize C k s = .ok () s' ∧ s'.sto.vec = s.sto.vec ∧ s'.sto.Inv C ∧ s'.sto.view = m ∧ s'.ptrs = s.ptrs ∧
      s'.map = s.map := by
  by_cases hk : k = .complete
  · subst hk
    have hents : s.ptrs.entries = (s.ptrs.past.flatMap fun (g : PtrGroup) => g.positions.map fun x => (g.addr, x)) ++
        s.ptrs.current.positions.map fun x => (s.ptrs.current.addr, x) := by
      unfold Ptrs.entries; rw [List.flatMap_append]; simp
    have hperm : (s.ptrs.entries.map (·.2)).Perm ((s.ptrs.current.positions.map (fun x => (s.ptrs.current.addr, x)) ++
        ((s.ptrs.past.flatMap fun (g : PtrGroup) => g.positions.map fun x => (g.addr, x)) ++ ([] : List (Nat × Nat)))).map (·.2)) := by
      rw [hents, List.append_nil]; exact (List.perm_append_comm).map _
    have hmem : ∀ e, e ∈ s.ptrs.entries ↔ e ∈ (s.ptrs.current.positions.map (fun x => (s.ptrs.current.addr, x)) ++
        ((s.ptrs.past.flatMap fun (g : PtrGroup) => g.positions.map fun x => (g.addr, x)) ++ [])) := by
      intro e; rw [hents, List.append_nil, List.mem_append, List.mem_append, or_comm]
    have hp := h.pend.perm hmem
    have he : EntOK C s.sto.vec.pos _ := ⟨fun e he => h.bound e ((hmem e).2 he), hperm.nodup_iff.1 h.nodup⟩
    obtain ⟨t1, h1, h2, h3, h4, h5⟩ := group_ok hC s.ptrs.current h.inv.toWInv rfl hp he
    obtain ⟨t2, g1, g2, g3, g4, g5⟩ := correctPast_ok hC s.ptrs.past h3 (by rw [h2]) h4 (by rw [h2]; exact h5)
    refine ⟨{ s with sto := t2 }, ?_, by rw [g2, h2], ⟨g3, by simp only [g2, h2]; exact h.inv.pos_dvd⟩,
      funext fun i => g4.rest i (by simp), rfl, rfl⟩
    unfold finalize Complete.doFinalize
    simp only
    rw [bind_ok (show M.get s = .ok s s from rfl)]
    have hfirst : (if s.ptrs.current.addr ≠ s.sto.vec.ptr ∧ s.ptrs.current.isEmpty = false then
        Ser.lift (s.ptrs.current.correctPtrs C.arch s.sto.vec.ptr) else pure ()) s = .ok () { s with sto := t1 } := by
      by_cases ha : s.ptrs.current.addr = s.sto.vec.ptr
      · rw [if_neg (by simp [ha])]
        rw [if_neg (by simp [ha])] at h1
        injection h1 with _ h1'; rw [← h1']; rfl
      · rw [if_pos ha] at h1
        by_cases hem : s.ptrs.current.isEmpty = false
        · rw [if_pos ⟨ha, hem⟩]; exact lift_ok h1
        · rw [if_neg (by simp [hem])]
          have hnil : s.ptrs.current.positions = [] := by
            have : s.ptrs.current.isEmpty = true := by simpa using hem
            unfold PtrGroup.isEmpty at this; simpa using this
          unfold PtrGroup.correctPtrs at h1
          rw [hnil] at h1
          injection h1 with _ h1'; rw [← h1']; rfl
    exact (bind_ok hfirst).trans (lift_ok g1)
  · refine ⟨s, ?_, rfl, h.inv, ?_, rfl, rfl⟩
    · cases k <;> first | rfl | exact absurd rfl hk
    · funext i; exact h.rest i (by simp [hnone hk])

/-! ### `finalize` does not call the allocator -/

/-- `x` leaves the number of allocator calls as it is. -/
def NoAlloc {α} (x : M Sto α) : Prop := ∀ s a s', x s = .ok a s' → s'.w.calls = s.w.calls

theorem NoAlloc.pure {α} (a : α) : NoAlloc (pure a : M Sto α) := by
  intro s b s' h; injection h with _ h2; rw [h2]
theorem NoAlloc.bind {α β} {x : M Sto α} {f : α → M Sto β} (hx : NoAlloc x) (hf : ∀ a, NoAlloc (f a)) : NoAlloc (x >>= f) := by
  intro s b s' h
  rw [bind_def] at h
  split at h <;> first | (next a t ht => rw [hf a _ _ _ h, hx _ _ _ ht]) | cases h

theorem NoAlloc.correctPtr (A : Arch) (b sh p : Nat) : NoAlloc (SerRaw.correctPtr A b sh p) := by
  unfold SerRaw.correctPtr
  refine NoAlloc.bind ?_ fun a => NoAlloc.bind ?_ fun cells => ?_
  · intro s x s' h; unfold ptrAdd at h; split at h
    · injection h with _ h2; rw [h2]
    · split at h <;> first | (injection h with _ h2; rw [h2]) | cases h
  · intro s x s' h; unfold memRef at h; split at h
    · cases h
    · split at h
      · injection h with _ h2; rw [h2]
      · split at h <;> first | (injection h with _ h2; rw [h2]) | cases h
  · split
    · intro s x s' h; cases h
    · intro s x s' h; unfold memWrite at h; split at h
      · cases h
      · split at h
        · injection h with _ h2; rw [h2]
        · split at h <;> first | (injection h with _ h2; rw [← h2]) | cases h

theorem NoAlloc.correctLoop (A : Arch) (b sh : Nat) (ps : List Nat) : NoAlloc (SerRaw.correctLoop A b sh ps) := by
  induction ps with
  | nil => exact NoAlloc.pure ()
  | cons p ps ih => exact (NoAlloc.correctPtr A b sh p).bind fun _ => ih

theorem NoAlloc.correctPast (A : Arch) (b : Nat) (gs : List PtrGroup) : NoAlloc (Complete.correctPast A b gs) := by
  induction gs with
  | nil => exact NoAlloc.pure ()
  | cons g gs ih =>
    refine NoAlloc.bind ?_ fun _ => ih
    split
    · exact NoAlloc.correctLoop _ _ _ _
    · exact NoAlloc.pure ()

theorem finalize_calls {k : Kind} {s s' : Ser} (h : finalize C k s = .ok () s') : s'.sto.w.calls = s.sto.w.calls := by
  have lift : ∀ {x : M Sto Unit}, NoAlloc x → ∀ {s s' : Ser}, Ser.lift x s = .ok () s' → s'.sto.w.calls = s.sto.w.calls := by
    intro x hx s s' h
    unfold Ser.lift at h
    cases hr : x s.sto with
    | ok a t => rw [hr] at h; injection h with _ h2; rw [← h2]; exact hx _ _ _ hr
    | _ => rw [hr] at h; cases h
  cases k with
  | complete =>
    unfold finalize Complete.doFinalize at h
    simp only [bind_def, M.get] at h
    by_cases hc : s.ptrs.current.addr ≠ s.sto.asPtr ∧ s.ptrs.current.isEmpty = false
    · simp only [if_pos hc] at h
      cases hr : Ser.lift (s.ptrs.current.correctPtrs C.arch s.sto.asPtr) s with
      | ok a t =>
        rw [hr] at h
        rw [lift (NoAlloc.correctPast _ _ _) h, lift (NoAlloc.correctLoop _ _ _ _) hr]
      | _ => rw [hr] at h; cases h
    · simp only [if_neg hc, pure_run] at h
      exact lift (NoAlloc.correctPast _ _ _) h
  | _ => injection h with _ h2; rw [h2]

/-- The `B` of the relation is irrelevant while no pointer is recorded. -/
theorem Rel.init {B : Nat} {t : Sto} (h : t.Inv C) : Rel C B (Ser.fromStorage t) t.view :=
  ⟨h, by simp [Ser.fromStorage, entries_new], by simp [Ser.fromStorage, entries_new],
    by simp [Ser.fromStorage, entries_new], fun _ _ => rfl⟩

end
end SerRaw
