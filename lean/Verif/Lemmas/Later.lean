import Verif.Model.Later
import Verif.Lemmas.Caught
import Verif.Lemmas.Decode
import Verif.Spec.Output
/-
Later operations and sessions leave what a storage holds as it is; readers do not mind additional bytes.
-/
namespace SerRaw

/-! ### Readers in a larger memory -/

/-- `m'` has every byte `m` has. -/
def Mem.Le (m m' : Mem) : Prop := ∀ i b, m i = some b → m' i = some b

section
variable {A : Arch} {P : Prog} {fl : Flags} {m m' : Mem}

theorem readBytes_le (h : m.Le m') {a n : Nat} {bs : List UInt8} (hb : readBytes m a n = some bs) : readBytes m' a n = some bs := by
  induction n generalizing a bs with
  | zero => exact hb
  | succ n ih =>
    rw [readBytes] at hb ⊢
    split at hb
    · rename_i b bs' h1 h2
      rw [h _ _ h1, ih h2]; exact hb
    · cases hb

theorem readWord_le (h : m.Le m') {a w : Nat} (hb : readWord A m a = some w) : readWord A m' a = some w := by
  unfold readWord at hb ⊢
  rw [Option.map_eq_some_iff] at hb ⊢
  obtain ⟨bs, h1, h2⟩ := hb
  exact ⟨bs, readBytes_le h h1, h2⟩

theorem activeVariant_le (h : m.Le m') {a i : Nat} {tag : Tag} (ht : activeVariant A m a tag = some i) : activeVariant A m' a tag = some i := by
  cases tag with
  | single => exact ht
  | bytes off len sel =>
    simp only [activeVariant, Option.bind_eq_some_iff] at ht ⊢
    obtain ⟨bs, h1, h2⟩ := ht
    exact ⟨bs, readBytes_le h h1, h2⟩
  | word off sel =>
    simp only [activeVariant, Option.bind_eq_some_iff] at ht ⊢
    obtain ⟨bs, h1, h2⟩ := ht
    exact ⟨bs, readWord_le h h1, h2⟩

theorem readHeader_le (h : m.Le m') {o : Order} {a : Nat} {hd : Header} (hh : readHeader A m o a = some hd) : readHeader A m' o a = some hd := by
  simp only [readHeader, Option.bind_eq_bind, Option.bind_eq_some_iff, Option.pure_def, Option.some.injEq] at hh ⊢
  obtain ⟨p, h1, c, h2, l, h3, h4⟩ := hh
  exact ⟨p, readWord_le h h1, c, readWord_le h h2, l, readWord_le h h3, h4⟩

theorem decodeVec_le (h : m.Le m') {r1 r2 : TyId → Nat → Option Val} (hr : ∀ t a v, r1 t a = some v → r2 t a = some v)
    {u : TyId} {a : Nat} {v : Val} (hd : decodeVec A P fl m r1 u a = some v) : decodeVec A P fl m' r2 u a = some v := by
  simp only [decodeVec, Option.bind_eq_bind, Option.bind_eq_some_iff, Option.pure_def, Option.some.injEq,
    Option.ite_none_right_eq_some] at hd ⊢
  obtain ⟨hh, h1, h2, vs, h3, h4⟩ := hd
  exact ⟨hh, readHeader_le h h1, h2, vs, decodeEach_mono hr _ _ h3, h4⟩

theorem decode_le (h : m.Le m') (n : Nat) : ∀ t a v, decode A P fl m n t a = some v → decode A P fl m' n t a = some v := by
  induction n with
  | zero => intro t a v hd; simp [decode] at hd
  | succ n ih =>
    intro t a v hd
    rw [decode] at hd ⊢
    split at hd
    · rename_i hg
      rw [if_pos hg]
      split at hd <;> rename_i hdef <;>
        (try simp only [Option.bind_eq_bind, Option.bind_eq_some_iff, Option.pure_def, Option.some.injEq,
          Option.ite_none_right_eq_some, Option.map_eq_some_iff] at hd ⊢)
      · obtain ⟨bs, h1, h2⟩ := hd; exact ⟨bs, readBytes_le h h1, h2⟩
      · obtain ⟨p, h1, h2, v', h3, h4⟩ := hd; exact ⟨p, readWord_le h h1, h2, v', ih _ _ _ h3, h4⟩
      · exact decodeVec_le h ih hd
      · simp only [decodeStr, Option.bind_eq_bind, Option.bind_eq_some_iff, Option.pure_def, Option.some.injEq,
          Option.ite_none_right_eq_some] at hd ⊢
        obtain ⟨hh, h1, h2, bs, h3, h4⟩ := hd
        exact ⟨hh, readHeader_le h h1, h2, bs, readBytes_le h h3, h4⟩
      · obtain ⟨vs, h1, h2⟩ := hd; exact ⟨vs, decodeEach_mono ih _ _ h1, h2⟩
      · obtain ⟨vs, h1, h2⟩ := hd; exact ⟨vs, decodeEach_mono ih _ _ h1, h2⟩
      · obtain ⟨i, h1, fs, h2, vs, h3, h4⟩ := hd; exact ⟨i, activeVariant_le h h1, fs, h2, vs, decodeEach_mono ih _ _ h3, h4⟩
      · exact decodeVec_le h ih hd
      · obtain ⟨s, h1, v', h2, h3⟩ := hd; exact ⟨s, h _ _ h1, v', ih _ _ _ h2, h3⟩
    · cases hd

theorem Denotes.le (h : m.Le m') {t a : Nat} {v : Val} (hd : Denotes A P fl m t a v) : Denotes A P fl m' t a v := by
  obtain ⟨n, hn⟩ := hd
  exact ⟨n, decode_le h n _ _ _ hn⟩

theorem seqEach_le {r1 r2 : TyId → Nat → Nat → Option (Val × Nat)} (h : ∀ t a p v, r1 t a p = some v → r2 t a p = some v)
    (a : Nat) (fs : List Field) {p : Nat} {vs : List Val × Nat} (hd : seqEach r1 a p fs = some vs) : seqEach r2 a p fs = some vs := by
  induction fs generalizing p vs with
  | nil => exact hd
  | cons f fs ih =>
    simp only [seqEach, Option.bind_eq_bind, Option.bind_eq_some_iff, Option.pure_def, Option.some.injEq] at hd ⊢
    obtain ⟨v, h1, ws, h2, h3⟩ := hd
    exact ⟨v, h _ _ _ _ h1, ws, ih h2, h3⟩

theorem seqVec_le (h : m.Le m') {va : Nat} {r1 r2 : TyId → Nat → Nat → Option (Val × Nat)} (hr : ∀ t a p v, r1 t a p = some v → r2 t a p = some v)
    {u : TyId} {a p : Nat} {v : Val × Nat} (hd : seqVec A P va m r1 u a p = some v) : seqVec A P va m' r2 u a p = some v := by
  simp only [seqVec, Option.bind_eq_bind, Option.bind_eq_some_iff, Option.pure_def] at hd ⊢
  obtain ⟨len, h1, h2⟩ := hd
  refine ⟨len, readWord_le h h1, ?_⟩
  split at h2
  · rename_i hc
    rw [if_pos hc]
    simp only [Option.bind_eq_some_iff] at h2 ⊢
    first
      | exact h2
      | (obtain ⟨vs, h3, h4⟩ := h2; exact ⟨vs, seqEach_le hr _ _ h3, h4⟩)
  · rename_i hc
    rw [if_neg hc]
    simp only [Option.bind_eq_some_iff] at h2 ⊢
    obtain ⟨vs, h3, h4⟩ := h2
    exact ⟨vs, seqEach_le hr _ _ h3, h4⟩

theorem decodeSeq_le (h : m.Le m') {va : Nat} (n : Nat) : ∀ t a p v, decodeSeq A P va m n t a p = some v → decodeSeq A P va m' n t a p = some v := by
  induction n with
  | zero => intro t a p v hd; simp [decodeSeq] at hd
  | succ n ih =>
    intro t a p v hd
    rw [decodeSeq] at hd ⊢
    split at hd <;> rename_i hdef <;>
      (try simp only [Option.bind_eq_bind, Option.bind_eq_some_iff, Option.pure_def, Option.map_eq_some_iff] at hd ⊢)
    · obtain ⟨bs, h1, h2⟩ := hd; exact ⟨bs, readBytes_le h h1, h2⟩
    · split at hd
      · rename_i hc
        rw [if_pos hc]
        rw [Option.bind_eq_some_iff] at hd ⊢
        obtain ⟨v', h1, h2⟩ := hd; exact ⟨v', ih _ _ _ _ h1, h2⟩
      · rename_i hc
        rw [if_neg hc]
        rw [Option.bind_eq_some_iff] at hd ⊢
        obtain ⟨v', h1, h2⟩ := hd; exact ⟨v', ih _ _ _ _ h1, h2⟩
    · exact seqVec_le h ih hd
    · obtain ⟨len, h1, h2⟩ := hd
      refine ⟨len, readWord_le h h1, ?_⟩
      split at h2
      · rename_i hc; rw [if_pos hc]; exact h2
      · rename_i hc; rw [if_neg hc]
        rw [Option.bind_eq_some_iff] at h2 ⊢
        obtain ⟨bs, h3, h4⟩ := h2; exact ⟨bs, readBytes_le h h3, h4⟩
    · obtain ⟨vs, h1, h2⟩ := hd; exact ⟨vs, seqEach_le ih _ _ h1, h2⟩
    · obtain ⟨vs, h1, h2⟩ := hd; exact ⟨vs, seqEach_le ih _ _ h1, h2⟩
    · obtain ⟨i, h1, fs, h2, vs, h3, h4⟩ := hd; exact ⟨i, activeVariant_le h h1, fs, h2, vs, seqEach_le ih _ _ h3, h4⟩
    · exact seqVec_le h ih hd
    · obtain ⟨s, h1, v', h2, h3⟩ := hd; exact ⟨s, h _ _ h1, v', ih _ _ _ _ h2, h3⟩

theorem seqRoots_le (h : m.Le m') {va n : Nat} (ts : List TyId) {p : Nat} {v : List Val × Nat} (hd : seqRoots A P va m n ts p = some v) :
    seqRoots A P va m' n ts p = some v := by
  induction ts generalizing p v with
  | nil => exact hd
  | cons t ts ih =>
    simp only [seqRoots, Option.bind_eq_bind, Option.bind_eq_some_iff, Option.pure_def] at hd ⊢
    obtain ⟨x, h1, y, h2, h3⟩ := hd
    refine ⟨x, ?_, y, ih h2, h3⟩
    unfold seqRoot at h1 ⊢
    split at h1
    · rename_i hc; rw [if_pos hc]; exact decodeSeq_le h _ _ _ _ _ h1
    · rename_i hc; rw [if_neg hc]; exact decodeSeq_le h _ _ _ _ _ h1

end

/-! ### Later -/

section
variable {C : Cfg} {P : Prog}

/-- `u'` still holds what `u` held below `n`. -/
structure Holds (C : Cfg) (n : Nat) (u u' : Sto) : Prop where
  inv : u'.Inv C
  view : ∀ i < n, u'.view i = u.view i
  pos : n ≤ u'.vec.pos

theorem SOp.Spares.holds (hC : C.OK) {n : Nat} {u u' : Sto} {o : SOp} (hI : u.Inv C) (hl : o.Legal C u) (hs : o.Spares n) (hn : n ≤ u.vec.pos)
    (hrun : (∃ p, o.run C u = .ok p u') ∨ ∃ k, o.run C u = .panic k u') : Holds C n u u' := by
  have hst : StepSpec C o u u' := by
    have := step_sat hC hI hl
    rcases hrun with ⟨p, h⟩ | ⟨k, h⟩ <;> rw [h] at this <;> exact this
  refine ⟨hst.inv, ?_, Nat.le_trans hn (hst.pos_mono ?_)⟩
  · intro i hi
    by_cases hw : ∀ p L len d, o ≠ .writeSlice p L len d
    · exact hst.view hw i (by omega)
    · simp only [not_forall, not_not] at hw
      obtain ⟨p, L, len, d, rfl⟩ := hw
      have hp : n ≤ p := hs
      obtain ⟨hL, hfit, hd, hz⟩ := hl
      by_cases h0 : L.size = 0
      · have h1 := writeSlice_zst (len := len) (data := d) hC.facts hI.toWInv h0 (by rw [h0, Nat.zero_mul] at hfit; omega) hL.pow2 hd
        have e : u' = u := by
          rcases hrun with ⟨q, h⟩ | ⟨k, h⟩
          · rw [SOp.run, bind_ok h1] at h; cases h; rfl
          · rw [SOp.run, bind_ok h1] at h; cases h
        rw [e]
      · obtain ⟨t, h1, h2, _, _, h3⟩ := writeSlice_ok hC hI.toWInv d h0 (hz.resolve_left h0).2 hfit hL.1 hd (hz.resolve_left h0).1
        have e : u' = t := by
          rcases hrun with ⟨q, h⟩ | ⟨k, h⟩
          · rw [SOp.run, bind_ok h1] at h; cases h; rfl
          · rw [SOp.run, bind_ok h1] at h; cases h
        rw [e, h3, Mem.blit, if_neg (by omega)]
  · rintro rfl; exact hs

/-- A serializer that has not been finalized has not changed what was in the storage before it. -/
theorem Kept.view {B : Nat} {u : Sto} {m m' : Mem} {s' : Ser} (h : Kept C B u.vec.pos (Ser.fromStorage u) m s' m') :
    ∀ i < u.vec.pos, s'.sto.view i = m i := by
  intro i hi
  obtain ⟨new, h1, h2⟩ := h.ents
  rw [h.rel.rest i ?_, h.frame i hi]
  intro e he
  rw [h1, show (Ser.fromStorage u).ptrs.entries = [] from entries_new, List.nil_append] at he
  have := h2 e he
  omega

theorem Later.holds (hC : C.OK) (hP : P.WF C.arch) (hacc : P.Accepted C) {t t' : Sto} (ht : t.Inv C) (h : Later C P t t') :
    Holds C t.vec.pos t t' := by
  induction h with
  | refl => exact ⟨ht, fun _ _ => rfl, Nat.le_refl _⟩
  | op _ hl hs hr ih =>
    have := hs.holds hC ih.inv hl ih.pos (Or.inl ⟨_, hr⟩)
    exact ⟨this.inv, fun i hi => by rw [this.view i hi, ih.view i hi], this.pos⟩
  | opPanic _ hl hs hr ih =>
    have := hs.holds hC ih.inv hl ih.pos (Or.inr ⟨_, hr⟩)
    exact ⟨this.inv, fun i hi => by rw [this.view i hi, ih.view i hi], this.pos⟩
  | @session u k fuel rs ps s' _ hv hr ih =>
    obtain ⟨xs, rfl, hx⟩ := valid_inputs hv
    obtain ⟨n, js, hm, hj, hp⟩ := session_post hC hP hacc ih.inv hx hr
    have hle : u.vec.pos ≤ s'.sto.vec.pos := by
      rw [hp.pos]; exact le_placeEnd hC.facts.va.pos (jobs_align hC.arch.ptr_pos hP hacc hj) _
    refine ⟨hp.inv, fun i hi => ?_, Nat.le_trans ih.pos hle⟩
    rw [hp.view, jobsIdeal_frame hC.facts.va.pos hC.arch.ptr_pos hP hacc hj (Nat.lt_of_lt_of_le hi ih.pos)]
    exact ih.view i hi
  | @sessionPanic u k fuel rs pk s' _ hv hr ih =>
    obtain ⟨xs, rfl, hx⟩ := valid_inputs hv
    obtain ⟨n, js, _, _, hp⟩ := session_out hC hP hacc ih.inv hx (by rw [hr]; simp)
    rw [hr] at hp
    obtain ⟨m', hm, hk⟩ := hp.kept
    exact ⟨hp.panic.2.1, fun i hi => by rw [(hk 0).view i (Nat.lt_of_lt_of_le hi ih.pos)]; exact ih.view i hi, Nat.le_trans ih.pos (hk 0).pos⟩
  | caught _ hv hr ih =>
    obtain ⟨xs, rfl, hx⟩ := valid_inputs hv
    obtain ⟨n, js, _, _, hp⟩ := sessionCaught_out hC hP hacc ih.inv hx (by rw [hr]; simp)
    rw [hr] at hp
    obtain ⟨m', hp⟩ := hp
    have := ih.pos
    refine ⟨hp.inv, fun i hi => ?_, Nat.le_trans ih.pos hp.pos⟩
    rw [hp.view, hp.frame i (Nat.lt_of_lt_of_le hi ih.pos)]; exact ih.view i hi
  | @dropped u k fuel _ _ _ _ hv hr ih =>
    obtain ⟨xs, rfl, hx⟩ := valid_inputs hv
    obtain ⟨N, hN⟩ := exists_jobs hC.arch.ptr_pos hP hx
    obtain ⟨js, h1, h2⟩ := hN _ (Nat.le_max_left N fuel)
    have e : xs.map (·.1) = js.map (·.r) := by rw [← h1, List.map_map]; rfl
    have h3 := serValuesCaught_sat (k := k) hC hP hacc js h2 (RelAll.init ih.inv)
    rw [← e, serValuesCaught_fuel (Nat.le_max_right N fuel) _ _ (by rw [hr]; simp), hr] at h3
    obtain ⟨m', h3⟩ := h3
    exact ⟨(h3.rel.1 0).inv, fun i hi => by rw [(h3.kept 0).view i (Nat.lt_of_lt_of_le hi ih.pos)]; exact ih.view i hi,
      Nat.le_trans ih.pos (h3.kept 0).pos⟩

theorem Holds.bytes {t t' : Sto} (ht : t.Inv C) (h : Holds C t.vec.pos t t') {i : Nat} (hi : i < t.vec.pos) : t'.bytes i = t.bytes i := by
  have h1 := h.inv.pos_le
  have h2 := ht.pos_le
  have h3 := h.pos
  rw [Sto.bytes, Sto.bytes, if_pos hi, if_pos (by omega), load_eq_view h.inv.toWInv (by omega), load_eq_view ht.toWInv (by omega), h.view i hi]

theorem bytes_le_of {t t' : Sto} (h : ∀ i < t.vec.pos, t'.bytes i = t.bytes i) : Mem.Le t.bytes t'.bytes := by
  intro i b hb
  by_cases hi : i < t.vec.pos
  · rw [h i hi]; exact hb
  · rw [Sto.bytes, if_neg hi] at hb; cases hb

/-- The buffer of `t` is contained in any memory that holds the bytes of `t` at its address. -/
theorem buffer_le_of {t : Sto} {m : Mem} (h : ∀ i < t.vec.pos, m (t.vec.ptr + i) = t.bytes i) : Mem.Le t.buffer m := by
  intro a b hb
  rw [Sto.buffer] at hb
  split at hb
  · rename_i ha
    have := h (a - t.vec.ptr) (by omega)
    rw [show t.vec.ptr + (a - t.vec.ptr) = a by omega] at this
    rw [this, Sto.bytes, if_pos (by omega), show t.vec.ptr + (a - t.vec.ptr) = a by omega]
    exact hb
  · cases hb

end
end SerRaw
