import Verif.Lemmas.Size
import Verif.Spec.Content
/-
Memory which decodes to a value, with pointers to known places, holds the data bytes of the abstract value at the computed positions.
-/
namespace SerRaw

section
variable {A : Arch} {P : Prog} {m : Mem} {fl : Flags} {va D : Nat} {caps : Bool}

/-- The listed bytes are in memory `m`, whose position 0 is address `D`. -/
def HoldsAt (m : Mem) (D : Nat) (ys : List (Nat × UInt8)) : Prop := ∀ y ∈ ys, m (D + y.1) = some y.2

theorem HoldsAt.nil : HoldsAt m D [] := fun _ h => by cases h

theorem HoldsAt.append {xs ys : List (Nat × UInt8)} (h1 : HoldsAt m D xs) (h2 : HoldsAt m D ys) : HoldsAt m D (xs ++ ys) := by
  intro y hy
  rcases List.mem_append.1 hy with h | h
  · exact h1 y h
  · exact h2 y h

theorem holds_bytes {x : Nat} {bs : List UInt8} (h : ∀ i < bs.length, m (D + x + i) = bs[i]?) : HoldsAt m D (bytesAt x bs) := by
  intro y hy
  obtain ⟨i, hi, rfl⟩ := List.mem_mapIdx.1 hy
  simp only
  rw [← Nat.add_assoc, h i hi, List.getElem?_eq_getElem hi]

theorem holds_word {x w : Nat} (h : readWord A m (D + x) = some w) : HoldsAt m D (bytesAt x (encWord A w)) := by
  obtain ⟨_, h2⟩ := readWord_some_iff.1 h
  refine holds_bytes fun i hi => ?_
  rw [encWord_length] at hi
  exact h2 i hi

theorem holds_head {o : Order} {align op : Nat} {h : Header} (hr : readHeader A m o (D + op) = some h)
    (hc : caps = true → h.cap = h.len ∧ (h.cap = 0 → h.ptr = align)) :
    HoldsAt m D (headContent A caps o align h.len op) := by
  obtain ⟨r1, r2, r3⟩ := readHeader_iff.1 hr
  rw [Nat.add_assoc] at r1 r2 r3
  unfold headContent
  refine .append (.append (holds_word r3) ?_) ?_
  · split
    · rename_i h1; rw [← (hc h1).1]; exact holds_word r2
    · exact .nil
  · split
    · rename_i h1
      obtain ⟨e1, e2⟩ := hc h1.1
      rw [← e2 (by omega)]; exact holds_word r1
    · exact .nil

/-- The listed pointer words hold the listed targets. -/
def Points (A : Arch) (m : Mem) (D : Nat) (xs : List (Nat × Nat)) : Prop := ∀ x ∈ xs, readWord A m (D + x.1) = some (D + x.2)

/-- The claim for one type. -/
def ContentClaim (A : Arch) (P : Prog) (m : Mem) (va D : Nat) (caps : Bool) (rd : TyId → Nat → Option Val) : Prop :=
  ∀ t op p v, rd t (D + op) = some v → Points A m D (v.pointers A P va t op p) → HoldsAt m D (v.content A P va caps t op p)

theorem each_content {rd : TyId → Nat → Option Val} (hrec : ContentClaim A P m va D caps rd) {fs : List Field} {vs : List Val}
    {op p : Nat} (h : decodeEach rd (D + op) fs = some vs) (hp : Points A m D (pointersEach A P va vs fs op p)) :
    HoldsAt m D (contentEach A P va caps vs fs op p) := by
  induction fs generalizing vs p with
  | nil =>
    simp only [decodeEach, Option.some.injEq] at h
    subst h; rw [contentEach]; exact .nil
    simp
  | cons f fs ih =>
    simp only [decodeEach, Option.bind_eq_bind, Option.bind_eq_some_iff, Option.pure_def, Option.some.injEq] at h
    obtain ⟨v, h1, ws, h2, rfl⟩ := h
    rw [pointersEach] at hp
    rw [contentEach]
    rw [Nat.add_assoc] at h1
    exact .append (hrec _ _ _ _ h1 fun x hx => hp x (List.mem_append_left _ hx)) (ih h2 fun x hx => hp x (List.mem_append_right _ hx))

theorem vec_content (hcap : caps = true → fl.canon = true ∧ fl.tight = true) {rd : TyId → Nat → Option Val} (hrec : ContentClaim A P m va D caps rd)
    {t u op p : Nat} {v : Val} (hdef : P.defn t = .vec u ∨ P.defn t = .bigUint u)
    (h : decodeVec A P fl m rd u (D + op) = some v) (hp : Points A m D (v.pointers A P va t op p)) :
    HoldsAt m D (v.content A P va caps t op p) := by
  unfold decodeVec at h
  simp only [Option.bind_eq_bind, Option.bind_eq_some_iff, Option.pure_def, Option.ite_none_right_eq_some, Option.some.injEq] at h
  obtain ⟨hd, h1, hval, vs, h2, rfl⟩ := h
  have hl := decodeEach_length h2
  rw [elems_length] at hl
  have key : Val.pointers A P va (.vec vs) t op p = if (P.layout u).size = 0 ∨ vs.length = 0 then []
      else (op + (P.vecOrder u).ptrIx * A.ptrBytes, roundUp p (P.layout u).align) ::
          pointersEach A P va vs (elems P u vs.length) (roundUp p (P.layout u).align) (roundUp (roundUp p (P.layout u).align + (P.layout u).size * vs.length) va) := by
    rw [Val.pointers]
    rcases hdef with e | e <;> simp only [e]
  have keyc : Val.content A P va caps (.vec vs) t op p =
      if (P.layout u).size = 0 then headContent A false (P.vecOrder u) (P.layout u).align vs.length op
      else headContent A caps (P.vecOrder u) (P.layout u).align vs.length op ++
          contentEach A P va caps vs (elems P u vs.length) (roundUp p (P.layout u).align)
            (roundUp (roundUp p (P.layout u).align + (P.layout u).size * vs.length) va) := by
    rw [Val.content]
    rcases hdef with e | e <;> simp only [e]
  rw [key] at hp
  rw [keyc]
  split
  · rw [hl]; exact holds_head h1 (by simp)
  · rename_i hz
    obtain ⟨_, _, hv⟩ := hval
    obtain ⟨_, _, _, hcan, htig⟩ := hv hz
    refine .append ?_ ?_
    · rw [hl]
      exact holds_head h1 fun hc => ⟨htig (hcap hc).2, hcan (hcap hc).1⟩
    · by_cases h0 : vs.length = 0
      · rw [List.eq_nil_of_length_eq_zero h0, contentEach]; exact .nil
        simp
      · rw [if_neg (by omega)] at hp
        have hptr := hp _ (List.mem_cons_self ..)
        simp only at hptr
        rw [← Nat.add_assoc, (readHeader_iff.1 h1).1] at hptr
        have e : hd.ptr = D + roundUp p (P.layout u).align := by simpa using hptr
        rw [e, ← hl] at h2
        exact each_content hrec h2 fun x hx => hp x (List.mem_cons_of_mem _ hx)

/-- Reading through pointers. -/
theorem decode_content (hcap : caps = true → fl.canon = true ∧ fl.tight = true) (n : Nat) :
    ContentClaim A P m va D caps (decode A P fl m n) := by
  induction n with
  | zero => intro t op p v h; simp [decode] at h
  | succ n ih =>
    intro t op p v h hp
    rw [decode] at h
    rw [Option.ite_none_right_eq_some] at h
    replace h := h.2
    cases hdef : P.defn t <;> simp only [hdef] at h
    case prim =>
      simp only [Option.map_eq_some_iff] at h
      obtain ⟨bs, h1, rfl⟩ := h
      obtain ⟨e, h2⟩ := readBytes_some_iff.1 h1
      rw [Val.content]
      exact holds_bytes fun i hi => h2 i (by omega)
    case box u =>
      simp only [Option.bind_eq_bind, Option.bind_eq_some_iff, Option.pure_def, Option.ite_none_right_eq_some, Option.some.injEq] at h
      obtain ⟨q, h1, _, w, h2, rfl⟩ := h
      rw [Val.pointers] at hp
      rw [Val.content]
      simp only [hdef] at hp ⊢
      split
      · exact .nil
      · rename_i hz
        rw [if_neg hz] at hp
        have hptr := hp _ (List.mem_cons_self ..)
        simp only at hptr
        rw [h1] at hptr
        obtain rfl := Option.some.inj hptr
        exact ih _ _ _ _ h2 fun x hx => hp x (List.mem_cons_of_mem _ hx)
    case vec u => exact vec_content hcap ih (Or.inl hdef) h hp
    case string =>
      unfold decodeStr at h
      simp only [Option.bind_eq_bind, Option.bind_eq_some_iff, Option.pure_def, Option.ite_none_right_eq_some, Option.some.injEq] at h
      obtain ⟨hd, h1, hval, bs, h2, rfl⟩ := h
      obtain ⟨hl, h3⟩ := readBytes_some_iff.1 h2
      obtain ⟨_, _, hv⟩ := hval
      obtain ⟨_, _, _, hcan, htig⟩ := hv (by decide)
      rw [Val.pointers] at hp
      rw [Val.content]
      refine .append ?_ ?_
      · rw [hl]
        exact holds_head h1 fun hc => ⟨htig (hcap hc).2, hcan (hcap hc).1⟩
      · by_cases h0 : bs.length = 0
        · rw [List.eq_nil_of_length_eq_zero h0]; exact .nil
        · rw [if_neg h0] at hp
          have hptr := hp _ (List.mem_cons_self ..)
          simp only at hptr
          rw [← Nat.add_assoc, (readHeader_iff.1 h1).1] at hptr
          have e : hd.ptr = D + p := by simpa using hptr
          rw [e] at h3
          exact holds_bytes fun i hi => h3 i (by omega)
    case array u k =>
      simp only [Option.bind_eq_bind, Option.bind_eq_some_iff, Option.pure_def, Option.some.injEq] at h
      obtain ⟨vs, h1, rfl⟩ := h
      rw [Val.pointers] at hp; rw [Val.content]; simp only [hdef] at hp ⊢
      exact each_content ih h1 hp
    case struct fs =>
      simp only [Option.bind_eq_bind, Option.bind_eq_some_iff, Option.pure_def, Option.some.injEq] at h
      obtain ⟨vs, h1, rfl⟩ := h
      rw [Val.pointers] at hp; rw [Val.content]; simp only [hdef] at hp ⊢
      exact each_content ih h1 hp
    case enum tag vars =>
      simp only [Option.bind_eq_bind, Option.bind_eq_some_iff, Option.pure_def, Option.some.injEq] at h
      obtain ⟨i, h1, fs, h2, vs, h3, rfl⟩ := h
      rw [Val.pointers] at hp; rw [Val.content]; simp only [hdef] at hp ⊢
      rw [List.getD_eq_getElem?_getD, h2] at hp ⊢
      exact each_content ih h3 hp
    case bigUint u => exact vec_content hcap ih (Or.inr hdef) h hp
    case bigInt u =>
      simp only [Option.bind_eq_bind, Option.bind_eq_some_iff, Option.pure_def, Option.some.injEq] at h
      obtain ⟨sg, h1, w, h2, rfl⟩ := h
      rw [Val.pointers] at hp; rw [Val.content]; simp only [hdef] at hp ⊢
      rw [Nat.add_assoc] at h1 h2
      intro y hy
      rcases List.mem_cons.1 hy with rfl | hy
      · exact h1
      · exact ih _ _ _ _ h2 hp y hy

/-! ### In order -/

/-- The claim for one type: the data bytes, and the end of the blocks. -/
def SeqContent (A : Arch) (P : Prog) (m : Mem) (va : Nat) (rd : TyId → Nat → Nat → Option (Val × Nat)) : Prop :=
  ∀ t op p v p', rd t op p = some (v, p') → p' = placeEnd va p (v.allocs P t) ∧ HoldsAt m 0 (v.content A P va false t op p)

theorem seqEach_content {rd : TyId → Nat → Nat → Option (Val × Nat)} (hrec : SeqContent A P m va rd) {fs : List Field} {vs : List Val}
    {op p p' : Nat} (h : seqEach rd op p fs = some (vs, p')) :
    vs.length = fs.length ∧ p' = placeEnd va p (allocsEach P vs (fs.map Prod.snd)) ∧ HoldsAt m 0 (contentEach A P va false vs fs op p) := by
  induction fs generalizing vs p with
  | nil =>
    simp only [seqEach, Option.some.injEq, Prod.mk.injEq] at h
    obtain ⟨rfl, rfl⟩ := h
    refine ⟨rfl, ?_, ?_⟩
    · rw [allocsEach]; rfl
      simp
    · rw [contentEach]; exact .nil
      simp
  | cons f fs ih =>
    simp only [seqEach, Option.bind_eq_bind, Option.bind_eq_some_iff, Option.pure_def, Option.some.injEq, Prod.exists, Prod.mk.injEq] at h
    obtain ⟨v, p1, h1, ws, p2, h2, rfl, rfl⟩ := h
    obtain ⟨e1, c1⟩ := hrec _ _ _ _ _ h1
    obtain ⟨l2, e2, c2⟩ := ih h2
    subst e1
    refine ⟨by simp [l2], ?_, ?_⟩
    · rw [List.map_cons, allocsEach, placeEnd_append, e2]
    · rw [contentEach]; exact .append c1 c2

theorem seqVec_content {rd : TyId → Nat → Nat → Option (Val × Nat)} (hrec : SeqContent A P m va rd) {t u op p p' : Nat} {v : Val}
    (hdef : P.defn t = .vec u ∨ P.defn t = .bigUint u) (h : seqVec A P va m rd u op p = some (v, p')) :
    p' = placeEnd va p (v.allocs P t) ∧ HoldsAt m 0 (v.content A P va false t op p) := by
  have hhead : ∀ {len : Nat} {al : Nat}, readWord A m (op + (P.vecOrder u).lenIx * A.ptrBytes) = some len →
      HoldsAt m 0 (headContent A false (P.vecOrder u) al len op) := by
    intro len al h
    unfold headContent
    simp only [Bool.false_eq_true, if_false, false_and, List.append_nil]
    exact holds_word (by rw [Nat.zero_add]; exact h)
  have keyc : ∀ vs, Val.content A P va false (.vec vs) t op p =
      if (P.layout u).size = 0 then headContent A false (P.vecOrder u) (P.layout u).align vs.length op
      else headContent A false (P.vecOrder u) (P.layout u).align vs.length op ++
          contentEach A P va false vs (elems P u vs.length) (roundUp p (P.layout u).align)
            (roundUp (roundUp p (P.layout u).align + (P.layout u).size * vs.length) va) := by
    intro vs
    rw [Val.content]
    rcases hdef with e | e <;> simp only [e]
  have keya : ∀ vs, Val.allocs P (.vec vs) t = if (P.layout u).size = 0 ∨ vs.length = 0 then []
      else ⟨P.layout u, vs.length⟩ :: allocsEach P vs (List.replicate vs.length u) := by
    intro vs
    rw [Val.allocs]
    rcases hdef with e | e <;> simp only [e]
  unfold seqVec at h
  simp only [Option.bind_eq_bind, Option.bind_eq_some_iff] at h
  obtain ⟨len, h1, h⟩ := h
  split at h
  · rename_i hz
    simp only [Option.bind_eq_some_iff, Option.pure_def, Option.some.injEq, Prod.exists, Prod.mk.injEq] at h
    obtain ⟨vs, p2, h2, rfl, rfl⟩ := h
    obtain ⟨l, _, _⟩ := seqEach_content hrec h2
    rw [elems_length] at l
    rw [keyc, keya, if_pos (by omega)]
    refine ⟨rfl, ?_⟩
    split
    · rw [l]; exact hhead h1
    · rename_i hs
      have h0 : vs.length = 0 := by omega
      refine .append (by rw [l]; exact hhead h1) ?_
      rw [List.eq_nil_of_length_eq_zero h0, contentEach]; exact .nil
      simp
  · rename_i hz
    simp only [nextBlock, Shape.bytes, Option.bind_eq_some_iff, Option.pure_def, Option.some.injEq, Prod.exists, Prod.mk.injEq] at h
    obtain ⟨vs, p2, h2, rfl, rfl⟩ := h
    obtain ⟨l, e, c⟩ := seqEach_content hrec h2
    rw [elems_length] at l
    rw [keyc, keya, if_neg (by omega), if_neg (by omega), l]
    refine ⟨?_, .append (hhead h1) c⟩
    rw [e, placeEnd, elems_types]; rfl

/-- Reading in order. -/
theorem decodeSeq_content (n : Nat) : SeqContent A P m va (decodeSeq A P va m n) := by
  induction n with
  | zero => intro t op p v p' h; simp [decodeSeq] at h
  | succ n ih =>
    intro t op p v p' h
    rw [decodeSeq] at h
    cases hdef : P.defn t <;> simp only [hdef] at h
    case prim =>
      simp only [Option.map_eq_some_iff, Prod.mk.injEq] at h
      obtain ⟨bs, h1, rfl, rfl⟩ := h
      obtain ⟨e, h2⟩ := readBytes_some_iff.1 h1
      rw [Val.content, Val.allocs]
      exact ⟨rfl, holds_bytes fun i hi => by rw [Nat.zero_add]; exact h2 i (by omega)⟩
    case box u =>
      split at h
      · rename_i hz
        simp only [Option.bind_eq_bind, Option.bind_eq_some_iff, Option.pure_def, Option.some.injEq, Prod.exists, Prod.mk.injEq] at h
        obtain ⟨w, p2, h2, rfl, rfl⟩ := h
        rw [Val.content, Val.allocs]; simp only [hdef, if_pos hz]
        exact ⟨rfl, .nil⟩
      · rename_i hz
        simp only [nextBlock, Shape.bytes, Nat.mul_one, Option.bind_eq_bind, Option.bind_eq_some_iff, Option.pure_def, Option.some.injEq, Prod.exists,
          Prod.mk.injEq] at h
        obtain ⟨w, p2, h2, rfl, rfl⟩ := h
        obtain ⟨e, c⟩ := ih _ _ _ _ _ h2
        rw [Val.content, Val.allocs]; simp only [hdef, if_neg hz]
        exact ⟨by rw [e, placeEnd]; simp only [Shape.bytes, Nat.mul_one], c⟩
    case vec u => exact seqVec_content ih (Or.inl hdef) h
    case string =>
      simp only [Option.bind_eq_bind, Option.bind_eq_some_iff] at h
      obtain ⟨len, h1, h⟩ := h
      have hhead : HoldsAt m 0 (headContent A false P.stringOrder 1 len op) := by
        unfold headContent
        simp only [Bool.false_eq_true, if_false, false_and, List.append_nil]
        exact holds_word (by rw [Nat.zero_add]; exact h1)
      split at h
      · rename_i h0
        simp only [Option.pure_def, Option.some.injEq, Prod.mk.injEq] at h
        obtain ⟨rfl, rfl⟩ := h
        rw [Val.content, Val.allocs]
        exact ⟨rfl, .append (by subst h0; exact hhead) .nil⟩
      · rename_i h0
        simp only [nextBlock, Shape.bytes, Option.bind_eq_some_iff, Option.pure_def, Option.some.injEq, Prod.mk.injEq] at h
        obtain ⟨bs, h2, rfl, rfl⟩ := h
        obtain ⟨hl, h3⟩ := readBytes_some_iff.1 h2
        rw [roundUp_eq_of_dvd (by decide) (Nat.one_dvd _)] at h3 ⊢
        rw [Val.content, Val.allocs, if_neg (by omega)]
        refine ⟨?_, .append (by rw [hl]; exact hhead) (holds_bytes fun i hi => by rw [Nat.zero_add]; exact h3 i (by omega))⟩
        simp only [placeEnd, Shape.bytes, hl]
        rw [roundUp_eq_of_dvd (by decide) (Nat.one_dvd _)]
    case array u k =>
      simp only [Option.bind_eq_bind, Option.bind_eq_some_iff, Option.pure_def, Option.some.injEq, Prod.exists, Prod.mk.injEq] at h
      obtain ⟨vs, p2, h1, rfl, rfl⟩ := h
      obtain ⟨_, e, c⟩ := seqEach_content ih h1
      rw [elems_types] at e
      rw [Val.content, Val.allocs]; simp only [hdef]
      exact ⟨e, c⟩
    case struct fs =>
      simp only [Option.bind_eq_bind, Option.bind_eq_some_iff, Option.pure_def, Option.some.injEq, Prod.exists, Prod.mk.injEq] at h
      obtain ⟨vs, p2, h1, rfl, rfl⟩ := h
      obtain ⟨_, e, c⟩ := seqEach_content ih h1
      rw [Val.content, Val.allocs]; simp only [hdef]
      exact ⟨e, c⟩
    case enum tag vars =>
      simp only [Option.bind_eq_bind, Option.bind_eq_some_iff, Option.pure_def, Option.some.injEq, Prod.exists, Prod.mk.injEq] at h
      obtain ⟨i, h1, fs, h2, vs, p2, h3, rfl, rfl⟩ := h
      obtain ⟨_, e, c⟩ := seqEach_content ih h3
      rw [Val.content, Val.allocs]; simp only [hdef]
      rw [List.getD_eq_getElem?_getD, h2]
      exact ⟨e, c⟩
    case bigUint u => exact seqVec_content ih (Or.inr hdef) h
    case bigInt u =>
      simp only [Option.bind_eq_bind, Option.bind_eq_some_iff, Option.pure_def, Option.some.injEq, Prod.exists, Prod.mk.injEq] at h
      obtain ⟨sg, h1, w, p2, h2, rfl, rfl⟩ := h
      obtain ⟨e, c⟩ := ih _ _ _ _ _ h2
      rw [Val.content, Val.allocs]; simp only [hdef]
      refine ⟨e, ?_⟩
      intro y hy
      rcases List.mem_cons.1 hy with rfl | hy
      · rw [Nat.zero_add]; exact h1
      · exact c y hy

end
end SerRaw
