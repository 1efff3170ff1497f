import Verif.Props.Pos
import Verif.Props.SerEx
/-
C38–C40: the compile-time discovery of `Vec`, `String` and `BigInt` layouts, and the correction of empty vectors, for every
layout a compiler may choose.
-/
namespace SerRaw

/-! ### C38 -/

/-- C38, soundness of the search. Whatever three words `Vec::new()` (or `String::new()`) consists of, if the compile-time search
accepts them then the word at the index found is the dangling pointer, and the other two are 0. -/
theorem C38_index_sound {w : Nat × Nat × Nat} {d i : Nat} (h : ptrIndex w d = some i) :
    i < 3 ∧ nth3 w i = d ∧ ∀ j, j < 3 → j ≠ i → nth3 w j = 0 := by
  obtain ⟨x, y, z⟩ := w
  unfold ptrIndex at h
  simp only at h
  split at h
  · split at h
    · cases h; rename_i h1 h2; refine ⟨by omega, h1, fun j hj hn => ?_⟩
      match j, hj with
      | 0, _ => exact absurd rfl hn
      | 1, _ => exact h2.1
      | 2, _ => exact h2.2
    · cases h
  · split at h
    · split at h
      · cases h; rename_i h1 h2; refine ⟨by omega, h1, fun j hj hn => ?_⟩
        match j, hj with
        | 0, _ => exact h2.1
        | 1, _ => exact absurd rfl hn
        | 2, _ => exact h2.2
      · cases h
    · split at h
      · split at h
        · cases h; rename_i h1 h2; refine ⟨by omega, h1, fun j hj hn => ?_⟩
          match j, hj with
          | 0, _ => exact h2.1
          | 1, _ => exact h2.2
          | 2, _ => exact absurd rfl hn
        · cases h
      · cases h

example : ptrIndex (0, 8, 0) 8 = some 1 := rfl

/-- C38. For each of the six orders in which a compiler may store the three words of a `Vec<T>` (`dangle = align_of::<T>()`) or
`String` (`dangle = 1`), the computation succeeds, and reading any such value — in any memory, at any address — through the
computed offsets gives its pointer, capacity and length. -/
theorem C38_offsets (A : Arch) (o : Order) {dangle : Nat} (hd : dangle ≠ 0) :
    ∃ off, vecOffsets A.ptrBytes o dangle = some off ∧
      (∀ (m : Mem) (a : Nat) (h : Header), readHeader A m o a = some h →
        readWord A m (a + off.ptr) = some h.ptr ∧ readWord A m (a + off.cap) = some h.cap ∧ readWord A m (a + off.len) = some h.len) ∧
      (∀ ptr cap len, 0 < A.ptrBytes → nth3 (o.words ptr cap len) (off.ptr / A.ptrBytes) = ptr ∧
        nth3 (o.words ptr cap len) (off.cap / A.ptrBytes) = cap ∧ nth3 (o.words ptr cap len) (off.len / A.ptrBytes) = len) := by
  refine ⟨_, vecOffsets_eq A.ptrBytes o hd, ?_, ?_⟩
  · intro m a h hh
    simp only [readHeader, Option.bind_eq_bind, Option.bind_eq_some_iff, Option.pure_def, Option.some.injEq] at hh
    obtain ⟨ptr, h1, cap, h2, len, h3, rfl⟩ := hh
    exact ⟨h1, h2, h3⟩
  · intro ptr cap len hW
    simp only [Nat.mul_div_cancel _ hW]
    cases o <;> exact ⟨rfl, rfl, rfl⟩

/-- The three offsets are different words of the 3-word value. -/
theorem C38_distinct (W : Nat) (hW : 0 < W) (o : Order) {dangle : Nat} (hd : dangle ≠ 0) {off : VecOffsets} (h : vecOffsets W o dangle = some off) :
    off.ptr + W ≤ 3 * W ∧ off.cap + W ≤ 3 * W ∧ off.len + W ≤ 3 * W ∧ DisjRange off.ptr W off.cap W ∧ DisjRange off.ptr W off.len W ∧
      DisjRange off.cap W off.len W := by
  rw [vecOffsets_eq W o hd] at h
  cases h
  unfold DisjRange
  cases o <;> simp only [Order.ptrIx, Order.capIx, Order.lenIx] <;> omega

/-- A `Vec` header in concrete memory. -/
example : readHeader x64 exIm .cpl 4104 = some ⟨4176, 4, 2⟩ ∧ vecOffsets 8 .cpl 8 = some ⟨8, 0, 16⟩ := ⟨rfl, rfl⟩

/-! ### C39 -/

/-- Bytes of one word written at `x` over `m`. -/
def setWord (A : Arch) (m : Mem) (x w : Nat) : Mem := fun i => if x ≤ i ∧ i < x + A.ptrBytes then wordCells A w (i - x) else m i

variable {C : Cfg}

theorem blit_setWord (A : Arch) (m : Mem) (x w : Nat) : m.blit x A.ptrBytes (wordCells A w) = setWord A m x w := rfl

theorem blit_twoWords (A : Arch) (m : Mem) (x v w : Nat) :
    m.blit x (2 * A.ptrBytes) (twoWords A v w) = setWord A (setWord A m x v) (x + A.ptrBytes) w := by
  funext i
  simp only [Mem.blit, setWord, twoWords, wordCells]
  by_cases h1 : x ≤ i ∧ i < x + 2 * A.ptrBytes
  · rw [if_pos h1]
    by_cases h2 : x + A.ptrBytes ≤ i ∧ i < x + A.ptrBytes + A.ptrBytes
    · rw [if_pos h2, List.getElem?_append_right (by rw [encWord_length]; omega), encWord_length]
      congr 1; omega
    · rw [if_neg h2, if_pos (by omega), List.getElem?_append_left (by rw [encWord_length]; omega)]
  · rw [if_neg h1, if_neg (by omega), if_neg (by omega)]

theorem setWord_comm (A : Arch) (m : Mem) {x y : Nat} (v w : Nat) (h : DisjRange x A.ptrBytes y A.ptrBytes) :
    setWord A (setWord A m x v) y w = setWord A (setWord A m y w) x v := by
  funext i
  simp only [setWord]
  unfold DisjRange at h
  by_cases h1 : y ≤ i ∧ i < y + A.ptrBytes
  · rw [if_pos h1, if_neg (by omega), if_pos h1]
  · rw [if_neg h1]
    by_cases h2 : x ≤ i ∧ i < x + A.ptrBytes
    · rw [if_pos h2, if_pos h2]
    · rw [if_neg h2, if_neg h2, if_neg h1]

theorem overwrite_view (hC : C.OK) {s : Ser} (hI : s.sto.WInv C) {a n : Nat} (hn : 0 < n) (data : Nat → Cell) (hia : s.map.inputAddr ≤ a)
    (hx : s.map.outputPos + (a - s.map.inputAddr) + n * C.arch.ptrBytes ≤ s.sto.vec.capacity)
    (hxd : C.arch.ptrBytes ∣ s.map.outputPos + (a - s.map.inputAddr)) (hpm : C.arch.ptrBytes ≤ C.maxValueAlign) :
    ∃ t, overwrite C .complete a ⟨n * C.arch.ptrBytes, C.arch.ptrBytes⟩ data s = .ok () { s with sto := t } ∧ t.vec = s.sto.vec ∧ t.WInv C ∧
      t.view = s.sto.view.blit (s.map.outputPos + (a - s.map.inputAddr)) (n * C.arch.ptrBytes) data := by
  have hcl := hI.cap_le
  have hml := hC.facts.max_lt
  obtain ⟨t, h1, h2, h3, h4⟩ := write_ok hC hI (x := s.map.outputPos + (a - s.map.inputAddr)) (n := n) data hn hx hxd hpm
  refine ⟨t, ?_, h2, h3, h4⟩
  unfold overwrite Writable.doOverwrite
  simp only
  rw [bind_ok (show Ser.getMap s = .ok s.map s from rfl), bind_ok (C20_pos_for_addr C.arch s.map hia (by omega) s)]
  exact lift_ok h1

/-- C39. Correction of an empty `Vec`/`String` with spare capacity at input address `a`, by a `CompleteSerializer` which is
processing the allocation the value is in, for any order of the three words: it succeeds, and the copy of the value (at `x` in
the output) gets the dangling pointer in its pointer word and 0 in its capacity word. Every other byte of the storage (in
particular the length word), its position and capacity, the mapping and the pointer record are unchanged. -/
theorem C39_empty_vec (hC : C.OK) (o : Order) {dangle : Nat} (hd : dangle ≠ 0) {off : VecOffsets}
    (hoff : vecOffsets C.arch.ptrBytes o dangle = some off) {s : Ser} (hI : s.sto.WInv C) {a : Nat} (hia : s.map.inputAddr ≤ a)
    (ha : a + 3 * C.arch.ptrBytes < C.arch.usizeMod)
    {x : Nat} (hx : x = s.map.outputPos + (a - s.map.inputAddr)) (hfit : x + 3 * C.arch.ptrBytes ≤ s.sto.vec.pos)
    (hxd : C.arch.ptrBytes ∣ x) (hpm : C.arch.ptrBytes ≤ C.maxValueAlign) :
    ∃ t, overwriteWith .complete (overwriteCapAndPtrForEmpty C .complete off dangle a) s = .ok () { s with sto := t } ∧ t.vec = s.sto.vec ∧
      t.WInv C ∧ ∀ i, t.view i =
        if x + o.ptrIx * C.arch.ptrBytes ≤ i ∧ i < x + o.ptrIx * C.arch.ptrBytes + C.arch.ptrBytes then
          wordCells C.arch dangle (i - (x + o.ptrIx * C.arch.ptrBytes))
        else if x + o.capIx * C.arch.ptrBytes ≤ i ∧ i < x + o.capIx * C.arch.ptrBytes + C.arch.ptrBytes then
          wordCells C.arch 0 (i - (x + o.capIx * C.arch.ptrBytes))
        else s.sto.view i := by
  have hW := hC.arch.ptr_pos
  rw [vecOffsets_eq _ o hd] at hoff
  cases hoff
  subst hx
  have hpl := hI.pos_le
  have h0 : C.arch.ptrBytes ≠ 0 := by omega
  have h2 : C.arch.ptrBytes ≠ 2 * C.arch.ptrBytes := by omega
  have h2' : 2 * C.arch.ptrBytes ≠ C.arch.ptrBytes := by omega
  have aW := addrOff_eq (σ := Ser) (k := .complete) (show a + C.arch.ptrBytes < C.arch.usizeMod by omega)
  have a2W := addrOff_eq (σ := Ser) (k := .complete) (show a + 2 * C.arch.ptrBytes < C.arch.usizeMod by omega)
  have a0 := addrOff_eq (σ := Ser) (k := .complete) (show a + 0 < C.arch.usizeMod by omega)
  have key : ∀ {t : Sto}, t.view = setWord C.arch (setWord C.arch s.sto.view (s.map.outputPos + (a - s.map.inputAddr) + o.capIx * C.arch.ptrBytes) 0)
      (s.map.outputPos + (a - s.map.inputAddr) + o.ptrIx * C.arch.ptrBytes) dangle → ∀ i, t.view i =
        if s.map.outputPos + (a - s.map.inputAddr) + o.ptrIx * C.arch.ptrBytes ≤ i ∧
            i < s.map.outputPos + (a - s.map.inputAddr) + o.ptrIx * C.arch.ptrBytes + C.arch.ptrBytes then
          wordCells C.arch dangle (i - (s.map.outputPos + (a - s.map.inputAddr) + o.ptrIx * C.arch.ptrBytes))
        else if s.map.outputPos + (a - s.map.inputAddr) + o.capIx * C.arch.ptrBytes ≤ i ∧
            i < s.map.outputPos + (a - s.map.inputAddr) + o.capIx * C.arch.ptrBytes + C.arch.ptrBytes then
          wordCells C.arch 0 (i - (s.map.outputPos + (a - s.map.inputAddr) + o.capIx * C.arch.ptrBytes))
        else s.sto.view i := fun h i => by rw [h]; rfl
  unfold overwriteWith Complete.doOverwriteWith overwriteCapAndPtrForEmpty
  have hdvd1 : C.arch.ptrBytes ∣ s.map.outputPos + (a + C.arch.ptrBytes - s.map.inputAddr) := by
    have : s.map.outputPos + (a + C.arch.ptrBytes - s.map.inputAddr) = s.map.outputPos + (a - s.map.inputAddr) + C.arch.ptrBytes := by omega
    rw [this]; exact Nat.dvd_add hxd (Nat.dvd_refl _)
  have hdvd2 : C.arch.ptrBytes ∣ s.map.outputPos + (a + 2 * C.arch.ptrBytes - s.map.inputAddr) := by
    have : s.map.outputPos + (a + 2 * C.arch.ptrBytes - s.map.inputAddr) = s.map.outputPos + (a - s.map.inputAddr) + 2 * C.arch.ptrBytes := by omega
    rw [this]; exact Nat.dvd_add hxd (Nat.dvd_mul_left _ _)
  have e1 : s.map.outputPos + (a + C.arch.ptrBytes - s.map.inputAddr) = s.map.outputPos + (a - s.map.inputAddr) + C.arch.ptrBytes := by omega
  have e2 : s.map.outputPos + (a + 2 * C.arch.ptrBytes - s.map.inputAddr) = s.map.outputPos + (a - s.map.inputAddr) + 2 * C.arch.ptrBytes := by omega
  -- adjacent words at `a`
  have adj0 : ∀ v w, ∃ t, overwrite C .complete a ⟨2 * C.arch.ptrBytes, C.arch.ptrBytes⟩ (twoWords C.arch v w) s = .ok () { s with sto := t } ∧
      t.vec = s.sto.vec ∧ t.WInv C ∧ t.view = setWord C.arch (setWord C.arch s.sto.view (s.map.outputPos + (a - s.map.inputAddr)) v)
        (s.map.outputPos + (a - s.map.inputAddr) + C.arch.ptrBytes) w := by
    intro v w
    obtain ⟨t, h1, h2, h3, h4⟩ := overwrite_view hC hI (n := 2) (by omega) (twoWords C.arch v w) hia (by omega) hxd hpm
    exact ⟨t, h1, h2, h3, by rw [h4, blit_twoWords]⟩
  have adj1 : ∀ v w, ∃ t, overwrite C .complete (a + C.arch.ptrBytes) ⟨2 * C.arch.ptrBytes, C.arch.ptrBytes⟩ (twoWords C.arch v w) s = .ok () { s with sto := t } ∧
      t.vec = s.sto.vec ∧ t.WInv C ∧ t.view = setWord C.arch (setWord C.arch s.sto.view (s.map.outputPos + (a - s.map.inputAddr) + C.arch.ptrBytes) v)
        (s.map.outputPos + (a - s.map.inputAddr) + 2 * C.arch.ptrBytes) w := by
    intro v w
    obtain ⟨t, h1, h2, h3, h4⟩ := overwrite_view hC hI (a := a + C.arch.ptrBytes) (n := 2) (by omega) (twoWords C.arch v w) (by omega) (by omega) hdvd1 hpm
    refine ⟨t, h1, h2, h3, ?_⟩
    rw [h4, blit_twoWords, e1]
    congr 1; omega
  -- separate words
  have sep : ∀ (y z v w : Nat), (y = 0 ∧ z = 2 ∨ y = 2 ∧ z = 0) → ∃ t, (overwrite C .complete (a + y * C.arch.ptrBytes) ⟨C.arch.ptrBytes, C.arch.ptrBytes⟩ (wordCells C.arch v) >>=
      fun _ => overwrite C .complete (a + z * C.arch.ptrBytes) ⟨C.arch.ptrBytes, C.arch.ptrBytes⟩ (wordCells C.arch w)) s = .ok () { s with sto := t } ∧
      t.vec = s.sto.vec ∧ t.WInv C ∧ t.view = setWord C.arch (setWord C.arch s.sto.view (s.map.outputPos + (a - s.map.inputAddr) + y * C.arch.ptrBytes) v)
        (s.map.outputPos + (a - s.map.inputAddr) + z * C.arch.ptrBytes) w := by
    intro y z v w hyz
    have hd1 : ∀ y, C.arch.ptrBytes ∣ s.map.outputPos + (a + y * C.arch.ptrBytes - s.map.inputAddr) := by
      intro y
      have : s.map.outputPos + (a + y * C.arch.ptrBytes - s.map.inputAddr) = s.map.outputPos + (a - s.map.inputAddr) + y * C.arch.ptrBytes := by omega
      rw [this]; exact Nat.dvd_add hxd (Nat.dvd_mul_left _ _)
    have hb : ∀ y, y ≤ 2 → y * C.arch.ptrBytes ≤ 2 * C.arch.ptrBytes := fun y hy => Nat.mul_le_mul_right _ hy
    have hby := hb y (by omega)
    have hbz := hb z (by omega)
    obtain ⟨t, h1, h2, h3, h4⟩ := overwrite_view hC hI (a := a + y * C.arch.ptrBytes) (n := 1) (by omega) (wordCells C.arch v) (by omega) (by omega) (hd1 y) hpm
    obtain ⟨t', g1, g2, g3, g4⟩ := overwrite_view hC (s := { s with sto := t }) h3 (a := a + z * C.arch.ptrBytes) (n := 1) (by omega) (wordCells C.arch w)
      (by simp only; omega) (by simp only [h2]; omega) (by simpa only using hd1 z) hpm
    simp only [Nat.one_mul] at h1 h4 g1 g4
    refine ⟨t', ?_, g2.trans h2, g3, ?_⟩
    · rw [bind_ok h1, g1]
    · rw [g4]
      simp only [h4]
      rw [blit_setWord, blit_setWord]
      have : ∀ y, s.map.outputPos + (a + y * C.arch.ptrBytes - s.map.inputAddr) = s.map.outputPos + (a - s.map.inputAddr) + y * C.arch.ptrBytes := fun y => by omega
      rw [this, this]
  have fr : ∀ z, addrFromRef .complete z = z := fun _ => rfl
  cases o with
  | cpl =>
    obtain ⟨t, h1, h2, h3, h4⟩ := adj0 0 dangle
    refine ⟨t, ?_, h2, h3, key ?_⟩
    · simp only [Order.ptrIx, Order.capIx, Nat.zero_mul, Nat.one_mul, and_self, if_true, fr]; exact h1
    · rw [h4]; simp only [Order.ptrIx, Order.capIx, Nat.zero_mul, Nat.one_mul, Nat.add_zero]
  | pcl =>
    obtain ⟨t, h1, h2, h3, h4⟩ := adj0 dangle 0
    refine ⟨t, ?_, h2, h3, key ?_⟩
    · simp only [Order.ptrIx, Order.capIx, Nat.zero_mul, Nat.one_mul, h0, Ne.symm h0, false_and, if_false, and_self, if_true, fr]; exact h1
    · rw [h4, setWord_comm _ _ _ _ (by unfold DisjRange; omega)]; simp only [Order.ptrIx, Order.capIx, Nat.zero_mul, Nat.one_mul, Nat.add_zero]
  | lcp =>
    obtain ⟨t, h1, h2, h3, h4⟩ := adj1 0 dangle
    refine ⟨t, ?_, h2, h3, key ?_⟩
    · simp only [Order.ptrIx, Order.capIx, Nat.one_mul, h0, false_and, if_false, true_and, Nat.mul_eq_zero, reduceCtorEq, or_false,
        Nat.mul_comm C.arch.ptrBytes 2, if_true, aW, pure_bind_M, fr, Nat.reduceEqDiff, OfNat.ofNat_ne_zero]
      exact h1
    · rw [h4]; simp only [Order.ptrIx, Order.capIx, Nat.one_mul]
  | lpc =>
    obtain ⟨t, h1, h2, h3, h4⟩ := adj1 dangle 0
    refine ⟨t, ?_, h2, h3, key ?_⟩
    · simp only [Order.ptrIx, Order.capIx, Nat.one_mul, h0, h2', false_and, if_false, true_and, Nat.mul_eq_zero, reduceCtorEq, or_false,
        Nat.mul_comm C.arch.ptrBytes 2, if_true, aW, pure_bind_M, fr, Nat.reduceEqDiff, OfNat.ofNat_ne_zero]
      exact h1
    · rw [h4, setWord_comm _ _ _ _ (by unfold DisjRange; omega)]; simp only [Order.ptrIx, Order.capIx, Nat.one_mul]
  | plc =>
    obtain ⟨t, h1, h2, h3, h4⟩ := sep 2 0 0 dangle (Or.inr ⟨rfl, rfl⟩)
    refine ⟨t, ?_, h2, h3, key ?_⟩
    · have c1 : ¬ (2 * C.arch.ptrBytes = 0 ∧ 0 * C.arch.ptrBytes = C.arch.ptrBytes) := by omega
      have c2 : ¬ (2 * C.arch.ptrBytes = C.arch.ptrBytes ∧ 0 * C.arch.ptrBytes = 0) := by omega
      have c3 : ¬ (2 * C.arch.ptrBytes = C.arch.ptrBytes ∧ 0 * C.arch.ptrBytes = C.arch.ptrBytes * 2) := by omega
      have c4 : ¬ (2 * C.arch.ptrBytes = C.arch.ptrBytes * 2 ∧ 0 * C.arch.ptrBytes = C.arch.ptrBytes) := by omega
      simp only [Order.ptrIx, Order.capIx, c1, c2, c3, c4, if_false]
      simp only [Nat.zero_mul] at h1 ⊢
      simp only [a2W, a0, pure_bind_M, fr]
      exact h1
    · rw [h4]; rfl
  | clp =>
    obtain ⟨t, h1, h2, h3, h4⟩ := sep 0 2 0 dangle (Or.inl ⟨rfl, rfl⟩)
    refine ⟨t, ?_, h2, h3, key ?_⟩
    · have c1 : ¬ (0 * C.arch.ptrBytes = 0 ∧ 2 * C.arch.ptrBytes = C.arch.ptrBytes) := by omega
      have c2 : ¬ (0 * C.arch.ptrBytes = C.arch.ptrBytes ∧ 2 * C.arch.ptrBytes = 0) := by omega
      have c3 : ¬ (0 * C.arch.ptrBytes = C.arch.ptrBytes ∧ 2 * C.arch.ptrBytes = C.arch.ptrBytes * 2) := by omega
      have c4 : ¬ (0 * C.arch.ptrBytes = C.arch.ptrBytes * 2 ∧ 2 * C.arch.ptrBytes = C.arch.ptrBytes) := by omega
      simp only [Order.ptrIx, Order.capIx, c1, c2, c3, c4, if_false]
      simp only [Nat.zero_mul] at h1 ⊢
      simp only [a2W, a0, pure_bind_M, fr]
      exact h1
    · rw [h4]; rfl

/-- C39 applies: the empty `Vec` with capacity 3 at 4144 (in the node at 4136) of the example memory, copied with its node to
position 0, stored in any of the six orders. -/
example (o : Order) : ∃ (s s' : Ser) (off : VecOffsets), vecOffsets 8 o 8 = some off ∧
    overwriteWith .complete (overwriteCapAndPtrForEmpty cfg64 .complete off 8 4144) s = .ok () s' ∧
    readWord x64 s'.sto.view (8 + o.ptrIx * 8) = some 8 ∧ readWord x64 s'.sto.view (8 + o.capIx * 8) = some 0 := by
  obtain ⟨t, ht⟩ : ∃ t, Sto.pushSlice cfg64 ⟨40, 8⟩ 1 (inputAt exIm 4136) Sto.new = .ok 0 t := ⟨_, rfl⟩
  have hr : Reach cfg64 exP t := .op (o := .pushSlice ⟨40, 8⟩ 1 (inputAt exIm 4136)) .new
    ⟨⟨⟨3, rfl⟩, by decide⟩, by decide, by decide, Or.inr (Or.inl (by decide))⟩ ht
  have hI := hr.inv cfg64_ok exP_wf exP_accepted
  have hp : t.vec.pos = 40 := by cases ht; rfl
  obtain ⟨t', h1, _, _, h4⟩ := C39_empty_vec cfg64_ok o (dangle := 8) (by decide) (vecOffsets_eq 8 o (by decide)) (s := ⟨t, ⟨4136, 0⟩, Ptrs.new⟩) hI.toWInv (a := 4144)
    (show 4136 ≤ 4144 by decide) (by decide) (x := 8) rfl (show 8 + 24 ≤ t.vec.pos by omega) (show 8 ∣ 8 by decide) (by decide)
  have h4' : ∀ i, t'.view i = if 8 + o.ptrIx * 8 ≤ i ∧ i < 8 + o.ptrIx * 8 + 8 then wordCells x64 8 (i - (8 + o.ptrIx * 8))
      else if 8 + o.capIx * 8 ≤ i ∧ i < 8 + o.capIx * 8 + 8 then wordCells x64 0 (i - (8 + o.capIx * 8)) else t.view i := h4
  have hw : ∀ i, i < x64.ptrBytes → i < 8 := fun _ h => h
  refine ⟨_, _, _, vecOffsets_eq 8 o (by decide), h1, ?_, ?_⟩
  · refine readWord_some_iff.2 ⟨by decide, fun i hi => ?_⟩
    have := hw i hi
    simp only [h4']
    rw [if_pos (by omega), Nat.add_sub_cancel_left]
  · refine readWord_some_iff.2 ⟨by decide, fun i hi => ?_⟩
    have := hw i hi
    simp only [h4']
    rw [if_neg (by cases o <;> simp only [Order.ptrIx, Order.capIx] <;> omega), if_pos (by omega), Nat.add_sub_cancel_left]

/-- C39, other serializers: no correction is made. -/
theorem C39_others {k : Kind} (hk : k ≠ .complete) (off : VecOffsets) (dangle a : Nat) (s : Ser) :
    overwriteWith k (overwriteCapAndPtrForEmpty C k off dangle a) s = .ok () s := by
  cases k with
  | complete => exact absurd rfl hk
  | _ => rfl

/-! ### C40 -/

/-- C40. For either order of `BigInt`'s fields and any order of its digit vector's words, `bigint_data_offset` succeeds (no
uninitialised byte is inspected, no assertion fails) and returns the place of the digits: the `BigUint` there is what a reader
finds as the magnitude of the `BigInt`. -/
theorem C40_data_offset {σ} {A : Arch} (hA : A.Valid) {P : Prog} {usize : TyId} (s : σ) :
    ∃ off, bigintDataOffset A P usize s = .ok off s ∧
      ∀ (fl : Flags) (m : Mem) (n t u a : Nat) (sg : UInt8) (v : Val), P.defn t = .bigInt u → decode A P fl m (n + 1) t a = some (.bigInt sg v) →
        decode A P fl m n u (a + off) = some v := by
  refine ⟨_, bigintDataOffset_ok hA.ptr_pos P usize s, ?_⟩
  intro fl m n t u a sg v ht hd
  simp only [decode, ht] at hd
  split at hd
  · simp only [Option.bind_eq_bind, Option.bind_eq_some_iff, Option.pure_def, Option.some.injEq] at hd
    obtain ⟨s', _, v', h2, h3⟩ := hd
    cases h3
    exact h2
  · cases hd

/-- The example program's `BigInt` has the sign first. -/
example : ∃ off, bigintDataOffset x64 exP 0 () = .ok off () ∧ decode x64 exP ⟨true, false⟩ exIm 5 7 (4240 + off) =
    some (.vec [.prim [11, 0, 0, 0, 0, 0, 0, 0], .prim [12, 0, 0, 0, 0, 0, 0, 0]]) := by
  obtain ⟨off, h1, h2⟩ := C40_data_offset (A := x64) ⟨Or.inr rfl⟩ (P := exP) (usize := 0) ()
  exact ⟨off, h1, h2 ⟨true, false⟩ exIm 5 8 7 4240 2 _ rfl rfl⟩

end SerRaw
