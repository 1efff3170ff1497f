import Verif.Lemmas.Basic
/-
Bytes and words in memory.
-/
namespace SerRaw

theorem readBytes_some_iff {m : Mem} {a n : Nat} {bs : List UInt8} :
    readBytes m a n = some bs ↔ bs.length = n ∧ ∀ i < n, m (a + i) = bs[i]? := by
  induction n generalizing a bs with
  | zero =>
    simp only [readBytes, Option.some.injEq, Nat.not_lt_zero, false_implies, implies_true, and_true]
    exact ⟨fun h => h ▸ rfl, fun h => (List.eq_nil_of_length_eq_zero h).symm⟩
  | succ n ih =>
    simp only [readBytes]
    constructor
    · intro h
      split at h
      · rename_i b bs' h1 h2
        cases h
        obtain ⟨hl, hi⟩ := ih.1 h2
        refine ⟨by simp [hl], ?_⟩
        intro i hlt
        cases i with
        | zero => simpa using h1
        | succ i =>
          have := hi i (by omega)
          rw [show a + 1 + i = a + (i + 1) by omega] at this
          simpa using this
      · cases h
    · rintro ⟨hl, hi⟩
      cases bs with
      | nil => simp at hl
      | cons b bs =>
        have h0 := hi 0 (by omega)
        have h2 : readBytes m (a + 1) n = some bs := ih.2 ⟨by simpa using hl, fun i hlt => by
          have := hi (i + 1) (by omega)
          rw [show a + (i + 1) = a + 1 + i by omega] at this
          simpa using this⟩
        simp at h0
        simp [h0, h2]

theorem readBytes_congr {m m' : Mem} {a a' n : Nat} (h : ∀ i < n, m (a + i) = m' (a' + i)) :
    readBytes m a n = readBytes m' a' n := by
  induction n generalizing a a' with
  | zero => rfl
  | succ n ih =>
    simp only [readBytes]
    have h0 := h 0 (by omega)
    simp at h0
    rw [h0, ih (a := a + 1) (a' := a' + 1) fun i hi => by
      have := h (i + 1) (by omega)
      rw [show a + 1 + i = a + (i + 1) by omega, show a' + 1 + i = a' + (i + 1) by omega]; exact this]

@[simp] theorem encLE_length (k n : Nat) : (encLE k n).length = k := by
  induction k generalizing n with
  | zero => rfl
  | succ k ih => simp [encLE, ih]

theorem decLE_encLE (k n : Nat) : decLE (encLE k n) = n % 256 ^ k := by
  induction k generalizing n with
  | zero => simp [encLE, decLE, Nat.mod_one]
  | succ k ih =>
    simp only [encLE, decLE, ih]
    have h1 : (UInt8.ofNat (n % 256)).toNat = n % 256 := by
      simp
    rw [h1, Nat.pow_succ, Nat.mul_comm (256 ^ k) 256, Nat.mod_mul]

theorem decLE_lt (bs : List UInt8) : decLE bs < 256 ^ bs.length := by
  induction bs with
  | nil => simp [decLE]
  | cons b bs ih =>
    simp only [decLE, List.length_cons, Nat.pow_succ]
    have := b.toNat_lt
    omega

theorem encLE_decLE (bs : List UInt8) : encLE bs.length (decLE bs) = bs := by
  induction bs with
  | nil => rfl
  | cons b bs ih =>
    simp only [decLE, List.length_cons, encLE]
    have hb := b.toNat_lt
    have h1 : (b.toNat + 256 * decLE bs) % 256 = b.toNat := by omega
    have h2 : (b.toNat + 256 * decLE bs) / 256 = decLE bs := by omega
    rw [h1, h2, ih]
    simp

theorem usizeMod_256 (A : Arch) : A.usizeMod = 256 ^ A.ptrBytes := by
  rw [usizeMod_eq, Nat.pow_mul]

@[simp] theorem encWord_length (A : Arch) (n : Nat) : (encWord A n).length = A.ptrBytes := by
  unfold encWord; split <;> simp

theorem decWord_encWord (A : Arch) (n : Nat) : decWord A (encWord A n) = n % A.usizeMod := by
  rw [usizeMod_256]
  unfold encWord decWord; split <;> simp [decLE_encLE]

theorem decWord_lt (A : Arch) {bs : List UInt8} (h : bs.length = A.ptrBytes) : decWord A bs < A.usizeMod := by
  rw [usizeMod_256, ← h]
  unfold decWord; split
  · have := decLE_lt bs.reverse; rwa [List.length_reverse] at this
  · exact decLE_lt bs

theorem encWord_decWord (A : Arch) {bs : List UInt8} (h : bs.length = A.ptrBytes) :
    encWord A (decWord A bs) = bs := by
  unfold encWord decWord; rw [← h]
  split
  · have := encLE_decLE bs.reverse
    rw [List.length_reverse] at this
    rw [this, List.reverse_reverse]
  · exact encLE_decLE bs

theorem encWord_mod (A : Arch) (n : Nat) : encWord A (n % A.usizeMod) = encWord A n := by
  have := encWord_decWord A (encWord_length A n)
  rwa [decWord_encWord] at this

theorem wordCells_mod (A : Arch) (n : Nat) : wordCells A (n % A.usizeMod) = wordCells A n := by
  unfold wordCells; rw [encWord_mod]

theorem readWord_some_iff {A : Arch} {m : Mem} {a w : Nat} :
    readWord A m a = some w ↔ w < A.usizeMod ∧ ∀ i < A.ptrBytes, m (a + i) = wordCells A w i := by
  unfold readWord
  rw [Option.map_eq_some_iff]
  constructor
  · rintro ⟨bs, h, rfl⟩
    obtain ⟨hl, hi⟩ := readBytes_some_iff.1 h
    refine ⟨decWord_lt A hl, fun i hlt => ?_⟩
    rw [hi i hlt]; unfold wordCells; rw [encWord_decWord A hl]
  · rintro ⟨hw, hi⟩
    refine ⟨encWord A w, readBytes_some_iff.2 ⟨encWord_length A w, hi⟩, ?_⟩
    rw [decWord_encWord, Nat.mod_eq_of_lt hw]

theorem readWord_of_cells {A : Arch} {m : Mem} {a n : Nat} (hpos : 0 < A.usizeMod)
    (h : ∀ i < A.ptrBytes, m (a + i) = wordCells A n i) : readWord A m a = some (n % A.usizeMod) :=
  readWord_some_iff.2 ⟨Nat.mod_lt _ hpos, fun i hi => by rw [h i hi, wordCells_mod]⟩

theorem readWord_congr {A : Arch} {m m' : Mem} {a a' : Nat} (h : ∀ i < A.ptrBytes, m (a + i) = m' (a' + i)) :
    readWord A m a = readWord A m' a' := by
  unfold readWord; rw [readBytes_congr h]

theorem usizeMod_pos (A : Arch) : 0 < A.usizeMod := Nat.two_pow_pos _

/-! ### blit -/

theorem blit_in {m : Mem} {a n : Nat} {f : Nat → Cell} {i : Nat} (h1 : a ≤ i) (h2 : i < a + n) :
    m.blit a n f i = f (i - a) := by simp [Mem.blit, h1, h2]

theorem blit_out {m : Mem} {a n : Nat} {f : Nat → Cell} {i : Nat} (h : i < a ∨ a + n ≤ i) :
    m.blit a n f i = m i := by
  unfold Mem.blit; rw [if_neg]; omega

theorem blit_at {m : Mem} {a n : Nat} {f : Nat → Cell} {i : Nat} (h : i < n) :
    m.blit a n f (a + i) = f i := by
  rw [blit_in (by omega) (by omega)]; congr 1; omega

theorem readWord_blit_same {A : Arch} {m : Mem} {a n : Nat} :
    readWord A (m.blit a A.ptrBytes (wordCells A n)) a = some (n % A.usizeMod) :=
  readWord_of_cells (usizeMod_pos A) fun _ hi => blit_at hi

theorem readWord_blit_disj {A : Arch} {m : Mem} {a b n : Nat} {f : Nat → Cell}
    (h : b + A.ptrBytes ≤ a ∨ a + n ≤ b) : readWord A (m.blit a n f) b = readWord A m b :=
  readWord_congr fun i hi => blit_out (by omega)

end SerRaw
