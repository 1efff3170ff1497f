import Verif.Lemmas.Storage
/-
C01–C03: the alignment and capacity arithmetic of ser_raw/src/util.rs.
(C04 needs storage histories: Props/Storage.lean.)
-/
namespace SerRaw
variable {σ : Type}

/-! ### C01 -/

/-- C01. `align_up_to` returns the least multiple of `alignment` at or above `pos`, for every target, with no check firing. -/
theorem C01_align_up_to (A : Arch) {pos alignment : Nat} (ha : Pow2 alignment) (h : pos + alignment < A.usizeMod) (s : σ) :
    ∃ r, alignUpTo A pos alignment s = .ok r s ∧ alignment ∣ r ∧ pos ≤ r ∧ ∀ m, alignment ∣ m → pos ≤ m → r ≤ m :=
  ⟨_, alignUpTo_ok ha h s, dvd_roundUp _ _, le_roundUp _ ha.pos, fun _ hm hp => roundUp_le_of_dvd ha.pos hp hm⟩

/-- The bound in C01 is needed: just outside it a debug build panics. -/
theorem C01_overflow_debug (A : Arch) (hA : A.debug = true) {pos alignment : Nat} (ha : Pow2 alignment)
    (h : A.usizeMod ≤ pos + alignment) (s : σ) : alignUpTo A pos alignment s = .panic .arith s := by
  unfold alignUpTo
  rw [bind_ok (debugAssert_true A (isPow2_iff.2 ha) s), bind_def]
  have : uadd A pos alignment s = .panic .arith s := by simp [uadd, hA, Nat.not_lt.2 h]
  rw [this]

/-- An alignment which is not a power of two is rejected in debug builds. -/
theorem C01_not_pow2_debug (A : Arch) (hA : A.debug = true) {pos alignment : Nat} (ha : ¬ Pow2 alignment) (s : σ) :
    alignUpTo A pos alignment s = .panic .debugAssert s := by
  have : isPow2 alignment = false := by
    cases h : isPow2 alignment with
    | false => rfl
    | true => exact absurd (isPow2_iff.1 h) ha
  unfold alignUpTo
  rw [bind_def]
  simp [M.debugAssert, hA, this]

/-- The hypotheses of C01 are met, and the bound is reached: the top of the 64-bit address space. -/
example : Pow2 16 ∧ (2 ^ 64 - 17) + 16 < (Arch.mk 8 false true).usizeMod ∧
    alignUpTo (Arch.mk 8 false true) (2 ^ 64 - 17) 16 () = .ok (2 ^ 64 - 16) () :=
  ⟨⟨4, rfl⟩, by decide, rfl⟩

/-! ### C02 -/

/-- C02. `is_aligned_to` decides divisibility. -/
theorem C02_is_aligned_to (A : Arch) {pos alignment : Nat} (ha : Pow2 alignment) (s : σ) :
    ∃ b, isAlignedTo A pos alignment s = .ok b s ∧ (b = true ↔ alignment ∣ pos) :=
  ⟨_, isAlignedTo_ok ha s, decide_eq_true_iff⟩

example : isAlignedTo (Arch.mk 4 true true) 24 8 () = .ok true () ∧
    isAlignedTo (Arch.mk 4 true true) 20 8 () = .ok false () := ⟨rfl, rfl⟩

/-! ### C03 -/

/-- Rust's rule for an allocation of `size` bytes with alignment `align` (`std::alloc::Layout`): some multiple of
`align` at or above `size` is at most `isize::MAX`. -/
def Allocatable (A : Arch) (size align : Nat) : Prop := ∃ m, align ∣ m ∧ size ≤ m ∧ m ≤ A.isizeMax

/-- The alignments `aligned_max_capacity` takes. -/
def LegalAlign (A : Arch) (a : Nat) : Prop := Pow2 a ∧ a < A.isizeMax

theorem isizeMax_succ_pow2 (A : Arch) : Pow2 (A.isizeMax + 1) :=
  ⟨A.usizeBits - 1, by unfold Arch.isizeMax; have := Nat.two_pow_pos (A.usizeBits - 1); omega⟩

theorem maxCapacity_run (A : Arch) {a : Nat} (ha : LegalAlign A a) (s : σ) :
    alignedMaxCapacity A a s = .ok (A.isizeMax - (a - 1)) s := by
  have hp := ha.1.pos
  have hl := ha.2
  unfold alignedMaxCapacity
  simp only [bind_def, M.assert]
  rw [if_pos (by simp; omega)]; simp only
  rw [if_pos (isPow2_iff.2 ha.1)]; simp only
  rw [if_pos (by simpa using hl)]; simp only
  rw [usub_ok A (by omega)]; simp only
  rw [usub_ok A (by omega)]

/-- C03. `aligned_max_capacity(a)` is the largest allocatable size, and a multiple of `a`. -/
theorem C03_aligned_max_capacity (A : Arch) {a : Nat} (ha : LegalAlign A a) (s : σ) :
    ∃ r, alignedMaxCapacity A a s = .ok r s ∧ a ∣ r ∧ ∀ size, Allocatable A size a ↔ size ≤ r := by
  have hp := ha.1.pos
  have hl := ha.2
  have hd : a ∣ A.isizeMax + 1 := ha.1.dvd_of_le (isizeMax_succ_pow2 A) (by omega)
  have hr : a ∣ A.isizeMax - (a - 1) := by
    have : A.isizeMax - (a - 1) = (A.isizeMax + 1) - a := by omega
    rw [this]; exact Nat.dvd_sub hd (Nat.dvd_refl a)
  refine ⟨_, maxCapacity_run A ha s, hr, fun size => ⟨?_, fun h => ⟨_, hr, h, by omega⟩⟩⟩
  rintro ⟨m, hm, h1, h2⟩
  have h3 : a ∣ (A.isizeMax + 1) - m := Nat.dvd_sub hd hm
  have h4 : a ≤ (A.isizeMax + 1) - m := Nat.le_of_dvd (by omega) h3
  omega

/-- C03, second half: every other alignment is rejected by a panic, in debug and release builds. -/
theorem C03_illegal (A : Arch) {a : Nat} (ha : ¬ LegalAlign A a) (s : σ) :
    alignedMaxCapacity A a s = .panic .assertion s := by
  unfold alignedMaxCapacity
  simp only [bind_def, M.assert]
  by_cases h0 : a = 0
  · simp [h0]
  · rw [if_pos (by simpa using h0)]; simp only
    by_cases h1 : isPow2 a = true
    · rw [if_pos h1]; simp only
      rw [if_neg]
      intro h2
      exact ha ⟨isPow2_iff.1 h1, by simpa using h2⟩
    · rw [if_neg h1]

/-- The rule of the model's allocator (`layoutValid`) is the rule in C03's statement. -/
theorem layoutValid_iff (A : Arch) {size a : Nat} (ha : Pow2 a) : layoutValid A ⟨size, a⟩ = true ↔ Allocatable A size a := by
  unfold layoutValid Allocatable
  have hp := ha.pos
  have e : (size + a - 1) / a * a = roundUp size a := by unfold roundUp; congr 2; omega
  simp only [isPow2_iff.2 ha, Bool.true_and, decide_eq_true_eq, e]
  constructor
  · intro h; exact ⟨_, dvd_roundUp _ _, le_roundUp _ hp, h⟩
  · rintro ⟨m, h1, h2, h3⟩; exact Nat.le_trans (roundUp_le_of_dvd hp h2 h1) h3

example : LegalAlign (Arch.mk 8 false true) 16 ∧ alignedMaxCapacity (Arch.mk 8 false true) 16 () = .ok (2 ^ 63 - 16) () :=
  ⟨⟨⟨4, rfl⟩, by decide⟩, rfl⟩

end SerRaw
