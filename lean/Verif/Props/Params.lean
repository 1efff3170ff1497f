import Verif.Model.Params
import Verif.Spec.Params
import Verif.Props.Util
import Verif.Props.Concrete
/-
C89: which `AlignedVec` types can be used, with all parameters given or the last ones left out.
-/
namespace SerRaw

/-- C89. The compile-time checks accept exactly the parameters the documentation allows. -/
theorem C89_documented (A : Arch) (hA : A.Valid) (sa mva va max : Nat) :
    alignedVecCompiles A [sa, mva, va, max] = true ↔ DocumentedParams A sa mva va max := by
  have hp := isizeMax_succ_pow2 A
  have h4 : 4 ≤ A.isizeMax + 1 := by
    unfold Arch.isizeMax Arch.usizeBits
    rcases hA.width with h | h <;> rw [h] <;> decide
  simp only [alignedVecCompiles, alignedVecType, Cfg.assertAlignmentsValid, Bool.and_eq_true, decide_eq_true_eq, isPow2_iff, beq_iff_eq]
  constructor
  · rintro ⟨⟨⟨⟨⟨⟨⟨⟨⟨⟨⟨h1, h2⟩, h3⟩, h4⟩, h5⟩, h6⟩, h7⟩, h8⟩, h9⟩, h10⟩, h11⟩, h12⟩
    exact ⟨h3, ⟨h6, h5⟩, ⟨h9, h8⟩, by omega, by omega, Nat.dvd_of_mod_eq_zero h12⟩
  · rintro ⟨h1, ⟨h2, h3⟩, ⟨h5, h6⟩, h7, h8, h9⟩
    have p1 := h1.pos
    have p2 := h2.pos
    have p3 := h5.pos
    -- a power of two below `isize::MAX + 1` is at most half of it
    have hlt : sa < A.isizeMax + 1 := by omega
    have hd : sa ∣ A.isizeMax + 1 := h1.dvd_of_le hp (by omega)
    obtain ⟨c, hc⟩ := hd
    have hc2 : 2 ≤ c := by
      rcases Nat.lt_or_ge c 2 with h | h
      · have : c = 0 ∨ c = 1 := by omega
        rcases this with rfl | rfl <;> simp at hc <;> omega
      · exact h
    have : sa * 2 ≤ sa * c := Nat.mul_le_mul_left _ hc2
    refine ⟨⟨⟨⟨⟨⟨⟨⟨⟨⟨⟨?_, ?_⟩, h1⟩, ?_⟩, h3⟩, h2⟩, ?_⟩, h6⟩, h5⟩, ?_⟩, ?_⟩, Nat.mod_eq_zero_of_dvd h9⟩ <;> omega

theorem default_max (A : Arch) (hA : A.Valid) : defaultMaxCapacity A = some (A.isizeMax - 15) := by
  have hl : LegalAlign A 16 := ⟨⟨4, rfl⟩, by
    unfold Arch.isizeMax Arch.usizeBits
    rcases hA.width with h | h <;> rw [h] <;> decide⟩
  unfold defaultMaxCapacity defaultStorageAlign
  rw [maxCapacity_run A hl ()]

theorem compiles_map (A : Arch) (hA : A.Valid) (sa mva va : Nat) :
    (match (defaultMaxCapacity A).map fun m => (⟨A, sa, mva, va, m, fun _ _ => 0⟩ : Cfg) with
      | some C => C.assertAlignmentsValid
      | none => false) = true ↔ DocumentedParams A sa mva va (A.isizeMax - 15) := by
  rw [default_max A hA]
  exact C89_documented A hA sa mva va (A.isizeMax - 15)

/-- C89. With the maximum capacity left out, exactly storage alignments up to 16 work. -/
theorem C89_three (A : Arch) (hA : A.Valid) (sa mva va : Nat) :
    alignedVecCompiles A [sa, mva, va] = true ↔ Pow2 sa ∧ Pow2 mva ∧ Pow2 va ∧ va ≤ mva ∧ mva ≤ sa ∧ sa ≤ 16 := by
  have h64 : 64 ≤ A.isizeMax + 1 := by
    unfold Arch.isizeMax Arch.usizeBits
    rcases hA.width with h | h <;> rw [h] <;> decide
  refine (compiles_map A hA sa mva va).trans ⟨fun h => ?_, fun ⟨h1, h2, h3, h4, h5, h6⟩ => ?_⟩
  · have := h.max_le
    exact ⟨h.storage, h.maxValue.1, h.value.1, h.value.2, h.maxValue.2, by omega⟩
  · refine ⟨h1, ⟨h2, h5⟩, ⟨h3, h4⟩, by omega, by omega, ?_⟩
    have hd : mva ∣ 16 := h2.dvd_of_le ⟨4, rfl⟩ (by omega)
    have hd' : mva ∣ A.isizeMax + 1 := h2.dvd_of_le (isizeMax_succ_pow2 A) (by omega)
    have : A.isizeMax - 15 = A.isizeMax + 1 - 16 := by omega
    rw [this]
    exact Nat.dvd_sub hd' hd

theorem ptrBytes_pow2 (A : Arch) (hA : A.Valid) : Pow2 A.ptrBytes := by
  rcases hA.width with h | h
  · exact ⟨2, h⟩
  · exact ⟨3, h⟩

/-- C89. With the alignment of values left out too, which then is the size of a pointer, the greatest alignment must be at least that. -/
theorem C89_two (A : Arch) (hA : A.Valid) (sa mva : Nat) :
    alignedVecCompiles A [sa, mva] = true ↔ Pow2 sa ∧ Pow2 mva ∧ A.ptrBytes ≤ mva ∧ mva ≤ sa ∧ sa ≤ 16 := by
  refine (C89_three A hA sa mva A.ptrBytes).trans ⟨fun ⟨h1, h2, _, h4, h5, h6⟩ => ⟨h1, h2, h4, h5, h6⟩,
    fun ⟨h1, h2, h4, h5, h6⟩ => ⟨h1, h2, ptrBytes_pow2 A hA, h4, h5, h6⟩⟩

/-- C89. With only the storage alignment given, the only types that can be used are `AlignedVec<8>`, `AlignedVec<16>` and, on 32-bit targets, `AlignedVec<4>`
(F20: `AlignedVec<32>` does not compile, although 32 is a legal storage alignment). -/
theorem C89_one (A : Arch) (hA : A.Valid) (sa : Nat) :
    alignedVecCompiles A [sa] = true ↔ sa = 8 ∨ sa = 16 ∨ (sa = 4 ∧ A.ptrBytes = 4) := by
  refine (C89_two A hA sa sa).trans ⟨fun ⟨⟨e, he⟩, _, h2, _, h3⟩ => ?_, fun h => ?_⟩
  · have : e ≤ 4 := by
      by_contra hc
      have := Nat.pow_lt_pow_right (a := 2) (by decide) (show 4 < e by omega)
      omega
    have he5 : e = 0 ∨ e = 1 ∨ e = 2 ∨ e = 3 ∨ e = 4 := by omega
    rcases hA.width with h | h <;> rcases he5 with rfl | rfl | rfl | rfl | rfl <;>
      norm_num at he <;> omega
  · have key : ∀ e, sa = 2 ^ e → A.ptrBytes ≤ sa → sa ≤ 16 → Pow2 sa ∧ Pow2 sa ∧ A.ptrBytes ≤ sa ∧ sa ≤ sa ∧ sa ≤ 16 :=
      fun e he h1 h2 => ⟨⟨e, he⟩, ⟨e, he⟩, h1, Nat.le_refl _, h2⟩
    rcases h with rfl | rfl | ⟨rfl, h4⟩
    · exact key 3 rfl (by rcases hA.width with h | h <;> omega) (by omega)
    · exact key 4 rfl (by rcases hA.width with h | h <;> omega) (by omega)
    · exact key 2 rfl (by omega) (by omega)

/-- C89. `AlignedVec` without parameters works on every target: alignment 16, values aligned to the size of a pointer, up to `isize::MAX - 15` bytes. -/
theorem C89_default (A : Arch) (hA : A.Valid) (o : Oracle) :
    ∃ C, alignedVecType A o [] = some C ∧ C.assertAlignmentsValid = true ∧
      C.storageAlign = 16 ∧ C.maxValueAlign = 16 ∧ C.valueAlign = A.ptrBytes ∧ C.maxCapacity = A.isizeMax - 15 := by
  have h : alignedVecCompiles A [16] = true := (C89_one A hA 16).2 (.inr (.inl rfl))
  refine ⟨⟨A, 16, 16, A.ptrBytes, A.isizeMax - 15, o⟩, ?_, ?_, rfl, rfl, rfl, rfl⟩
  · simp only [alignedVecType, default_max A hA, Option.map_some, defaultStorageAlign, defaultValueAlign]
  · simp only [alignedVecCompiles, alignedVecType, default_max A hA, Option.map_some] at h
    exact h

/-- C89. Any legal storage alignment works with `aligned_max_capacity` of it as the maximum capacity — and no greater maximum does. -/
theorem C89_max (A : Arch) (hA : A.Valid) {sa mva va : Nat} (h1 : LegalAlign A sa) (h2 : Pow2 mva ∧ mva ≤ sa) (h3 : Pow2 va ∧ va ≤ mva) :
    ∃ m, alignedMaxCapacity A sa () = .ok m () ∧ alignedVecCompiles A [sa, mva, va, m] = true ∧
      ∀ m', alignedVecCompiles A [sa, mva, va, m'] = true → m' ≤ m := by
  have p1 := h1.1.pos
  have hl := h1.2
  refine ⟨_, maxCapacity_run A h1 (), (C89_documented A hA _ _ _ _).2 ⟨h1.1, h2, h3, by omega, by omega, ?_⟩, fun m' h => ?_⟩
  · have hd : mva ∣ sa := h2.1.dvd_of_le h1.1 h2.2
    have hd' : sa ∣ A.isizeMax + 1 := h1.1.dvd_of_le (isizeMax_succ_pow2 A) (by omega)
    have : A.isizeMax - (sa - 1) = A.isizeMax + 1 - sa := by omega
    rw [this]
    exact Nat.dvd_sub (Nat.dvd_trans hd hd') hd
  · have := ((C89_documented A hA _ _ _ _).1 h).max_le
    omega

/-- The type of most examples, one that the defaults give on 32-bit targets only, and one they do not give. -/
example : alignedVecCompiles x64 [16, 16, 8, 2 ^ 30] = true ∧ alignedVecCompiles x64 [] = true ∧ alignedVecCompiles x64 [4] = false ∧
    alignedVecCompiles be32 [4] = true ∧ alignedVecCompiles x64 [32] = false ∧ alignedVecCompiles x64 [32, 16, 8, 2 ^ 63 - 32] = true ∧
    alignedVecCompiles x64 [16, 16, 8, 2 ^ 30 + 8] = false ∧ alignedVecCompiles x64 [1, 2, 3, 4, 5] = false := by decide +kernel

end SerRaw
