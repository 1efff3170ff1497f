import Verif.Lemmas.Storage
/-
Concrete targets, allocators and storage types, used next to the theorems to show that their hypotheses are met, and as
counterexamples.
-/
namespace SerRaw

/-- 64-bit little-endian, debug build. -/
def x64 : Arch := ⟨8, false, true⟩
/-- 64-bit little-endian, release build. -/
def x64r : Arch := ⟨8, false, false⟩
/-- 32-bit big-endian, debug build. -/
def be32 : Arch := ⟨4, true, true⟩

/-- An allocator that moves the buffer on every call, cycling through seven addresses. -/
def moving : Oracle := fun n L => if 2 ^ 20 % L.align = 0 ∧ L.size < 2 ^ 31 then 2 ^ 20 * (n % 7 + 1) else 0

/-- An allocator that fails from its third call on. -/
def failing : Oracle := fun n L => if n < 2 then moving n L else 0

/-- A storage type on `A` with the given parameters. -/
def mkCfg (A : Arch) (sa mva va max : Nat) : Cfg := ⟨A, sa, mva, va, max, moving⟩

/-- `AlignedVec<16, 16, 8, 2^30>` on x86-64, debug. -/
def cfg64 : Cfg := mkCfg x64 16 16 8 (2 ^ 30)
/-- The same, release. -/
def cfg64r : Cfg := mkCfg x64r 16 16 8 (2 ^ 30)
/-- `AlignedVec<8, 8, 4, 1000>` on a 32-bit big-endian target, debug: small, and `MAX_CAPACITY` not a power of two. -/
def cfg32 : Cfg := mkCfg be32 8 8 4 1000

theorem moving_ok {A : Arch} (hA : A.Valid) {sa mva va max : Nat} : (mkCfg A sa mva va max).AllocOK := by
  intro n L h
  simp only [mkCfg, moving] at h ⊢
  split at h
  · rename_i hc
    rw [if_pos hc]
    refine ⟨Nat.mod_eq_zero_of_dvd (Nat.dvd_trans (Nat.dvd_of_mod_eq_zero hc.1) (Nat.dvd_mul_right _ _)), ?_⟩
    have h7 := Nat.mod_lt n (show 0 < 7 by decide)
    have : 2 ^ 20 * (n % 7 + 1) + L.size < 2 ^ 32 := by omega
    rcases hA.cases with ⟨_, h, _⟩ | ⟨_, h, _⟩ <;> rw [h] <;> omega
  · exact absurd rfl h

theorem moving_never {A : Arch} {sa mva va max : Nat} (hs : 2 ^ 20 % sa = 0) (hm : max < 2 ^ 31) :
    (mkCfg A sa mva va max).NeverFails := by
  intro n size _ h2
  simp only [mkCfg, moving] at h2 ⊢
  rw [if_pos ⟨hs, by omega⟩]; omega

theorem cfg64_ok : cfg64.OK := ⟨⟨Or.inr rfl⟩, by decide, moving_ok ⟨Or.inr rfl⟩⟩
theorem cfg64r_ok : cfg64r.OK := ⟨⟨Or.inr rfl⟩, by decide, moving_ok ⟨Or.inr rfl⟩⟩
theorem cfg32_ok : cfg32.OK := ⟨⟨Or.inl rfl⟩, by decide, moving_ok ⟨Or.inl rfl⟩⟩
theorem cfg64_never : cfg64.NeverFails := moving_never (by decide) (by decide)
theorem cfg64r_never : cfg64r.NeverFails := moving_never (by decide) (by decide)
theorem cfg32_never : cfg32.NeverFails := moving_never (by decide) (by decide)

end SerRaw
