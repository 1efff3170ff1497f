import Verif.Spec.Basic
import Mathlib.Tactic.ByContra
import Mathlib.Tactic.Linarith
import Mathlib.Tactic.Ring
/-
Outcome logic and arithmetic lemmas.
-/
namespace SerRaw

/-! ### Outcomes -/

/-- `o` is a return satisfying `Q`, a panic satisfying `R`, or an abort (only if `Ab`); never undefined behaviour. -/
def Out.Sat {σ α} (o : Out σ α) (Q : α → σ → Prop) (R : PanicKind → σ → Prop) (Ab : Prop) : Prop :=
  match o with
  | .ok a s => Q a s
  | .panic k s => R k s
  | .abort => Ab
  | .ub => False
  | .fuel => False

section
variable {σ α β : Type} {Q : α → σ → Prop} {R : PanicKind → σ → Prop} {Ab : Prop}

theorem Out.Sat.mono {o : Out σ α} {Q' : α → σ → Prop} {R' : PanicKind → σ → Prop} {Ab' : Prop}
    (h : o.Sat Q R Ab) (hQ : ∀ a s, Q a s → Q' a s) (hR : ∀ k s, R k s → R' k s) (hA : Ab → Ab') :
    o.Sat Q' R' Ab' := by
  cases o <;> simp_all [Out.Sat]

theorem Out.Sat.imp {o : Out σ α} {Q' : α → σ → Prop}
    (h : o.Sat Q R Ab) (hQ : ∀ a s, Q a s → Q' a s) : o.Sat Q' R Ab :=
  h.mono hQ (fun _ _ h => h) id

theorem Out.Sat.and {o : Out σ α} {Q' : α → σ → Prop} {R' : PanicKind → σ → Prop} {Ab' : Prop}
    (h : o.Sat Q R Ab) (h' : o.Sat Q' R' Ab') :
    o.Sat (fun a s => Q a s ∧ Q' a s) (fun k s => R k s ∧ R' k s) (Ab ∧ Ab') := by
  cases o <;> simp_all [Out.Sat]

theorem bind_def (x : M σ α) (f : α → M σ β) (s : σ) :
    (x >>= f) s = match x s with
      | .ok a s' => f a s'
      | .panic k s' => .panic k s'
      | .abort => .abort
      | .ub => .ub
      | .fuel => .fuel := rfl

theorem sat_bind {x : M σ α} {f : α → M σ β} {s : σ} {Q : β → σ → Prop} :
    ((x >>= f) s).Sat Q R Ab ↔ (x s).Sat (fun a s' => (f a s').Sat Q R Ab) R Ab := by
  rw [bind_def]; cases x s <;> simp [Out.Sat]

/-- If `x` runs to `ok a s'`, continue with `f`. -/
theorem bind_ok {x : M σ α} {f : α → M σ β} {s s' : σ} {a : α} (h : x s = .ok a s') :
    (x >>= f) s = f a s' := by rw [bind_def, h]

@[simp] theorem pure_run (a : α) (s : σ) : (pure a : M σ α) s = .ok a s := rfl
@[simp] theorem sat_ok {a : α} {s : σ} : (Out.ok a s).Sat Q R Ab ↔ Q a s := Iff.rfl
@[simp] theorem sat_panic {k} {s : σ} : (Out.panic (α := α) k s).Sat Q R Ab ↔ R k s := Iff.rfl
@[simp] theorem sat_abort : (Out.abort (σ := σ) (α := α)).Sat Q R Ab ↔ Ab := Iff.rfl
@[simp] theorem sat_ub : (Out.ub (σ := σ) (α := α)).Sat Q R Ab ↔ False := Iff.rfl
@[simp] theorem sat_fuel : (Out.fuel (σ := σ) (α := α)).Sat Q R Ab ↔ False := Iff.rfl

theorem bind_assoc_run {γ : Type} (x : M σ α) (f : α → M σ β) (g : β → M σ γ) (s : σ) :
    ((x >>= f) >>= g) s = (x >>= fun a => f a >>= g) s := by
  simp only [bind_def]; cases x s <;> rfl

theorem bind_assoc_M {γ : Type} (x : M σ α) (f : α → M σ β) (g : β → M σ γ) :
    ((x >>= f) >>= g) = (x >>= fun a => f a >>= g) := by
  funext s; exact bind_assoc_run x f g s

theorem pure_bind_M (a : α) (f : α → M σ β) : (pure a >>= f) = f a := rfl

theorem bind_pure_M (x : M σ α) : (x >>= fun a => pure a) = x := by
  funext s; rw [bind_def]; cases x s <;> rfl

theorem bind_pure_unit (x : M σ Unit) : (x >>= fun _ => pure ()) = x := by
  funext s; rw [bind_def]; cases x s <;> rfl

theorem debugAssert_true (A : Arch) {b : Bool} (h : b = true) (s : σ) :
    (M.debugAssert A b : M σ Unit) s = .ok () s := by simp [M.debugAssert, h]

theorem debugAssertM_ok (A : Arch) {e : M σ Bool} {s : σ} (h : A.debug = true → e s = .ok true s) :
    M.debugAssertM A e s = .ok () s := by
  unfold M.debugAssertM
  split
  · rename_i hd; rw [bind_ok (h hd)]; exact debugAssert_true A rfl s
  · rfl

theorem uadd_ok (A : Arch) {a b : Nat} (h : a + b < A.usizeMod) (s : σ) :
    uadd A a b s = .ok (a + b) s := by simp [uadd, h]
theorem usub_ok (A : Arch) {a b : Nat} (h : b ≤ a) (s : σ) :
    usub A a b s = .ok (a - b) s := by simp [usub, h]
theorem umul_ok (A : Arch) {a b : Nat} (h : a * b < A.usizeMod) (s : σ) :
    umul A a b s = .ok (a * b) s := by simp [umul, h]

end

/-! ### Powers of two and rounding -/

theorem isPow2_iff {n : Nat} : isPow2 n = true ↔ Pow2 n := by
  have := @Nat.ne_zero_and_sub_one_eq_zero_iff_isPowerOfTwo n
  unfold isPow2 Pow2
  simp only [Bool.and_eq_true, bne_iff_ne, beq_iff_eq]
  exact this

theorem Pow2.pos {n : Nat} (h : Pow2 n) : 0 < n := by
  obtain ⟨e, rfl⟩ := h; exact Nat.two_pow_pos e

theorem Pow2.dvd_of_le {a b : Nat} (ha : Pow2 a) (hb : Pow2 b) (h : a ≤ b) : a ∣ b := by
  obtain ⟨e, rfl⟩ := ha; obtain ⟨f, rfl⟩ := hb
  exact Nat.pow_dvd_pow 2 ((Nat.pow_le_pow_iff_right (by decide)).1 h)

theorem le_roundUp (n : Nat) {a : Nat} (ha : 0 < a) : n ≤ roundUp n a := by
  unfold roundUp
  have h := Nat.div_add_mod (n + (a - 1)) a
  have h2 := Nat.mod_lt (n + (a - 1)) ha
  rw [Nat.mul_comm] at h
  omega

theorem dvd_roundUp (n a : Nat) : a ∣ roundUp n a := ⟨_, Nat.mul_comm _ _⟩

theorem roundUp_lt (n : Nat) {a : Nat} (ha : 0 < a) : roundUp n a < n + a := by
  unfold roundUp
  have h := Nat.div_mul_le_self (n + (a - 1)) a
  omega

theorem roundUp_le_of_dvd {n m a : Nat} (ha : 0 < a) (h : n ≤ m) (hd : a ∣ m) : roundUp n a ≤ m := by
  obtain ⟨k, rfl⟩ := hd
  obtain ⟨j, hj⟩ := dvd_roundUp n a
  have h1 := roundUp_lt n ha
  rw [hj] at h1 ⊢
  apply Nat.mul_le_mul_left
  by_contra hc
  have : a * (k + 1) ≤ a * j := Nat.mul_le_mul_left _ (by omega)
  rw [Nat.mul_add] at this
  omega

theorem roundUp_eq_of_dvd {n a : Nat} (ha : 0 < a) (h : a ∣ n) : roundUp n a = n :=
  Nat.le_antisymm (roundUp_le_of_dvd ha (Nat.le_refl _) h) (le_roundUp n ha)

theorem roundUp_mono {n m a : Nat} (ha : 0 < a) (h : n ≤ m) : roundUp n a ≤ roundUp m a :=
  roundUp_le_of_dvd ha (Nat.le_trans h (le_roundUp m ha)) (dvd_roundUp m a)

theorem roundUp_zero {a : Nat} (ha : 0 < a) : roundUp 0 a = 0 := roundUp_eq_of_dvd ha (Nat.dvd_zero a)

/-! ### Bit tricks -/

theorem and_mask (x e : Nat) : x &&& (2 ^ e - 1) = x % 2 ^ e := Nat.and_two_pow_sub_one_eq_mod x e

theorem and_not_mask {x b e : Nat} (hx : x < 2 ^ b) (he : e ≤ b) :
    x &&& ((2 ^ b - 1) ^^^ (2 ^ e - 1)) = x / 2 ^ e * 2 ^ e := by
  apply Nat.eq_of_testBit_eq
  intro i
  rw [Nat.testBit_and, Nat.testBit_xor, Nat.testBit_two_pow_sub_one, Nat.testBit_two_pow_sub_one,
    Nat.testBit_mul_two_pow, Nat.testBit_div_two_pow]
  by_cases h1 : i < e
  · have : i < b := by omega
    simp [h1, this, Nat.not_le.2 h1]
  · have h2 : e ≤ i := Nat.le_of_not_lt h1
    simp only [h1, h2, decide_false, Bool.xor_false, decide_true, Bool.true_and]
    rw [show i - e + e = i by omega]
    by_cases h3 : i < b
    · simp [h3]
    · have : x.testBit i = false :=
        Nat.testBit_lt_two_pow (Nat.lt_of_lt_of_le hx (Nat.pow_le_pow_right (by decide) (Nat.le_of_not_lt h3)))
      simp [this]

/-! ### Machine words -/

theorem usizeMod_eq (A : Arch) : A.usizeMod = 2 ^ (8 * A.ptrBytes) := rfl

theorem Arch.Valid.cases {A : Arch} (h : A.Valid) :
    (A.ptrBytes = 4 ∧ A.usizeMod = 2 ^ 32 ∧ A.isizeMax = 2 ^ 31 - 1) ∨
    (A.ptrBytes = 8 ∧ A.usizeMod = 2 ^ 64 ∧ A.isizeMax = 2 ^ 63 - 1) := by
  rcases h.width with h | h
  · left; simp [Arch.usizeMod, Arch.isizeMax, Arch.usizeBits, h]
  · right; simp [Arch.usizeMod, Arch.isizeMax, Arch.usizeBits, h]

theorem Arch.Valid.isize_lt {A : Arch} (h : A.Valid) : 2 * A.isizeMax + 1 < A.usizeMod := by
  rcases h.cases with ⟨_, h1, h2⟩ | ⟨_, h1, h2⟩ <;> rw [h1, h2] <;> decide

theorem Arch.Valid.ptr_pow2 {A : Arch} (h : A.Valid) : Pow2 A.ptrBytes := by
  rcases h.width with h | h <;> rw [h]
  · exact ⟨2, rfl⟩
  · exact ⟨3, rfl⟩

theorem Arch.Valid.ptr_pos {A : Arch} (h : A.Valid) : 0 < A.ptrBytes := h.ptr_pow2.pos

theorem alignUpTo_ok {σ} {A : Arch} {p a : Nat} (ha : Pow2 a) (h : p + a < A.usizeMod) (s : σ) :
    alignUpTo A p a s = .ok (roundUp p a) s := by
  have hpos := ha.pos
  unfold alignUpTo
  rw [bind_ok (debugAssert_true A (isPow2_iff.2 ha) s), bind_ok (uadd_ok A h s),
    bind_ok (usub_ok A (by omega) s), bind_ok (usub_ok A hpos s)]
  obtain ⟨e, rfl⟩ := ha
  have he : e ≤ A.usizeBits := by
    apply Nat.le_of_lt
    exact (Nat.pow_lt_pow_iff_right (a := 2) (by decide)).1 (Nat.lt_of_le_of_lt (Nat.le_add_left _ p) h)
  simp only [unot, Arch.usizeMod, pure_run]
  rw [and_not_mask (by unfold Arch.usizeMod at h; omega) he]
  unfold roundUp
  rw [show p + 2 ^ e - 1 = p + (2 ^ e - 1) by omega]

theorem isAlignedTo_ok {σ} {A : Arch} {p a : Nat} (ha : Pow2 a) (s : σ) :
    isAlignedTo A p a s = .ok (decide (a ∣ p)) s := by
  unfold isAlignedTo
  rw [bind_ok (debugAssert_true A (isPow2_iff.2 ha) s), bind_ok (usub_ok A ha.pos s)]
  obtain ⟨e, rfl⟩ := ha
  rw [pure_run, and_mask]
  congr 1
  rw [Bool.eq_iff_iff]
  simp [Nat.dvd_iff_mod_eq_zero]

theorem nextPow2_pow2 (n : Nat) : Pow2 (nextPow2 n) := by
  unfold nextPow2; split
  · exact ⟨0, rfl⟩
  · exact ⟨_, rfl⟩

theorem le_nextPow2 (n : Nat) : n ≤ nextPow2 n := by
  unfold nextPow2; split
  · omega
  · have := @Nat.lt_log2_self (n - 1)
    omega

theorem nextPow2_le {n m : Nat} (hm : Pow2 m) (h : n ≤ m) : nextPow2 n ≤ m := by
  obtain ⟨e, rfl⟩ := hm
  unfold nextPow2; split
  · exact Nat.two_pow_pos e
  · rename_i h1
    apply Nat.pow_le_pow_right (by decide)
    have : n - 1 < 2 ^ e := by omega
    exact (Nat.log2_lt (by omega)).2 this

theorem nextPow2_lt {n : Nat} (h : 0 < n) : nextPow2 n < 2 * n := by
  unfold nextPow2; split
  · omega
  · rename_i h1
    have := @Nat.log2_self_le (n - 1) (by omega)
    rw [Nat.pow_succ]
    omega

end SerRaw
