import Verif.Spec.Decode
import Verif.Lemmas.Words
/-
Facts about `decode`: more fuel does not change the answer; zero-sized values do not depend on memory.
-/
namespace SerRaw

section
variable {A : Arch} {P : Prog} {fl : Flags} {m : Mem}

theorem decodeEach_mono {r1 r2 : TyId → Nat → Option Val} (h : ∀ t a v, r1 t a = some v → r2 t a = some v)
    (a : Nat) (fs : List Field) {vs : List Val} (hd : decodeEach r1 a fs = some vs) : decodeEach r2 a fs = some vs := by
  induction fs generalizing vs with
  | nil => exact hd
  | cons f fs ih =>
    simp only [decodeEach, Option.bind_eq_bind, Option.bind_eq_some_iff, Option.pure_def, Option.some.injEq] at hd ⊢
    obtain ⟨v, h1, ws, h2, h3⟩ := hd
    exact ⟨v, h _ _ _ h1, ws, ih h2, h3⟩

theorem decodeVec_mono {r1 r2 : TyId → Nat → Option Val} (h : ∀ t a v, r1 t a = some v → r2 t a = some v)
    {u : TyId} {a : Nat} {v : Val} (hd : decodeVec A P fl m r1 u a = some v) : decodeVec A P fl m r2 u a = some v := by
  simp only [decodeVec, Option.bind_eq_bind, Option.bind_eq_some_iff, Option.pure_def, Option.some.injEq,
    Option.ite_none_right_eq_some] at hd ⊢
  obtain ⟨hh, h1, h2, vs, h3, h4⟩ := hd
  exact ⟨hh, h1, h2, vs, decodeEach_mono h _ _ h3, h4⟩

theorem decode_succ {n : Nat} {t a : Nat} {v : Val} (h : decode A P fl m n t a = some v) :
    decode A P fl m (n + 1) t a = some v := by
  induction n generalizing t a v with
  | zero => simp [decode] at h
  | succ n ih =>
    have ih' : ∀ t a v, decode A P fl m n t a = some v → decode A P fl m (n + 1) t a = some v := fun t a v => ih
    rw [decode] at h
    rw [decode]
    split at h
    · rename_i hg
      rw [if_pos hg]
      split at h <;> rename_i hdef <;>
        (try simp only [Option.bind_eq_bind, Option.bind_eq_some_iff, Option.pure_def, Option.some.injEq,
          Option.ite_none_right_eq_some] at h ⊢)
      · exact h
      · obtain ⟨p, h1, h2, v', h3, h4⟩ := h; exact ⟨p, h1, h2, v', ih h3, h4⟩
      · exact decodeVec_mono ih' h
      · exact h
      · obtain ⟨vs, h1, h2⟩ := h; exact ⟨vs, decodeEach_mono ih' _ _ h1, h2⟩
      · obtain ⟨vs, h1, h2⟩ := h; exact ⟨vs, decodeEach_mono ih' _ _ h1, h2⟩
      · obtain ⟨i, h1, fs, h2, vs, h3, h4⟩ := h; exact ⟨i, h1, fs, h2, vs, decodeEach_mono ih' _ _ h3, h4⟩
      · exact decodeVec_mono ih' h
      · obtain ⟨s, h1, v', h2, h3⟩ := h; exact ⟨s, h1, v', ih h2, h3⟩
    · cases h

theorem decode_mono {n k : Nat} (hk : n ≤ k) {t a : Nat} {v : Val} (h : decode A P fl m n t a = some v) :
    decode A P fl m k t a = some v := by
  induction hk with
  | refl => exact h
  | step _ ih => exact decode_succ ih

/-- A typed address denotes at most one value. -/
theorem Denotes.unique {t a : Nat} {v v' : Val} (h : Denotes A P fl m t a v) (h' : Denotes A P fl m t a v') : v = v' := by
  obtain ⟨n, hn⟩ := h
  obtain ⟨k, hk⟩ := h'
  have h1 := decode_mono (Nat.le_max_left n k) hn
  have h2 := decode_mono (Nat.le_max_right n k) hk
  rw [h1] at h2; exact Option.some.inj h2

theorem decode_guard {n t a : Nat} {v : Val} (h : decode A P fl m n t a = some v) :
    (P.layout t).align ∣ a ∧ a + (P.layout t).size < A.usizeMod := by
  cases n with
  | zero => simp [decode] at h
  | succ n =>
    rw [decode] at h
    split at h
    · rename_i hg; exact ⟨Nat.dvd_of_mod_eq_zero hg.1, hg.2⟩
    · cases h

theorem decodeEach_congr {r1 r2 : TyId → Nat → Option Val} {a : Nat} {fs : List Field}
    (h : ∀ f ∈ fs, r1 f.2 (a + f.1) = r2 f.2 (a + f.1)) : decodeEach r1 a fs = decodeEach r2 a fs := by
  induction fs with
  | nil => rfl
  | cons f fs ih =>
    simp only [decodeEach]
    rw [h f (by simp), ih fun g hg => h g (by simp [hg])]

theorem mem_elems {u k : Nat} {f : Field} : f ∈ elems P u k ↔ ∃ i < k, f = (i * (P.layout u).size, u) := by
  unfold elems; simp only [List.mem_map, List.mem_range]
  constructor
  · rintro ⟨i, h1, h2⟩; exact ⟨i, h1, h2.symm⟩
  · rintro ⟨i, h1, h2⟩; exact ⟨i, h1, h2.symm⟩

/-- Zero-sized values are the same in every memory. -/
theorem decode_zst (hW : 0 < A.ptrBytes) (hP : P.WF A) {fl' : Flags} {m' : Mem} {n t a : Nat} (hz : (P.layout t).size = 0) :
    decode A P fl m n t a = decode A P fl' m' n t a := by
  induction n generalizing t a with
  | zero => rfl
  | succ n ih =>
    rw [decode, decode]
    have hw := hP t
    unfold TyWF at hw
    obtain ⟨_, _, _, hw⟩ := hw
    split
    · split <;> rename_i hdef <;> simp only [hdef] at hw
      · rw [hz]; rfl
      · rw [hw] at hz; simp only at hz; omega
      · rw [hw] at hz; simp only at hz; omega
      · rw [hw] at hz; simp only at hz; omega
      · rename_i u k
        rw [decodeEach_congr]
        intro f hf
        obtain ⟨i, hi, rfl⟩ := mem_elems.1 hf
        refine ih ?_
        rw [hw.1] at hz
        rcases Nat.mul_eq_zero.1 hz with h | h
        · omega
        · exact h
      · rw [decodeEach_congr]
        intro f hf
        exact ih (by have := hw.inBounds f hf; omega)
      · rename_i tag vs
        have ht : activeVariant A m a tag = activeVariant A m' a tag := by
          cases tag with
          | single => rfl
          | bytes off len sel =>
            have := hw.2.1
            have : len = 0 := by omega
            subst this; rfl
          | word off sel =>
            have := hw.2.1
            omega
        rw [ht]
        simp only [Option.bind_eq_bind]
        congr 1; funext i
        cases hv : vs[i]? with
        | none => rfl
        | some fs =>
          simp only [Option.bind_some]
          rw [decodeEach_congr]
          intro f hf
          exact ih (by have := (hw.1 fs (List.mem_of_getElem? hv)).inBounds f hf; omega)
      · rw [hw.1] at hz; simp only at hz; omega
      · rw [hw.1] at hz; simp only at hz; omega
    · rfl

end
end SerRaw
