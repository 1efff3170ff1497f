import Verif.Spec.Output
import Verif.Lemmas.Decode
/-
Facts about `owned`: more fuel does not change the answer; slots hold the pointers. Weakening of flags in `decode`.
-/
namespace SerRaw

section
variable {A : Arch} {P : Prog} {fl fl' : Flags} {m : Mem}

theorem ownEach_mono {r1 r2 : TyId → Nat → Option (List Own)} (h : ∀ t a v, r1 t a = some v → r2 t a = some v)
    (a : Nat) (fs : List Field) {vs : List Own} (hd : ownEach r1 a fs = some vs) : ownEach r2 a fs = some vs := by
  induction fs generalizing vs with
  | nil => exact hd
  | cons f fs ih =>
    simp only [ownEach, Option.bind_eq_bind, Option.bind_eq_some_iff, Option.pure_def, Option.some.injEq] at hd ⊢
    obtain ⟨v, h1, ws, h2, h3⟩ := hd
    exact ⟨v, h _ _ _ h1, ws, ih h2, h3⟩

theorem ownVec_mono {r1 r2 : TyId → Nat → Option (List Own)} (h : ∀ t a v, r1 t a = some v → r2 t a = some v)
    {u : TyId} {a : Nat} {v : List Own} (hd : ownVec A P m r1 u a = some v) : ownVec A P m r2 u a = some v := by
  unfold ownVec at hd ⊢
  split at hd
  · rename_i hz; rw [if_pos hz]; exact hd
  · rename_i hz; rw [if_neg hz]
    simp only [Option.bind_eq_bind, Option.bind_eq_some_iff, Option.pure_def] at hd ⊢
    obtain ⟨hh, h1, h2⟩ := hd
    refine ⟨hh, h1, ?_⟩
    split at h2
    · rename_i hl; rw [if_pos hl]; exact h2
    · rename_i hl; rw [if_neg hl]
      simp only [Option.bind_eq_some_iff] at h2 ⊢
      obtain ⟨x, h3, h4⟩ := h2
      exact ⟨x, ownEach_mono h _ _ h3, h4⟩

theorem owned_succ {n : Nat} {t a : Nat} {v : List Own} (h : owned A P m n t a = some v) :
    owned A P m (n + 1) t a = some v := by
  induction n generalizing t a v with
  | zero => simp [owned] at h
  | succ n ih =>
    have ih' : ∀ t a v, owned A P m n t a = some v → owned A P m (n + 1) t a = some v := fun t a v => ih
    rw [owned] at h
    rw [owned]
    cases hdef : P.defn t <;> simp only [hdef] at h ⊢
    case prim => exact h
    case box u =>
      split at h
      · rename_i hz; rw [if_pos hz]; exact h
      · rename_i hz; rw [if_neg hz]
        simp only [Option.bind_eq_bind, Option.bind_eq_some_iff, Option.pure_def] at h ⊢
        obtain ⟨p, h1, x, h2, h3⟩ := h
        exact ⟨p, h1, x, ih h2, h3⟩
    case vec u => exact ownVec_mono ih' h
    case string => exact h
    case array u k => exact ownEach_mono ih' _ _ h
    case struct fs => exact ownEach_mono ih' _ _ h
    case enum tag vs =>
      simp only [Option.bind_eq_bind, Option.bind_eq_some_iff] at h ⊢
      obtain ⟨i, h1, fs, h2, h3⟩ := h
      exact ⟨i, h1, fs, h2, ownEach_mono ih' _ _ h3⟩
    case bigUint u => exact ownVec_mono ih' h
    case bigInt u => exact ih h

theorem owned_mono {n k : Nat} (hk : n ≤ k) {t a : Nat} {v : List Own} (h : owned A P m n t a = some v) :
    owned A P m k t a = some v := by
  induction hk with
  | refl => exact h
  | step _ ih => exact owned_succ ih

theorem owned_unique {n k : Nat} {t a : Nat} {v w : List Own} (h : owned A P m n t a = some v) (h' : owned A P m k t a = some w) :
    v = w := by
  have h1 := owned_mono (Nat.le_max_left n k) h
  have h2 := owned_mono (Nat.le_max_right n k) h'
  rw [h1] at h2; exact Option.some.inj h2

theorem Blocks.unique {t a : Nat} {xs ys : List Shape} (h : Blocks A P m t a xs) (h' : Blocks A P m t a ys) : xs = ys := by
  obtain ⟨n, as, h1, h2⟩ := h
  obtain ⟨n', as', h1', h2'⟩ := h'
  rw [h2, h2', owned_unique h1 h1']

/-! ### Slots -/

theorem ownEach_slot {r : TyId → Nat → Option (List Own)} (h : ∀ t a v, r t a = some v → ∀ x ∈ v, readWord A m x.slot = some x.ptr)
    (a : Nat) (fs : List Field) {vs : List Own} (hd : ownEach r a fs = some vs) : ∀ x ∈ vs, readWord A m x.slot = some x.ptr := by
  induction fs generalizing vs with
  | nil => simp only [ownEach, Option.some.injEq] at hd; subst hd; simp
  | cons f fs ih =>
    simp only [ownEach, Option.bind_eq_bind, Option.bind_eq_some_iff, Option.pure_def, Option.some.injEq] at hd
    obtain ⟨v, h1, ws, h2, rfl⟩ := hd
    intro x hx
    rcases List.mem_append.1 hx with hx | hx
    · exact h _ _ _ h1 x hx
    · exact ih h2 x hx

theorem header_ptr {o : Order} {a : Nat} {h : Header} (hh : readHeader A m o a = some h) :
    readWord A m (a + o.ptrIx * A.ptrBytes) = some h.ptr := by
  simp only [readHeader, Option.bind_eq_bind, Option.bind_eq_some_iff, Option.pure_def, Option.some.injEq] at hh
  obtain ⟨p, h1, c, _, l, _, rfl⟩ := hh
  exact h1

theorem ownVec_slot {r : TyId → Nat → Option (List Own)} (h : ∀ t a v, r t a = some v → ∀ x ∈ v, readWord A m x.slot = some x.ptr)
    {u : TyId} {a : Nat} {v : List Own} (hd : ownVec A P m r u a = some v) : ∀ x ∈ v, readWord A m x.slot = some x.ptr := by
  unfold ownVec at hd
  split at hd
  · simp only [Option.some.injEq] at hd; subst hd; simp
  · simp only [Option.bind_eq_bind, Option.bind_eq_some_iff, Option.pure_def] at hd
    obtain ⟨hh, h1, h2⟩ := hd
    split at h2
    · simp only [Option.some.injEq] at h2; subst h2; simp
    · simp only [Option.bind_eq_some_iff, Option.some.injEq] at h2
      obtain ⟨x, h3, rfl⟩ := h2
      intro y hy
      rcases List.mem_cons.1 hy with rfl | hy
      · exact header_ptr h1
      · exact ownEach_slot h _ _ h3 y hy

/-- Every slot holds the pointer to the allocation. -/
theorem owned_slot {n : Nat} {t a : Nat} {v : List Own} (h : owned A P m n t a = some v) :
    ∀ x ∈ v, readWord A m x.slot = some x.ptr := by
  induction n generalizing t a v with
  | zero => simp [owned] at h
  | succ n ih =>
    have ih' : ∀ t a v, owned A P m n t a = some v → ∀ x ∈ v, readWord A m x.slot = some x.ptr := fun t a v => ih
    rw [owned] at h
    cases hdef : P.defn t <;> simp only [hdef] at h
    case prim => simp only [Option.some.injEq] at h; subst h; simp
    case box u =>
      split at h
      · simp only [Option.some.injEq] at h; subst h; simp
      · simp only [Option.bind_eq_bind, Option.bind_eq_some_iff, Option.pure_def, Option.some.injEq] at h
        obtain ⟨p, h1, x, h2, rfl⟩ := h
        intro y hy
        rcases List.mem_cons.1 hy with rfl | hy
        · exact h1
        · exact ih h2 y hy
    case vec u => exact ownVec_slot ih' h
    case string =>
      simp only [Option.bind_eq_bind, Option.bind_eq_some_iff, Option.pure_def] at h
      obtain ⟨hh, h1, h2⟩ := h
      split at h2
      · simp only [Option.some.injEq] at h2; subst h2; simp
      · simp only [Option.some.injEq] at h2; subst h2
        simp only [List.mem_singleton, forall_eq]
        exact header_ptr h1
    case array u k => exact ownEach_slot ih' _ _ h
    case struct fs => exact ownEach_slot ih' _ _ h
    case enum tag vs =>
      simp only [Option.bind_eq_bind, Option.bind_eq_some_iff] at h
      obtain ⟨i, h1, fs, h2, h3⟩ := h
      exact ownEach_slot ih' _ _ h3
    case bigUint u => exact ownVec_slot ih' h
    case bigInt u => exact ih h

/-! ### Flags -/

theorem Header.Valid.weaken {L : Layout} {h : Header} (hc : fl'.canon = true → fl.canon = true) (ht : fl'.tight = true → fl.tight = true)
    (hv : h.Valid A fl L) : h.Valid A fl' L := by
  refine ⟨hv.1, hv.2.1, fun hz => ?_⟩
  obtain ⟨a, b, c, d, e⟩ := hv.2.2 hz
  exact ⟨a, b, c, fun h => d (hc h), fun h => e (ht h)⟩

theorem decode_weaken (hc : fl'.canon = true → fl.canon = true) (ht : fl'.tight = true → fl.tight = true) {n : Nat} {t a : Nat} {v : Val}
    (h : decode A P fl m n t a = some v) : decode A P fl' m n t a = some v := by
  induction n generalizing t a v with
  | zero => simp [decode] at h
  | succ n ih =>
    have ih' : ∀ t a v, decode A P fl m n t a = some v → decode A P fl' m n t a = some v := fun t a v => ih
    have vecw : ∀ {u a v}, decodeVec A P fl m (decode A P fl m n) u a = some v → decodeVec A P fl' m (decode A P fl' m n) u a = some v := by
      intro u a v hd
      simp only [decodeVec, Option.bind_eq_bind, Option.bind_eq_some_iff, Option.pure_def, Option.some.injEq,
        Option.ite_none_right_eq_some] at hd ⊢
      obtain ⟨hh, h1, h2, vs, h3, h4⟩ := hd
      exact ⟨hh, h1, h2.weaken hc ht, vs, decodeEach_mono ih' _ _ h3, h4⟩
    rw [decode] at h
    rw [decode]
    split at h
    · rename_i hg
      rw [if_pos hg]
      split at h <;> rename_i hdef <;>
        (try simp only [Option.bind_eq_bind, Option.bind_eq_some_iff, Option.pure_def, Option.some.injEq,
          Option.ite_none_right_eq_some] at h ⊢)
      · exact h
      · obtain ⟨p, h1, h2, v', h3, h4⟩ := h; exact ⟨p, h1, h2, v', ih h3, h4⟩
      · exact vecw h
      · simp only [decodeStr, Option.bind_eq_bind, Option.bind_eq_some_iff, Option.pure_def, Option.some.injEq,
          Option.ite_none_right_eq_some] at h ⊢
        obtain ⟨hh, h1, h2, bs, h3, h4⟩ := h
        exact ⟨hh, h1, h2.weaken hc ht, bs, h3, h4⟩
      · obtain ⟨vs, h1, h2⟩ := h; exact ⟨vs, decodeEach_mono ih' _ _ h1, h2⟩
      · obtain ⟨vs, h1, h2⟩ := h; exact ⟨vs, decodeEach_mono ih' _ _ h1, h2⟩
      · obtain ⟨i, h1, fs, h2, vs, h3, h4⟩ := h; exact ⟨i, h1, fs, h2, vs, decodeEach_mono ih' _ _ h3, h4⟩
      · exact vecw h
      · obtain ⟨s, h1, v', h2, h3⟩ := h; exact ⟨s, h1, v', ih h2, h3⟩
    · cases h

theorem Denotes.weaken (hc : fl'.canon = true → fl.canon = true) (ht : fl'.tight = true → fl.tight = true) {t a : Nat} {v : Val}
    (h : Denotes A P fl m t a v) : Denotes A P fl' m t a v := by
  obtain ⟨n, hn⟩ := h; exact ⟨n, decode_weaken hc ht hn⟩

end
end SerRaw
