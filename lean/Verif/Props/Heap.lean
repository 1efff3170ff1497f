import Verif.Props.Util
/-
How strict the model's undefined-behaviour detector is. "No undefined behaviour" (C05, C15, C33, C44, …) means that the
outcome is never `.ub`; the theorems here say, in terms of single bytes and without the model's own range test, exactly
when a memory primitive gives `.ub`, so that the claim cannot become true by the detector being too lenient.
-/
namespace SerRaw

/-- The `n` bytes from address `a` all belong to one live block. -/
def Owned (w : World) (a n : Nat) : Prop := ∃ b ∈ w.live, ∀ i, i < n → b.addr ≤ a + i ∧ a + i < b.addr + b.size

theorem contains_iff (b : Block) {a n : Nat} (hn : 0 < n) :
    b.contains a n = true ↔ ∀ i, i < n → b.addr ≤ a + i ∧ a + i < b.addr + b.size := by
  unfold Block.contains
  simp only [Bool.and_eq_true, decide_eq_true_eq]
  constructor
  · intro h i hi; omega
  · intro h
    have h0 := h 0 hn
    have h1 := h (n - 1) (by omega)
    omega

theorem any_contains_iff (w : World) {a n : Nat} (hn : 0 < n) : w.live.any (·.contains a n) = true ↔ Owned w a n := by
  simp only [List.any_eq_true, Owned, contains_iff _ hn]

theorem Out.ok_ne_ub {a : α} {s : σ} : (Out.ok a s) ≠ .ub := by intro h; cases h

/-- A raw write of `n` bytes is undefined behaviour exactly if the pointer is null or misaligned (whatever `n`), or some
byte of the target is not in the (one) live block holding the others. -/
theorem write_ub_iff (a align n : Nat) (src : Nat → Cell) (s : Sto) :
    memWrite a align n src s = .ub ↔ a = 0 ∨ ¬ align ∣ a ∨ (0 < n ∧ ¬ Owned s.w a n) := by
  unfold memWrite
  rw [Nat.dvd_iff_mod_eq_zero]
  by_cases h0 : a = 0 ∨ a % align ≠ 0
  · rw [if_pos h0]; exact ⟨fun _ => by tauto, fun _ => rfl⟩
  · rw [if_neg h0]
    by_cases hn : n = 0
    · rw [if_pos hn]
      exact ⟨fun h => absurd h Out.ok_ne_ub, fun h => by exfalso; rcases h with h | h | ⟨h, _⟩ <;> [tauto; tauto; omega]⟩
    · rw [if_neg hn]
      have hw := any_contains_iff s.w (a := a) (n := n) (by omega)
      by_cases hc : s.w.live.any (·.contains a n) = true
      · rw [if_pos hc]
        exact ⟨fun h => absurd h Out.ok_ne_ub, fun h => by exfalso; tauto⟩
      · rw [if_neg hc]
        exact ⟨fun _ => .inr (.inr ⟨by omega, fun h => hc (hw.2 h)⟩), fun _ => rfl⟩

/-- A read or a reference to `n` bytes: the same rule. -/
theorem ref_ub_iff (a align n : Nat) (s : Sto) :
    memRef a align n s = .ub ↔ a = 0 ∨ ¬ align ∣ a ∨ (0 < n ∧ ¬ Owned s.w a n) := by
  unfold memRef
  rw [Nat.dvd_iff_mod_eq_zero]
  by_cases h0 : a = 0 ∨ a % align ≠ 0
  · rw [if_pos h0]; exact ⟨fun _ => by tauto, fun _ => rfl⟩
  · rw [if_neg h0]
    by_cases hn : n = 0
    · rw [if_pos hn]
      exact ⟨fun h => absurd h Out.ok_ne_ub, fun h => by exfalso; rcases h with h | h | ⟨h, _⟩ <;> [tauto; tauto; omega]⟩
    · rw [if_neg hn]
      have hw := any_contains_iff s.w (a := a) (n := n) (by omega)
      by_cases hc : s.w.live.any (·.contains a n) = true
      · rw [if_pos hc]
        exact ⟨fun h => absurd h Out.ok_ne_ub, fun h => by exfalso; tauto⟩
      · rw [if_neg hc]
        exact ⟨fun _ => .inr (.inr ⟨by omega, fun h => hc (hw.2 h)⟩), fun _ => rfl⟩

/-- `ptr.add(off)` is undefined behaviour exactly if it would pass over a byte that is not in the block. -/
theorem ptrAdd_ub_iff (p off : Nat) (s : Sto) : ptrAdd p off s = .ub ↔ 0 < off ∧ ¬ Owned s.w p off := by
  unfold ptrAdd
  by_cases hn : off = 0
  · rw [if_pos hn]; exact ⟨fun h => absurd h Out.ok_ne_ub, fun h => by omega⟩
  · rw [if_neg hn]
    have hw := any_contains_iff s.w (a := p) (n := off) (by omega)
    by_cases hc : s.w.live.any (·.contains p off) = true
    · rw [if_pos hc]; exact ⟨fun h => absurd h Out.ok_ne_ub, fun h => absurd (hw.1 hc) h.2⟩
    · rw [if_neg hc]; exact ⟨fun _ => ⟨by omega, fun h => hc (hw.2 h)⟩, fun _ => rfl⟩

/-- `alloc` is undefined behaviour exactly for a zero size or a layout Rust does not allow. -/
theorem alloc_ub_iff (C : Cfg) (size : Nat) {align : Nat} (ha : Pow2 align) (s : Sto) :
    heapAlloc C ⟨size, align⟩ s = .ub ↔ size = 0 ∨ ¬ Allocatable C.arch size align := by
  unfold heapAlloc
  have hv := layoutValid_iff C.arch (size := size) ha
  by_cases h : size = 0 ∨ layoutValid C.arch ⟨size, align⟩ = false
  · rw [if_pos h]
    refine ⟨fun _ => ?_, fun _ => rfl⟩
    rcases h with h | h
    · exact .inl h
    · exact .inr fun hn => by rw [hv.2 hn] at h; cases h
  · rw [if_neg h]
    refine ⟨fun h' => ?_, fun h' => ?_⟩
    · simp only at h'
      split at h' <;> cases h'
    · exfalso
      rcases h' with h' | h'
      · exact h (.inl h')
      · refine h (.inr ?_)
        cases hb : layoutValid C.arch ⟨size, align⟩ with
        | false => rfl
        | true => exact absurd (hv.1 hb) h'

/-- There is a live block that was allocated at `p` with this size and alignment. -/
def Allocated (w : World) (p : Nat) (L : Layout) : Prop := ∃ b ∈ w.live, b.addr = p ∧ b.size = L.size ∧ b.align = L.align

theorem find_matches_none (w : World) (p : Nat) (L : Layout) :
    w.live.find? (·.matches p L) = none ↔ ¬ Allocated w p L := by
  rw [List.find?_eq_none]
  unfold Allocated
  simp only [Block.matches, Bool.and_eq_true, beq_iff_eq, not_exists, not_and]
  constructor
  · intro h b hb h1 h2 h3; exact h b hb ⟨h1, h2⟩ h3
  · intro h b hb h1 h3; exact h b hb h1.1 h1.2 h3

/-- `dealloc` is undefined behaviour exactly if no live block has that address and layout. -/
theorem dealloc_ub_iff (p : Nat) (L : Layout) (s : Sto) : heapDealloc p L s = .ub ↔ ¬ Allocated s.w p L := by
  rw [← find_matches_none]
  unfold heapDealloc
  cases h : s.w.live.find? (·.matches p L) with
  | none => simp
  | some b => simp

/-- `realloc` is undefined behaviour exactly if no live block has that address and layout, the new size is zero, or Rust
does not allow the new layout. -/
theorem realloc_ub_iff (C : Cfg) (p size newSize : Nat) {align : Nat} (ha : Pow2 align) (s : Sto) :
    heapRealloc C p ⟨size, align⟩ newSize s = .ub ↔
      newSize = 0 ∨ ¬ Allocatable C.arch newSize align ∨ ¬ Allocated s.w p ⟨size, align⟩ := by
  rw [← find_matches_none]
  unfold heapRealloc
  have hv := layoutValid_iff C.arch (size := newSize) ha
  by_cases h : newSize = 0 ∨ layoutValid C.arch ⟨newSize, align⟩ = false
  · rw [if_pos h]
    refine ⟨fun _ => ?_, fun _ => rfl⟩
    rcases h with h | h
    · exact .inl h
    · exact .inr (.inl fun hn => by rw [hv.2 hn] at h; cases h)
  · rw [if_neg h]
    have hA : Allocatable C.arch newSize align := by
      refine hv.1 ?_
      cases hb : layoutValid C.arch ⟨newSize, align⟩ with
      | true => rfl
      | false => exact absurd (.inr hb) h
    have h0 : newSize ≠ 0 := fun e => h (.inl e)
    cases hf : s.w.live.find? (·.matches p ⟨size, align⟩) with
    | none => exact ⟨fun _ => .inr (.inr rfl), fun _ => rfl⟩
    | some b =>
      refine ⟨fun h' => ?_, fun h' => ?_⟩
      · simp only at h'
        split at h' <;> cases h'
      · exfalso
        rcases h' with h' | h' | h'
        · exact h0 h'
        · exact h' hA
        · cases h'

/-! A case for each side: an 8-byte block at 16. -/

def heapEx : Sto := ⟨⟨16, 8, 0⟩, ⟨[⟨16, 8, 8, fun _ => none⟩], 1⟩⟩

example : Owned heapEx.w 20 4 ∧ ¬ Owned heapEx.w 20 5 := by
  refine ⟨⟨_, List.mem_singleton.2 rfl, fun i hi => ⟨by show 16 ≤ 20 + i; omega, by show 20 + i < 16 + 8; omega⟩⟩, ?_⟩
  rintro ⟨b, hb, h⟩
  rw [show b = _ from List.mem_singleton.1 hb] at h
  exact absurd (h 4 (by omega)).2 (by decide)

example : memWrite 20 4 5 (fun _ => none) heapEx = .ub ∧ memWrite 18 4 0 (fun _ => none) heapEx = .ub ∧
    heapDealloc 16 ⟨8, 4⟩ heapEx = .ub := ⟨rfl, rfl, rfl⟩

end SerRaw
