import Verif.Props.StorageEx
import Verif.Props.Heap
import Verif.Props.Util
/-
C01–C19 applied to concrete data: every hypothesis is met by the history of Props/StorageEx.lean (four allocator calls, a caught
panic) or by the values given.
-/
namespace SerRaw

/-- The history and the final state of Props/StorageEx.lean. -/
def exH : List SEvent × Sto := (runOps cfg64 exOps [] Sto.new).get (by decide)

theorem exH_hist : Hist cfg64 exH.1 exH.2 := runOps_hist .new (by decide) (Option.some_get _).symm

/-- Its state: 48 bytes used of 48, at the fourth address, four allocator calls. -/
theorem exH_state : exH.2.vec.pos = 48 ∧ exH.2.vec.capacity = 48 ∧ exH.2.vec.ptr = 4 * 2 ^ 20 ∧ exH.2.w.calls = 4 := by
  refine ⟨?_, ?_, ?_, ?_⟩ <;> decide

/-- A legal push on it: three `u32`s. -/
def exPush : SOp := .pushSlice ⟨4, 4⟩ 3 fun i => some (UInt8.ofNat (i + 7))

theorem exPush_legal : exPush.Legal cfg64 exH.2 := SOp.legal_of_legalB (by decide)

/-- The state after it. -/
def exH' : Option (Nat × Sto) :=
  match exPush.run cfg64 exH.2 with
  | .ok p s => some (p, s)
  | _ => none

-- C01, C02, C03
example : ∃ r, alignUpTo x64 1000001 16 () = .ok r () ∧ 16 ∣ r ∧ 1000001 ≤ r ∧ ∀ m, 16 ∣ m → 1000001 ≤ m → r ≤ m :=
  C01_align_up_to x64 ⟨4, rfl⟩ (by decide) ()
example : alignUpTo x64 (2 ^ 64 - 16) 16 () = .panic .arith () := C01_overflow_debug x64 rfl ⟨4, rfl⟩ (by decide) ()
example : ∃ b, isAlignedTo be32 1000 16 () = .ok b () ∧ (b = true ↔ 16 ∣ 1000) := C02_is_aligned_to be32 ⟨4, rfl⟩ ()
example : ∃ r, alignedMaxCapacity x64 4096 () = .ok r () ∧ 4096 ∣ r ∧ ∀ size, Allocatable x64 size 4096 ↔ size ≤ r :=
  C03_aligned_max_capacity x64 ⟨⟨12, rfl⟩, by decide⟩ ()
example : alignedMaxCapacity x64 24 () = .panic .assertion () :=
  C03_illegal x64 (fun h => absurd (isPow2_iff.2 h.1) (by decide)) ()

-- C04
example : ∃ m, alignedMaxU32Capacity be32 16 () = .ok m () ∧ m ≤ 2 ^ 32 ∧
    ∀ C : Cfg, C.arch = be32 → C.storageAlign = 16 → C.maxCapacity = m → Pow2 C.maxValueAlign → Pow2 C.valueAlign →
      C.valueAlign ≤ C.maxValueAlign → C.maxValueAlign ≤ 16 → C.assertAlignmentsValid = true :=
  C04_u32_capacity ⟨Or.inl rfl⟩ ⟨⟨4, rfl⟩, by decide, by decide⟩ ()
example : alignedMaxU32Capacity x64 0 () = .panic .assertion () :=
  C04_u32_illegal x64 (fun h => absurd h.1.pos (by decide)) ()
example : ∀ r ∈ stored exH.1, 0 < r.size → r.pos < 2 ^ 32 :=
  fun _ hr hs => C04_positions_u32 cfg64_ok (by decide) exH_hist hr hs

-- C05: one more push on the history
example : (∃ p s', exPush.run cfg64 exH.2 = .ok p s' ∧ Hist cfg64 (exH.1 ++ [⟨exPush, some p⟩]) s') ∨
    (∃ k s', exPush.run cfg64 exH.2 = .panic k s' ∧ Hist cfg64 (exH.1 ++ [⟨exPush, none⟩]) s' ∧
      (k = .capacity ∨ ∃ L n, exPush = .pushEmptySlice L n)) ∨
    (exPush.run cfg64 exH.2 = .abort ∧ ¬ cfg64.NeverFails) := C05_no_ub cfg64_ok exH_hist exPush_legal

-- C06
example : exH.2.vec.ptr ≠ 0 ∧ 16 ∣ exH.2.vec.ptr ∧ exH.2.vec.ptr + exH.2.vec.capacity < x64.usizeMod :=
  C06_base_aligned cfg64_ok exH_hist (by decide)
example (p : Nat) : 8 ∣ exH.2.vec.ptr + p ↔ 8 ∣ p :=
  C06_position_is_address cfg64_ok exH_hist (by decide) (L := ⟨24, 8⟩) ⟨⟨3, rfl⟩, by decide⟩ (by decide) p

-- C07: the push returns 48
example : ∃ s', exPush.run cfg64 exH.2 = .ok 48 s' := ⟨_, rfl⟩
example {p : Nat} {s' : Sto} (hr : Sto.pushSlice cfg64 ⟨4, 4⟩ 3 (fun i => some (UInt8.ofNat (i + 7))) exH.2 = .ok p s') :
    4 ∣ p ∧ 8 ∣ p ∧ exH.2.vec.pos ≤ p ∧ ∀ q, 4 ∣ q → 8 ∣ q → exH.2.vec.pos ≤ q → p ≤ q :=
  C07_position cfg64_ok exH_hist exPush_legal (by decide) hr

-- C08, C18: the bytes of the two slices still stored
example : ∀ r ∈ stored exH.1, ∀ i < r.size, exH.2.w.load (exH.2.vec.ptr + (r.pos + i)) = r.data i :=
  fun _ hr _ hi => C08_contents cfg64_ok exH_hist hr hi
example : (stored exH.1).length = 2 ∧ (stored exH.1).Pairwise (fun a b => a.pos + a.size ≤ b.pos) ∧
    ∀ r ∈ stored exH.1, r.pos + r.size ≤ exH.2.vec.pos := ⟨by decide, C18_disjoint cfg64_ok exH_hist⟩

-- C09: both cases
example : Sto.reserve cfg64 (2 ^ 30) exH.2 = .panic .capacity exH.2 := (C09_reserve cfg64_ok exH_hist (2 ^ 30)).1 (by decide)
example : ∃ s', Sto.reserve cfg64 100 exH.2 = .ok () s' ∧ 148 ≤ s'.vec.capacity ∧ s'.vec.pos = 48 ∧
    ∀ i < 48, s'.w.load (s'.vec.ptr + i) = exH.2.w.load (exH.2.vec.ptr + i) := by
  rcases (C09_reserve cfg64_ok exH_hist 100).2 (by decide) with ⟨s', h1, h2, _, h3, h4, _⟩ | ⟨_, h⟩
  · exact ⟨s', h1, h2, h3, h4⟩
  · exact absurd cfg64_never h

-- C10: both cases
example : ∃ s', Sto.pushSlice cfg64 ⟨4, 4⟩ 3 (fun i => some (UInt8.ofNat (i + 7))) exH.2 = .ok 48 s' ∧
    ∀ i < 12, s'.w.load (s'.vec.ptr + (48 + i)) = some (UInt8.ofNat (i + 7)) := by
  rcases (C10_push cfg64_ok exH_hist exPush_legal (by decide) (q := 48) ⟨by decide, by decide, fun m _ h => h⟩).2 (by decide) with
    ⟨s', h1, _, _, _, h2, _⟩ | ⟨_, h⟩
  · exact ⟨s', h1, h2⟩
  · exact absurd cfg64_never h
example : Sto.pushSlice cfg64 ⟨8, 8⟩ (2 ^ 27) (fun _ => none) exH.2 = .panic .capacity exH.2 :=
  (C10_push cfg64_ok exH_hist (L := ⟨8, 8⟩) (SOp.legal_of_legalB (by decide)) (by decide) (q := 48) ⟨by decide, by decide, fun m _ h => h⟩).1 (by decide)

-- C11
example : ∃ s, Sto.withCapacity cfg32 997 Sto.new = .ok () s ∧ s.vec.pos = 0 ∧ 997 ≤ s.vec.capacity ∧ 8 ∣ s.vec.capacity := by
  rcases (C11_with_capacity cfg32_ok 997).2 (by decide) with ⟨s, h1, h2, h3, _, h4, _⟩ | ⟨h, _⟩
  · exact ⟨s, h1, h2, h3, h4⟩
  · cases h

-- C12
example : exPush ≠ .shrinkToFit ∧ ∀ p s', exPush.run cfg64 exH.2 = .ok p s' →
    (s'.vec.capacity = exH.2.vec.capacity ∧ s'.w.calls = exH.2.w.calls) ∨
    (exH.2.vec.capacity < s'.vec.capacity ∧ s'.w.calls = exH.2.w.calls + 1 ∧ 16 ≤ s'.vec.capacity ∧
      (Pow2 s'.vec.capacity ∨ s'.vec.capacity = 2 ^ 30)) :=
  ⟨by simp [exPush], fun _ _ h => C12_growth_shape cfg64_ok exH_hist exPush_legal (by simp [exPush]) (Or.inl ⟨_, h⟩)⟩

-- C13
example : ∃ s', Sto.shrinkToFit cfg64 exH.2 = .ok () s' ∧ s'.vec.pos = 48 ∧ 16 ∣ s'.vec.capacity := by
  rcases C13_shrink cfg64_ok exH_hist with ⟨s', h1, h2, _, _, h3, _⟩ | ⟨_, h⟩
  · exact ⟨s', h1, h2, h3⟩
  · exact absurd cfg64_never h

-- C14, C15, C16
example : Sto.clear cfg64 exH.2 = .ok () { exH.2 with vec := { exH.2.vec with pos := 0 } } := C14_clear cfg64_ok exH.2
example : ∃ data, exH.2.w.live = [⟨4 * 2 ^ 20, 48, 16, data⟩] := by
  rcases C15_owned cfg64_ok exH_hist with ⟨h, _⟩ | ⟨_, d, h⟩
  · exact absurd h (by decide)
  · exact ⟨d, h⟩
example : ∃ s', Sto.drop cfg64 exH.2 = .ok () s' ∧ s'.w.live = [] := C15_drop cfg64_ok exH_hist
example : ∀ k s, Sto.withCapacity cfg32 1001 Sto.new = .panic k s → s.w.live = [] := fun _ _ h => C15_with_capacity_panic cfg32_ok h
example : ∃ k s, Sto.withCapacity cfg32 1001 Sto.new = .panic k s := ⟨_, _, rfl⟩
example : Sto.pushSlice cfg64 ⟨0, 4⟩ 5 (fun _ => none) exH.2 = .ok 0 exH.2 := C16_zst exH.2 rfl 5 _

-- C17
example : ∃ s', Sto.pushEmptySlice cfg64 ⟨8, 8⟩ 3 exH.2 = .ok 48 s' ∧ 72 ≤ s'.vec.pos ∧ s'.vec.pos ≤ s'.vec.capacity := by
  rcases (C17_push_empty cfg64_ok exH_hist (L := ⟨8, 8⟩) (len := 3) ⟨⟨⟨3, rfl⟩, by decide⟩, by decide, by decide⟩ (by decide) (fun _ => by decide)
    (q := 48) ⟨by decide, by decide, fun m _ h => h⟩).2 (by decide) with ⟨s', h1, h2, _, h3, _⟩ | ⟨_, h⟩
  · exact ⟨s', h1, h2, h3⟩
  · exact absurd cfg64_never h

-- C19
example : ∃ s' v, Sto.write cfg64 16 ⟨8, 8⟩ (wordCells x64 5) exH.2 = .ok () s' ∧ Sto.read cfg64 16 ⟨8, 8⟩ s' = .ok v s' ∧
    ∀ i < 8, v i = wordCells x64 5 i :=
  C19_write_read cfg64_ok exH_hist (SOp.legal_of_legalB (by decide)) (by decide) (by decide)
example : ∃ v, Sto.read cfg64 16 ⟨32, 16⟩ exH.2 = .ok v exH.2 ∧ ∀ i < 32, v i = exH.2.w.load (exH.2.vec.ptr + (16 + i)) :=
  C19_read cfg64_ok exH_hist ⟨⟨4, rfl⟩, by decide⟩ (by decide) (by decide) (by decide) (Or.inl (by decide))

-- the contracts of the memory primitives (C15, C33), both ways
example : memWrite 0 8 4 (fun _ => none) exH.2 = .ub := (write_ub_iff 0 8 4 _ _).2 (Or.inl rfl)
example : memRef (4 * 2 ^ 20) 16 48 exH.2 ≠ .ub := by
  rw [Ne, ref_ub_iff]
  rintro (h | h | ⟨_, h⟩)
  · exact absurd h (by decide)
  · exact absurd h (by decide)
  · rcases C15_owned cfg64_ok exH_hist with ⟨h', _⟩ | ⟨_, d, h'⟩
    · exact absurd h' (by decide)
    · refine h ⟨_, by rw [h']; exact List.mem_cons_self, fun i hi => ?_⟩
      have e1 : exH.2.vec.ptr = 4 * 2 ^ 20 := by decide
      have e2 : exH.2.vec.capacity = 48 := by decide
      simp only [e1, e2]; omega

end SerRaw
