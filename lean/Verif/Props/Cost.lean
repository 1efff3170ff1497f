import Verif.Props.Storage2
import Verif.Props.Caught
import Verif.Props.AgreeEx
/-
C12 (exact growth) and C53: what a session costs in memory and in allocator calls.
-/
namespace SerRaw

/-- `q` is the least power of two at or above `n`. -/
def LeastPow2 (n q : Nat) : Prop := Pow2 q ∧ n ≤ q ∧ ∀ q', Pow2 q' → n ≤ q' → q ≤ q'

section
variable {C : Cfg} {P : Prog}

theorem leastPow2_next (n : Nat) : LeastPow2 n (nextPow2 n) := ⟨nextPow2_pow2 n, le_nextPow2 n, fun _ h1 h2 => nextPow2_le h1 h2⟩

theorem reserve_exact_of_inv (hC : C.OK) {s s' : Sto} (hI : s.Inv C) {n : Nat} (hg : s.vec.capacity < s.vec.pos + n)
    (hr : Sto.reserve C n s = .ok () s') :
    s'.w.calls = s.w.calls + 1 ∧
    ∃ q, LeastPow2 (s.vec.pos + n) q ∧ s'.vec.capacity = min C.maxCapacity (max q C.maxValueAlign) := by
  have hs := reserve_sat hC hI.toWInv n
  rw [hr] at hs
  replace hs : ReserveSpec C s n s' := hs
  cases hs with
  | same _ hh => omega
  | grown _ g => exact ⟨g.calls, _, leastPow2_next _, g.exact⟩

/-- C12, exact. When `reserve(n)` has to grow, the new capacity is the least power of two that has room (at least
`MAX_VALUE_ALIGNMENT`), or `MAX_CAPACITY` if that is less; with exactly one call of the allocator. -/
theorem C12_reserve_exact (hC : C.OK) {es : List SEvent} {s s' : Sto} (h : Hist C es s) {n : Nat} (hg : s.vec.capacity < s.vec.pos + n)
    (hr : Sto.reserve C n s = .ok () s') :
    s'.w.calls = s.w.calls + 1 ∧
    ∃ q, LeastPow2 (s.vec.pos + n) q ∧ s'.vec.capacity = min C.maxCapacity (max q C.maxValueAlign) :=
  reserve_exact_of_inv hC (h.inv hC) hg hr

theorem push_exact_of_inv (hC : C.OK) {s s' : Sto} (hI : s.Inv C) {L : Layout} {len p : Nat} {data : Nat → Cell}
    (hl : SOp.Legal C s (.pushSlice L len data)) (hz : L.size ≠ 0) (hg : s.vec.capacity < roundUp s.vec.pos L.align + L.size * len)
    (hr : Sto.pushSlice C L len data s = .ok p s') :
    s'.w.calls = s.w.calls + 1 ∧
    ∃ q, LeastPow2 (roundUp s.vec.pos L.align + L.size * len) q ∧ s'.vec.capacity = min C.maxCapacity (max q C.maxValueAlign) := by
  obtain ⟨hL, hacc, hsz, hlen⟩ := hl
  have hs := pushSlice_sat hC hI data hz hL.pow2 (accepts_iff.1 (hacc hz)) (hlen.resolve_left hz) hsz
  rw [hr] at hs
  replace hs : PushSpec C s L len data p s' := hs
  obtain ⟨g1, g2⟩ := hs.grow (by rw [hs.pos_eq]; exact hg)
  rw [hs.pos_eq] at g2
  exact ⟨g1, _, leastPow2_next _, g2⟩

/-- C12, exact, for pushes: the room needed is the slice at its aligned position. -/
theorem C12_push_exact (hC : C.OK) {es : List SEvent} {s s' : Sto} (h : Hist C es s) {L : Layout} {len p : Nat} {data : Nat → Cell}
    (hl : SOp.Legal C s (.pushSlice L len data)) (hz : L.size ≠ 0) (hg : s.vec.capacity < roundUp s.vec.pos L.align + L.size * len)
    (hr : Sto.pushSlice C L len data s = .ok p s') :
    s'.w.calls = s.w.calls + 1 ∧
    ∃ q, LeastPow2 (roundUp s.vec.pos L.align + L.size * len) q ∧ s'.vec.capacity = min C.maxCapacity (max q C.maxValueAlign) :=
  push_exact_of_inv hC (h.inv hC) hl hz hg hr

theorem growCost_bounds (a : Nat) : (a = 0 ∨ Nat.log2 a + 1 ≤ growCost C a) ∧ growCost C a ≤ Nat.log2 a + 2 := by
  unfold growCost
  by_cases h : a = 0
  · simp [h]
  · rw [if_neg h]; split <;> omega

theorem Stays.cost {s s' : Sto} (h : Stays C s s') :
    (s'.vec.capacity ≤ s.vec.capacity ∨ s'.vec.capacity ≤ C.maxValueAlign ∨ s'.vec.capacity < 2 * s'.vec.pos) ∧
    s'.w.calls ≤ s.w.calls + (Nat.log2 s'.vec.capacity + 2) ∧
    (0 < s.vec.capacity → s'.w.calls + Nat.log2 s.vec.capacity ≤ s.w.calls + Nat.log2 s'.vec.capacity + 1) := by
  have h1 := growCost_bounds (C := C) s.vec.capacity
  have h2 := growCost_bounds (C := C) s'.vec.capacity
  have h3 := h.calls
  exact ⟨h.small, by omega, fun h0 => by omega⟩

/-- C53. After a session (whether it returned or panicked) the capacity is what it was, or at most `MAX_VALUE_ALIGNMENT`, or less than
twice the output. The number of allocator calls is at most logarithmic in the final capacity: `log2(capacity()) + 2`, and if the
storage had memory before, `log2(new capacity) - log2(old capacity) + 1`. -/
theorem C53_cost (hC : C.OK) (hP : P.WF C.arch) (hacc : P.Accepted C) {t0 : Sto} (h0 : Reach C P t0) {k : Kind}
    {rs : List Root} (hv : ∀ r ∈ rs, Valid C.arch P r) {fuel : Nat} {s' : Ser}
    (hrun : (∃ ps, session C k P fuel rs (Ser.fromStorage t0) = .ok ps s') ∨
      ∃ pk, session C k P fuel rs (Ser.fromStorage t0) = .panic pk s') :
    (s'.sto.vec.capacity ≤ t0.vec.capacity ∨ s'.sto.vec.capacity ≤ C.maxValueAlign ∨ s'.sto.vec.capacity < 2 * s'.sto.vec.pos) ∧
    s'.sto.w.calls ≤ t0.w.calls + (Nat.log2 s'.sto.vec.capacity + 2) ∧
    (0 < t0.vec.capacity → s'.sto.w.calls + Nat.log2 t0.vec.capacity ≤ t0.w.calls + Nat.log2 s'.sto.vec.capacity + 1) := by
  obtain ⟨xs, rfl, hx⟩ := valid_inputs hv
  have hI := h0.inv hC hP hacc
  rcases hrun with ⟨ps, hr⟩ | ⟨pk, hr⟩
  · obtain ⟨n, js, _, _, hp⟩ := session_post hC hP hacc hI hx hr
    exact hp.stay.cost
  · obtain ⟨n, js, _, _, hp⟩ := session_out hC hP hacc hI hx (by rw [hr]; simp)
    rw [hr] at hp
    obtain ⟨_, m', _, hk⟩ := hp
    exact (hk 0).stay.cost

/-- C53 for a session that goes on after caught panics. -/
theorem C53_caught_cost (hC : C.OK) (hP : P.WF C.arch) (hacc : P.Accepted C) {t0 : Sto} (h0 : Reach C P t0) {k : Kind}
    {rs : List Root} (hv : ∀ r ∈ rs, Valid C.arch P r) {fuel : Nat} {ps : List (Option Nat)} {s' : Ser}
    (hrun : sessionCaught C k P fuel rs (Ser.fromStorage t0) = .ok ps s') :
    (s'.sto.vec.capacity ≤ t0.vec.capacity ∨ s'.sto.vec.capacity ≤ C.maxValueAlign ∨ s'.sto.vec.capacity < 2 * s'.sto.vec.pos) ∧
    s'.sto.w.calls ≤ t0.w.calls + (Nat.log2 s'.sto.vec.capacity + 2) ∧
    (0 < t0.vec.capacity → s'.sto.w.calls + Nat.log2 t0.vec.capacity ≤ t0.w.calls + Nat.log2 s'.sto.vec.capacity + 1) := by
  obtain ⟨xs, rfl, hx⟩ := valid_inputs hv
  obtain ⟨n, js, _, _, hp⟩ := sessionCaught_out hC hP hacc (h0.inv hC hP hacc) hx (by rw [hrun]; simp)
  rw [hrun] at hp
  obtain ⟨m', hp⟩ := hp
  exact hp.stay.cost

end

/-! ### Concrete cases -/

/-- Growing from empty for 1 byte gives `MAX_VALUE_ALIGNMENT`; for 100 bytes, 128. -/
example : ∃ s s', Sto.reserve cfg64 1 Sto.new = .ok () s ∧ s.vec.capacity = 16 ∧ Sto.reserve cfg64 100 s = .ok () s' ∧ s'.vec.capacity = 128 :=
  ⟨_, _, rfl, rfl, rfl, rfl⟩

/-- The last growth step of a storage with `MAX_CAPACITY` 1000 (not a power of two). -/
example : ∃ s q, Sto.reserve cfg32 600 Sto.new = .ok () s ∧ LeastPow2 600 q ∧ s.vec.capacity = min 1000 (max q 8) := by
  rcases (C09_reserve cfg32_ok .new 600).2 (by decide) with ⟨s, hr, _⟩ | ⟨_, hf⟩
  · obtain ⟨_, q, h1, h2⟩ := C12_reserve_exact cfg32_ok .new (by decide) hr
    exact ⟨s, q, hr, h1, h2⟩
  · exact absurd cfg32_never hf

/-- C53 applies to the example session, which grows from empty to 200 bytes of output. -/
example : ∃ s', session cfg64 .complete exP 6 (exRoots.map Prod.fst) (Ser.fromStorage Sto.new) = .ok [0, 0, 136, 184] s' ∧
    s'.sto.vec.capacity < 2 * s'.sto.vec.pos := by
  obtain ⟨s', r, hp, hptr⟩ := exRun_new .complete
  have h := (C53_cost cfg64_ok exP_wf exP_accepted .new (k := .complete) (s' := s')
    (by intro r hr; obtain ⟨x, hx, rfl⟩ := List.mem_map.1 hr; exact ⟨_, _, exInputs x hx⟩) (Or.inl ⟨_, r⟩)).1
  have hle : s'.sto.vec.pos ≤ s'.sto.vec.capacity :=
    (Reach.inv cfg64_ok exP_wf exP_accepted (.session .new (by intro r hr; obtain ⟨x, hx, rfl⟩ := List.mem_map.1 hr; exact ⟨_, _, exInputs x hx⟩) r)).pos_le
  have h0 : Sto.new.vec.capacity = 0 := rfl
  have hm : cfg64.maxValueAlign = 16 := rfl
  exact ⟨s', r, by omega⟩

end SerRaw
