import Verif.Lemmas.Books
import Verif.Props.Mixed
import Verif.Props.Cost
import Verif.Props.Durable
/-
C72: what a serializer keeps besides its storage is bounded. Only a `CompleteSerializer` keeps anything: the record of the pointers it wrote
(`Complete::ptrs`, ser_raw/src/serializer_traits/complete.rs:17-20), grouped by the address the buffer had. Its size is bounded by the output's,
and the number of groups by the number of times the buffer was reallocated.
-/
namespace SerRaw

/-- The number of pointer positions recorded. -/
def Ptrs.recorded (p : Ptrs) : Nat := p.current.positions.length + (p.past.map fun g => g.positions.length).sum

section
variable {C : Cfg} {k : Kind} {P : Prog} {t : Sto} {es : List Ev} {s : Ser}

theorem Ptrs.recorded_entries (p : Ptrs) : p.recorded = p.entries.length := by
  unfold Ptrs.recorded Ptrs.entries
  have h : ∀ gs : List PtrGroup, (gs.flatMap fun g => g.positions.map fun x => (g.addr, x)).length = (gs.map fun g => g.positions.length).sum := by
    intro gs
    induction gs with
    | nil => rfl
    | cons g gs ih => simp only [List.flatMap_cons, List.length_append, List.length_map, ih, List.map_cons, List.sum_cons]
  rw [List.flatMap_append, List.length_append, h, h]
  simp only [List.map_cons, List.map_nil, List.sum_cons, List.sum_nil]
  omega

/-- Distinct numbers below `n`. -/
theorem nodup_bound (n : Nat) : ∀ {l : List Nat}, l.Nodup → (∀ x ∈ l, x < n) → l.length ≤ n := by
  induction n with
  | zero =>
    intro l _ h
    cases l with
    | nil => exact Nat.le_refl _
    | cons x xs => exact absurd (h x (by simp)) (by omega)
  | succ n ih =>
    intro l hn h
    by_cases hm : n ∈ l
    · have h1 := ih (hn.erase n) (fun x hx => by
        have h2 := h x (List.mem_of_mem_erase hx)
        have h3 : x ≠ n := fun he => by
          rw [he] at hx
          exact (List.Nodup.mem_erase_iff hn).1 hx |>.1 rfl
        omega)
      rw [List.length_erase_of_mem hm] at h1
      omega
    · have := ih hn (fun x hx => by
        have h2 := h x hx
        have h3 : x ≠ n := fun he => hm (he ▸ hx)
        omega)
      omega

/-- Distinct aligned words between `lo` and `hi`. -/
theorem words_bound {W lo hi : Nat} (hW : 0 < W) {l : List Nat} (hn : l.Nodup) (h : ∀ x ∈ l, W ∣ x ∧ lo ≤ x ∧ x + W ≤ hi) (hle : lo ≤ hi) :
    l.length * W ≤ hi - lo := by
  have key := nodup_bound ((hi - lo) / W) (l := l.map fun x => (x - lo) / W) ?_ ?_
  · rw [List.length_map] at key
    exact (Nat.le_div_iff_mul_le hW).1 key
  · refine List.Pairwise.map _ ?_ ((List.pairwise_iff_forall_sublist.2 fun {a b} hs => ?_) : l.Pairwise fun a b => (a - lo) / W ≠ (b - lo) / W)
    · exact fun a b hab => hab
    · have ha := h a (hs.subset (by simp)); have hb := h b (hs.subset (by simp))
      have hne : a ≠ b := List.pairwise_iff_forall_sublist.1 hn hs
      obtain ⟨⟨x, rfl⟩, ha1, _⟩ := ha
      obtain ⟨⟨y, rfl⟩, hb1, _⟩ := hb
      intro he
      have hxy : x ≠ y := fun h => hne (by rw [h])
      have e1 := Nat.div_add_mod (W * x - lo) W
      have e2 := Nat.div_add_mod (W * y - lo) W
      have l1 := Nat.mod_lt (W * x - lo) hW
      have l2 := Nat.mod_lt (W * y - lo) hW
      rw [he] at e1
      rcases Nat.lt_or_gt_of_ne hxy with hl | hl
      · have := Nat.mul_le_mul_left W hl
        rw [Nat.mul_succ] at this
        omega
      · have := Nat.mul_le_mul_left W hl
        rw [Nat.mul_succ] at this
        omega
  · intro y hy
    obtain ⟨x, hx, rfl⟩ := List.mem_map.1 hy
    obtain ⟨_, h1, h2⟩ := h x hx
    have : (x - lo) / W + 1 ≤ (hi - lo) / W := by
      rw [← Nat.add_div_right _ hW]
      exact Nat.div_le_div_right (by omega)
    omega

/-- C72. At every moment of a session — typed and hand-written values, storage operations through `storage_mut()`, caught panics, in any
order — the recorded pointers, at one machine word each, take no more room than the output of the session so far. So the record never has more than
`isize::MAX` bytes: pushing onto it cannot overflow a `Vec`'s capacity. -/
theorem C72_pointers (hC : C.OK) (hP : P.WF C.arch) (hacc : P.Accepted C) (ht : GReach C P t) (h : Sess C k P t es s) :
    s.ptrs.recorded * C.arch.ptrBytes ≤ s.sto.vec.pos - t.vec.pos ∧ s.ptrs.recorded * C.arch.ptrBytes ≤ C.arch.isizeMax := by
  obtain ⟨m, hI⟩ := h.inv hC hP hacc (ht.inv hC hP hacc)
  have hr := hI.rel.1 0
  have h1 : (s.ptrs.entries.map (·.2)).length * C.arch.ptrBytes ≤ s.sto.vec.pos - t.vec.pos := by
    refine words_bound hC.arch.ptr_pos hr.nodup ?_ hI.pos
    intro x hx
    obtain ⟨e, he, rfl⟩ := List.mem_map.1 hx
    have hb := hr.bound e he
    obtain ⟨v, hv, _, h2, _⟩ := hI.ents e he
    exact ⟨hb.2.1, Nat.le_trans (hI.bounds v hv).1 h2, hb.1⟩
  rw [List.length_map, ← Ptrs.recorded_entries] at h1
  refine ⟨h1, Nat.le_trans h1 ?_⟩
  have F := hC.facts
  have := hr.inv.pos_le; have := hr.inv.cap_le; have := F.max_le; have := F.sa.pos
  omega

/-- C72. Serializers of the other kinds keep nothing. -/
theorem C72_others (hC : C.OK) (hP : P.WF C.arch) (hacc : P.Accepted C) (ht : GReach C P t) (h : Sess C k P t es s) (hk : k ≠ .complete) :
    s.ptrs.current.positions = [] ∧ s.ptrs.past = [] := by
  obtain ⟨m, hI⟩ := h.inv hC hP hacc (ht.inv hC hP hacc)
  have hb := h.books hC hP hacc (ht.inv hC hP hacc)
  have he := hI.rel.2 hk
  have hl := Ptrs.recorded_entries s.ptrs
  rw [he, List.length_nil, Ptrs.recorded] at hl
  refine ⟨List.eq_nil_of_length_eq_zero (by omega), ?_⟩
  cases hp : s.ptrs.past with
  | nil => rfl
  | cons g gs =>
    have h1 := hb.full g (by rw [hp]; simp)
    rw [hp, List.map_cons, List.sum_cons] at hl
    exact absurd (List.eq_nil_of_length_eq_zero (by omega)) h1

/-- C72. A group is put aside only with pointers in it, and there are at most as many of those as the allocator was called in the session. -/
theorem C72_groups (hC : C.OK) (hP : P.WF C.arch) (hacc : P.Accepted C) (ht : GReach C P t) (h : Sess C k P t es s) :
    (∀ g ∈ s.ptrs.past, g.positions ≠ []) ∧ s.ptrs.past.length ≤ s.sto.w.calls - t.w.calls := by
  have hb := h.books hC hP hacc (ht.inv hC hP hacc)
  refine ⟨hb.full, ?_⟩
  have := hb.past
  omega

/-- C72. In a session of typed values, which never shrinks the storage, the number of groups is logarithmic in the size of the storage. -/
theorem C72_logarithmic (hC : C.OK) (hP : P.WF C.arch) (hacc : P.Accepted C) {t0 : Sto} (h0 : Reach C P t0) {k : Kind}
    {rs : List Root} (hv : ∀ r ∈ rs, Valid C.arch P r) {fuel : Nat} {s' : Ser}
    (hrun : (∃ ps, session C k P fuel rs (Ser.fromStorage t0) = .ok ps s') ∨
      ∃ pk, session C k P fuel rs (Ser.fromStorage t0) = .panic pk s') :
    s'.ptrs.past.length ≤ Nat.log2 s'.sto.vec.capacity + 2 := by
  have h1 := (C53_cost hC hP hacc h0 hv hrun).2.1
  have hb : (bookSteps t0.w.calls).Holds (session C k P fuel rs) := by
    rw [← C68_own_serializers]
    exact aSession_rel (books_own _) fuel rs
  have h2 := hb (Ser.fromStorage t0)
  have hs : Books t0.w.calls (Ser.fromStorage t0) :=
    ⟨by simp [Ser.fromStorage, Ptrs.new], by simp [Ser.fromStorage, Ptrs.new], Or.inl rfl⟩
  have h3 : Books t0.w.calls s' := by
    rcases hrun with ⟨ps, hr⟩ | ⟨pk, hr⟩ <;> rw [hr] at h2 <;> exact h2 hs
  have := h3.past
  omega

end

/-! ### The theorems apply -/

/-- The session of Props/Mixed.lean, and what is recorded in it. -/
example : ∃ s, Sess cfg64 .complete exP Sto.new exEvs s ∧ s.ptrs.recorded * 8 ≤ 304 ∧ s.ptrs.past.length ≤ s.sto.w.calls ∧ ∀ g ∈ s.ptrs.past, g.positions ≠ [] := by
  obtain ⟨s, hs, hp, _⟩ := exSess .complete
  have h1 := C72_pointers cfg64_ok exP_wf exP_accepted .new hs
  have h2 := C72_groups cfg64_ok exP_wf exP_accepted .new hs
  rw [hp] at h1
  exact ⟨s, hs, h1.1, h2.2, h2.1⟩

/-- The groups of a state. -/
def Ptrs.sizes (p : Ptrs) : List Nat := (p.past ++ [p.current]).map fun g => g.positions.length

/-- In that session eight pointers are recorded, in three groups, with 304 bytes of output and seven calls of the allocator. -/
example : ∃ x s, actsRun cfg64 .complete exP 6 exActs (Ser.fromStorage Sto.new) = .ok x s ∧ s.ptrs.sizes = [1, 4, 3] ∧ s.ptrs.recorded = 8 ∧
    s.sto.vec.pos = 304 ∧ s.sto.w.calls = 7 := by
  obtain ⟨x, s, h, hs⟩ := Out.andThen_some (o := actsRun cfg64 .complete exP 6 exActs (Ser.fromStorage Sto.new))
    (f := fun s => some (s.ptrs.sizes, s.ptrs.recorded, s.sto.vec.pos, s.sto.w.calls)) (b := ([1, 4, 3], 8, 304, 7)) (by decide +kernel)
  simp only [Option.some.injEq, Prod.mk.injEq] at hs
  exact ⟨x, s, h, hs.1, hs.2.1, hs.2.2.1, hs.2.2.2⟩

end SerRaw
