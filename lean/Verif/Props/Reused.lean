import Verif.Props.Mixed
import Verif.Props.Cost
import Verif.Props.Pos
/-
C60: everything C05–C19 say about a storage also holds for a storage that serializers have used.

`GReach C P t` (Model/Mixed.lean): `t` is reached by any sequence of storage operations (also panicking ones) and serializers of any
kinds — used for any mixture of values, hand-written implementations and direct storage operations, with panics caught, then
finished or dropped, at any moment.
-/
namespace SerRaw
section
variable {C : Cfg} {P : Prog}

/-- The histories of C05–C19 are a special case. -/
theorem Hist.greach {es : List SEvent} {s : Sto} (h : Hist C es s) (P : Prog) : GReach C P s := by
  induction h with
  | new => exact .new
  | withCapacity hc h => exact .withCapacity hc h
  | ok _ hl hr ih => exact .op ih hl hr
  | panic _ hl hr ih => exact .opPanic ih hl hr

/-- C60. Position, capacity and their alignments are consistent; the buffer is aligned, not null, and inside the address space; the storage
owns exactly its buffer. -/
theorem C60_consistent (hC : C.OK) (hP : P.WF C.arch) (hacc : P.Accepted C) {s : Sto} (h : GReach C P s) :
    s.vec.pos ≤ s.vec.capacity ∧ s.vec.capacity ≤ C.maxCapacity ∧ C.maxValueAlign ∣ s.vec.capacity ∧ C.valueAlign ∣ s.vec.pos ∧
    (0 < s.vec.capacity → s.vec.ptr ≠ 0 ∧ C.storageAlign ∣ s.vec.ptr ∧ s.vec.ptr + s.vec.capacity < C.arch.usizeMod) ∧
    ((s.vec.capacity = 0 ∧ s.w.live = []) ∨
      (0 < s.vec.capacity ∧ ∃ data, s.w.live = [⟨s.vec.ptr, s.vec.capacity, C.storageAlign, data⟩])) := by
  have hI := h.inv hC hP hacc
  obtain ⟨h1, h2, h3, h4⟩ := consistent_of_inv hC hI
  exact ⟨h1, h2, h3, h4, base_aligned_of_inv hC hI, owned_of_inv hC hI⟩

/-- C60. No permitted operation has undefined behaviour: it returns, panics (without `push_empty`: only "storage full"), or aborts because the
allocator failed; and after it all of this still holds. -/
theorem C60_no_ub (hC : C.OK) (hP : P.WF C.arch) (hacc : P.Accepted C) {s : Sto} (h : GReach C P s) {op : SOp} (hl : op.Legal C s) :
    (∃ p s', op.run C s = .ok p s' ∧ GReach C P s') ∨
    (∃ k s', op.run C s = .panic k s' ∧ GReach C P s' ∧ (k = .capacity ∨ ∃ L n, op = .pushEmptySlice L n)) ∨
    (op.run C s = .abort ∧ ¬ C.NeverFails) := by
  have hI := h.inv hC hP hacc
  have hs := step_sat hC hI hl
  cases hr : op.run C s with
  | ok p s' => exact Or.inl ⟨p, s', rfl, .op h hl hr⟩
  | panic k s' => exact Or.inr (Or.inl ⟨k, s', rfl, .opPanic h hl hr, panic_of_inv hC hI hl hr⟩)
  | abort => rw [hr] at hs; exact Or.inr (Or.inr ⟨rfl, hs⟩)
  | ub => rw [hr] at hs; exact hs.elim
  | fuel => rw [hr] at hs; exact hs.elim

/-- C60. `push_slice`: at the next aligned position `q`; exactly the new bytes there, nothing else changed; panics exactly when the slice would
end beyond `MAX_CAPACITY`, and then only alignment padding has been skipped. -/
theorem C60_push (hC : C.OK) (hP : P.WF C.arch) (hacc : P.Accepted C) {s : Sto} (h : GReach C P s) {L : Layout} {len : Nat}
    {data : Nat → Cell} (hl : (SOp.pushSlice L len data).Legal C s) (hz : L.size ≠ 0) {q : Nat}
    (hq : L.align ∣ q ∧ s.vec.pos ≤ q ∧ ∀ m, L.align ∣ m → s.vec.pos ≤ m → q ≤ m) :
    (C.maxCapacity < q + L.size * len →
      Sto.pushSlice C L len data s = .panic .capacity { s with vec := { s.vec with pos := q } }) ∧
    (q + L.size * len ≤ C.maxCapacity →
      (∃ s', Sto.pushSlice C L len data s = .ok q s' ∧ q + L.size * len ≤ s'.vec.pos ∧ s'.vec.pos < q + L.size * len + C.valueAlign ∧
        s.vec.capacity ≤ s'.vec.capacity ∧
        (∀ i < L.size * len, s'.w.load (s'.vec.ptr + (q + i)) = data i) ∧
        (∀ i < s.vec.capacity, i < q ∨ q + L.size * len ≤ i → s'.w.load (s'.vec.ptr + i) = s.w.load (s.vec.ptr + i))) ∨
      (Sto.pushSlice C L len data s = .abort ∧ ¬ C.NeverFails)) :=
  push_of_inv hC (h.inv hC hP hacc) hl hz hq

/-- C60. `push_empty_slice`: the same, without bytes. -/
theorem C60_push_empty (hC : C.OK) (hP : P.WF C.arch) (hacc : P.Accepted C) {s : Sto} (h : GReach C P s) {L : Layout} {len : Nat}
    (hl : (SOp.pushEmptySlice L len).Legal C s) (hov : L.size * len < C.arch.usizeMod)
    (hdbg : C.arch.debug = true → C.valueAlign ∣ L.size * len) {q : Nat}
    (hq : L.align ∣ q ∧ s.vec.pos ≤ q ∧ ∀ m, L.align ∣ m → s.vec.pos ≤ m → q ≤ m) :
    (C.maxCapacity < q + L.size * len →
      Sto.pushEmptySlice C L len s = .panic .capacity { s with vec := { s.vec with pos := q } }) ∧
    (q + L.size * len ≤ C.maxCapacity →
      (∃ s', Sto.pushEmptySlice C L len s = .ok q s' ∧ q + L.size * len ≤ s'.vec.pos ∧
        s'.vec.pos < q + L.size * len + C.valueAlign ∧ s'.vec.pos ≤ s'.vec.capacity ∧
        (∀ i < s.vec.capacity, s'.w.load (s'.vec.ptr + i) = s.w.load (s.vec.ptr + i))) ∨
      (Sto.pushEmptySlice C L len s = .abort ∧ ¬ C.NeverFails)) :=
  push_empty_of_inv hC (h.inv hC hP hacc) hl hov hdbg hq

/-- C60. `reserve`: panics exactly when `pos() + n > MAX_CAPACITY`, with nothing changed; otherwise room for `n`, nothing lost; and when it
has to grow, to exactly the least power of two with room (at least `MAX_VALUE_ALIGNMENT`, at most `MAX_CAPACITY`), in one call. -/
theorem C60_reserve (hC : C.OK) (hP : P.WF C.arch) (hacc : P.Accepted C) {s : Sto} (h : GReach C P s) (n : Nat) :
    (C.maxCapacity < s.vec.pos + n → Sto.reserve C n s = .panic .capacity s) ∧
    (s.vec.pos + n ≤ C.maxCapacity →
      (∃ s', Sto.reserve C n s = .ok () s' ∧ s.vec.pos + n ≤ s'.vec.capacity ∧ s'.vec.pos = s.vec.pos ∧
        (∀ i < s.vec.capacity, s'.w.load (s'.vec.ptr + i) = s.w.load (s.vec.ptr + i)) ∧
        (s.vec.pos + n ≤ s.vec.capacity → s' = s) ∧
        (s.vec.capacity < s.vec.pos + n → s'.w.calls = s.w.calls + 1 ∧
          ∃ q, LeastPow2 (s.vec.pos + n) q ∧ s'.vec.capacity = min C.maxCapacity (max q C.maxValueAlign))) ∨
      (Sto.reserve C n s = .abort ∧ ¬ C.NeverFails)) := by
  have hI := h.inv hC hP hacc
  obtain ⟨h1, h2⟩ := reserve_of_inv hC hI n
  refine ⟨h1, fun hf => ?_⟩
  rcases h2 hf with ⟨s', e1, e2, _, e4, e5, e6⟩ | h3
  · exact Or.inl ⟨s', e1, e2, e4, e5, e6, fun hg => reserve_exact_of_inv hC hI hg e1⟩
  · exact Or.inr h3

/-- C60. `shrink_to_fit` keeps position and contents; the least capacity; nothing owned if nothing is stored. -/
theorem C60_shrink (hC : C.OK) (hP : P.WF C.arch) (hacc : P.Accepted C) {s : Sto} (h : GReach C P s) :
    (∃ s', Sto.shrinkToFit C s = .ok () s' ∧ s'.vec.pos = s.vec.pos ∧ s'.vec.capacity ≤ s.vec.capacity ∧
      s.vec.pos ≤ s'.vec.capacity ∧ C.maxValueAlign ∣ s'.vec.capacity ∧
      (∀ m, C.maxValueAlign ∣ m → s.vec.pos ≤ m → s'.vec.capacity ≤ m) ∧
      (∀ i < s.vec.pos, s'.w.load (s'.vec.ptr + i) = s.w.load (s.vec.ptr + i)) ∧
      (s.vec.pos = 0 → s'.vec.capacity = 0 ∧ s'.w.live = [])) ∨
    (Sto.shrinkToFit C s = .abort ∧ ¬ C.NeverFails) :=
  shrink_of_inv hC (h.inv hC hP hacc)

/-- C60. Random-access writes change exactly their range; reads return what is there. -/
theorem C60_write (hC : C.OK) (hP : P.WF C.arch) (hacc : P.Accepted C) {s : Sto} (h : GReach C P s) {p : Nat} {L : Layout} {len : Nat}
    {data : Nat → Cell} (hl : (SOp.writeSlice p L len data).Legal C s) :
    ∃ s', Sto.writeSlice C p L len data s = .ok () s' ∧ s'.vec = s.vec ∧
      (∀ i < L.size * len, s'.w.load (s'.vec.ptr + (p + i)) = data i) ∧
      (∀ i < s.vec.capacity, i < p ∨ p + L.size * len ≤ i → s'.w.load (s'.vec.ptr + i) = s.w.load (s.vec.ptr + i)) :=
  write_of_inv hC (h.inv hC hP hacc) hl

/-- C60. Reads return what is there. -/
theorem C60_read (hC : C.OK) (hP : P.WF C.arch) (hacc : P.Accepted C) {s : Sto} (h : GReach C P s) {p : Nat} {L : Layout} (hL : L.OK)
    (hfit : p + L.size ≤ s.vec.pos) (hd : L.align ∣ p) (hsa : L.align ≤ C.storageAlign)
    (hne : L.size ≠ 0 ∨ 0 < s.vec.capacity ∨ L.align = 1) :
    ∃ v, Sto.read C p L s = .ok v s ∧ ∀ i < L.size, v i = s.w.load (s.vec.ptr + (p + i)) :=
  read_ok hC (h.inv hC hP hacc) hL hfit hd hsa hne

/-- C60. Dropping the storage, whatever serializers did with it and whether or not they finished, meets the allocator's contract and leaves nothing
allocated. -/
theorem C60_drop (hC : C.OK) (hP : P.WF C.arch) (hacc : P.Accepted C) {s : Sto} (h : GReach C P s) :
    ∃ s', Sto.drop C s = .ok () s' ∧ s'.w.live = [] :=
  drop_ok (h.inv hC hP hacc).toWInv

/-- C60, C20 for serializers in use: `C20_position_of_copy` at any moment of any use of a serializer (with
whatever region is current, as in C20). -/
theorem C60_position_of_copy (hC : C.OK) (hP : P.WF C.arch) (hacc : P.Accepted C) {k : Kind} (hk : k ≠ .pureCopy) {s : Ser}
    (h : GReach C P s.sto) {sl : Slice}
    (hsl : PushOK C sl.L sl.len sl.addr) (hne : 0 < sl.len ∨ 0 < s.sto.vec.pos) {ptrAddr size al : Nat}
    (hin : k.tracking = true → TouchOK C ⟨s.map.inputAddr, size, al⟩ ptrAddr C.arch.ptrBytes ∧
      s.map.outputPos + size ≤ s.sto.vec.pos ∧ al ∣ s.map.outputPos ∧ 0 < al ∧ al ≤ C.maxValueAlign) :
    (∃ o : Out Ser Nat, (∀ p s', o ≠ .ok p s') ∧ ∀ f, pushAndProcessSlice C k sl ptrAddr f s = o) ∨
    (∃ pos s1, (∀ f, pushAndProcessSlice C k sl ptrAddr f s = (do f; Ser.setMap s.map; pure pos : M Ser Nat) s1) ∧
      ∀ x, sl.addr ≤ x → x < sl.addr + sl.L.size * sl.len →
        s1.map.posForAddr C.arch x s1 = .ok (pos + (x - sl.addr)) s1 ∧
        pos + (x - sl.addr) < s1.sto.vec.pos ∧
        s1.sto.view (pos + (x - sl.addr)) = sl.data (x - sl.addr)) :=
  C20_position_of_copy hC hk (h.inv hC hP hacc) hsl hne hin

end

/-- The hypotheses are met: a storage left behind by a serializer that mixed everything and was dropped without `finalize` (C59's example);
a further push and drop. -/
example (k : Kind) : ∃ s : Sto, GReach cfg64 exP s ∧ s.vec.pos = 304 ∧
    (∃ s', Sto.pushSlice cfg64 ⟨4, 4⟩ 2 (fun i => some (UInt8.ofNat i)) s = .ok 304 s' ∧
      ∀ i < 8, s'.w.load (s'.vec.ptr + (304 + i)) = some (UInt8.ofNat i)) ∧
    ∃ s', Sto.drop cfg64 s = .ok () s' ∧ s'.w.live = [] := by
  obtain ⟨s, hs, hp, hb⟩ := exSess k
  have h : GReach cfg64 exP s.sto := .dropped .new hs
  have e4 : Layout.OK ⟨4, 4⟩ := ⟨⟨2, rfl⟩, by decide⟩
  refine ⟨s.sto, h, hp, ?_, C60_drop cfg64_ok exP_wf exP_accepted h⟩
  obtain ⟨_, h2⟩ := C60_push cfg64_ok exP_wf exP_accepted h (L := ⟨4, 4⟩) (len := 2) (data := fun i => some (UInt8.ofNat i)) (q := 304)
    ⟨e4, fun _ => by decide, by decide, .inr (.inl (by decide))⟩ (by decide)
    ⟨by decide, by rw [hp], fun m _ hm => by rw [hp] at hm; exact hm⟩
  rcases h2 (by decide) with ⟨s', e1, _, _, _, e5, _⟩ | ⟨_, hn⟩
  · exact ⟨s', e1, e5⟩
  · exact absurd cfg64_never hn

end SerRaw
