import Verif.Props.Storage2
/-
A concrete history that meets the hypotheses of C05–C19: pushes with growth (the buffer moves at every allocator call),
a push that panics and is caught, `reserve`, a random-access write, `shrink_to_fit`.
-/
namespace SerRaw

def exOps : List SOp := [
  .pushSlice ⟨8, 8⟩ 1 (wordCells x64 77),
  .pushSlice ⟨1, 1⟩ 5 (fun i => some (UInt8.ofNat (i + 1))),
  .pushSlice ⟨16, 16⟩ 2 (fun i => some (UInt8.ofNat i)),
  .pushSlice ⟨8, 8⟩ (2 ^ 28) (fun _ => none),
  .reserve 1000,
  .writeSlice 0 ⟨8, 8⟩ 1 (wordCells x64 78),
  .shrinkToFit]

/-- Run operations one after the other, recording results. -/
def runOps (C : Cfg) : List SOp → List SEvent → Sto → Option (List SEvent × Sto)
  | [], es, s => some (es, s)
  | op :: ops, es, s =>
    match op.run C s with
    | .ok p s' => runOps C ops (es ++ [⟨op, some p⟩]) s'
    | .panic _ s' => runOps C ops (es ++ [⟨op, none⟩]) s'
    | _ => none

/-- Operations legal in every state that owns memory. -/
def SOp.legalB (C : Cfg) (s : Sto) : SOp → Bool
  | .pushSlice L len _ => isPow2 L.align && (L.size % L.align == 0) && (L.size == 0 || C.accepts L) &&
      decide (L.size * len ≤ C.arch.isizeMax) && (L.size == 0 || decide (0 < len) || decide (0 < s.vec.capacity) || L.align == 1)
  | .reserve n => decide (n < C.arch.usizeMod)
  | .writeSlice p L len _ => isPow2 L.align && (L.size % L.align == 0) && decide (p + L.size * len ≤ s.vec.capacity) &&
      (p % L.align == 0) && decide (L.align ≤ C.storageAlign) && decide (0 < s.vec.capacity)
  | .shrinkToFit => true
  | _ => false

theorem SOp.legal_of_legalB {C : Cfg} {s : Sto} {op : SOp} (h : op.legalB C s = true) : op.Legal C s := by
  cases op with
  | pushSlice L len data =>
    simp only [SOp.legalB, Bool.and_eq_true, Bool.or_eq_true, isPow2_iff, beq_iff_eq, decide_eq_true_eq] at h
    obtain ⟨⟨⟨⟨h1, h2⟩, h3⟩, h4⟩, h5⟩ := h
    refine ⟨⟨h1, Nat.dvd_of_mod_eq_zero h2⟩, fun hz => h3.resolve_left hz, h4, by tauto⟩
  | reserve n => simp only [SOp.legalB, decide_eq_true_eq] at h; exact h
  | writeSlice p L len data =>
    simp only [SOp.legalB, Bool.and_eq_true, isPow2_iff, beq_iff_eq, decide_eq_true_eq] at h
    obtain ⟨⟨⟨⟨⟨h1, h2⟩, h3⟩, h4⟩, h5⟩, h6⟩ := h
    exact ⟨⟨h1, Nat.dvd_of_mod_eq_zero h2⟩, h3, Nat.dvd_of_mod_eq_zero h4, Or.inr ⟨h5, Or.inl h6⟩⟩
  | shrinkToFit => trivial
  | _ => simp [SOp.legalB] at h

/-- Are all operations of the run legal? -/
def runLegal (C : Cfg) : List SOp → Sto → Bool
  | [], _ => true
  | op :: ops, s => op.legalB C s &&
    match op.run C s with
    | .ok _ s' => runLegal C ops s'
    | .panic _ s' => runLegal C ops s'
    | _ => false

theorem runOps_hist {C : Cfg} : ∀ {ops : List SOp} {es : List SEvent} {s : Sto} {r : List SEvent × Sto}, Hist C es s →
    runLegal C ops s = true → runOps C ops es s = some r → Hist C r.1 r.2
  | [], es, s, r, h, _, hr => by simp only [runOps, Option.some.injEq] at hr; subst hr; exact h
  | op :: ops, es, s, r, h, hl, hr => by
    simp only [runLegal, Bool.and_eq_true] at hl
    obtain ⟨h1, h2⟩ := hl
    have hleg := SOp.legal_of_legalB h1
    simp only [runOps] at hr
    cases hrun : op.run C s with
    | ok p s' => rw [hrun] at hr h2; exact runOps_hist (.ok h hleg hrun) h2 hr
    | panic k s' => rw [hrun] at hr h2; exact runOps_hist (.panic h hleg hrun) h2 hr
    | abort => rw [hrun] at hr; cases hr
    | ub => rw [hrun] at hr; cases hr
    | fuel => rw [hrun] at hr; cases hr

/-- The example history exists: the fourth operation panicked; positions 0, 8, 16; the first value was overwritten later,
so two slices are stored; four allocator calls moved the buffer. -/
theorem exHist : ∃ es s, Hist cfg64 es s ∧ es.map SEvent.res = [some 0, some 8, some 16, none, some 0, some 0, some 0] ∧
    (stored es).map (fun r => (r.pos, r.size)) = [(8, 5), (16, 32)] ∧ s.vec.pos = 48 ∧ s.vec.capacity = 48 ∧ s.w.calls = 4 ∧
    s.vec.ptr = 4 * 2 ^ 20 := by
  refine ⟨_, _, runOps_hist (C := cfg64) (ops := exOps) .new ?_ rfl, ?_, ?_, ?_, ?_, ?_, ?_⟩
  · decide
  · decide
  · decide
  · decide
  · decide
  · decide
  · decide

/-- C08 applies to it: byte 2 of the second slice, read from the heap after all the moves. -/
example : ∃ es s, Hist cfg64 es s ∧ s.w.load (s.vec.ptr + (8 + 2)) = some 3 := by
  refine ⟨_, _, runOps_hist (C := cfg64) (ops := exOps) .new (by decide) rfl, ?_⟩
  decide

/-- `with_capacity` at the limit, and beyond it. -/
example : (∃ s, Sto.withCapacity cfg32 997 Sto.new = .ok () s ∧ s.vec.capacity = 1000) ∧
    Sto.withCapacity cfg32 1001 Sto.new = .panic .capacity Sto.new := ⟨⟨_, rfl, rfl⟩, rfl⟩

/-- C17's hypotheses are met: `push_empty_slice::<u64>(3)`. -/
example : ∃ s, Sto.pushEmptySlice cfg64 ⟨8, 8⟩ 3 Sto.new = .ok 0 s ∧ s.vec.pos = 24 := ⟨_, rfl, rfl⟩

/-- The hypotheses of C17's converse are met, in a debug build: `push_empty::<u32>()` … -/
example : (∃ k s', Sto.pushEmptySlice cfg64 ⟨4, 4⟩ 1 Sto.new = .panic k s' ∧ s'.vec.pos = 0 ∧
      ∀ i < Sto.new.vec.capacity, s'.w.load (s'.vec.ptr + i) = Sto.new.w.load (Sto.new.vec.ptr + i)) ∨
    (Sto.pushEmptySlice cfg64 ⟨4, 4⟩ 1 Sto.new = .abort ∧ ¬ cfg64.NeverFails) :=
  C17_debug_otherwise cfg64_ok .new ⟨⟨⟨2, rfl⟩, by decide⟩, by decide, by decide⟩ rfl (by decide) ⟨by decide, by decide, fun _ _ _ => Nat.zero_le _⟩

/-- … and in a release build: `push_empty_slice::<u64>((1 << 61) + 1)` makes room for 8 bytes. -/
example : (SOp.pushEmptySlice ⟨8, 8⟩ (2 ^ 61 + 1)).Legal cfg64r Sto.new ∧ cfg64r.arch.usizeMod ≤ 8 * (2 ^ 61 + 1) ∧
    ∃ s, Sto.pushEmptySlice cfg64r ⟨8, 8⟩ (2 ^ 61 + 1) Sto.new = .ok 0 s ∧ s.vec.pos = 8 := ⟨⟨⟨⟨3, rfl⟩, by decide⟩, by decide, by decide⟩, by decide, _, rfl, rfl⟩

/-- C04's hypotheses are met. -/
example : LegalU32Align be32 16 ∧ alignedMaxU32Capacity be32 16 () = .ok (2 ^ 31 - 16) () ∧
    alignedMaxU32Capacity x64 16 () = .ok (2 ^ 32) () := ⟨⟨⟨4, rfl⟩, by decide, by decide⟩, rfl, rfl⟩

end SerRaw
