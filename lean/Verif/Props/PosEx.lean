import Verif.Props.Pos
import Verif.Props.StorageEx
/-
A concrete history that meets the hypotheses of C20–C23, and what goes wrong outside them.
-/
namespace SerRaw

/-- Three pointers, each written while the buffer is at a different address, and a move after the last one. -/
def exPOps : List POp := [
  .sto (.pushSlice ⟨32, 8⟩ 1 (fun i => some (UInt8.ofNat i))),
  .ptr 0 16,
  .sto (.pushSlice ⟨8, 8⟩ 4 (fun i => some (UInt8.ofNat (100 + i)))),
  .ptr 8 32,
  .sto (.reserve 1000),
  .ptr 16 40,
  .sto .shrinkToFit]

def POp.legalB (C : Cfg) (es : List PEvent) (s : Ser) : POp → Bool
  | .sto (.writeSlice _ _ _ _) => false
  | .sto .clear => false
  | .sto op => op.legalB C s.sto
  | .ptr x t => (x % C.arch.ptrBytes == 0) && decide (x + C.arch.ptrBytes ≤ s.sto.vec.pos) && decide (t ≤ s.sto.vec.pos) &&
      C.accepts ⟨C.arch.ptrBytes, C.arch.ptrBytes⟩ &&
      (slots es).all fun y => decide (y.1 + C.arch.ptrBytes ≤ x) || decide (x + C.arch.ptrBytes ≤ y.1)

theorem POp.legal_of_legalB {C : Cfg} {es : List PEvent} {s : Ser} {op : POp} (h : op.legalB C es s = true) : op.Legal C es s := by
  cases op with
  | sto op =>
    cases op with
    | writeSlice => simp [POp.legalB] at h
    | clear => simp [POp.legalB] at h
    | _ => exact ⟨SOp.legal_of_legalB h, by simp, by simp⟩
  | ptr x t =>
    simp only [POp.legalB, Bool.and_eq_true, beq_iff_eq, decide_eq_true_eq, List.all_eq_true, Bool.or_eq_true] at h
    obtain ⟨⟨⟨⟨h1, h2⟩, h3⟩, h4⟩, h5⟩ := h
    exact ⟨Nat.dvd_of_mod_eq_zero h1, h2, h3, h4, fun y hy => h5 y hy⟩

def runPOps (C : Cfg) : List POp → List PEvent → Ser → Option (List PEvent × Ser)
  | [], es, s => some (es, s)
  | op :: ops, es, s =>
    if op.legalB C es s then
      match op.run C s with
      | .ok p s' => runPOps C ops (es ++ [⟨op, some p⟩]) s'
      | .panic _ s' => runPOps C ops (es ++ [⟨op, none⟩]) s'
      | _ => none
    else none

theorem runPOps_hist {C : Cfg} : ∀ {ops : List POp} {es : List PEvent} {s : Ser} {r : List PEvent × Ser}, PHist C es s →
    runPOps C ops es s = some r → PHist C r.1 r.2
  | [], es, s, r, h, hr => by simp only [runPOps, Option.some.injEq] at hr; subst hr; exact h
  | op :: ops, es, s, r, h, hr => by
    simp only [runPOps] at hr
    split at hr
    · rename_i hleg
      have hleg := POp.legal_of_legalB hleg
      cases hrun : op.run C s with
      | ok p s' => rw [hrun] at hr; exact runPOps_hist (.ok h hleg hrun) hr
      | panic k s' => rw [hrun] at hr; exact runPOps_hist (.panic h hleg hrun) hr
      | abort => rw [hrun] at hr; cases hr
      | ub => rw [hrun] at hr; cases hr
      | fuel => rw [hrun] at hr; cases hr
    · cases hr

/-- The example history exists; the buffer ended up at an address at which no pointer was written, and the three slots then
hold stale addresses. -/
theorem exPHist : ∃ es s, PHist cfg64 es s ∧ slots es = [(0, 16), (8, 32), (16, 40)] ∧ s.sto.vec.ptr = 4 * 2 ^ 20 ∧
    readWord x64 s.sto.view 0 = some (2 ^ 20 + 16) ∧ readWord x64 s.sto.view 8 = some (2 * 2 ^ 20 + 32) ∧
    readWord x64 s.sto.view 16 = some (3 * 2 ^ 20 + 40) := by
  refine ⟨_, _, runPOps_hist (C := cfg64) (ops := exPOps) (.start .new) rfl, ?_, ?_, ?_, ?_, ?_⟩ <;> decide

/-- C22 applied to it. -/
example : ∃ s s', finalize cfg64 .complete s = .ok () s' ∧ s'.sto.vec.ptr = 4 * 2 ^ 20 ∧
    readWord x64 s'.sto.w.load (4 * 2 ^ 20 + 8) = some (4 * 2 ^ 20 + 32) := by
  obtain ⟨es, s, h, hs, hp, _⟩ := exPHist
  obtain ⟨s', h1, h2⟩ := C22_finalize_repairs cfg64_ok h
  have h3 := (C23_finalize_frame cfg64_ok h h1).1
  have := h2 (8, 32) (by rw [hs]; simp)
  rw [h3, hp] at this
  exact ⟨s, s', h1, by rw [h3, hp], this⟩

/-! ### Outside the hypotheses -/

/-- Run a list of actions, ignoring legality; stop at anything but a return. -/
def runAll (C : Cfg) : List (M Ser Nat) → M Ser Unit
  | [] => pure ()
  | x :: xs => do let _ ← x; runAll C xs

/-- What `f` observes of the state, if the run returned. -/
def Out.obs {σ α β} (o : Out σ α) (f : σ → β) : Option β :=
  match o with
  | .ok _ s => some (f s)
  | _ => none

/-- Finding F10. "Written once" is necessary: a slot written twice, with the buffer moving afterwards, is relocated twice. -/
theorem C22_written_twice :
    (runAll cfg64 [POp.run cfg64 (.sto (.pushSlice ⟨32, 8⟩ 1 (fun i => some (UInt8.ofNat i)))),
      POp.run cfg64 (.ptr 0 16), POp.run cfg64 (.ptr 0 16), POp.run cfg64 (.sto (.reserve 1000)),
      (do finalize cfg64 .complete; pure 0)] (Ser.fromStorage Sto.new)).obs (fun s => (s.sto.vec.ptr, readWord x64 s.sto.view 0)) =
    some (2 * 2 ^ 20, some (3 * 2 ^ 20 + 16)) := by decide +kernel

/-- Finding F4. `clear` and `shrink_to_fit` are safe calls on `storage_mut()`, but before `finalize` they make it read and write
through a stale position: undefined behaviour (here: after the buffer has been freed). -/
theorem C44_clear_shrink_finalize_ub :
    runAll cfg64 [POp.run cfg64 (.sto (.pushSlice ⟨32, 8⟩ 1 (fun i => some (UInt8.ofNat i)))),
      POp.run cfg64 (.ptr 8 16), POp.run cfg64 (.sto .clear), POp.run cfg64 (.sto .shrinkToFit),
      (do finalize cfg64 .complete; pure 0)] (Ser.fromStorage Sto.new) = .ub := rfl

/-- Finding F4, second form. `clear` followed by reuse of the storage: `finalize` "repairs" a word of the new contents. -/
theorem C44_clear_reuse_corrupts :
    (runAll cfg64 [POp.run cfg64 (.sto (.pushSlice ⟨32, 8⟩ 1 (fun i => some (UInt8.ofNat i)))),
      POp.run cfg64 (.ptr 8 16), POp.run cfg64 (.sto .clear),
      POp.run cfg64 (.sto (.pushSlice ⟨32, 8⟩ 1 (fun _ => some 0))), POp.run cfg64 (.sto (.reserve 1000)),
      (do finalize cfg64 .complete; pure 0)] (Ser.fromStorage Sto.new)).obs (fun s => readWord x64 s.sto.view 8) = some (some (2 ^ 20)) := by decide +kernel

/-- Finding F5. `push` with an address that is not inside the allocation being processed (a safe call): the pointer is written
out of bounds. In a release build nothing stops it; in a debug build an assertion or overflow check panics first. -/
theorem C44_unrelated_addr_ub :
    (do let _ ← serializeValue cfg64r .complete ⟨8, 8⟩ 4096 (fun _ => some 0)
          (do let _ ← push cfg64r .complete ⟨8, 8⟩ 8192 (fun _ => some 0) 0x7000000; pure ()); pure () : M Ser Unit)
      (Ser.fromStorage Sto.new) = .ub := rfl

/-- The same for `PtrOffsetSerializer`. -/
theorem C44_unrelated_addr_ub_ptr_offset :
    (do let _ ← serializeValue cfg64r .ptrOffset ⟨8, 8⟩ 4096 (fun _ => some 0)
          (do let _ ← push cfg64r .ptrOffset ⟨8, 8⟩ 8192 (fun _ => some 0) 0x7000000; pure ()); pure () : M Ser Unit)
      (Ser.fromStorage Sto.new) = .ub := rfl

/-- In a debug build the same calls panic. -/
theorem C44_unrelated_addr_debug : ∃ s,
    (do let _ ← serializeValue cfg64 .ptrOffset ⟨8, 8⟩ 4096 (fun _ => some 0)
          (do let _ ← push cfg64 .ptrOffset ⟨8, 8⟩ 8192 (fun _ => some 0) 0x7000000; pure ()); pure () : M Ser Unit)
      (Ser.fromStorage Sto.new) = .panic .debugAssert s := ⟨_, rfl⟩

/-- Finding F9. `serialize_value` does not put the mapping back (it is only restored by `push_and_process*`), so C21 is about the
calls an implementation of `Serialize` makes, not about nested `serialize_value` calls. -/
theorem C21_serialize_value_leaves_mapping : ∃ p s,
    serializeValue cfg64 .complete ⟨8, 8⟩ 4096 (fun _ => some 0) (pure ()) (Ser.fromStorage Sto.new) = .ok p s ∧
    s.map = ⟨4096, 0⟩ ∧ (Ser.fromStorage Sto.new).map = ⟨0, 0⟩ := ⟨_, _, rfl, rfl, rfl⟩

/-- Finding F13. Pushing a zero-sized value with `push` on `PtrOffsetSerializer` writes offset 0, which reads back as a null
pointer. (The crate's own implementations never push zero-sized types.) -/
theorem C28_zst_push_writes_null : ∃ p s,
    serializeValue cfg64 .ptrOffset ⟨8, 8⟩ 4096 (fun _ => some 255)
      (do let _ ← push cfg64 .ptrOffset ⟨0, 1⟩ 1 (fun _ => none) 4096; pure ()) (Ser.fromStorage Sto.new) = .ok p s ∧
    readWord x64 s.sto.view 0 = some 0 := ⟨_, _, rfl, by decide⟩

/-- The hypotheses of C20 are met: a slice of three words pushed while a 16-byte allocation at address 4096 is processed, its copy
being at position 0. -/
example : ∃ s : Ser, s.sto.Inv cfg64 ∧ PushOK cfg64 ⟨8, 8⟩ 3 8192 ∧
    TouchOK cfg64 ⟨s.map.inputAddr, 16, 8⟩ 4104 8 ∧ s.map.outputPos + 16 ≤ s.sto.vec.pos ∧ 8 ∣ s.map.outputPos := by
  have hp := (pushSlice_sat cfg64_ok (Sto.new_inv cfg64) (L := ⟨16, 8⟩) (len := 1) (fun _ => some 0) (by decide) ⟨3, rfl⟩ (by decide)
    (Or.inl (by decide)) (by decide))
  cases e : Sto.pushSlice cfg64 ⟨16, 8⟩ 1 (fun _ => some 0) Sto.new with
  | ok p t =>
    rw [e] at hp
    have e2 : t.vec.pos = 16 := by rw [hp.end_eq, hp.pos_eq]; decide
    refine ⟨⟨t, ⟨4096, 0⟩, Ptrs.new⟩, hp.inv, ⟨by decide, ⟨3, rfl⟩, by decide, by decide⟩,
      ⟨show 4096 ≤ 4104 by decide, show 4104 + 8 ≤ 4096 + 16 by decide, show 8 ∣ 8 by decide, show 8 ∣ 4104 - 4096 by decide⟩,
      by simp only; omega, Nat.dvd_zero _⟩
  | panic k t => rw [e] at hp; obtain ⟨_, _, hp⟩ := hp; exact absurd hp (by decide)
  | abort => rw [e] at hp; exact (hp cfg64_never).elim
  | ub => rw [e] at hp; exact hp.elim
  | fuel => rw [e] at hp; exact hp.elim

end SerRaw
