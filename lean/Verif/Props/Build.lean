import Verif.Lemmas.BuildMode
import Verif.Props.Serialize
import Verif.Props.Storage
/-
C33 (second half), and its counterpart for storages: debug and release builds behave identically.

`C.build true` and `C.build false` (Lemmas/BuildMode.lean) are the same program compiled with and without `debug_assert!` and
overflow checks. An outcome is the whole final state: storage, allocator, memory, log of allocator calls.
-/
namespace SerRaw

/-- C33. On valid values a debug and a release build do exactly the same: same returned positions, same memory, same
allocator calls, same panic. -/
theorem C33_builds_agree {C : Cfg} {P : Prog} (hC : (C.build true).OK) (hP : P.WF (C.arch.build true)) (hacc : P.Accepted (C.build true))
    {t0 : Sto} (h0 : Reach (C.build true) P t0) (k : Kind) (fuel : Nat) {rs : List Root} (hv : ∀ r ∈ rs, Valid (C.arch.build true) P r) :
    session (C.build true) k P fuel rs (Ser.fromStorage t0) = session (C.build false) k P fuel rs (Ser.fromStorage t0) := by
  rcases DR.session (C := C) (P := P) k fuel rs (Ser.fromStorage t0) with ⟨pk, s', h, hk⟩ | h
  · exact absurd (((C33_safe hC hP hacc h0 k hv).1 fuel).2.1 pk s' h) hk
  · exact h

/-- For storages: after any history, an operation does the same in a debug and a release build, unless the debug build panics
on a check that release builds lack. -/
theorem C33_storage_builds (C : Cfg) (op : SOp) (s : Sto) :
    (∃ pk s', op.run (C.build true) s = .panic pk s' ∧ pk ≠ .capacity) ∨ op.run (C.build true) s = op.run (C.build false) s :=
  DR.sop op s

end SerRaw
