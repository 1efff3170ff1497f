import Verif.Model.Session
import Verif.Model.History
import Verif.Lemmas.Basic
/-
Debug and release builds: a debug build either panics on a check that a release build does not have, or does exactly what the
release build does. Proved for every function of the model, compositionally.
-/
namespace SerRaw

/-- The same code, compiled in a debug (`true`) or release (`false`) build. -/
def Arch.build (A : Arch) (b : Bool) : Arch := { A with debug := b }
def Cfg.build (C : Cfg) (b : Bool) : Cfg := { C with arch := C.arch.build b }

/-- `x` (debug build) agrees with `y` (release build) or panics on a check. -/
def DR {σ α} (x y : M σ α) : Prop := ∀ s, (∃ k s', x s = .panic k s' ∧ k ≠ .capacity) ∨ x s = y s

/-- A side-effect-free check: yields a Boolean and leaves the state, or panics. -/
def Quiet {σ α} (x : M σ α) : Prop := ∀ s, (∃ k s', x s = .panic k s' ∧ k ≠ .capacity) ∨ ∃ a, x s = .ok a s

namespace DR
variable {σ α β : Type}

theorem refl (x : M σ α) : DR x x := fun _ => .inr rfl

theorem of_eq {x y : M σ α} (h : x = y) : DR x y := fun _ => .inr (by rw [h])

theorem bind {x y : M σ α} {f g : α → M σ β} (h : DR x y) (hf : ∀ a, DR (f a) (g a)) : DR (x >>= f) (y >>= g) := by
  intro s
  rw [bind_def, bind_def]
  rcases h s with ⟨k, s', h, hk⟩ | h
  · rw [h]; exact .inl ⟨k, s', rfl, hk⟩
  · rw [← h]
    cases x s with
    | ok a s' => exact hf a s'
    | _ => exact .inr rfl

theorem ite {c : Prop} [Decidable c] {x y x' y' : M σ α} (h1 : DR x x') (h2 : DR y y') :
    DR (if c then x else y) (if c then x' else y') := by split <;> assumption

end DR

namespace Quiet
variable {σ α β : Type}

theorem pure (a : α) : Quiet (pure a : M σ α) := fun _ => .inr ⟨a, rfl⟩

theorem bind {x : M σ α} {f : α → M σ β} (h : Quiet x) (hf : ∀ a, Quiet (f a)) : Quiet (x >>= f) := by
  intro s
  rw [bind_def]
  rcases h s with ⟨k, s', h, hk⟩ | ⟨a, h⟩
  · rw [h]; exact .inl ⟨k, s', rfl, hk⟩
  · rw [h]; exact hf a s

theorem debugAssert (A : Arch) (b : Bool) : Quiet (M.debugAssert A b : M σ Unit) := by
  intro s; unfold M.debugAssert
  split
  · exact .inl ⟨_, _, rfl, by simp⟩
  · exact .inr ⟨_, rfl⟩

theorem assert {k : PanicKind} (hk : k ≠ .capacity) (b : Bool) : Quiet (M.assert k b : M σ Unit) := by
  intro s; unfold M.assert
  split
  · exact .inr ⟨_, rfl⟩
  · exact .inl ⟨_, _, rfl, hk⟩

theorem uadd (A : Arch) (x y : Nat) : Quiet (SerRaw.uadd A x y : M σ Nat) := by
  intro s; unfold SerRaw.uadd
  split
  · exact .inr ⟨_, rfl⟩
  · split
    · exact .inl ⟨_, _, rfl, by simp⟩
    · exact .inr ⟨_, rfl⟩

theorem usub (A : Arch) (x y : Nat) : Quiet (SerRaw.usub A x y : M σ Nat) := by
  intro s; unfold SerRaw.usub
  split
  · exact .inr ⟨_, rfl⟩
  · split
    · exact .inl ⟨_, _, rfl, by simp⟩
    · exact .inr ⟨_, rfl⟩

theorem umul (A : Arch) (x y : Nat) : Quiet (SerRaw.umul A x y : M σ Nat) := by
  intro s; unfold SerRaw.umul
  split
  · exact .inr ⟨_, rfl⟩
  · split
    · exact .inl ⟨_, _, rfl, by simp⟩
    · exact .inr ⟨_, rfl⟩

theorem isAlignedTo (A : Arch) (x y : Nat) : Quiet (SerRaw.isAlignedTo A x y : M σ Bool) :=
  (debugAssert A _).bind fun _ => (usub A _ _).bind fun _ => pure _

theorem alignedMaxCapacity (A : Arch) (x : Nat) : Quiet (SerRaw.alignedMaxCapacity A x : M σ Nat) :=
  (assert (by simp) _).bind fun _ => (assert (by simp) _).bind fun _ => (assert (by simp) _).bind fun _ => (usub A _ _).bind fun _ => usub A _ _

end Quiet

namespace DR
variable {σ : Type} {A : Arch}

theorem debugAssert (b : Bool) : DR (M.debugAssert (A.build true) b : M σ Unit) (M.debugAssert (A.build false) b) := by
  intro s
  unfold M.debugAssert Arch.build
  cases b
  · exact .inl ⟨_, _, rfl, by simp⟩
  · exact .inr rfl

theorem debugAssertM {e e' : M σ Bool} (he : Quiet e) : DR (M.debugAssertM (A.build true) e : M σ Unit) (M.debugAssertM (A.build false) e') := by
  intro s
  have h1 : M.debugAssertM (A.build true) e = (e >>= fun b => M.debugAssert (A.build true) b) := rfl
  have h2 : M.debugAssertM (A.build false) e' s = .ok () s := rfl
  rw [h1, h2, bind_def]
  rcases he s with ⟨k, s', h, hk⟩ | ⟨b, h⟩
  · rw [h]; exact .inl ⟨k, s', rfl, hk⟩
  · rw [h]
    cases b
    · exact .inl ⟨_, _, rfl, by simp⟩
    · exact .inr rfl

theorem uadd (x y : Nat) : DR (SerRaw.uadd (A.build true) x y : M σ Nat) (SerRaw.uadd (A.build false) x y) := by
  intro s
  by_cases h : x + y < A.usizeMod
  · exact .inr (by unfold SerRaw.uadd; rw [if_pos (show x + y < (A.build true).usizeMod from h), if_pos (show x + y < (A.build false).usizeMod from h)])
  · refine .inl ⟨.arith, s, ?_, by simp⟩
    unfold SerRaw.uadd; rw [if_neg (show ¬ x + y < (A.build true).usizeMod from h)]; rfl

theorem usub (x y : Nat) : DR (SerRaw.usub (A.build true) x y : M σ Nat) (SerRaw.usub (A.build false) x y) := by
  intro s
  by_cases h : y ≤ x
  · exact .inr (by unfold SerRaw.usub; rw [if_pos h, if_pos h])
  · refine .inl ⟨.arith, s, ?_, by simp⟩
    unfold SerRaw.usub; rw [if_neg h]; rfl

theorem umul (x y : Nat) : DR (SerRaw.umul (A.build true) x y : M σ Nat) (SerRaw.umul (A.build false) x y) := by
  intro s
  by_cases h : x * y < A.usizeMod
  · exact .inr (by unfold SerRaw.umul; rw [if_pos (show x * y < (A.build true).usizeMod from h), if_pos (show x * y < (A.build false).usizeMod from h)])
  · refine .inl ⟨.arith, s, ?_, by simp⟩
    unfold SerRaw.umul; rw [if_neg (show ¬ x * y < (A.build true).usizeMod from h)]; rfl

theorem unextPow2 (x : Nat) : DR (SerRaw.unextPow2 (A.build true) x : M σ Nat) (SerRaw.unextPow2 (A.build false) x) := by
  intro s
  by_cases h : nextPow2 x < A.usizeMod
  · exact .inr (by unfold SerRaw.unextPow2; rw [if_pos (show nextPow2 x < (A.build true).usizeMod from h), if_pos (show nextPow2 x < (A.build false).usizeMod from h)])
  · refine .inl ⟨.arith, s, ?_, by simp⟩
    unfold SerRaw.unextPow2; rw [if_neg (show ¬ nextPow2 x < (A.build true).usizeMod from h)]; rfl

/-! ### util.rs -/

theorem alignUpTo (x y : Nat) : DR (SerRaw.alignUpTo (A.build true) x y : M σ Nat) (SerRaw.alignUpTo (A.build false) x y) :=
  (debugAssert _).bind fun _ => (uadd _ _).bind fun _ => (usub _ _).bind fun _ => (usub _ _).bind fun _ => refl _

theorem isAlignedTo (x y : Nat) : DR (SerRaw.isAlignedTo (A.build true) x y : M σ Bool) (SerRaw.isAlignedTo (A.build false) x y) :=
  (debugAssert _).bind fun _ => (usub _ _).bind fun _ => refl _

theorem alignedMaxCapacity (x : Nat) : DR (SerRaw.alignedMaxCapacity (A.build true) x : M σ Nat) (SerRaw.alignedMaxCapacity (A.build false) x) :=
  (refl _).bind fun _ => (refl _).bind fun _ => (refl _).bind fun _ => (usub _ _).bind fun _ => usub _ _

theorem alignedMaxU32Capacity (x : Nat) :
    DR (SerRaw.alignedMaxU32Capacity (A.build true) x : M σ Nat) (SerRaw.alignedMaxU32Capacity (A.build false) x) :=
  (refl _).bind fun _ => (refl _).bind fun _ => (refl _).bind fun _ => ite (uadd _ _) ((usub _ _).bind fun _ => usub _ _)

/-! ### storage -/

variable {C : Cfg}

theorem alloc (n : Nat) : DR (Sto.alloc (C.build true) n) (Sto.alloc (C.build false) n) :=
  (debugAssert _).bind fun _ => (debugAssertM ((Quiet.alignedMaxCapacity _ _).bind fun _ => Quiet.pure _)).bind fun _ =>
    (of_eq (show heapAlloc (C.build true) ⟨n, C.storageAlign⟩ = heapAlloc (C.build false) ⟨n, C.storageAlign⟩ from rfl)).bind fun _ => refl _

theorem realloc (n : Nat) : DR (Sto.realloc (C.build true) n) (Sto.realloc (C.build false) n) :=
  (refl _).bind fun _ => (debugAssert _).bind fun _ => (debugAssert _).bind fun _ =>
    (debugAssertM ((Quiet.alignedMaxCapacity _ _).bind fun _ => Quiet.pure _)).bind fun s =>
    (of_eq rfl).bind fun _ => refl _

theorem dealloc : DR (Sto.dealloc (C.build true)) (Sto.dealloc (C.build false)) :=
  (refl _).bind fun _ => (debugAssert _).bind fun _ => of_eq rfl

theorem withCapacityUnchecked (n : Nat) : DR (Sto.withCapacityUnchecked (C.build true) n) (Sto.withCapacityUnchecked (C.build false) n) :=
  (debugAssert _).bind fun _ => (debugAssert _).bind fun _ => (debugAssertM (Quiet.isAlignedTo _ _ _)).bind fun _ =>
    (alloc _).bind fun _ => refl _

theorem withCapacity (n : Nat) : DR (Sto.withCapacity (C.build true) n) (Sto.withCapacity (C.build false) n) :=
  ite (refl _) ((refl _).bind fun _ => (alignUpTo _ _).bind fun _ => withCapacityUnchecked _)

theorem setPos (n : Nat) : DR (Sto.setPos (C.build true) n) (Sto.setPos (C.build false) n) :=
  (refl _).bind fun _ => (debugAssert _).bind fun _ => (debugAssertM (Quiet.isAlignedTo _ _ _)).bind fun _ => refl _

theorem align (n : Nat) : DR (Sto.align (C.build true) n) (Sto.align (C.build false) n) :=
  (debugAssert _).bind fun _ => (debugAssert _).bind fun _ => (debugAssert _).bind fun _ => (refl _).bind fun _ =>
    (alignUpTo _ _).bind fun _ => setPos _

theorem alignFor (L : Layout) : DR (Sto.alignFor (C.build true) L) (Sto.alignFor (C.build false) L) := ite (align _) (refl _)

theorem alignAfterAny : DR (Sto.alignAfterAny (C.build true)) (Sto.alignAfterAny (C.build false)) := align _

theorem alignAfter (L : Layout) : DR (Sto.alignAfter (C.build true) L) (Sto.alignAfter (C.build false) L) := ite alignAfterAny (refl _)

theorem growForReserve (n : Nat) : DR (Sto.growForReserve (C.build true) n) (Sto.growForReserve (C.build false) n) :=
  (debugAssert _).bind fun _ => (refl _).bind fun _ => (refl _).bind fun _ => (unextPow2 _).bind fun _ =>
    (ite (refl _) (unextPow2 _)).bind fun _ => (refl _).bind fun _ =>
      ite ((alloc _).bind fun _ => refl _) ((realloc _).bind fun _ => refl _)

theorem reserve (n : Nat) : DR (Sto.reserve (C.build true) n) (Sto.reserve (C.build false) n) :=
  (refl _).bind fun _ => (refl _).bind fun _ => ite (growForReserve _) (refl _)

theorem writeSlice (p : Nat) (L : Layout) (len : Nat) (d : Nat → Cell) :
    DR (Sto.writeSlice (C.build true) p L len d) (Sto.writeSlice (C.build false) p L len d) :=
  (refl _).bind fun _ => (debugAssert _).bind fun _ =>
    (debugAssertM ((Quiet.usub _ _ _).bind fun _ => (Quiet.umul _ _ _).bind fun _ => Quiet.pure _)).bind fun _ =>
    (debugAssertM (Quiet.isAlignedTo _ _ _)).bind fun _ => refl _

theorem write (p : Nat) (L : Layout) (d : Nat → Cell) : DR (Sto.write (C.build true) p L d) (Sto.write (C.build false) p L d) :=
  writeSlice _ _ _ _

theorem pushSliceUnchecked (L : Layout) (len : Nat) (d : Nat → Cell) (size : Nat) :
    DR (Sto.pushSliceUnchecked (C.build true) L len d size) (Sto.pushSliceUnchecked (C.build false) L len d size) :=
  (refl _).bind fun _ => (refl _).bind fun _ => (debugAssertM ((Quiet.usub _ _ _).bind fun _ => Quiet.pure _)).bind fun _ =>
    (debugAssertM ((Quiet.umul _ _ _).bind fun _ => Quiet.pure _)).bind fun _ => (debugAssertM (Quiet.isAlignedTo _ _ _)).bind fun _ =>
    ite (refl _) ((writeSlice _ _ _ _).bind fun _ => (uadd _ _).bind fun _ => refl _)

theorem stoPushSlice (L : Layout) (len : Nat) (d : Nat → Cell) :
    DR (Sto.pushSlice (C.build true) L len d) (Sto.pushSlice (C.build false) L len d) :=
  ite (refl _) ((alignFor _).bind fun _ => (umul _ _).bind fun _ => (reserve _).bind fun _ => (refl _).bind fun _ =>
    (pushSliceUnchecked _ _ _ _).bind fun _ => (alignAfter _).bind fun _ => refl _)

theorem stoPushEmptySlice (L : Layout) (len : Nat) :
    DR (Sto.pushEmptySlice (C.build true) L len) (Sto.pushEmptySlice (C.build false) L len) :=
  (alignFor _).bind fun _ => (umul _ _).bind fun _ => (reserve _).bind fun _ => (refl _).bind fun _ =>
    (uadd _ _).bind fun _ => (setPos _).bind fun _ => (alignAfter _).bind fun _ => refl _

theorem clear : DR (Sto.clear (C.build true)) (Sto.clear (C.build false)) := setPos _

theorem shrinkToFit : DR (Sto.shrinkToFit (C.build true)) (Sto.shrinkToFit (C.build false)) :=
  (refl _).bind fun _ => (alignUpTo _ _).bind fun _ => (refl _).bind fun _ =>
    ite (ite (dealloc.bind fun _ => refl _) ((realloc _).bind fun _ => refl _)) (refl _)

theorem read (p : Nat) (L : Layout) : DR (Sto.read (C.build true) p L) (Sto.read (C.build false) p L) :=
  (refl _).bind fun _ => (debugAssertM ((Quiet.uadd _ _ _).bind fun _ => Quiet.pure _)).bind fun _ =>
    (debugAssertM (Quiet.isAlignedTo _ _ _)).bind fun _ => refl _

theorem ptrAt (p : Nat) : DR (Sto.ptrAt (C.build true) p) (Sto.ptrAt (C.build false) p) :=
  (refl _).bind fun _ => (debugAssert _).bind fun _ => (debugAssert _).bind fun _ => refl _

theorem drop : DR (Sto.drop (C.build true)) (Sto.drop (C.build false)) := (refl _).bind fun _ => ite dealloc (refl _)

/-- Every storage operation of a history. -/
theorem sop (o : SOp) : DR (o.run (C.build true)) (o.run (C.build false)) := by
  cases o with
  | pushSlice L len d => exact stoPushSlice _ _ _
  | pushEmptySlice L len => exact stoPushEmptySlice _ _
  | reserve n => exact (reserve _).bind fun _ => refl _
  | alignFor L => exact (alignFor _).bind fun _ => refl _
  | alignAfter L => exact (alignAfter _).bind fun _ => refl _
  | alignAfterAny => exact alignAfterAny.bind fun _ => refl _
  | clear => exact clear.bind fun _ => refl _
  | shrinkToFit => exact shrinkToFit.bind fun _ => refl _
  | writeSlice p L len d => exact (writeSlice _ _ _ _).bind fun _ => refl _

/-! ### serializer -/

theorem lift {α} {x y : M Sto α} (h : DR x y) : DR (Ser.lift x) (Ser.lift y) := by
  intro s
  unfold Ser.lift
  rcases h s.sto with ⟨k, s', h, hk⟩ | h
  · rw [h]; exact .inl ⟨k, _, rfl, hk⟩
  · rw [h]; exact .inr rfl

theorem addrOff {σ} (k : Kind) (a off : Nat) :
    DR (addrFromRefOffset (C.build true).arch k a off : M σ Nat) (addrFromRefOffset (C.build false).arch k a off) :=
  ite (uadd _ _) (refl _)

theorem posForAddr {σ} (m : PosMapping) (a : Nat) : DR (m.posForAddr (A.build true) a : M σ Nat) (m.posForAddr (A.build false) a) :=
  (usub _ _).bind fun _ => uadd _ _

theorem correctPtr (p s q : Nat) : DR (SerRaw.correctPtr (A.build true) p s q) (SerRaw.correctPtr (A.build false) p s q) := of_eq rfl

theorem correctLoop (p s : Nat) (qs : List Nat) : DR (SerRaw.correctLoop (A.build true) p s qs) (SerRaw.correctLoop (A.build false) p s qs) := by
  induction qs with
  | nil => exact refl _
  | cons q qs ih => exact (correctPtr _ _ _).bind fun _ => ih

theorem correctPtrs (g : PtrGroup) (p : Nat) : DR (g.correctPtrs (A.build true) p) (g.correctPtrs (A.build false) p) := correctLoop _ _ _

theorem correctPast (p : Nat) (gs : List PtrGroup) :
    DR (Complete.correctPast (A.build true) p gs) (Complete.correctPast (A.build false) p gs) := by
  induction gs with
  | nil => exact refl _
  | cons g gs ih => exact (ite (correctPtrs _ _) (refl _)).bind fun _ => ih

theorem doFinalize : DR (Complete.doFinalize (C.build true)) (Complete.doFinalize (C.build false)) :=
  (refl _).bind fun _ => (ite (lift (correctPtrs _ _)) (refl _)).bind fun _ => lift (correctPast _ _)

theorem finalize (k : Kind) : DR (SerRaw.finalize (C.build true) k) (SerRaw.finalize (C.build false) k) := by
  cases k with
  | complete => exact doFinalize
  | _ => exact refl _

theorem overwritePtr (k : Kind) (x y : Nat) : DR (SerRaw.overwritePtr (C.build true) k x y) (SerRaw.overwritePtr (C.build false) k x y) := by
  cases k with
  | pureCopy => exact refl _
  | posTracking => exact refl _
  | ptrOffset =>
    exact (refl _).bind fun _ => (debugAssertM ((Quiet.usub _ _ _).bind fun _ => Quiet.pure _)).bind fun _ =>
      (debugAssertM (Quiet.isAlignedTo _ _ _)).bind fun _ => (debugAssert _).bind fun _ => lift (write _ _ _)
  | complete =>
    exact (refl _).bind fun _ => (debugAssertM ((Quiet.usub _ _ _).bind fun _ => Quiet.pure _)).bind fun _ =>
      (debugAssertM (Quiet.isAlignedTo _ _ _)).bind fun _ => (debugAssert _).bind fun _ => (refl _).bind fun _ =>
      (uadd _ _).bind fun _ => (lift (write _ _ _)).bind fun _ => refl _

theorem pushRawSlice (sl : Slice) : DR (SerRaw.pushRawSlice (C.build true) sl) (SerRaw.pushRawSlice (C.build false) sl) :=
  lift (stoPushSlice _ _ _)

theorem pushAndProcessSlice (k : Kind) (sl : Slice) (p : Nat) {x y : M Ser Unit} (h : DR x y) :
    DR (SerRaw.pushAndProcessSlice (C.build true) k sl p x) (SerRaw.pushAndProcessSlice (C.build false) k sl p y) := by
  cases k with
  | pureCopy => exact (pushRawSlice _).bind fun _ => h.bind fun _ => refl _
  | posTracking =>
    exact (refl _).bind fun _ => (lift (stoPushSlice _ _ _)).bind fun _ => (refl _).bind fun _ => h.bind fun _ => refl _
  | ptrOffset =>
    exact (refl _).bind fun _ => (lift (stoPushSlice _ _ _)).bind fun _ => (posForAddr _ _).bind fun _ => (overwritePtr _ _ _).bind fun _ =>
      (refl _).bind fun _ => h.bind fun _ => refl _
  | complete =>
    exact (refl _).bind fun _ => (lift (stoPushSlice _ _ _)).bind fun _ => (posForAddr _ _).bind fun _ => (overwritePtr _ _ _).bind fun _ =>
      (refl _).bind fun _ => h.bind fun _ => refl _

theorem pushSlice (k : Kind) (sl : Slice) (p : Nat) :
    DR (SerRaw.pushSlice (C.build true) k sl p) (SerRaw.pushSlice (C.build false) k sl p) := by
  cases k with
  | pureCopy =>
    show DR (SerRaw.pushAndProcessSlice (C.build true) .pureCopy sl p (pure ())) (SerRaw.pushAndProcessSlice (C.build false) .pureCopy sl p (pure ()))
    exact pushAndProcessSlice (C := C) .pureCopy sl p (refl _)
  | posTracking => exact pushRawSlice _
  | ptrOffset =>
    exact (pushRawSlice _).bind fun _ => (refl _).bind fun _ => (posForAddr _ _).bind fun _ => (overwritePtr _ _ _).bind fun _ => refl _
  | complete =>
    exact (pushRawSlice _).bind fun _ => (refl _).bind fun _ => (posForAddr _ _).bind fun _ => (overwritePtr _ _ _).bind fun _ => refl _

theorem overwrite (k : Kind) (a : Nat) (L : Layout) (d : Nat → Cell) :
    DR (SerRaw.overwrite (C.build true) k a L d) (SerRaw.overwrite (C.build false) k a L d) := by
  cases k with
  | complete => exact (refl _).bind fun _ => (posForAddr _ _).bind fun _ => lift (write _ _ _)
  | _ => exact refl _

theorem overwriteWith (k : Kind) {x y : M Ser Unit} (h : DR x y) : DR (SerRaw.overwriteWith k x) (SerRaw.overwriteWith k y) := by
  cases k with
  | complete => exact h
  | _ => exact refl _

theorem serializeValue (k : Kind) (L : Layout) (a : Nat) (d : Nat → Cell) {x y : M Ser Unit} (h : DR x y) :
    DR (SerRaw.serializeValue (C.build true) k L a d x) (SerRaw.serializeValue (C.build false) k L a d y) := by
  cases k with
  | pureCopy => exact (pushRawSlice _).bind fun _ => h.bind fun _ => refl _
  | _ => exact (pushRawSlice _).bind fun _ => (refl _).bind fun _ => h.bind fun _ => refl _

/-! ### serialize_impls -/

variable {P : Prog} {im : Mem}

theorem readIn {σ} (a : Nat) : DR (SerRaw.readIn (A.build true) im a : M σ Nat) (SerRaw.readIn (A.build false) im a) := of_eq rfl

theorem bigintDataOffset {σ} (u : TyId) : DR (SerRaw.bigintDataOffset (A.build true) P u : M σ Nat) (SerRaw.bigintDataOffset (A.build false) P u) :=
  of_eq rfl

theorem overwriteCapAndPtr (k : Kind) (off : VecOffsets) (dangle a : Nat) :
    DR (overwriteCapAndPtrForEmpty (C.build true) k off dangle a) (overwriteCapAndPtrForEmpty (C.build false) k off dangle a) := by
  unfold overwriteCapAndPtrForEmpty
  exact ite (overwrite _ _ _ _) (ite (overwrite _ _ _ _) (ite ((addrOff _ _ _).bind fun _ => overwrite _ _ _ _)
    (ite ((addrOff _ _ _).bind fun _ => overwrite _ _ _ _)
      ((addrOff _ _ _).bind fun _ => (overwrite _ _ _ _).bind fun _ => (addrOff _ _ _).bind fun _ => overwrite _ _ _ _))))

theorem serEach {r r' : TyId → Nat → M Ser Unit} (h : ∀ t a, DR (r t a) (r' t a)) (a : Nat) (fs : List Field) :
    DR (SerRaw.serEach r a fs) (SerRaw.serEach r' a fs) := by
  induction fs with
  | nil => exact refl _
  | cons f fs ih => exact (h _ _).bind fun _ => ih

theorem serVec {k : Kind} {r r' : TyId → Nat → M Ser Unit} (h : ∀ t a, DR (r t a) (r' t a)) (t a : Nat) :
    DR (SerRaw.serVec (C.build true) k P im r t a) (SerRaw.serVec (C.build false) k P im r' t a) := by
  unfold SerRaw.serVec
  refine ite (refl _) ?_
  refine (readIn _).bind fun _ => (readIn _).bind fun _ => (readIn _).bind fun _ => (refl _).bind fun _ => ?_
  refine ite (overwriteWith _ (ite (overwriteCapAndPtr _ _ _ _) (refl _))) ?_
  exact (overwriteWith _ (ite ((addrOff _ _ _).bind fun _ => overwrite _ _ _ _) (refl _))).bind fun _ => (addrOff _ _ _).bind fun _ =>
    (pushAndProcessSlice _ _ _ (serEach h _ _)).bind fun _ => refl _

theorem serString {k : Kind} (a : Nat) :
    DR (SerRaw.serString (C.build true) k P im a) (SerRaw.serString (C.build false) k P im a) := by
  unfold SerRaw.serString
  refine (readIn _).bind fun _ => (readIn _).bind fun _ => (readIn _).bind fun _ => (refl _).bind fun _ => ?_
  refine ite (overwriteWith _ (ite (overwriteCapAndPtr _ _ _ _) (refl _))) ?_
  exact (overwriteWith _ (ite ((addrOff _ _ _).bind fun _ => overwrite _ _ _ _) (refl _))).bind fun _ => (addrOff _ _ _).bind fun _ =>
    (pushSlice _ _ _).bind fun _ => refl _

theorem serData (k : Kind) (n t a : Nat) :
    DR (SerRaw.serData (C.build true) k P im n t a) (SerRaw.serData (C.build false) k P im n t a) := by
  induction n generalizing t a with
  | zero => exact refl _
  | succ n ih =>
    rw [SerRaw.serData, SerRaw.serData]
    cases P.defn t with
    | prim => exact refl _
    | box u => exact ite (refl _) ((readIn _).bind fun _ => (pushAndProcessSlice _ _ _ (ih _ _)).bind fun _ => refl _)
    | vec u => exact serVec ih _ _
    | string => exact serString _
    | array u k => exact serEach ih _ _
    | struct fs => exact serEach ih _ _
    | enum tag vs =>
      have e : activeVariant (C.build true).arch im a tag = activeVariant (C.build false).arch im a tag := rfl
      simp only [serEnum, e]
      split
      · exact refl _
      · split
        · exact refl _
        · exact serEach ih _ _
    | bigUint u => exact serVec ih _ _
    | bigInt u =>
      simp only [serBigInt]
      split
      · exact (bigintDataOffset _).bind fun _ => ih _ _
      · exact refl _

theorem serValues (k : Kind) (n : Nat) (rs : List Root) : DR (SerRaw.serValues (C.build true) k P n rs) (SerRaw.serValues (C.build false) k P n rs) := by
  induction rs with
  | nil => exact refl _
  | cons r rs ih => exact (serializeValue _ _ _ _ (serData _ _ _ _)).bind fun _ => ih.bind fun _ => refl _

theorem session (k : Kind) (n : Nat) (rs : List Root) : DR (SerRaw.session (C.build true) k P n rs) (SerRaw.session (C.build false) k P n rs) :=
  (serValues k n rs).bind fun _ => (finalize k).bind fun _ => refl _

end DR
end SerRaw
