import Verif.Model.SafeCalls
import Verif.Lemmas.Refine
import Verif.Lemmas.History
import Verif.Props.PosEx
/-
C44: which safe uses of a serializer are memory-safe.
-/
namespace SerRaw

/-- No undefined behaviour, and whatever is left behind (on return or panic) is a consistent storage. -/
def SafeOut {α} (C : Cfg) (o : Out Ser α) : Prop :=
  match o with
  | .ok _ s | .panic _ s => s.sto.Inv C
  | .abort => True
  | .ub | .fuel => False

section
variable {C : Cfg}

/-- Safe from every consistent state. -/
def SafeM {α} (C : Cfg) (x : M Ser α) : Prop := ∀ s, s.sto.Inv C → SafeOut C (x s)

theorem SafeM.pure {α} (a : α) : SafeM C (pure a : M Ser α) := fun _ h => h
theorem SafeM.bind {α β} {x : M Ser α} {f : α → M Ser β} (hx : SafeM C x) (hf : ∀ a, SafeM C (f a)) : SafeM C (x >>= f) := by
  intro s h
  have h1 := hx s h
  rw [bind_def]
  cases e : x s with
  | ok a s' => rw [e] at h1; exact hf a s' h1
  | panic k s' => rw [e] at h1; exact h1
  | abort => exact True.intro
  | ub => rw [e] at h1; exact h1
  | fuel => rw [e] at h1; exact h1
theorem SafeM.setMap (m : PosMapping) : SafeM C (Ser.setMap m) := fun _ h => h
theorem SafeM.getMap : SafeM C Ser.getMap := fun _ h => h
theorem SafeM.setPtrs (f : Ser → Ptrs) : SafeM C (M.modify fun s => { s with ptrs := f s }) := fun _ h => h
theorem SafeM.catch {x : M Ser Unit} (hx : SafeM C x) : SafeM C (catchPanic x) := by
  intro s h
  have h1 := hx s h
  unfold catchPanic
  cases e : x s <;> rw [e] at h1 <;> exact h1

theorem SafeM.sto (hC : C.OK) {op : SOp} (ho : op.Safe C) : SafeM C (Ser.lift (op.run C)) := by
  intro s h
  have hl : op.Legal C s.sto := by
    cases op with
    | pushSlice L len d => exact ⟨ho.1, ho.2.1, ho.2.2.1, ho.2.2.2.imp id fun x => x.imp id Or.inr⟩
    | writeSlice => exact ho.elim
    | _ => exact ho
  have := step_sat hC h hl
  unfold Ser.lift
  cases e : op.run C s.sto with
  | ok a t => rw [e] at this; exact this.inv
  | panic k t => rw [e] at this; exact this.inv
  | abort => exact True.intro
  | ub => rw [e] at this; exact this
  | fuel => rw [e] at this; exact this

theorem SafeM.pushSto (hC : C.OK) {L : Layout} {len : Nat} (hs : SafeSlice C L len) (d : Nat → Cell) :
    SafeM C (Ser.lift (Sto.pushSlice C L len d)) := SafeM.sto hC (op := .pushSlice L len d) hs

theorem SafeM.usub (A : Arch) (x y : Nat) : SafeM C (SerRaw.usub A x y : M Ser Nat) := by
  intro s h; unfold SerRaw.usub; split
  · exact h
  · split <;> exact h
theorem SafeM.uadd (A : Arch) (x y : Nat) : SafeM C (SerRaw.uadd A x y : M Ser Nat) := by
  intro s h; unfold SerRaw.uadd; split
  · exact h
  · split <;> exact h

/-- In a debug build a pointer write is checked. -/
theorem SafeM.overwritePtr (hC : C.OK) (hd : C.arch.debug = true) (hp : C.arch.ptrBytes ≤ C.storageAlign) (k : Kind) (x y : Nat) :
    SafeM C (SerRaw.overwritePtr C k x y) := by
  have key : ∀ (s : Ser), s.sto.Inv C → (x + C.arch.ptrBytes ≤ s.sto.vec.capacity) → C.arch.ptrBytes ∣ x → ∀ w,
      ∃ t, Sto.write C x ⟨C.arch.ptrBytes, C.arch.ptrBytes⟩ w s.sto = .ok () t ∧ t.Inv C ∧ t.vec = s.sto.vec := by
    intro s h h1 h2 w
    have hpp := hC.arch.ptr_pos
    obtain ⟨t, e1, e2, _, e3, _⟩ := writeSlice_ok hC h.toWInv (p := x) (len := 1) (L := ⟨C.arch.ptrBytes, C.arch.ptrBytes⟩) w
      (by simp only; omega) (by omega) (by simp only; omega) hC.arch.ptr_pow2 h2 hp
    exact ⟨t, e1, ⟨e3, by rw [e2]; exact h.pos_dvd⟩, e2⟩
  have hchk : ∀ {α} (s : Ser) (f : M Ser α), s.sto.Inv C →
      (x + C.arch.ptrBytes ≤ s.sto.vec.capacity → C.arch.ptrBytes ∣ x → SafeOut C (f s)) →
      SafeOut C ((do
        let cap ← Ser.getCapacity
        M.debugAssertM C.arch (do let z ← SerRaw.usub C.arch cap C.arch.ptrBytes; Pure.pure (decide (x ≤ z)))
        M.debugAssertM C.arch (isAlignedTo C.arch x C.arch.ptrBytes)
        M.debugAssert C.arch (decide (y ≤ cap))
        f : M Ser α) s) := by
    intro α s f h hf
    rw [bind_ok (show Ser.getCapacity s = .ok s.sto.vec.capacity s from rfl)]
    by_cases h0 : C.arch.ptrBytes ≤ s.sto.vec.capacity
    · by_cases h1 : x ≤ s.sto.vec.capacity - C.arch.ptrBytes
      · rw [bind_ok (debugAssertM_ok C.arch fun _ => by rw [bind_ok (usub_ok _ h0 s)]; simp [h1])]
        by_cases h2 : C.arch.ptrBytes ∣ x
        · rw [bind_ok (debugAssertM_ok C.arch fun _ => by rw [isAlignedTo_ok hC.arch.ptr_pow2]; simp [h2])]
          by_cases h3 : y ≤ s.sto.vec.capacity
          · rw [bind_ok (debugAssert_true C.arch (decide_eq_true h3) s)]
            exact hf (by omega) h2
          · rw [bind_def]; simp only [M.debugAssert, hd, h3]; exact h
        · rw [bind_def]; unfold M.debugAssertM; rw [if_pos hd, bind_ok (isAlignedTo_ok hC.arch.ptr_pow2 s)]
          simp only [M.debugAssert, hd, h2]; exact h
      · rw [bind_def]; unfold M.debugAssertM; rw [if_pos hd, bind_assoc_M, bind_ok (usub_ok _ h0 s), pure_bind_M]
        simp only [M.debugAssert, hd, h1]; exact h
    · rw [bind_def]; unfold M.debugAssertM; rw [if_pos hd]
      have : SerRaw.usub C.arch s.sto.vec.capacity C.arch.ptrBytes s = .panic .arith s := by
        unfold SerRaw.usub; rw [if_neg (by omega), if_pos hd]
      rw [bind_def, bind_def, this]; exact h
  intro s h
  cases k with
  | pureCopy => exact h
  | posTracking => exact h
  | ptrOffset =>
    refine hchk s _ h fun h1 h2 => ?_
    obtain ⟨t, e1, e2, _⟩ := key s h h1 h2 (wordCells C.arch y)
    rw [lift_ok e1]; exact e2
  | complete =>
    refine hchk s _ h fun h1 h2 => ?_
    rw [bind_ok (show M.get s = .ok s s from rfl)]
    have hadd : (∃ a, SerRaw.uadd C.arch s.sto.asPtr y s = .ok a s) ∨ SerRaw.uadd C.arch s.sto.asPtr y s = .panic .arith s := by
      unfold SerRaw.uadd; split
      · exact Or.inl ⟨_, rfl⟩
      · exact Or.inr (by first | rfl | rw [if_pos hd])
    rcases hadd with ⟨a, ha⟩ | ha
    · obtain ⟨t, e1, e2, _⟩ := key s h h1 h2 (wordCells C.arch a)
      rw [bind_ok ha, bind_ok (lift_ok e1)]; exact e2
    · rw [bind_def, ha]; exact h

theorem SafeM.posForAddr (A : Arch) (m : PosMapping) (x : Nat) : SafeM C (m.posForAddr A x) :=
  (SafeM.usub A _ _).bind fun _ => SafeM.uadd A _ _

/-- The calls are safe if pointer writes are. -/
theorem SafeM.calls (hC : C.OK) {k : Kind} (hk : ∀ x y, SafeM C (SerRaw.overwritePtr C k x y)) {c : SafeCalls} (hc : c.Compiles C) :
    SafeM C (c.run C k) := by
  have hpp : ∀ {sl : Slice} {a : Nat} {x : M Ser Unit}, SafeSlice C sl.L sl.len → SafeM C x → SafeM C (pushAndProcessSlice C k sl a x) := by
    intro sl a x hs hx
    have hps := SafeM.pushSto hC hs sl.data
    have hpw : SafeM C (PtrWriting.doPushAndProcessSlice C k sl a x) :=
      SafeM.getMap.bind fun _ => hps.bind fun _ => (SafeM.posForAddr _ _ _).bind fun _ => (hk _ _).bind fun _ =>
        (SafeM.setMap _).bind fun _ => hx.bind fun _ => (SafeM.setMap _).bind fun _ => SafeM.pure _
    cases k with
    | pureCopy => exact hps.bind fun _ => hx.bind fun _ => SafeM.pure _
    | posTracking =>
      exact SafeM.getMap.bind fun _ => hps.bind fun _ => (SafeM.setMap _).bind fun _ => hx.bind fun _ =>
        (SafeM.setMap _).bind fun _ => SafeM.pure _
    | ptrOffset => exact hpw
    | complete => exact hpw
  induction c with
  | done => exact SafeM.pure ()
  | push sl a rest ih =>
    obtain ⟨hs, hr⟩ := hc
    have hps := SafeM.pushSto hC hs sl.data
    have hpw : SafeM C (PtrWriting.doPushSlice C k sl (addrFromRef k a)) :=
      hps.bind fun _ => SafeM.getMap.bind fun _ => (SafeM.posForAddr _ _ _).bind fun _ => (hk _ _).bind fun _ => SafeM.pure _
    refine SafeM.bind ?_ fun _ => ih hr
    cases k with
    | pureCopy => exact hpp (a := addrFromRef .pureCopy a) hs (SafeM.pure ())
    | posTracking => exact hps
    | ptrOffset => exact hpw
    | complete => exact hpw
  | pushProcess sl a inner rest ih1 ih2 => exact (hpp hc.1 (ih1 hc.2.1)).bind fun _ => ih2 hc.2.2
  | sto op rest ih => exact (SafeM.sto hC hc.1).bind fun _ => ih hc.2
  | overwriteWith inner rest ih1 ih2 =>
    refine SafeM.bind ?_ fun _ => ih2 hc.2
    cases k <;> first | exact SafeM.pure () | exact ih1 hc.1
  | serializeValue L a d inner rest ih1 ih2 =>
    refine SafeM.bind ?_ fun _ => ih2 hc.2.2
    have hps := SafeM.pushSto hC hc.1 d
    cases k with
    | pureCopy => exact hps.bind fun _ => (ih1 hc.2.1).bind fun _ => SafeM.pure _
    | _ => exact hps.bind fun _ => (SafeM.setMap _).bind fun _ => (ih1 hc.2.1).bind fun _ => SafeM.pure _
  | setMapping m rest ih => exact (SafeM.setMap m).bind fun _ => ih hc
  | setPtrs p rest ih => exact (SafeM.setPtrs fun _ => p).bind fun _ => ih hc
  | catchUnwind inner rest ih1 ih2 => exact (SafeM.catch (ih1 hc.1)).bind fun _ => ih2 hc.2

/-- C44, serializers which do not write pointers (`PureCopySerializer`, and derived position-tracking ones): whatever safe calls
are made, in whatever build, on a storage with any history, followed by `finalize`: never undefined behaviour, and a consistent
storage is left behind even if something panics. -/
theorem C44_no_pointers (hC : C.OK) {k : Kind} (hk : k = .pureCopy ∨ k = .posTracking) {c : SafeCalls} (hc : c.Compiles C)
    {es : List SEvent} {t : Sto} (h : Hist C es t) :
    SafeOut C ((do c.run C k; finalize C k : M Ser Unit) (Ser.fromStorage t)) := by
  refine SafeM.bind (SafeM.calls hC (fun x y => ?_) hc) (fun _ => ?_) _ (h.inv hC)
  · rcases hk with rfl | rfl <;> exact SafeM.pure ()
  · rcases hk with rfl | rfl <;> exact SafeM.pure ()

/-- C44, pointer-writing serializers in a debug build (storage alignment at least that of pointers): whatever addresses are
passed, the calls before `finalize` never have undefined behaviour; a pointer write outside the buffer panics instead. For
`PtrOffsetSerializer`, `finalize` is included. -/
theorem C44_debug_calls (hC : C.OK) (hd : C.arch.debug = true) (hp : C.arch.ptrBytes ≤ C.storageAlign) (k : Kind) {c : SafeCalls}
    (hc : c.Compiles C) {es : List SEvent} {t : Sto} (h : Hist C es t) :
    SafeOut C (c.run C k (Ser.fromStorage t)) ∧
    (k = .ptrOffset → SafeOut C ((do c.run C k; finalize C k : M Ser Unit) (Ser.fromStorage t))) := by
  refine ⟨SafeM.calls hC (fun x y => SafeM.overwritePtr hC hd hp k x y) hc _ (h.inv hC), ?_⟩
  rintro rfl
  exact SafeM.bind (SafeM.calls hC (fun x y => SafeM.overwritePtr hC hd hp _ x y) hc) (fun _ => SafeM.pure ()) _ (h.inv hC)

end

/-- The hypotheses are met by a program which uses a wild address, catches the panic, rewinds the storage and goes on. -/
def exSafe : SafeCalls :=
  .catchUnwind (.serializeValue ⟨16, 8⟩ 4096 (fun _ => some 1)
    (.pushProcess ⟨⟨8, 8⟩, 2, 8192, fun _ => some 2⟩ 4104 (.push ⟨⟨4, 4⟩, 3, 12288, fun _ => some 3⟩ 0x7000000 .done) .done) .done)
  (.sto .clear (.sto .shrinkToFit (.setMapping ⟨77, 3⟩ (.push ⟨⟨1, 1⟩, 5, 100, fun _ => none⟩ 80 .done))))

theorem exSafe_compiles : exSafe.Compiles cfg64 := by
  simp only [exSafe, SafeCalls.Compiles, SafeSlice, SOp.Safe, Layout.OK]
  have e8 : ∃ e, 8 = 2 ^ e := ⟨3, rfl⟩
  have e4 : ∃ e, 4 = 2 ^ e := ⟨2, rfl⟩
  have e1 : ∃ e, 1 = 2 ^ e := ⟨0, rfl⟩
  refine ⟨⟨⟨⟨e8, by decide⟩, by decide, by decide, by decide⟩, ⟨⟨⟨e8, by decide⟩, by decide, by decide, by decide⟩,
    ⟨⟨⟨e4, by decide⟩, by decide, by decide, by decide⟩, trivial⟩, trivial⟩, trivial⟩, trivial, trivial, ⟨⟨e1, by decide⟩, by decide, by decide, by decide⟩, trivial⟩

/-- C44 applies to it, on every serializer. -/
example (k : Kind) (hk : k = .pureCopy ∨ k = .posTracking) :
    SafeOut cfg64 ((do exSafe.run cfg64 k; finalize cfg64 k : M Ser Unit) (Ser.fromStorage Sto.new)) :=
  C44_no_pointers (C := cfg64) (k := k) (c := exSafe) (es := []) (t := Sto.new) cfg64_ok hk exSafe_compiles .new
example (k : Kind) : SafeOut cfg64 (exSafe.run cfg64 k (Ser.fromStorage Sto.new)) ∧
    (k = .ptrOffset → SafeOut cfg64 ((do exSafe.run cfg64 k; finalize cfg64 k : M Ser Unit) (Ser.fromStorage Sto.new))) :=
  C44_debug_calls (C := cfg64) (c := exSafe) (es := []) (t := Sto.new) cfg64_ok rfl (by decide) k exSafe_compiles .new

def Out.isUB {σ α} : Out σ α → Bool
  | .ub => true
  | _ => false
theorem Out.eq_ub {σ α} {o : Out σ α} (h : o.isUB = true) : o = .ub := by cases o <;> first | rfl | cases h

/-- Even in a debug build and without `clear`, safe calls before it can make `finalize` of a `CompleteSerializer` undefined: an
address past the end of the value lets a pointer be recorded in the unused part of the buffer, which `shrink_to_fit` gives back. -/
theorem C44_debug_finalize_ub :
    (do SafeCalls.run cfg64 .complete (.sto (.reserve 100) (.serializeValue ⟨8, 8⟩ 4096 (fun _ => some 0)
          (.push ⟨⟨8, 8⟩, 1, 8192, fun _ => some 0⟩ (4096 + 64) .done) (.sto .shrinkToFit .done)))
        finalize cfg64 .complete : M Ser Unit) (Ser.fromStorage Sto.new) = .ub := Out.eq_ub (by decide +kernel)

/-- Finding F16: `ptrs_mut()` is a safe method; an entry pushed through it makes `finalize` write anywhere. -/
theorem C44_ptrs_mut_ub :
    (do SafeCalls.run cfg64 .complete (.serializeValue ⟨8, 8⟩ 4096 (fun _ => some 0) (.setPtrs ⟨⟨1, [2 ^ 40]⟩, []⟩ .done) .done)
        finalize cfg64 .complete : M Ser Unit) (Ser.fromStorage Sto.new) = .ub := Out.eq_ub (by decide +kernel)

end SerRaw
