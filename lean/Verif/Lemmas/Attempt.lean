import Verif.Spec.Attempt
import Verif.Lemmas.UserPanic
import Verif.Lemmas.StepRel
/-
Implementations that catch panics: what they do is what the calls of their trace do.
-/
namespace SerRaw

section
variable {C : Cfg} {k : Kind} {im : Mem}
open StepRel.Holds

/-! ### Writes keep the storage consistent, whatever is written where -/

/-- The storage is where it was, and still consistent. -/
def stillSteps (C : Cfg) : StepRel Sto where
  R s t := t.vec = s.vec ∧ (s.Inv C → t.Inv C)
  refl _ := ⟨rfl, id⟩
  trans h1 h2 := ⟨h2.1.trans h1.1, fun h => h2.2 (h1.2 h)⟩

theorem still_memWrite (a al n : Nat) (d : Nat → Cell) : (stillSteps C).Holds (memWrite a al n d) := by
  intro s
  unfold memWrite
  split
  · trivial
  · split
    · exact (stillSteps C).refl s
    · split
      · refine ⟨rfl, fun h => ⟨⟨h.pos_le, h.cap_le, h.cap_dvd, ?_⟩, h.pos_dvd⟩⟩
        rcases h.mem with ⟨h1, h2, h3⟩ | ⟨h1, h2, h3, h4, d', h5⟩
        · exact .inl ⟨h1, h2, by simp only [h3, writeLive]⟩
        · refine .inr ⟨h1, h2, h3, h4, ?_⟩
          simp only [h5, writeLive]
          split
          · exact ⟨_, rfl⟩
          · exact ⟨_, rfl⟩
      · trivial

theorem still_ptrAdd (p off : Nat) : (stillSteps C).Holds (ptrAdd p off) := by
  intro s
  unfold ptrAdd
  split
  · exact (stillSteps C).refl s
  · split
    · exact (stillSteps C).refl s
    · trivial

theorem still_write (p : Nat) (L : Layout) (d : Nat → Cell) : (stillSteps C).Holds (Sto.write C p L d) := by
  unfold Sto.write Sto.writeSlice
  refine h_bind (fun s => (stillSteps C).refl s) fun _ => h_bind (h_debugAssert _ _) fun _ =>
    h_bind (h_debugAssertM _ (h_bind (h_usub _ _ _) fun _ => h_bind (h_umul _ _ _) fun _ => h_pure _)) fun _ =>
    h_bind (h_debugAssertM _ (h_isAlignedTo _ _ _)) fun _ => h_ite (h_pure _) ?_
  exact h_bind (fun s => (stillSteps C).refl s) fun _ => h_bind (still_ptrAdd _ _) fun _ => still_memWrite _ _ _ _

/-- The same for a serializer, whose position mapping does not change either. -/
def serStill (C : Cfg) : StepRel Ser where
  R s t := t.map = s.map ∧ t.sto.vec = s.sto.vec ∧ (s.sto.Inv C → t.sto.Inv C)
  refl _ := ⟨rfl, rfl, id⟩
  trans h1 h2 := ⟨h2.1.trans h1.1, h2.2.1.trans h1.2.1, fun h => h2.2.2 (h1.2.2 h)⟩

theorem serStill_lift {α : Type} {x : M Sto α} (h : (stillSteps C).Holds x) : (serStill C).Holds (Ser.lift x) := by
  intro s
  have h := h s.sto
  unfold Ser.lift
  cases hx : x s.sto with
  | ok a t => rw [hx] at h; exact ⟨rfl, h.1, h.2⟩
  | panic k t => rw [hx] at h; exact ⟨rfl, h.1, h.2⟩
  | _ => trivial

theorem serStill_getMap : (serStill C).Holds Ser.getMap := fun s => (serStill C).refl s
theorem serStill_getCapacity : (serStill C).Holds Ser.getCapacity := fun s => (serStill C).refl s

theorem serStill_overwritePtr (p q : Nat) : (serStill C).Holds (overwritePtr C k p q) := by
  unfold overwritePtr
  cases k with
  | pureCopy => exact h_pure _
  | posTracking => exact h_pure _
  | ptrOffset =>
    exact h_bind serStill_getCapacity fun _ => h_bind (h_debugAssertM _ (h_bind (h_usub _ _ _) fun _ => h_pure _)) fun _ =>
      h_bind (h_debugAssertM _ (h_isAlignedTo _ _ _)) fun _ => h_bind (h_debugAssert _ _) fun _ => serStill_lift (still_write _ _ _)
  | complete =>
    exact h_bind serStill_getCapacity fun _ => h_bind (h_debugAssertM _ (h_bind (h_usub _ _ _) fun _ => h_pure _)) fun _ =>
      h_bind (h_debugAssertM _ (h_isAlignedTo _ _ _)) fun _ => h_bind (h_debugAssert _ _) fun _ => h_bind h_get fun _ =>
      h_bind (h_uadd _ _ _) fun _ => h_bind (serStill_lift (still_write _ _ _)) fun _ => fun s => ⟨rfl, rfl, id⟩

theorem serStill_overwriteWith (a : Nat) (L : Layout) (d : Nat → Cell) :
    (serStill C).Holds (overwriteWith k (SerRaw.overwrite C k a L d)) := by
  cases k with
  | complete => exact h_bind serStill_getMap fun _ => h_bind (h_posForAddr _ _ _) fun _ => serStill_lift (still_write _ _ _)
  | _ => exact h_pure _

/-! ### Pushes -/

/-- A push returns, or does not fit and leaves only alignment, or the allocator fails. -/
theorem push_cases (hC : C.OK) {L : Layout} {len src : Nat} (ho : PushOK C L len src) {s : Ser} (h : s.sto.Inv C)
    (hne : 0 < len ∨ 0 < s.sto.vec.pos) (data : Nat → Cell) :
    (∃ p t, Ser.lift (Sto.pushSlice C L len data) s = .ok p { s with sto := t } ∧ PushSpec C s.sto L len data p t ∧
      roundUp s.sto.vec.pos L.align + L.size * len ≤ C.maxCapacity) ∨
    (Ser.lift (Sto.pushSlice C L len data) s = .panic .capacity { s with sto := s.sto.at (roundUp s.sto.vec.pos L.align) } ∧
      ¬ roundUp s.sto.vec.pos L.align + L.size * len ≤ C.maxCapacity) ∨
    (Ser.lift (Sto.pushSlice C L len data) s = .abort ∧ ¬ C.NeverFails) := by
  have h1 := pushSlice_sat hC h data ho.size_ne ho.pow2 ho.align_le
    (hne.imp_right fun hp => Or.inl (Nat.lt_of_lt_of_le hp h.pos_le)) ho.size_le
  unfold Ser.lift
  cases hr : Sto.pushSlice C L len data s.sto with
  | ok p t => rw [hr] at h1; exact .inl ⟨p, t, rfl, h1, h1.pos_eq ▸ h1.fits⟩
  | panic pk t =>
    rw [hr] at h1
    obtain ⟨rfl, rfl, h2⟩ := h1
    exact .inr (.inl ⟨rfl, by omega⟩)
  | abort => rw [hr] at h1; exact .inr (.inr ⟨rfl, h1⟩)
  | ub => rw [hr] at h1; exact h1.elim
  | fuel => rw [hr] at h1; exact h1.elim

/-- Pushing no elements only aligns. -/
theorem pushNone (hC : C.OK) {L : Layout} {s : Sto} (h : s.Inv C) (hz : L.size ≠ 0) (ha : Pow2 L.align) (hal : L.align ≤ C.maxValueAlign)
    (hpos : 0 < s.vec.pos) (data : Nat → Cell) :
    Sto.pushSlice C L 0 data s = .ok (roundUp s.vec.pos L.align) (s.at (roundUp s.vec.pos L.align)) := by
  have F := hC.facts
  have hru := roundUp_le_cap F h.toWInv h.pos_le ha hal
  have hvd := va_dvd_roundUp F ha h.pos_dvd
  have hm := F.max_lt; have hc := h.cap_le
  have hp := h.pos_le
  unfold Sto.pushSlice
  rw [if_neg hz, bind_ok (alignFor_ok F h ha hal)]
  generalize hq : roundUp s.vec.pos L.align = q at *
  have hI : (s.at q).Inv C := h.at hru hvd
  rw [bind_ok (umul_ok _ (by have := F.isize_lt; omega) _)]
  have hres : Sto.reserve C (L.size * 0) (s.at q) = .ok () (s.at q) := by
    unfold Sto.reserve
    rw [bind_ok (show Sto.getCapacity (s.at q) = .ok s.vec.capacity (s.at q) from rfl),
      bind_ok (show Sto.getPos (s.at q) = .ok q (s.at q) from rfl)]
    simp only [Nat.mul_zero]
    rw [if_neg (Nat.not_lt_zero _)]
    rfl
  rw [bind_ok hres, bind_ok (show Sto.getPos (s.at q) = .ok q (s.at q) from rfl)]
  have hw : Sto.writeSlice C q L 0 data (s.at q) = .ok () (s.at q) := by
    unfold Sto.writeSlice
    rw [bind_ok (show Sto.getCapacity (s.at q) = .ok s.vec.capacity (s.at q) from rfl),
      bind_ok (debugAssert_true _ (decide_eq_true hru) _), bind_ok (debugAssertM_ok _ ?_), bind_ok (debugAssertM_ok _ ?_), if_neg hz,
      bind_ok (show Sto.getPtr (s.at q) = .ok s.vec.ptr (s.at q) from rfl)]
    · rcases h.mem with ⟨h1, _⟩ | ⟨h1, h2, h3, h4, d', h5⟩
      · omega
      · have hadd : ptrAdd s.vec.ptr q (s.at q) = .ok (s.vec.ptr + q) (s.at q) := by
          unfold ptrAdd
          split
          · rename_i h0; rw [h0]; rfl
          · rw [if_pos]
            rw [show (s.at q).w.live = s.w.live from rfl, h5]
            simp [Block.contains, hru]
        rw [bind_ok hadd]
        unfold memWrite
        rw [if_neg, if_pos (Nat.mul_zero _)]
        rintro (h6 | h6)
        · omega
        · refine h6 (Nat.mod_eq_zero_of_dvd ?_)
          refine Nat.dvd_add (Nat.dvd_trans (ha.dvd_of_le F.sa (Nat.le_trans hal F.mva_le)) h3) (hq ▸ dvd_roundUp _ _)
    · intro _; rw [isAlignedTo_ok ha, decide_eq_true (hq ▸ dvd_roundUp _ _)]
    · intro _
      rw [bind_ok (usub_ok _ (by omega) _), bind_ok (umul_ok _ (by have := F.isize_lt; omega) _)]; simp
  have run : Sto.pushSliceUnchecked C L 0 data (L.size * 0) (s.at q) = .ok () (s.at q) := by
    unfold Sto.pushSliceUnchecked
    rw [bind_ok (show Sto.getCapacity (s.at q) = .ok s.vec.capacity (s.at q) from rfl),
      bind_ok (show Sto.getPos (s.at q) = .ok q (s.at q) from rfl),
      bind_ok (debugAssertM_ok _ ?_), bind_ok (debugAssertM_ok _ ?_), bind_ok (debugAssertM_ok _ ?_), if_neg hz,
      bind_ok hw, bind_ok (uadd_ok _ (by omega) _)]
    · rfl
    · intro _; rw [isAlignedTo_ok ha, decide_eq_true (hq ▸ dvd_roundUp _ _)]
    · intro _
      rw [bind_ok (umul_ok _ (by have := F.isize_lt; omega) _)]; simp
    · intro _
      rw [bind_ok (usub_ok _ (by omega) _)]; simp
  rw [bind_ok run, bind_ok (alignAfter_ok F hI.toWInv (q := q) (n := 0) rfl hvd), Sto.at_at, Sto.at_pos,
    roundUp_eq_of_dvd F.va.pos hvd]
  rfl

/-! ### The simulation -/

/-- The outcome `o` of calls that start in `s`, given the outcome `o'` of the calls of their trace `t`. -/
def Sim (C : Cfg) (k : Kind) (A : ACalls) (s : Ser) (t : Trace) (o o' : Out Ser Unit) : Prop :=
  (o = .abort ∧ ¬ C.NeverFails) ∨
  match o' with
  | .ok _ s' => s'.sto.Inv C ∧ s'.sto.vec.pos = t.pos ∧ 0 < s'.sto.vec.pos ∧ s'.map = s.map ∧
      if t.returned = true then o = .ok () s'
      else ∃ pk m, o = .panic pk { s' with map := m } ∧ (pk = .capacity ∨ pk = .user) ∧
        (A.flat = true ∨ k = .pureCopy → m = s.map)
  | .abort => o = .abort
  | _ => True

/-- The tail of the calls after a common prefix. -/
theorem Sim.after {A A' : ACalls} {s s1 : Ser} {t t' : Trace} {o o' : Out Ser Unit} (h : Sim C k A' s1 t' o o') (hm : s1.map = s.map)
    (hp : t.pos = t'.pos) (hr : t.returned = t'.returned) (hf : A.flat = true → A'.flat = true) : Sim C k A s t o o' := by
  rcases h with h | h
  · exact .inl h
  · refine .inr ?_
    cases o' with
    | ok x s' =>
      obtain ⟨h1, h2, h3, h4, h5⟩ := h
      refine ⟨h1, hp ▸ h2, h3, h4.trans hm, ?_⟩
      rw [hr]
      split
      · rename_i hc; rwa [if_pos hc] at h5
      · rename_i hc
        rw [if_neg hc] at h5
        obtain ⟨pk, m, e1, e2, e3⟩ := h5
        exact ⟨pk, m, e1, e2, fun hx => (e3 (hx.imp_left hf)).trans hm⟩
    | abort => exact h
    | panic _ _ => trivial
    | ub => trivial
    | fuel => trivial

/-- A push that does not fit. -/
theorem Sim.full (hC : C.OK) {A : ACalls} {L : Layout} {len src : Nat} (ho : PushOK C L len src) {s : Ser} (h : s.sto.Inv C)
    (hpos : 0 < s.sto.vec.pos) {o : Out Ser Unit}
    (hr : o = .panic .capacity { s with sto := s.sto.at (roundUp s.sto.vec.pos L.align) }) :
    Sim C k A s (.full L src s.sto.vec.pos) o ((Trace.full L src s.sto.vec.pos).sc.run C k im s) := by
  have F := hC.facts
  have e : (Trace.full L src s.sto.vec.pos).sc.run C k im s = .ok () { s with sto := s.sto.at (roundUp s.sto.vec.pos L.align) } := by
    simp only [Trace.full, Script.run, pushRawSlice]
    rw [bind_ok (lift_ok (pushNone hC h ho.size_ne ho.pow2 ho.align_le hpos _))]
    rfl
  rw [e]
  refine .inr ⟨h.at (roundUp_le_cap F h.toWInv h.pos_le ho.pow2 ho.align_le) (va_dvd_roundUp F ho.pow2 h.pos_dvd), rfl, ?_, rfl, ?_⟩
  · exact Nat.lt_of_lt_of_le hpos (le_roundUp _ ho.pow2.pos)
  · rw [if_neg (by simp [Trace.full])]
    exact ⟨.capacity, s.map, hr, .inl rfl, fun _ => rfl⟩

/-- What `push_and_process_slice` does between the push and the closure. -/
def enter (C : Cfg) (k : Kind) (sl : Slice) (ptr : Nat) (before : PosMapping) (pos : Nat) : M Ser Unit :=
  match k with
  | .pureCopy => pure ()
  | .posTracking => Ser.setMap ⟨sl.addr, pos⟩
  | .ptrOffset | .complete => do
    let ptrPos ← before.posForAddr C.arch ptr
    overwritePtr C k ptrPos pos
    Ser.setMap ⟨sl.addr, pos⟩

/-- What it does after the closure. -/
def leave (k : Kind) (before : PosMapping) : M Ser Unit :=
  match k with
  | .pureCopy => pure ()
  | _ => Ser.setMap before

theorem pushAndProcessSlice_steps (sl : Slice) (ptr : Nat) (x : M Ser Unit) (s : Ser) :
    pushAndProcessSlice C k sl ptr x s = (Ser.lift (Sto.pushSlice C sl.L sl.len sl.data) >>= fun pos =>
      enter C k sl ptr s.map pos >>= fun _ => x >>= fun _ => leave k s.map >>= fun _ => pure pos) s := by
  cases k with
  | pureCopy => rfl
  | posTracking =>
    simp only [pushAndProcessSlice, PosTracking.doPushAndProcessSlice]
    rw [bind_ok (show Ser.getMap s = .ok s.map s from rfl)]
    rfl
  | ptrOffset =>
    simp only [pushAndProcessSlice, PtrWriting.doPushAndProcessSlice]
    rw [bind_ok (show Ser.getMap s = .ok s.map s from rfl)]
    simp only [enter, leave, bind_assoc_M]
  | complete =>
    simp only [pushAndProcessSlice, PtrWriting.doPushAndProcessSlice]
    rw [bind_ok (show Ser.getMap s = .ok s.map s from rfl)]
    simp only [enter, leave, bind_assoc_M]

/-- Entering a closure moves nothing. -/
def seqSteps (C : Cfg) : StepRel Ser where
  R s t := t.sto.vec = s.sto.vec ∧ (s.sto.Inv C → t.sto.Inv C)
  refl _ := ⟨rfl, id⟩
  trans h1 h2 := ⟨h2.1.trans h1.1, fun h => h2.2 (h1.2 h)⟩

theorem serStill.weaken {α : Type} {x : M Ser α} (h : (serStill C).Holds x) : (seqSteps C).Holds x := by
  intro s
  have h := h s
  cases hx : x s with
  | ok a t => rw [hx] at h; exact h.2
  | panic k t => rw [hx] at h; exact h.2
  | _ => trivial

theorem seq_enter (sl : Slice) (ptr : Nat) (b : PosMapping) (pos : Nat) : (seqSteps C).Holds (enter C k sl ptr b pos) := by
  cases k with
  | pureCopy => exact h_pure _
  | posTracking => exact fun s => ⟨rfl, id⟩
  | ptrOffset => exact h_bind (h_posForAddr _ _ _) fun _ => h_bind (serStill.weaken (serStill_overwritePtr _ _)) fun _ => fun s => ⟨rfl, id⟩
  | complete => exact h_bind (h_posForAddr _ _ _) fun _ => h_bind (serStill.weaken (serStill_overwritePtr _ _)) fun _ => fun s => ⟨rfl, id⟩

/-- What `push_slice` does after the push. -/
def link (C : Cfg) (k : Kind) (ptr pos : Nat) : M Ser Unit :=
  match k with
  | .pureCopy | .posTracking => pure ()
  | .ptrOffset | .complete => do
    let m ← Ser.getMap
    let ptrPos ← m.posForAddr C.arch ptr
    overwritePtr C k ptrPos pos

theorem pushSlice_steps (sl : Slice) (ptr : Nat) :
    pushSlice C k sl ptr = (Ser.lift (Sto.pushSlice C sl.L sl.len sl.data) >>= fun pos => link C k ptr pos >>= fun _ => pure pos) := by
  cases k with
  | pureCopy => rfl
  | posTracking =>
    funext s
    simp only [pushSlice, PosTracking.doPushSlice, pushRawSlice, bind_def]
    cases Ser.lift (Sto.pushSlice C sl.L sl.len sl.data) s <;> rfl
  | ptrOffset => simp only [pushSlice, PtrWriting.doPushSlice, pushRawSlice, link, bind_assoc_M]
  | complete => simp only [pushSlice, PtrWriting.doPushSlice, pushRawSlice, link, bind_assoc_M]

theorem still_link (ptr pos : Nat) : (serStill C).Holds (link C k ptr pos) := by
  cases k with
  | pureCopy => exact h_pure _
  | posTracking => exact h_pure _
  | ptrOffset => exact h_bind serStill_getMap fun _ => h_bind (h_posForAddr _ _ _) fun _ => serStill_overwritePtr _ _
  | complete => exact h_bind serStill_getMap fun _ => h_bind (h_posForAddr _ _ _) fun _ => serStill_overwritePtr _ _

theorem Sim.undefined {A : ACalls} {s : Ser} {t : Trace} {o o' : Out Ser Unit} (h : o' = .ub ∨ o' = .fuel ∨ ∃ pk s', o' = .panic pk s') :
    Sim C k A s t o o' := by
  rcases h with rfl | rfl | ⟨_, _, rfl⟩ <;> exact .inr trivial

theorem Sim.aborts {A : ACalls} {s : Ser} {t : Trace} {o o' : Out Ser Unit} (h : o = .abort) (h' : o' = .abort) : Sim C k A s t o o' := by
  subst h h'
  exact .inr rfl

/-- A step that both make: it moves nothing and leaves the mapping. -/
theorem Sim.step {A : ACalls} {s : Ser} {t : Trace} {α : Type} {x : M Ser α} {f g : α → M Ser Unit} (h : (serStill C).Holds x)
    (hs : ∀ a s1, x s = .ok a s1 → s1.map = s.map → s1.sto.vec = s.sto.vec → (s.sto.Inv C → s1.sto.Inv C) →
      Sim C k A s t (f a s1) (g a s1)) : Sim C k A s t ((x >>= f) s) ((x >>= g) s) := by
  have h := h s
  rw [bind_def, bind_def]
  cases hx : x s with
  | ok a s1 => rw [hx] at h; exact hs a s1 hx h.1 h.2.1 h.2.2
  | panic pk s1 => exact .undefined (.inr (.inr ⟨_, _, rfl⟩))
  | abort => exact .inr rfl
  | ub => exact .undefined (.inl rfl)
  | fuel => exact .undefined (.inr (.inl rfl))

theorem sim (hC : C.OK) (A : ACalls) (hA : A.Slices C) (hR : A.Restores k) {s : Ser} (h : s.sto.Inv C) (hpos : 0 < s.sto.vec.pos) :
    Sim C k A s (A.trace C.valueAlign C.maxCapacity s.sto.vec.pos) (A.run C k im s)
      ((A.trace C.valueAlign C.maxCapacity s.sto.vec.pos).sc.run C k im s) := by
  have F := hC.facts
  induction A generalizing s with
  | done => exact .inr ⟨h, rfl, hpos, rfl, rfl⟩
  | panic => exact .inr ⟨h, rfl, hpos, rfl, .user, s.map, rfl, .inr rfl, fun _ => rfl⟩
  | pushRaw L len src rest ih =>
    obtain ⟨ho, hA⟩ := hA
    simp only [ACalls.run, ACalls.trace, pushRawSlice]
    rcases push_cases hC ho h (.inr hpos) (fun i => im (src + i)) with ⟨p, t, e1, hp, hfit⟩ | ⟨e1, hfit⟩ | ⟨e1, hab⟩
    · rw [if_pos hfit]
      simp only [Script.run, pushRawSlice]
      rw [bind_ok e1, bind_ok e1]
      have he : t.vec.pos = roundUp (roundUp s.sto.vec.pos L.align + L.size * len) C.valueAlign := by rw [hp.end_eq, hp.pos_eq]
      have hge := le_roundUp s.sto.vec.pos ho.pow2.pos
      have hge2 := le_roundUp (roundUp s.sto.vec.pos L.align + L.size * len) F.va.pos
      have := ih hA hR (s := { s with sto := t }) hp.inv (by simp only; omega)
      simp only [he] at this
      exact this.after rfl rfl rfl id
    · rw [if_neg hfit]
      refine .full hC ho h hpos ?_
      rw [bind_def, e1]
    · exact .inl ⟨by rw [bind_def, e1], hab⟩
  | push L len src ptr rest ih =>
    obtain ⟨ho, hA⟩ := hA
    simp only [ACalls.run, ACalls.trace, pushSlice_steps, bind_assoc_M]
    rcases push_cases hC ho h (.inr hpos) (fun i => im (src + i)) with ⟨p, t, e1, hp, hfit⟩ | ⟨e1, hfit⟩ | ⟨e1, hab⟩
    · rw [if_pos hfit]
      simp only [Script.run, pushSlice_steps, bind_assoc_M]
      rw [bind_ok e1, bind_ok e1]
      have he : t.vec.pos = roundUp (roundUp s.sto.vec.pos L.align + L.size * len) C.valueAlign := by rw [hp.end_eq, hp.pos_eq]
      have hge := le_roundUp s.sto.vec.pos ho.pow2.pos
      have hge2 := le_roundUp (roundUp s.sto.vec.pos L.align + L.size * len) F.va.pos
      refine Sim.after (s1 := { s with sto := t }) (A' := .push L len src ptr rest) (t' := _) ?_ rfl rfl rfl id
      refine Sim.step (still_link _ _) fun _ s1 _ hm hv hi => ?_
      simp only [pure_bind_M]
      have := ih hA hR (s := s1) (hi hp.inv) (by rw [hv]; simp only; omega)
      simp only [hv, he] at this
      exact this.after hm rfl rfl id
    · rw [if_neg hfit]
      refine .full hC ho h hpos ?_
      rw [bind_def, e1]
    · exact .inl ⟨by rw [bind_def, e1], hab⟩
  | overwrite a L data rest ih =>
    simp only [ACalls.run, ACalls.trace, Script.run]
    refine Sim.step (serStill_overwriteWith _ _ _) fun _ s1 _ hm hv hi => ?_
    have := ih hA hR (s := s1) (hi h) (by rw [hv]; exact hpos)
    rw [hv] at this
    exact this.after hm rfl rfl id
  | pushProcess L len src ptr inner rest ih1 ih2 =>
    obtain ⟨ho, hA1, hA2⟩ := hA
    obtain ⟨hR1, hR2⟩ := hR
    simp only [ACalls.run, ACalls.trace]
    rcases push_cases hC ho h (.inr hpos) (fun i => im (src + i)) with ⟨p, t, e1, hp, hfit⟩ | ⟨e1, hfit⟩ | ⟨e1, hab⟩
    · rw [if_pos hfit]
      have he : t.vec.pos = roundUp (roundUp s.sto.vec.pos L.align + L.size * len) C.valueAlign := by rw [hp.end_eq, hp.pos_eq]
      have hge := le_roundUp s.sto.vec.pos ho.pow2.pos
      have hge2 := le_roundUp (roundUp s.sto.vec.pos L.align + L.size * len) F.va.pos
      have hen := seq_enter (C := C) (k := k) ⟨L, len, src, fun i => im (src + i)⟩ (addrFromRef k ptr) s.map p { s with sto := t }
      have hrun : ∀ x y : M Ser Unit, (pushAndProcessSlice C k ⟨L, len, src, fun i => im (src + i)⟩ (addrFromRef k ptr) x >>= fun _ => y) s =
          (enter C k ⟨L, len, src, fun i => im (src + i)⟩ (addrFromRef k ptr) s.map p >>= fun _ => x >>= fun _ =>
            leave k s.map >>= fun _ => y) { s with sto := t } := by
        intro x y
        rw [bind_def, pushAndProcessSlice_steps, bind_ok e1, ← bind_def (x := enter C k _ _ _ _ >>= _) (f := fun _ => y)]
        simp only [bind_assoc_M, pure_bind_M]
      rw [hrun, ← he]
      have hpc : ∀ s1, enter C k ⟨L, len, src, fun i => im (src + i)⟩ (addrFromRef k ptr) s.map p { s with sto := t } = .ok () s1 →
          k = .pureCopy → s1.map = s.map := by
        rintro s1 h1 rfl
        cases h1
        rfl
      cases hx : enter C k ⟨L, len, src, fun i => im (src + i)⟩ (addrFromRef k ptr) s.map p { s with sto := t } with
      | panic pk s1 =>
        refine .undefined (.inr (.inr ⟨pk, s1, ?_⟩))
        split <;> (simp only [Script.run]; rw [hrun, bind_def, hx])
      | abort =>
        refine .aborts (by rw [bind_def, hx]) ?_
        split <;> (simp only [Script.run]; rw [hrun, bind_def, hx])
      | ub =>
        refine .undefined (.inl ?_)
        split <;> (simp only [Script.run]; rw [hrun, bind_def, hx])
      | fuel =>
        refine .undefined (.inr (.inl ?_))
        split <;> (simp only [Script.run]; rw [hrun, bind_def, hx])
      | ok x s1 =>
        rw [hx] at hen
        obtain ⟨hv, hi⟩ := hen
        have hm1 := hpc s1 hx
        have h1 := ih1 hA1 hR1 (s := s1) (hi hp.inv) (by rw [hv]; simp only; omega)
        rw [hv] at h1
        simp only at h1
        have hsc : ∀ sc1 sc2 : Script, (Script.pushProcess L len src ptr sc1 sc2).run C k im s =
            (sc1.run C k im >>= fun _ => leave k s.map >>= fun _ => sc2.run C k im) s1 := by
          intro sc1 sc2
          simp only [Script.run]; rw [hrun, bind_ok hx]
        rw [bind_ok hx]
        generalize inner.trace C.valueAlign C.maxCapacity t.vec.pos = t1 at *
        have hleave : ∀ s2 : Ser, s2.map = s1.map → leave k s.map s2 = .ok () { s2 with map := s.map } := by
          intro s2 h2
          cases k with
          | pureCopy =>
            have : s2.map = s.map := h2.trans (hm1 rfl)
            rw [← this]; rfl
          | _ => rfl
        rcases h1 with ⟨h1, hab⟩ | h1
        · exact .inl ⟨by rw [bind_def, h1], hab⟩
        cases hy : t1.sc.run C k im s1 with
        | panic pk s2 =>
          refine .undefined (.inr (.inr ⟨pk, s2, ?_⟩))
          split <;> (rw [hsc, bind_def, hy])
        | ub =>
          refine .undefined (.inl ?_)
          split <;> (rw [hsc, bind_def, hy])
        | fuel =>
          refine .undefined (.inr (.inl ?_))
          split <;> (rw [hsc, bind_def, hy])
        | abort =>
          rw [hy] at h1
          refine .aborts (by rw [bind_def, h1]) ?_
          split <;> (rw [hsc, bind_def, hy])
        | ok y s2 =>
          rw [hy] at h1
          obtain ⟨g1, g2, g3, g4, g5⟩ := h1
          split
          · rename_i hret
            rw [if_pos hret] at g5
            rw [hsc, bind_ok g5, bind_ok hy, bind_ok (hleave s2 g4), bind_ok (hleave s2 g4)]
            have := ih2 hA2 hR2 (s := { s2 with map := s.map }) g1 g3
            simp only [g2] at this
            exact this.after rfl rfl rfl (by simp [ACalls.flat])
          · rename_i hret
            rw [if_neg hret] at g5
            obtain ⟨pk, m, q1, q2, q3⟩ := g5
            rw [hsc, bind_ok hy, bind_ok (hleave s2 g4)]
            refine .inr ⟨g1, g2, g3, rfl, pk, m, by rw [bind_def, q1], q2, ?_⟩
            rintro (hf | hf)
            · simp [ACalls.flat] at hf
            · exact (q3 (.inr hf)).trans (hm1 hf)
    · rw [if_neg hfit]
      refine .full hC ho h hpos ?_
      rw [bind_def, pushAndProcessSlice_steps, bind_def, e1]
    · exact .inl ⟨by rw [bind_def, pushAndProcessSlice_steps, bind_def, e1], hab⟩
  | attempt restore inner ifOk ifPanicked ih1 ih2 ih3 =>
    obtain ⟨hA1, hA2, hA3⟩ := hA
    obtain ⟨hR0, hR1, hR2, hR3⟩ := hR
    simp only [ACalls.run, ACalls.trace, run_app]
    rw [bind_ok (show Ser.getMap s = .ok s.map s from rfl)]
    have h1 := ih1 hA1 hR1 h hpos
    generalize inner.trace C.valueAlign C.maxCapacity s.sto.vec.pos = t at *
    rcases h1 with ⟨h1, hab⟩ | h1
    · refine .inl ⟨?_, hab⟩
      rw [bind_def]; simp only [M.caught, h1]
    cases hy : t.sc.run C k im s with
    | panic pk s2 => exact .undefined (.inr (.inr ⟨pk, s2, by rw [bind_def, hy]⟩))
    | ub => exact .undefined (.inl (by rw [bind_def, hy]))
    | fuel => exact .undefined (.inr (.inl (by rw [bind_def, hy])))
    | abort =>
      rw [hy] at h1
      refine .inr ?_
      rw [bind_def, bind_def, hy]
      simp only [M.caught, h1]
    | ok y s1 =>
      rw [hy] at h1
      obtain ⟨g1, g2, g3, g4, g5⟩ := h1
      rw [bind_ok hy]
      by_cases hret : t.returned = true
      · rw [if_pos hret] at g5
        rw [bind_ok (show M.caught (inner.run C k im) s = .ok (some ()) s1 by simp only [M.caught, g5])]
        simp only [hret, Option.isSome_some, if_true]
        have := ih2 hA2 hR2 (s := s1) g1 g3
        rw [g2] at this
        exact this.after g4 rfl rfl (by simp only [ACalls.flat, Bool.and_eq_true]; exact fun hh => hh.1.2)
      · rw [if_neg hret] at g5
        obtain ⟨pk, m, q1, q2, q3⟩ := g5
        rw [bind_ok (show M.caught (inner.run C k im) s = .ok none { s1 with map := m } by simp only [M.caught, q1])]
        simp only [if_neg hret, Option.isSome_none, Bool.false_eq_true, if_false]
        have e : afterPanic k restore s.map (ifPanicked.run C k im) { s1 with map := m } = ifPanicked.run C k im s1 := by
          unfold afterPanic
          split
          · rw [bind_ok (show Ser.setMap s.map { s1 with map := m } = .ok () { s1 with map := s.map } from rfl), ← g4]
          · rename_i hn
            have hm : m = s.map := by
              rcases hR0 with hR0 | hR0 | hR0
              · have hk : k = .pureCopy := by
                  by_cases hk : k = .pureCopy
                  · exact hk
                  · exact absurd ⟨hR0, hk⟩ hn
                exact q3 (.inr hk)
              · exact q3 (.inr hR0)
              · exact q3 (.inl hR0)
            rw [pure_bind_M, hm, ← g4]
        rw [e]
        have := ih3 hA3 hR3 (s := s1) g1 g3
        rw [g2] at this
        exact this.after g4 rfl rfl (by simp only [ACalls.flat, Bool.and_eq_true]; exact fun hh => hh.2)

/-! ### Where the calls end -/

theorem trace_end (F : C.Facts) (A : ACalls) (hA : A.Slices C) {p : Nat} (hd : C.valueAlign ∣ p) (hp : p ≤ C.maxCapacity) :
    placeEnd C.valueAlign p (A.trace C.valueAlign C.maxCapacity p).sc.shapes = (A.trace C.valueAlign C.maxCapacity p).pos ∧
    C.valueAlign ∣ (A.trace C.valueAlign C.maxCapacity p).pos ∧ (A.trace C.valueAlign C.maxCapacity p).pos ≤ C.maxCapacity := by
  have hmax : C.valueAlign ∣ C.maxCapacity := Nat.dvd_trans (F.va.dvd_of_le F.mva F.va_le) F.max_dvd
  have hfull : ∀ {L : Layout} {len src p : Nat}, PushOK C L len src → C.valueAlign ∣ p → p ≤ C.maxCapacity →
      placeEnd C.valueAlign p (Trace.full L src p).sc.shapes = (Trace.full L src p).pos ∧ C.valueAlign ∣ (Trace.full L src p).pos ∧
        (Trace.full L src p).pos ≤ C.maxCapacity := by
    intro L len src p ho hd hp
    have hv := va_dvd_roundUp F ho.pow2 hd
    refine ⟨?_, hv, roundUp_le_of_dvd ho.pow2.pos hp (Nat.dvd_trans (ho.pow2.dvd_of_le F.mva ho.align_le) F.max_dvd)⟩
    simp only [Trace.full, Script.shapes, Script.pushes, List.map_cons, List.map_nil, placeEnd, Shape.bytes, Nat.mul_zero, Nat.add_zero]
    exact roundUp_eq_of_dvd F.va.pos hv
  have hnext : ∀ {L : Layout} {len p : Nat}, roundUp p L.align + L.size * len ≤ C.maxCapacity →
      roundUp (roundUp p L.align + L.size * len) C.valueAlign ≤ C.maxCapacity :=
    fun h => roundUp_le_of_dvd F.va.pos h hmax
  induction A generalizing p with
  | done => exact ⟨rfl, hd, hp⟩
  | panic => exact ⟨rfl, hd, hp⟩
  | pushRaw L len src rest ih =>
    simp only [ACalls.trace]
    split
    · rename_i hf
      exact ih hA.2 (dvd_roundUp _ _) (hnext hf)
    · exact hfull hA.1 hd hp
  | push L len src ptr rest ih =>
    simp only [ACalls.trace]
    split
    · rename_i hf
      exact ih hA.2 (dvd_roundUp _ _) (hnext hf)
    · exact hfull hA.1 hd hp
  | overwrite a L data rest ih => exact ih hA hd hp
  | pushProcess L len src ptr inner rest ih1 ih2 =>
    simp only [ACalls.trace]
    split
    · rename_i hf
      obtain ⟨h1, h2, h3⟩ := ih1 hA.2.1 (dvd_roundUp (roundUp p L.align + L.size * len) C.valueAlign) (hnext hf)
      split
      · obtain ⟨g1, g2, g3⟩ := ih2 hA.2.2 h2 h3
        refine ⟨?_, g2, g3⟩
        simp only [Script.shapes, Script.pushes, List.map_cons, List.map_append, placeEnd, placeEnd_append, Shape.bytes]
        simp only [Script.shapes] at h1 g1
        rw [h1, g1]
      · refine ⟨?_, h2, h3⟩
        simp only [Script.shapes, Script.pushes, List.map_cons, List.append_nil, placeEnd, Shape.bytes]
        simp only [Script.shapes] at h1
        rw [h1]
    · exact hfull hA.1 hd hp
  | attempt restore inner ifOk ifPanicked ih1 ih2 ih3 =>
    obtain ⟨h1, h2, h3⟩ := ih1 hA.1 hd hp
    simp only [ACalls.trace, shapes_app, placeEnd_append, h1]
    split
    · exact ih2 hA.2.1 h2 h3
    · exact ih3 hA.2.2 h2 h3

/-! ### One value -/

theorem Rel.at {B : Nat} {s : Ser} {m : Mem} (h : Rel C B s m) {q : Nat} (hq : s.sto.vec.pos ≤ q) (hi : (s.sto.at q).Inv C) :
    Rel C B { s with sto := s.sto.at q } m :=
  ⟨hi, fun e he => by obtain ⟨h1, h2, h3⟩ := h.bound e he; exact ⟨Nat.le_trans h1 hq, h2, h3⟩, h.nodup, h.word, h.rest⟩

/-- What a caught call leaves. -/
structure APost (C : Cfg) (k : Kind) (r : ACall) (s : Ser) (m : Nat → Mem) (p : Option Nat) (s' : Ser) : Prop where
  result : p = r.result C.valueAlign C.maxCapacity s.sto.vec.pos
  pos : s'.sto.vec.pos = r.endPos C.valueAlign C.maxCapacity s.sto.vec.pos
  pos_eq : ∀ md mm, s'.sto.vec.pos = (r.ideal C.arch C.valueAlign C.maxCapacity md (mm, s.sto.vec.pos)).2
  rel : RelAll C k s' fun B => (r.ideal C.arch C.valueAlign C.maxCapacity (k.mode B) (m B, s.sto.vec.pos)).1

theorem acall_sat (hC : C.OK) (k : Kind) {r : ACall} (hr : r.OK C k) {s : Ser} {m : Nat → Mem} (h : RelAll C k s m) :
    (M.caught (r.ser C k) s).Sat (fun p s' => APost C k r s m p s') (fun _ _ => False) (¬ C.NeverFails) := by
  have F := hC.facts
  have ho := hr.value
  have hinv := (h.1 0).inv
  have hge := le_roundUp s.sto.vec.pos ho.pow2.pos
  have hsz : 0 < r.L.size := Nat.pos_of_ne_zero ho.size_ne
  unfold M.caught ACall.ser
  rw [serializeValue_eq]
  unfold pushRaw pushRawSlice Slice.fromRef
  simp only
  rcases push_cases hC ho hinv (.inl Nat.one_pos) (fun i => r.im (r.a + i)) with ⟨p, t, e1, hp, hfit⟩ | ⟨e1, hfit⟩ | ⟨e1, hab⟩
  · have hfits : r.fits C.maxCapacity s.sto.vec.pos := by unfold ACall.fits; omega
    rw [bind_ok e1]
    have hset : ∃ s2 : Ser, s2.sto = t ∧ s2.ptrs = s.ptrs ∧ setRoot k ⟨r.a, p⟩ { s with sto := t } = .ok () s2 := by
      cases k with
      | pureCopy => exact ⟨{ s with sto := t }, rfl, rfl, rfl⟩
      | _ => exact ⟨{ s with sto := t, map := ⟨r.a, p⟩ }, rfl, rfl, rfl⟩
    obtain ⟨s2, q1, q2, q3⟩ := hset
    rw [bind_ok q3]
    have he : s2.sto.vec.pos = roundUp (roundUp s.sto.vec.pos r.L.align + r.L.size) C.valueAlign := by
      rw [q1, hp.end_eq, hp.pos_eq, Nat.mul_one]
    have hge2 := le_roundUp (roundUp s.sto.vec.pos r.L.align + r.L.size) F.va.pos
    have hsim := sim (im := r.im) hC r.calls hr.slices hr.restores (s := s2) (by rw [q1]; exact hp.inv) (by omega)
    have hend := trace_end F r.calls hr.slices (p := s2.sto.vec.pos) (by rw [q1]; exact hp.inv.pos_dvd)
      (by rw [q1]; exact Nat.le_trans hp.inv.pos_le hp.inv.cap_le)
    have htr : r.calls.trace C.valueAlign C.maxCapacity s2.sto.vec.pos = r.trace C.valueAlign C.maxCapacity s.sto.vec.pos := by
      rw [he]; rfl
    have hroot := rootScript_sat (im := r.im) hC k ho (hr.wf s2.sto.vec.pos) h
    rw [serializeValue_eq] at hroot
    unfold pushRaw pushRawSlice Slice.fromRef inputAt at hroot
    simp only at hroot
    rw [bind_ok e1, bind_ok q3] at hroot
    rw [htr] at hsim hend hroot
    have hshape : placeEnd C.valueAlign s.sto.vec.pos (rootShapes r.L (r.trace C.valueAlign C.maxCapacity s.sto.vec.pos).sc) =
        (r.trace C.valueAlign C.maxCapacity s.sto.vec.pos).pos := by
      rw [← hend.1, he]
      simp [rootShapes, ho.size_ne, placeEnd, Shape.bytes]
    have hideal : ∀ md mm, r.ideal C.arch C.valueAlign C.maxCapacity md (mm, s.sto.vec.pos) =
        rootIdeal C.arch C.valueAlign md r.L r.im r.a (r.trace C.valueAlign C.maxCapacity s.sto.vec.pos).sc (mm, s.sto.vec.pos) := by
      intro md mm; unfold ACall.ideal; rw [if_pos hfits]
    have hendp : r.endPos C.valueAlign C.maxCapacity s.sto.vec.pos = (r.trace C.valueAlign C.maxCapacity s.sto.vec.pos).pos := if_pos hfits
    generalize htd : r.trace C.valueAlign C.maxCapacity s.sto.vec.pos = tr at *
    rcases hsim with ⟨g1, hab⟩ | hsim
    · rw [bind_def, g1]; exact hab
    cases hy : tr.sc.run C k r.im s2 with
    | panic pk s3 =>
      rw [bind_def, hy] at hroot
      have h1 := hroot.panic.2.2
      rw [hshape] at h1
      exact absurd hend.2.2 (by omega)
    | ub => rw [bind_def, hy] at hroot; exact hroot.elim
    | fuel => rw [bind_def, hy] at hroot; exact hroot.elim
    | abort =>
      rw [hy] at hsim
      rw [bind_def, hy] at hroot
      rw [bind_def, hsim]
      exact hroot
    | ok y s3 =>
      rw [hy] at hsim
      obtain ⟨g1, g2, g3, g4, g5⟩ := hsim
      rw [bind_ok hy] at hroot
      have hroot : RootPost C k r.L r.im r.a tr.sc s m p s3 := hroot
      have hat : p = roundUp s.sto.vec.pos r.L.align := hp.pos_eq
      by_cases hret : tr.returned = true
      · rw [if_pos hret] at g5
        rw [bind_ok g5]
        refine ⟨?_, hendp ▸ g2, fun md mm => by rw [hideal, rootIdeal_end, hshape, g2], ?_⟩
        · unfold ACall.result
          rw [htd, if_pos ⟨hfits, hret⟩, hat]
        · simp only [hideal]; exact hroot.rel
      · rw [if_neg hret] at g5
        obtain ⟨pk, mp, g5, -⟩ := g5
        rw [bind_def, g5]
        refine ⟨?_, hendp ▸ g2, fun md mm => by rw [hideal, rootIdeal_end, hshape]; exact g2, ?_⟩
        · unfold ACall.result
          rw [htd, if_neg fun hh => hret hh.2]
        · simp only [hideal]
          exact ⟨fun B => (hroot.rel.1 B).congr rfl rfl, hroot.rel.2⟩
  · have hfits : ¬ r.fits C.maxCapacity s.sto.vec.pos := by unfold ACall.fits; omega
    rw [bind_def, e1]
    have hi := hinv.at (roundUp_le_cap F hinv.toWInv hinv.pos_le ho.pow2 ho.align_le) (va_dvd_roundUp F ho.pow2 hinv.pos_dvd)
    have hideal : ∀ md mm, r.ideal C.arch C.valueAlign C.maxCapacity md (mm, s.sto.vec.pos) = (mm, roundUp s.sto.vec.pos r.L.align) := by
      intro md mm; unfold ACall.ideal; rw [if_neg hfits]
    refine ⟨?_, ?_, fun md mm => by rw [hideal]; rfl, ?_⟩
    · unfold ACall.result; rw [if_neg fun hh => hfits hh.1]
    · unfold ACall.endPos; rw [if_neg hfits]; rfl
    · simp only [hideal]
      exact ⟨fun B => (h.1 B).at hge hi, h.2⟩
  · rw [bind_def, e1]; exact hab

/-! ### Sessions -/

structure AEnd (C : Cfg) (k : Kind) (rs : List ACall) (s : Ser) (m : Nat → Mem) (ps : List (Option Nat)) (s' : Ser) : Prop where
  results : ps = attemptResults C.valueAlign C.maxCapacity rs s.sto.vec.pos
  pos : ∀ md mm, s'.sto.vec.pos = (attemptIdeal C.arch C.valueAlign C.maxCapacity md rs (mm, s.sto.vec.pos)).2
  rel : RelAll C k s' fun B => (attemptIdeal C.arch C.valueAlign C.maxCapacity (k.mode B) rs (m B, s.sto.vec.pos)).1

theorem attemptsCaught_sat (hC : C.OK) (k : Kind) {rs : List ACall} (hr : ∀ r ∈ rs, r.OK C k) {s : Ser} {m : Nat → Mem} (h : RelAll C k s m) :
    (attemptsCaught C k rs s).Sat (fun ps s' => AEnd C k rs s m ps s') (fun _ _ => False) (¬ C.NeverFails) := by
  induction rs generalizing s m with
  | nil => exact ⟨rfl, fun _ _ => rfl, h⟩
  | cons r rs ih =>
    simp only [attemptsCaught]
    rw [sat_bind]
    refine (acall_sat hC k (hr r List.mem_cons_self) h).mono ?_ (fun _ _ hf => hf) id
    intro p s1 h1
    rw [sat_bind]
    refine (ih (fun x hx => hr x (List.mem_cons_of_mem _ hx)) h1.rel).mono ?_ (fun _ _ hf => hf) id
    intro ps s2 h2
    rw [pure_run, sat_ok]
    have hst : ∀ md mm, ((r.ideal C.arch C.valueAlign C.maxCapacity md (mm, s.sto.vec.pos)).1, s1.sto.vec.pos) =
        r.ideal C.arch C.valueAlign C.maxCapacity md (mm, s.sto.vec.pos) := fun md mm => Prod.ext rfl (h1.pos_eq md mm)
    refine ⟨?_, fun md mm => ?_, ?_⟩
    · rw [h2.results, h1.result, h1.pos]; rfl
    · rw [h2.pos md (r.ideal C.arch C.valueAlign C.maxCapacity md (mm, s.sto.vec.pos)).1, hst]; rfl
    · have h3 := h2.rel
      simp only [hst] at h3
      exact h3

theorem attemptSession_sat (hC : C.OK) (k : Kind) {rs : List ACall} (hr : ∀ r ∈ rs, r.OK C k) {t : Sto} (ht : t.Inv C) :
    (attemptSession C k rs (Ser.fromStorage t)).Sat
      (fun ps s' => s'.sto.Inv C ∧ ps = attemptResults C.valueAlign C.maxCapacity rs t.vec.pos ∧
        (∀ md mm, s'.sto.vec.pos = (attemptIdeal C.arch C.valueAlign C.maxCapacity md rs (mm, t.vec.pos)).2) ∧
        s'.sto.view = (attemptIdeal C.arch C.valueAlign C.maxCapacity (k.mode s'.sto.vec.ptr) rs (t.view, t.vec.pos)).1)
      (fun _ _ => False) (¬ C.NeverFails) := by
  unfold attemptSession
  rw [sat_bind]
  refine (attemptsCaught_sat hC k hr (RelAll.init (k := k) ht)).mono ?_ (fun _ _ hf => hf) id
  intro ps s1 h1
  obtain ⟨s2, e1, e2, e3, e4, _, _⟩ := finalize_ok hC k (h1.rel.1 s1.sto.vec.ptr) h1.rel.2
  rw [sat_bind, e1, sat_ok, pure_run, sat_ok]
  exact ⟨e3, h1.results, fun md mm => by rw [e2]; exact h1.pos md mm, by rw [e4, e2]; rfl⟩

end
end SerRaw
