import Verif.Model.SerHistory
import Verif.Lemmas.History
import Verif.Lemmas.Finalize
import Verif.Lemmas.Top
import Verif.Props.Storage
/-
C20–C23: position mapping and pointer repair.
-/
namespace SerRaw
section
variable {C : Cfg}

/-! ### C20 -/

/-- C20, arithmetic. The position reported for an address at or after the start of the allocation is the start of the copy plus
the distance, without overflow, as long as that position is representable. -/
theorem C20_pos_for_addr {σ} (A : Arch) (m : PosMapping) {x : Nat} (h1 : m.inputAddr ≤ x)
    (h2 : m.outputPos + (x - m.inputAddr) < A.usizeMod) (s : σ) :
    m.posForAddr A x s = .ok (m.outputPos + (x - m.inputAddr)) s := posForAddr_ok A h1 h2 s

/-- `overwrite_ptr` changes only the slot and the pointer record. -/
theorem overwritePtr_view (hC : C.OK) {k : Kind} (hk : k.tracking = true) {s : Ser} (hI : s.sto.Inv C) {x target : Nat}
    (hx : x + C.arch.ptrBytes ≤ s.sto.vec.pos) (hxd : C.arch.ptrBytes ∣ x) (hpm : C.arch.ptrBytes ≤ C.maxValueAlign)
    (ht : target ≤ s.sto.vec.capacity) :
    ∃ s', overwritePtr C k x target s = .ok () s' ∧ s'.sto.vec = s.sto.vec ∧ s'.map = s.map ∧
      ∀ i, i < x ∨ x + C.arch.ptrBytes ≤ i → s'.sto.view i = s.sto.view i := by
  have hpl := hI.pos_le
  have hpp := hC.arch.ptr_pos
  cases k with
  | pureCopy => cases hk
  | posTracking => cases hk
  | ptrOffset =>
    obtain ⟨t, h1, h2, h3, h4⟩ := write_ok hC hI.toWInv (x := x) (n := 1) (wordCells C.arch target) (by omega)
      (by omega) hxd hpm
    simp only [Nat.one_mul] at h1 h4
    refine ⟨{ s with sto := t }, ?_, h2, rfl, ?_⟩
    · unfold overwritePtr PtrOffset.doOverwritePtr
      simp only
      rw [debug_prefix hC (by omega) hxd ht]
      exact lift_ok h1
    · intro i hi; simp only [h4]; exact blit_out hi
  | complete =>
    obtain ⟨t, h1, h2, h3, h4⟩ := write_ok hC hI.toWInv (x := x) (n := 1)
      (wordCells C.arch (s.sto.vec.ptr + target)) (by omega) (by omega) hxd hpm
    simp only [Nat.one_mul] at h1 h4
    have hlt : s.sto.vec.ptr + s.sto.vec.capacity < C.arch.usizeMod := by
      rcases hI.mem with ⟨h0, _, _⟩ | ⟨_, _, _, hh, _⟩
      · omega
      · exact hh
    refine ⟨{ s with sto := t, ptrs := recordPtr s.ptrs s.sto.vec.ptr x }, ?_, h2, rfl, ?_⟩
    · unfold overwritePtr Complete.doOverwritePtr
      simp only [Sto.asPtr]
      rw [debug_prefix hC (by omega) hxd ht, bind_ok (show M.get s = .ok s s from rfl),
        bind_ok (uadd_ok C.arch (by omega) s), bind_ok (lift_ok h1)]
      rfl
    · intro i hi; simp only [h4]; exact blit_out hi

/-- C20. `push_and_process_slice`, on any serializer that tracks positions, called within the contents of an allocation of `size`
bytes and alignment `al` that starts at input address `m.inputAddr` and whose copy is at `m.outputPos`: either the closure is not
reached at all, or there is a state in which it is called (whatever the closure is), and in that state the position reported for
every address of the slice is the position of a copy of that very byte. -/
theorem C20_position_of_copy (hC : C.OK) {k : Kind} (hk : k ≠ .pureCopy) {s : Ser} (hI : s.sto.Inv C) {sl : Slice}
    (hsl : PushOK C sl.L sl.len sl.addr) (hne : 0 < sl.len ∨ 0 < s.sto.vec.pos) {ptrAddr size al : Nat}
    (hin : k.tracking = true → TouchOK C ⟨s.map.inputAddr, size, al⟩ ptrAddr C.arch.ptrBytes ∧
      s.map.outputPos + size ≤ s.sto.vec.pos ∧ al ∣ s.map.outputPos ∧ 0 < al ∧ al ≤ C.maxValueAlign) :
    (∃ o : Out Ser Nat, (∀ p s', o ≠ .ok p s') ∧ ∀ f, pushAndProcessSlice C k sl ptrAddr f s = o) ∨
    (∃ pos s1, (∀ f, pushAndProcessSlice C k sl ptrAddr f s = (do f; Ser.setMap s.map; pure pos : M Ser Nat) s1) ∧
      ∀ x, sl.addr ≤ x → x < sl.addr + sl.L.size * sl.len →
        s1.map.posForAddr C.arch x s1 = .ok (pos + (x - sl.addr)) s1 ∧
        pos + (x - sl.addr) < s1.sto.vec.pos ∧
        s1.sto.view (pos + (x - sl.addr)) = sl.data (x - sl.addr)) := by
  have F := hC.facts
  have hpush := pushRawSlice_sat hC hsl (s := s) hI hne sl.data
  cases hr : Ser.lift (Sto.pushSlice C sl.L sl.len sl.data) s with
  | ok p s1 =>
    right
    rw [hr] at hpush
    obtain ⟨t, rfl, hp⟩ := hpush
    have hge : s.sto.vec.pos ≤ p := by rw [hp.pos_eq]; exact le_roundUp _ hsl.pow2.pos
    have hend : p + sl.L.size * sl.len ≤ t.vec.pos := by rw [hp.end_eq]; exact le_roundUp _ F.va.pos
    have hml := F.max_lt; have e2 := hp.inv.cap_le; have e3 := hp.inv.pos_le
    have hs0 := hI.pos_le; have hs1 := hI.cap_le
    have hview : ∀ i < sl.L.size * sl.len, t.view (p + i) = sl.data i := by
      intro i hi; rw [hp.view]; exact blit_at hi
    by_cases htr : k.tracking = true
    · obtain ⟨ht, hw, hd, ha0, hal⟩ := hin htr
      have hpm : C.arch.ptrBytes ≤ C.maxValueAlign := Nat.le_trans (Nat.le_of_dvd ha0 ht.al) hal
      have hlo := ht.lo; have hhi := ht.hi
      simp only at hlo hhi
      have hxd : C.arch.ptrBytes ∣ outPos s.map.inputAddr s.map.outputPos ptrAddr := Nat.dvd_add (Nat.dvd_trans ht.al hd) ht.off
      have hkk : k = .ptrOffset ∨ k = .complete := by cases k <;> simp_all [Kind.tracking]
      have hpw := hp.within
      obtain ⟨s2, hrun, hvec, hmap, hv2⟩ := overwritePtr_view hC htr (s := { s with sto := t }) hp.inv
        (x := outPos s.map.inputAddr s.map.outputPos ptrAddr) (target := p) (by unfold outPos; simp only; omega) hxd hpm
        (by simp only; omega)
      refine ⟨p, { s2 with map := ⟨sl.addr, p⟩ }, fun f => ?_, fun x hx1 hx2 => ?_⟩
      · have : pushAndProcessSlice C k sl ptrAddr f = PtrWriting.doPushAndProcessSlice C k sl ptrAddr f := by
          rcases hkk with rfl | rfl <;> rfl
        rw [this]
        unfold PtrWriting.doPushAndProcessSlice
        rw [bind_ok (show Ser.getMap s = .ok s.map s from rfl), bind_ok hr,
          bind_ok (posForAddr_ok C.arch hlo (op := s.map.outputPos) (by omega) _), bind_ok hrun]
        rfl
      · refine ⟨C20_pos_for_addr _ _ hx1 (by simp only; omega) _, by simp only [hvec]; omega, ?_⟩
        simp only
        rw [hv2 _ (by unfold outPos; omega), hview _ (by omega)]
    · have hkk : k = .posTracking := by cases k <;> simp_all [Kind.tracking]
      subst hkk
      refine ⟨p, { s with sto := t, map := ⟨sl.addr, p⟩ }, fun f => ?_, fun x hx1 hx2 => ?_⟩
      · show PosTracking.doPushAndProcessSlice C sl f s = _
        unfold PosTracking.doPushAndProcessSlice
        rw [bind_ok (show Ser.getMap s = .ok s.map s from rfl), bind_ok hr]
        rfl
      · exact ⟨C20_pos_for_addr _ _ hx1 (by simp only; omega) _, by simp only; omega, hview _ (by omega)⟩
  | panic k' s1 =>
    left
    refine ⟨.panic k' s1, by simp, fun f => ?_⟩
    cases k with
    | pureCopy => exact absurd rfl hk
    | posTracking =>
      show PosTracking.doPushAndProcessSlice C sl f s = _
      unfold PosTracking.doPushAndProcessSlice
      rw [bind_ok (show Ser.getMap s = .ok s.map s from rfl), bind_def, hr]
    | _ =>
      show PtrWriting.doPushAndProcessSlice C _ sl ptrAddr f s = _
      unfold PtrWriting.doPushAndProcessSlice
      rw [bind_ok (show Ser.getMap s = .ok s.map s from rfl), bind_def, hr]
  | abort =>
    left
    refine ⟨.abort, by simp, fun f => ?_⟩
    cases k with
    | pureCopy => exact absurd rfl hk
    | posTracking =>
      show PosTracking.doPushAndProcessSlice C sl f s = _
      unfold PosTracking.doPushAndProcessSlice
      rw [bind_ok (show Ser.getMap s = .ok s.map s from rfl), bind_def, hr]
    | _ =>
      show PtrWriting.doPushAndProcessSlice C _ sl ptrAddr f s = _
      unfold PtrWriting.doPushAndProcessSlice
      rw [bind_ok (show Ser.getMap s = .ok s.map s from rfl), bind_def, hr]
  | ub => rw [hr] at hpush; exact hpush.elim
  | fuel => rw [hr] at hpush; exact hpush.elim

/-! ### C21 -/

/-- A computation that leaves the position mapping as it was, whenever it returns. -/
def RestoresMap {α} (x : M Ser α) : Prop := ∀ s a s', x s = .ok a s' → s'.map = s.map

theorem RestoresMap.pure {α} (a : α) : RestoresMap (pure a : M Ser α) := by
  intro s b s' h; cases h; rfl
theorem RestoresMap.bind {α β} {x : M Ser α} {f : α → M Ser β} (hx : RestoresMap x) (hf : ∀ a, RestoresMap (f a)) :
    RestoresMap (x >>= f) := by
  intro s b s' h
  rw [bind_def] at h
  cases e : x s with
  | ok a s1 => rw [e] at h; exact (hf a s1 b s' h).trans (hx s a s1 e)
  | _ => rw [e] at h; cases h
theorem RestoresMap.lift {α} (x : M Sto α) : RestoresMap (Ser.lift x) := fun _ _ _ h => lift_map h
theorem RestoresMap.ite {α} {c : Prop} [Decidable c] {x y : M Ser α} (hx : RestoresMap x) (hy : RestoresMap y) :
    RestoresMap (if c then x else y) := by split <;> assumption
theorem RestoresMap.ub {α} : RestoresMap (M.ub : M Ser α) := by intro s b s' h; cases h
theorem RestoresMap.fuel {α} : RestoresMap (M.outOfFuel : M Ser α) := by intro s b s' h; cases h
theorem RestoresMap.throw {α} (k : PanicKind) : RestoresMap (M.throw k : M Ser α) := by intro s b s' h; cases h
theorem RestoresMap.get : RestoresMap (M.get : M Ser Ser) := by intro s b s' h; cases h; rfl
theorem RestoresMap.getMap : RestoresMap Ser.getMap := by intro s b s' h; cases h; rfl
theorem RestoresMap.getCapacity : RestoresMap Ser.getCapacity := by intro s b s' h; cases h; rfl
theorem RestoresMap.debugAssert (A : Arch) (b : Bool) : RestoresMap (M.debugAssert A b) := by
  intro s u s' h; unfold M.debugAssert at h; split at h <;> cases h; rfl
theorem RestoresMap.assert (k : PanicKind) (b : Bool) : RestoresMap (M.assert k b) := by
  intro s u s' h; unfold M.assert at h; split at h <;> cases h; rfl
theorem RestoresMap.usub (A : Arch) (x y : Nat) : RestoresMap (SerRaw.usub A x y) := by
  intro s u s' h; unfold SerRaw.usub at h; (repeat' split at h) <;> cases h <;> rfl
theorem RestoresMap.uadd (A : Arch) (x y : Nat) : RestoresMap (SerRaw.uadd A x y) := by
  intro s u s' h; unfold SerRaw.uadd at h; (repeat' split at h) <;> cases h <;> rfl
theorem RestoresMap.debugAssertM (A : Arch) {e : M Ser Bool} (h : RestoresMap e) : RestoresMap (M.debugAssertM A e) := by
  unfold M.debugAssertM; exact .ite (.bind h fun _ => .debugAssert _ _) (.pure _)
theorem RestoresMap.isAlignedTo (A : Arch) (x y : Nat) : RestoresMap (SerRaw.isAlignedTo A x y) :=
  .bind (.debugAssert _ _) fun _ => .bind (.usub _ _ _) fun _ => .pure _
theorem RestoresMap.posForAddr (A : Arch) (m : PosMapping) (x : Nat) : RestoresMap (m.posForAddr A x) :=
  .bind (.usub _ _ _) fun _ => .uadd _ _ _

theorem RestoresMap.overwritePtr (k : Kind) (x y : Nat) : RestoresMap (SerRaw.overwritePtr C k x y) := by
  cases k with
  | ptrOffset =>
    exact .bind .getCapacity fun _ => .bind (.debugAssertM _ (.bind (.usub _ _ _) fun _ => .pure _)) fun _ =>
      .bind (.debugAssertM _ (.isAlignedTo _ _ _)) fun _ => .bind (.debugAssert _ _) fun _ => .lift _
  | complete =>
    exact .bind .getCapacity fun _ => .bind (.debugAssertM _ (.bind (.usub _ _ _) fun _ => .pure _)) fun _ =>
      .bind (.debugAssertM _ (.isAlignedTo _ _ _)) fun _ => .bind (.debugAssert _ _) fun _ => .bind .get fun _ =>
      .bind (.uadd _ _ _) fun _ => .bind (.lift _) fun _ => by intro s u s' h; cases h; rfl
  | pureCopy => exact .pure _
  | posTracking => exact .pure _

/-- C21. On every serializer that tracks positions, `push_and_process_slice` (and `push_and_process`) puts the mapping back,
whatever the closure does to it. -/
theorem C21_process_restores {k : Kind} (hk : k ≠ .pureCopy) (sl : Slice) (ptrAddr : Nat) (process : M Ser Unit) {s s' : Ser} {p : Nat}
    (h : pushAndProcessSlice C k sl ptrAddr process s = .ok p s') : s'.map = s.map := by
  have key : ∀ (x : M Ser Nat) (f : Nat → M Ser Unit), RestoresMap x → (∀ m : PosMapping, (do
      let pos ← x
      f pos
      Ser.setMap m
      pure pos : M Ser Nat) s = .ok p s' → s'.map = m) := by
    intro x f _ m h
    rw [bind_def] at h
    cases e : x s with
    | ok a s1 =>
      rw [e] at h; simp only at h; rw [bind_def] at h
      cases e2 : f a s1 with
      | ok _ s2 => rw [e2] at h; cases h; rfl
      | _ => rw [e2] at h; cases h
    | _ => rw [e] at h; cases h
  cases k with
  | pureCopy => exact absurd rfl hk
  | posTracking =>
    have h' : (do
      let pos ← Ser.lift (Sto.pushSlice C sl.L sl.len sl.data)
      (do Ser.setMap ⟨sl.addr, pos⟩; process : M Ser Unit)
      Ser.setMap s.map
      pure pos : M Ser Nat) s = .ok p s' := by
      rw [← h]
      show _ = PosTracking.doPushAndProcessSlice C sl process s
      unfold PosTracking.doPushAndProcessSlice
      rw [bind_ok (show Ser.getMap s = .ok s.map s from rfl)]
      simp only [bind_assoc_M]
    exact key _ _ (.lift _) _ h'
  | ptrOffset =>
    have h' : (do
      let pos ← Ser.lift (Sto.pushSlice C sl.L sl.len sl.data)
      (do let ptrPos ← s.map.posForAddr C.arch ptrAddr
          overwritePtr C .ptrOffset ptrPos pos
          Ser.setMap ⟨sl.addr, pos⟩; process : M Ser Unit)
      Ser.setMap s.map
      pure pos : M Ser Nat) s = .ok p s' := by
      rw [← h]
      show _ = PtrWriting.doPushAndProcessSlice C .ptrOffset sl ptrAddr process s
      unfold PtrWriting.doPushAndProcessSlice
      rw [bind_ok (show Ser.getMap s = .ok s.map s from rfl)]
      simp only [bind_assoc_M]
    exact key _ _ (.lift _) _ h'
  | complete =>
    have h' : (do
      let pos ← Ser.lift (Sto.pushSlice C sl.L sl.len sl.data)
      (do let ptrPos ← s.map.posForAddr C.arch ptrAddr
          overwritePtr C .complete ptrPos pos
          Ser.setMap ⟨sl.addr, pos⟩; process : M Ser Unit)
      Ser.setMap s.map
      pure pos : M Ser Nat) s = .ok p s' := by
      rw [← h]
      show _ = PtrWriting.doPushAndProcessSlice C .complete sl ptrAddr process s
      unfold PtrWriting.doPushAndProcessSlice
      rw [bind_ok (show Ser.getMap s = .ok s.map s from rfl)]
      simp only [bind_assoc_M]
    exact key _ _ (.lift _) _ h'

theorem RestoresMap.pushAndProcessSlice {k : Kind} (sl : Slice) (p : Nat) {x : M Ser Unit} (hx : RestoresMap x) :
    RestoresMap (SerRaw.pushAndProcessSlice C k sl p x) := by
  by_cases hk : k = .pureCopy
  · subst hk
    exact .bind (.lift _) fun _ => .bind hx fun _ => .pure _
  · intro s a s' h; exact C21_process_restores hk sl p x h

theorem RestoresMap.pushSlice {k : Kind} (sl : Slice) (p : Nat) : RestoresMap (SerRaw.pushSlice C k sl p) := by
  cases k with
  | pureCopy => exact RestoresMap.pushAndProcessSlice (k := .pureCopy) sl p (.pure ())
  | posTracking => exact .lift _
  | ptrOffset =>
    exact .bind (.lift _) fun _ => .bind .getMap fun _ => .bind (.posForAddr _ _ _) fun _ => .bind (.overwritePtr _ _ _) fun _ => .pure _
  | complete =>
    exact .bind (.lift _) fun _ => .bind .getMap fun _ => .bind (.posForAddr _ _ _) fun _ => .bind (.overwritePtr _ _ _) fun _ => .pure _

theorem RestoresMap.overwrite {k : Kind} (x : Nat) (L : Layout) (d : Nat → Cell) : RestoresMap (SerRaw.overwrite C k x L d) := by
  cases k with
  | complete => exact .bind .getMap fun _ => .bind (.posForAddr _ _ _) fun _ => .lift _
  | _ => exact .pure _

theorem RestoresMap.overwriteWith {k : Kind} {x : M Ser Unit} (h : RestoresMap x) : RestoresMap (SerRaw.overwriteWith k x) := by
  cases k with
  | complete => exact h
  | _ => exact .pure _

theorem RestoresMap.addrFromRefOffset (A : Arch) (k : Kind) (x y : Nat) : RestoresMap (SerRaw.addrFromRefOffset A k x y) := by
  unfold SerRaw.addrFromRefOffset; exact .ite (.uadd _ _ _) (.pure _)
theorem RestoresMap.readIn (A : Arch) (im : Mem) (a : Nat) : RestoresMap (SerRaw.readIn A im a) := by
  unfold SerRaw.readIn; split
  · exact .pure _
  · exact .ub
theorem RestoresMap.constEval {α} (x : Option α) : RestoresMap (SerRaw.constEval x) := by
  unfold SerRaw.constEval; split
  · exact .pure _
  · exact .throw _

/-- C21. Any sequence of serializer calls, nested to any depth, made by any `Serialize` implementation, puts the mapping back. -/
theorem C21_script (k : Kind) (im : Mem) (sc : Script) : RestoresMap (sc.run C k im) := by
  induction sc with
  | done => exact .pure _
  | pushProcess L len src ptr inner rest ih1 ih2 => exact .bind (.pushAndProcessSlice _ _ ih1) fun _ => ih2
  | push L len src ptr rest ih => exact .bind (.pushSlice _ _) fun _ => ih
  | pushRaw L len src rest ih => exact .bind (.lift _) fun _ => ih
  | overwrite a L data rest ih => exact .bind (.overwriteWith (.overwrite _ _ _)) fun _ => ih

theorem RestoresMap.serEach {rec : TyId → Nat → M Ser Unit} (h : ∀ t a, RestoresMap (rec t a)) (a : Nat) (fs : List Field) :
    RestoresMap (SerRaw.serEach rec a fs) := by
  induction fs with
  | nil => exact .pure _
  | cons f fs ih => exact .bind (h _ _) fun _ => ih

theorem RestoresMap.emptyFix {k : Kind} (off : VecOffsets) (d a : Nat) : RestoresMap (overwriteCapAndPtrForEmpty C k off d a) := by
  unfold overwriteCapAndPtrForEmpty
  refine .ite (.overwrite _ _ _) (.ite (.overwrite _ _ _) (.ite ?_ (.ite ?_ ?_)))
  · exact .bind (.addrFromRefOffset _ _ _ _) fun _ => .overwrite _ _ _
  · exact .bind (.addrFromRefOffset _ _ _ _) fun _ => .overwrite _ _ _
  · exact .bind (.addrFromRefOffset _ _ _ _) fun _ => .bind (.overwrite _ _ _) fun _ =>
      .bind (.addrFromRefOffset _ _ _ _) fun _ => .overwrite _ _ _

theorem RestoresMap.serVec {k : Kind} {P : Prog} {im : Mem} {rec : TyId → Nat → M Ser Unit} (h : ∀ t a, RestoresMap (rec t a))
    (t a : Nat) : RestoresMap (SerRaw.serVec C k P im rec t a) := by
  unfold SerRaw.serVec
  refine .ite (.pure _) (.bind (.readIn _ _ _) fun _ => .bind (.readIn _ _ _) fun _ => .bind (.readIn _ _ _) fun _ =>
    .bind (.constEval _) fun _ => .ite (.overwriteWith (.ite (.emptyFix _ _ _) (.pure _))) ?_)
  exact .bind (.overwriteWith (.ite (.bind (.addrFromRefOffset _ _ _ _) fun _ => .overwrite _ _ _) (.pure _))) fun _ =>
    .bind (.addrFromRefOffset _ _ _ _) fun _ => .bind (.pushAndProcessSlice _ _ (.serEach h _ _)) fun _ => .pure _

/-- C21. `serialize_data` of every supported type, on any input memory whatsoever, puts the mapping back. -/
theorem C21_serialize_data (k : Kind) (P : Prog) (im : Mem) (fuel : Nat) :
    ∀ t a, RestoresMap (serData C k P im fuel t a) := by
  induction fuel with
  | zero => intro t a; exact .fuel
  | succ n ih =>
    intro t a
    unfold serData
    split
    · exact .pure _
    · unfold serBox
      exact .ite (.pure _) (.bind (.readIn _ _ _) fun _ => .bind (.pushAndProcessSlice _ _ (ih _ _)) fun _ => .pure _)
    · exact .serVec ih _ _
    · unfold serString
      refine .bind (.readIn _ _ _) fun _ => .bind (.readIn _ _ _) fun _ => .bind (.readIn _ _ _) fun _ =>
        .bind (.constEval _) fun _ => .ite (.overwriteWith (.ite (.emptyFix _ _ _) (.pure _))) ?_
      exact .bind (.overwriteWith (.ite (.bind (.addrFromRefOffset _ _ _ _) fun _ => .overwrite _ _ _) (.pure _))) fun _ =>
        .bind (.addrFromRefOffset _ _ _ _) fun _ => .bind (.pushSlice _ _) fun _ => .pure _
    · exact .serEach ih _ _
    · exact .serEach ih _ _
    · unfold serEnum
      split
      · exact .ub
      · split
        · exact .ub
        · exact .serEach ih _ _
    · exact .serVec ih _ _
    · unfold serBigInt
      split
      · refine .bind ?_ fun _ => ih _ _
        unfold bigintDataOffset
        refine .bind (.constEval _) fun _ => .bind (.constEval _) fun _ => ?_
        split
        · exact .ite (.bind (.assert _ _) fun _ => .pure _) (.bind (.assert _ _) fun _ => .pure _)
        · exact .ub
      · exact .ub

/-! ### C22, C23 -/

/-- Storage operations that do not rewind or write keep the relation. -/
theorem Rel.grow {B : Nat} {s : Ser} {m : Mem} (h : Rel C B s m) {t : Sto} (hi : t.Inv C) (hp : s.sto.vec.pos ≤ t.vec.pos)
    (hv : ∀ i < s.sto.vec.pos, t.view i = s.sto.view i) :
    Rel C B { s with sto := t } (fun i => if i < s.sto.vec.pos then m i else t.view i) := by
  refine ⟨hi, ?_, h.nodup, ?_, ?_⟩
  · intro e he
    obtain ⟨h1, h2, h3⟩ := h.bound e he
    exact ⟨by simp only; omega, h2, h3⟩
  · intro e he
    obtain ⟨h1, _, _⟩ := h.bound e he
    obtain ⟨w, hw1, hw2⟩ := h.word e he
    refine ⟨w, ?_, ?_⟩
    · rw [← hw1]; exact readWord_congr fun i hi => hv _ (by omega)
    · rw [← hw2]; refine readWord_congr fun i hi => ?_
      rw [if_pos (by omega)]
  · intro i hi
    simp only
    split
    · rename_i hlt; rw [hv i hlt]; exact h.rest i hi
    · rfl

/-- Invariant of serializer histories. -/
structure PInv (C : Cfg) (es : List PEvent) (s : Ser) (B : Nat) (m : Mem) : Prop where
  rel : Rel C B s m
  ents : s.ptrs.entries.map (·.2) = (slots es).map (·.1)
  words : ∀ x ∈ slots es, x.1 + C.arch.ptrBytes ≤ s.sto.vec.pos ∧ x.2 ≤ s.sto.vec.pos ∧
    readWord C.arch m x.1 = some ((B + x.2) % C.arch.usizeMod)

theorem slots_append (es : List PEvent) (e : PEvent) : slots (es ++ [e]) = slots es ++ slots [e] := by
  unfold slots; rw [List.filterMap_append]

theorem slots_sto (op : SOp) (r : Option Nat) : slots [⟨.sto op, r⟩] = [] := by
  unfold slots; cases r <;> rfl

theorem PInv.sto {es : List PEvent} {s : Ser} {B : Nat} {m : Mem} (h : PInv C es s B m) {op : SOp}
    (hl : (POp.sto op).Legal C es s) {t : Sto} (hst : StepSpec C op s.sto t)
    (hw : ∀ p L len d, op = .writeSlice p L len d → ∃ n, t.vec = s.sto.vec ∧ n ≤ L.size * len ∧ t.view = s.sto.view.blit p n d)
    (r : Option Nat) : ∃ m', PInv C (es ++ [⟨.sto op, r⟩]) { s with sto := t } B m' := by
  obtain ⟨hleg, hclr, hdis⟩ := hl
  have hpos : s.sto.vec.pos ≤ t.vec.pos := hst.pos_mono hclr
  have hs : slots (es ++ [⟨.sto op, r⟩]) = slots es := by rw [slots_append, slots_sto, List.append_nil]
  by_cases hwr : ∃ p L len d, op = .writeSlice p L len d
  · obtain ⟨p, L, len, d, rfl⟩ := hwr
    obtain ⟨n, hvec, hn, hview⟩ := hw p L len d rfl
    have hd := hdis p L len d rfl
    have hd' : ∀ x ∈ slots es, DisjRange x.1 C.arch.ptrBytes p n := by
      intro x hx; have := hd x hx; unfold DisjRange at *; omega
    refine ⟨m.blit p n d, h.rel.write hvec hst.inv.toWInv hview ?_, by rw [hs]; exact h.ents, ?_⟩
    · intro e he
      have : e.2 ∈ (slots es).map (·.1) := by rw [← h.ents]; exact List.mem_map_of_mem he
      obtain ⟨x, hx, hxe⟩ := List.mem_map.1 this
      rw [← hxe]; exact hd' x hx
    · intro x hx
      rw [hs] at hx
      obtain ⟨h1, h2, h3⟩ := h.words x hx
      have := hd' x hx
      unfold DisjRange at this
      refine ⟨by simp only; omega, by simp only; omega, ?_⟩
      rw [readWord_blit_disj (by omega)]; exact h3
  · have hv := hst.view fun p L len d he => hwr ⟨p, L, len, d, he⟩
    refine ⟨_, h.rel.grow hst.inv hpos hv, by rw [hs]; exact h.ents, ?_⟩
    intro x hx
    rw [hs] at hx
    obtain ⟨h1, h2, h3⟩ := h.words x hx
    refine ⟨by simp only; omega, by simp only; omega, ?_⟩
    rw [← h3]; refine readWord_congr fun i hi => ?_
    rw [if_pos (by omega)]

theorem write_step (hC : C.OK) {s : Sto} (h : s.Inv C) {p : Nat} {L : Layout} {len : Nat} {d : Nat → Cell}
    (hl : (SOp.writeSlice p L len d).Legal C s) :
    ∃ t n, (SOp.writeSlice p L len d).run C s = .ok 0 t ∧ t.vec = s.vec ∧ n ≤ L.size * len ∧ t.view = s.view.blit p n d := by
  obtain ⟨hL, hfit, hd, hlast⟩ := hl
  by_cases hz : L.size = 0
  · refine ⟨s, 0, ?_, rfl, Nat.zero_le _, ?_⟩
    · simp only [SOp.run]
      rw [bind_ok (writeSlice_zst hC.facts h.toWInv hz (by omega) hL.pow2 hd)]; rfl
    · funext i; rw [blit_out (by omega)]
  · obtain ⟨hsa, hc⟩ := hlast.resolve_left hz
    obtain ⟨t, h1, h2, _, _, h5⟩ := writeSlice_ok hC h.toWInv d hz hc hfit hL.pow2 hd hsa
    refine ⟨t, _, ?_, h2, Nat.le_refl _, h5⟩
    simp only [SOp.run]; rw [bind_ok h1]; rfl

theorem PHist.inv (hC : C.OK) {es : List PEvent} {s : Ser} (h : PHist C es s) (B : Nat) : ∃ m, PInv C es s B m := by
  induction h with
  | start h => exact ⟨_, Rel.init (h.inv hC), by simp [Ser.fromStorage, entries_new, slots], by simp [slots]⟩
  | @ok es s op p s' hh hl hr ih =>
    obtain ⟨m, ih⟩ := ih
    cases op with
    | sto op =>
      have hst := step_sat hC ih.rel.inv hl.1
      simp only [POp.run, Ser.lift] at hr
      cases e : op.run C s.sto with
      | ok q t =>
        rw [e] at hr hst
        cases hr
        refine ih.sto hl hst ?_ _
        rintro p' L len d rfl
        obtain ⟨t', n, g1, g2⟩ := write_step hC ih.rel.inv hl.1
        rw [g1] at e; cases e
        exact ⟨n, g2⟩
      | _ => rw [e] at hr; cases hr
    | ptr x t =>
      obtain ⟨h1, h2, h3, h4, h5⟩ := hl
      have hpl := ih.rel.inv.pos_le
      have hd : ∀ e ∈ s.ptrs.entries, DisjRange e.2 C.arch.ptrBytes x C.arch.ptrBytes := by
        intro e he
        have : e.2 ∈ (slots es).map (·.1) := by rw [← ih.ents]; exact List.mem_map_of_mem he
        obtain ⟨y, hy, hye⟩ := List.mem_map.1 this
        rw [← hye]; exact h5 y hy
      obtain ⟨s2, g1, g2⟩ := overwritePtr_ok hC (k := .complete) rfl ih.rel h2 h1 (accepts_iff.1 h4) (target := t) (by omega) hd
      simp only [POp.run] at hr
      rw [bind_ok g1] at hr
      cases hr
      have hs : slots (es ++ [⟨.ptr x t, some 0⟩]) = slots es ++ [(x, t)] := by rw [slots_append]; rfl
      have hview := g2.rel
      simp only [Kind.mode, Mode.putPtr] at hview
      refine ⟨_, hview, ?_, ?_⟩
      · have hrec : s'.ptrs.entries = s.ptrs.entries ++ [(s.sto.vec.ptr, x)] := by
          have hrun := g1
          unfold overwritePtr Complete.doOverwritePtr at hrun
          simp only [Sto.asPtr] at hrun
          rw [debug_prefix hC (by omega) h1 (by omega), bind_ok (show M.get s = .ok s s from rfl)] at hrun
          rw [bind_def] at hrun
          split at hrun
          · rename_i a s1 ea
            have e1 : s1 = s := by
              unfold uadd at ea; (repeat' split at ea) <;> cases ea <;> rfl
            subst e1
            rw [bind_def] at hrun
            split at hrun
            · rename_i b s2' eb
              have e2 : s2'.ptrs = s1.ptrs := (Keeps.lift _).ok eb
              cases hrun
              simp only [entries_record, e2]
            all_goals cases hrun
          all_goals cases hrun
        rw [hrec, hs, List.map_append, List.map_append, ih.ents]; rfl
      · intro y hy
        rw [hs] at hy
        rcases List.mem_append.1 hy with hy | hy
        · obtain ⟨k1, k2, k3⟩ := ih.words y hy
          have := h5 y hy
          unfold DisjRange at this
          rw [g2.vec]
          refine ⟨k1, k2, ?_⟩
          rw [readWord_blit_disj (by omega)]; exact k3
        · simp only [List.mem_singleton] at hy
          subst hy
          rw [g2.vec]
          exact ⟨h2, h3, readWord_blit_same⟩
  | @panic es s op k s' hh hl hr ih =>
    obtain ⟨m, ih⟩ := ih
    cases op with
    | sto op =>
      have hst := step_sat hC ih.rel.inv hl.1
      simp only [POp.run, Ser.lift] at hr
      cases e : op.run C s.sto with
      | panic q t =>
        rw [e] at hr hst
        cases hr
        refine ih.sto hl hst ?_ _
        rintro p' L len d rfl
        obtain ⟨t', n, g1, g2⟩ := write_step hC ih.rel.inv hl.1
        rw [g1] at e; cases e
      | _ => rw [e] at hr; cases hr
    | ptr x t =>
      obtain ⟨h1, h2, h3, h4, h5⟩ := hl
      have hpl := ih.rel.inv.pos_le
      obtain ⟨s2, g1, _⟩ := overwritePtr_view hC (k := .complete) rfl ih.rel.inv h2 h1 (accepts_iff.1 h4) (target := t) (by omega)
      simp only [POp.run] at hr
      rw [bind_ok g1] at hr
      cases hr

/-- C22. Whatever the history - any number of growths and shrinks, with an allocator that may move the buffer anywhere each
time - `finalize` returns, and afterwards every pointer slot holds the buffer's final address plus the target position it was
written with. -/
theorem C22_finalize_repairs (hC : C.OK) {es : List PEvent} {s : Ser} (h : PHist C es s) :
    ∃ s', finalize C .complete s = .ok () s' ∧
      ∀ x ∈ slots es, readWord C.arch s'.sto.w.load (s'.sto.vec.ptr + x.1) = some (s'.sto.vec.ptr + x.2) := by
  obtain ⟨m, hm⟩ := h.inv hC s.sto.vec.ptr
  obtain ⟨s', h1, h2, h3, h4, _⟩ := finalize_ok hC .complete hm.rel (by simp)
  refine ⟨s', h1, fun x hx => ?_⟩
  obtain ⟨k1, k2, k3⟩ := hm.words x hx
  have hlt : s.sto.vec.ptr + s.sto.vec.capacity < C.arch.usizeMod := by
    have := hm.rel.inv.pos_le; have := hC.arch.ptr_pos
    rcases hm.rel.inv.mem with ⟨h0, _, _⟩ | ⟨_, _, _, hh, _⟩
    · omega
    · exact hh
  have hpl := hm.rel.inv.pos_le
  rw [Nat.mod_eq_of_lt (by omega)] at k3
  rw [h2, ← k3, ← h4]
  refine readWord_congr fun i hi => ?_
  have := load_eq_view h3.toWInv (i := x.1 + i) (by rw [h2]; omega)
  rw [h2] at this
  rw [← this, Nat.add_assoc]

/-- C23. `finalize` changes no byte outside the recorded pointer slots, and neither the position, the capacity nor the address
of the buffer. -/
theorem C23_finalize_frame (hC : C.OK) {es : List PEvent} {s s' : Ser} (h : PHist C es s) (hf : finalize C .complete s = .ok () s') :
    s'.sto.vec = s.sto.vec ∧
    ∀ i < s.sto.vec.capacity, (∀ x ∈ slots es, i < x.1 ∨ x.1 + C.arch.ptrBytes ≤ i) →
      s'.sto.w.load (s'.sto.vec.ptr + i) = s.sto.w.load (s.sto.vec.ptr + i) := by
  obtain ⟨m, hm⟩ := h.inv hC s.sto.vec.ptr
  obtain ⟨s2, h1, h2, h3, h4, _⟩ := finalize_ok hC .complete hm.rel (by simp)
  rw [hf] at h1; cases h1
  refine ⟨h2, fun i hi hx => ?_⟩
  rw [load_eq_view h3.toWInv (by rw [h2]; exact hi), load_eq_view hm.rel.inv.toWInv hi, h4]
  refine (hm.rel.rest i fun e he => ?_).symm
  have : e.2 ∈ (slots es).map (·.1) := by rw [← hm.ents]; exact List.mem_map_of_mem he
  obtain ⟨y, hy, hye⟩ := List.mem_map.1 this
  rw [← hye]; exact hx y hy

/-- C23. The other serializers' `finalize` does nothing at all. -/
theorem C23_other_kinds {k : Kind} (hk : k ≠ .complete) (s : Ser) : finalize C k s = .ok () s := by
  cases k <;> first | rfl | exact absurd rfl hk

end
end SerRaw
