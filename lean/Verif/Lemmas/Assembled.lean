import Verif.Spec.Assembled
import Verif.Lemmas.AnySerializer
import Verif.Lemmas.CustomComplete
/-
Serializers assembled from the crate's traits: running a script gives the reference output in the storage and the corrections in the log.
-/
namespace SerRaw

/-! ### Serializers which treat values and slices alike -/

/-- `push_and_process` is a slice of one, `from_ref_offset` is addition, and `overwrite_with` calls its closure or not, always. -/
structure SerializerImpl.Regular {τ : Type} (S : SerializerImpl τ Nat) : Prop where
  one : ∀ L a d p x, S.pushAndProcess L a d p x = S.pushAndProcessSlice (Slice.fromRef L a d) p x
  ref : ∀ a, S.fromRef a = a
  off : ∀ a off, a + off < S.A.usizeMod → S.fromRefOffset a off = pure (a + off)
  fix : (∀ w, S.overwriteWith w = w) ∨ ∀ w, S.overwriteWith w = pure ()

theorem Correction.run_regular {τ : Type} {S : SerializerImpl τ Nat} (hS : S.Regular) {c : Correction} (hc : c.addr < S.A.usizeMod) :
    c.run S = S.overwrite c.addr c.L c.data := by
  unfold Correction.run
  unfold Correction.addr at hc ⊢
  cases ho : c.off with
  | none => simp only [hS.ref, Option.getD_none, Nat.add_zero]
  | some off =>
    rw [ho] at hc
    simp only [Option.getD_some] at hc ⊢
    rw [hS.off _ _ hc, pure_bind_M]

theorem CallTree.run_regular {τ : Type} {S : SerializerImpl τ Nat} (hS : S.Regular) {im : Mem} (c : CallTree) (hc : c.InRange S.A) :
    c.run S im = c.toScript.runA S im := by
  induction c with
  | done => rfl
  | process L target a inner rest ih1 ih2 => simp only [CallTree.run, CallTree.toScript, Script.runA, hS.one, ih1 hc.1, ih2 hc.2]; rfl
  | processSlice L len src a off inner rest ih1 ih2 =>
    simp only [CallTree.run, CallTree.toScript, Script.runA, hS.off _ _ hc.1, pure_bind_M, hS.ref, ih1 hc.2.1, ih2 hc.2.2]
  | pushSlice L len src a off rest ih =>
    simp only [CallTree.run, CallTree.toScript, Script.runA, hS.off _ _ hc.1, pure_bind_M, hS.ref, ih hc.2]
  | overwriteWith cs rest ih =>
    obtain ⟨h1, h2⟩ := hc
    simp only [CallTree.run, CallTree.toScript, ih h2]
    rcases hS.fix with hf | hf
    · rw [hf]
      induction cs with
      | nil => rfl
      | cons c cs ihc =>
        simp only [corrections, List.foldr_cons, Script.runA, bind_assoc_M, hf, hS.ref, Correction.run_regular hS (h1 c (by simp))]
        rw [ihc fun x hx => h1 x (by simp [hx])]
    · rw [hf, pure_bind_M]
      induction cs with
      | nil => rfl
      | cons c cs ihc =>
        simp only [List.foldr_cons, Script.runA, hf, pure_bind_M]
        exact ihc fun x hx => h1 x (by simp [hx])

theorem kit_regular {σ : Type} (I : RandomImpl σ) (K : Kit) : (kitSerializer I K).Regular where
  one _ _ _ _ _ := rfl
  ref _ := rfl
  off a off h := by funext s; exact uadd_ok I.C.arch h s
  fix := by
    obtain ⟨o, f⟩ := K
    cases f
    · exact Or.inr fun _ => rfl
    · exact Or.inl fun _ => rfl
    · exact Or.inl fun _ => rfl

/-- The crate's values on a regular serializer. -/
theorem aRoots_regular {τ : Type} {S : SerializerImpl τ Nat} (hS : S.Regular) {C : Cfg} (hA : S.A = C.arch) (hW : 0 < C.arch.ptrBytes) {P : Prog}
    (hP : P.WF C.arch) {fl : Flags} {n : Nat} (js : List Job) (hj : ∀ j ∈ js, j.OK C P fl n) :
    aRoots S P n (js.map (·.r)) = aValues S (js.map (Job.gval P)) := by
  induction js with
  | nil => rfl
  | cons j js ih =>
    obtain ⟨h1, h2⟩ := hj j (by simp)
    obtain ⟨c, e1, i1, e2⟩ := aData_calls hW hP h1
    rw [h2] at e1
    obtain e1 := Option.some.inj e1
    simp only [List.map_cons, aRoots, aValues]
    rw [show aData S P j.r.im n j.r.t j.r.a = c.run S j.r.im from e2 n (Nat.le_refl _) _ _ S hA, CallTree.run_regular hS c (hA ▸ i1), ← e1,
      ih fun x hx => hj x (by simp [hx])]
    rfl

/-! ### Running a script -/

/-- The corrections a script makes, with positions: in the context of an allocation at input address `ia` and position `op`, with the output ending
at `q`. -/
def Script.fixes (va : Nat) : Script → (ia op q : Nat) → List Fix
  | .done, _, _, _ => []
  | .pushProcess L len src _ inner rest, ia, op, q =>
    inner.fixes va src (roundUp q L.align) (roundUp (roundUp q L.align + L.size * len) va) ++
      rest.fixes va ia op (placeEnd va (roundUp (roundUp q L.align + L.size * len) va) inner.shapes)
  | .push L len _ _ rest, ia, op, q => rest.fixes va ia op (roundUp (roundUp q L.align + L.size * len) va)
  | .pushRaw L len _ rest, ia, op, q => rest.fixes va ia op (roundUp (roundUp q L.align + L.size * len) va)
  | .overwrite a L data rest, ia, op, q => ⟨outPos ia op a, L.size, data⟩ :: rest.fixes va ia op q

/-- The corrections recorded. -/
def Kit.recorded (K : Kit) (fs : List Fix) : List Fix := if K.fix = .record then fs else []

theorem Kit.recorded_append (K : Kit) (xs ys : List Fix) : K.recorded (xs ++ ys) = K.recorded xs ++ K.recorded ys := by
  unfold Kit.recorded; split <;> simp

theorem sat_klift {σ α : Type} {x : M (GSer σ) α} {s : KSer σ} {Q : α → KSer σ → Prop} {R : PanicKind → KSer σ → Prop} {Ab : Prop} :
    (KSer.lift x s).Sat Q R Ab ↔
      (x s.toGSer).Sat (fun a t => Q a { s with toGSer := t }) (fun k t => R k { s with toGSer := t }) Ab := by
  unfold KSer.lift; cases x s.toGSer <;> simp

theorem klift_ok {σ α : Type} {x : M (GSer σ) α} {s : KSer σ} {a : α} {g : GSer σ} (h : x s.toGSer = .ok a g) :
    KSer.lift x s = .ok a { s with toGSer := g } := by unfold KSer.lift; rw [h]

namespace RandomImpl
variable {σ : Type} {I : RandomImpl σ} {Inv : σ → Prop} {content : σ → Mem}

/-- A correction written to the storage. -/
theorem Conforms.gfix (h : I.Conforms Inv content) {s : GSer σ} {m : Mem} (hr : GRel I Inv content s m) {ia op a lo : Nat} {L : Layout}
    (data : Nat → Cell) (hz : L.size ≠ 0) (hL : L.OK) (hmap : s.map = ⟨ia, op⟩) (hia : ia ≤ a) (hx : outPos ia op a + L.size ≤ I.pos s.sto)
    (hxd : L.align ∣ outPos ia op a) (hpm : L.align ≤ I.C.maxValueAlign) (hlo : lo ≤ outPos ia op a) :
    ∃ s', GSer.lift (I.write (outPos ia op a) L data) s = .ok () s' ∧ s'.map = s.map ∧ I.pos s'.sto = I.pos s.sto ∧
      GRel I Inv content s' (m.blit (outPos ia op a) L.size data) ∧ GKept I Inv content lo s s' := by
  have hpl := h.storage.pos_le _ hr.inv
  obtain ⟨t, e, i1, p1, c1, hdata, hother⟩ := h.writeSlice s.sto (outPos ia op a) L 1 data hr.inv hL hz hpm Nat.one_pos
    (by simp only [Nat.mul_one]; omega) hxd
  simp only [Nat.mul_one] at hdata hother
  refine ⟨{ s with sto := t }, ?_, rfl, p1, ⟨i1, by simp only [p1]; exact hr.dvd, ?_, ?_⟩,
    ⟨i1, by simp only [p1]; exact hr.dvd, by simp only [p1]; exact Nat.le_refl _, fun i hi => hother i (by omega) (by omega)⟩⟩
  · unfold GSer.lift RandomImpl.write; rw [e]
  · intro i hi
    simp only [p1] at hi
    rw [blit_out (by omega)]
    exact hr.fresh i hi
  · intro i b hb
    simp only
    by_cases hin : outPos ia op a ≤ i ∧ i < outPos ia op a + L.size
    · have := hdata (i - outPos ia op a) (by omega)
      rw [show outPos ia op a + (i - outPos ia op a) = i by omega] at this
      rw [this]
      rw [show i = outPos ia op a + (i - outPos ia op a) by omega, blit_at (by omega)] at hb
      exact hb
    · rw [blit_out (by omega)] at hb
      have hlt : i < I.pos s.sto := by
        apply Nat.lt_of_not_le; intro hle
        rw [hr.fresh i hle] at hb; cases hb
      rw [hother i hlt (by omega)]
      exact hr.sub i b hb

/-- What a push and the pointer to it do. -/
theorem Conforms.kpushPtr (h : I.Conforms Inv content) {K : Kit} {s : KSer σ} {m : Mem} (hr : GRel I Inv content s.toGSer m) {c : Ctx} {op : Nat}
    {L : Layout} {len src ptr : Nat} (ho : PushOK I.C L len src) (hL : L.OK) (ht : TouchOK I.C c ptr I.C.arch.ptrBytes)
    (hmap : s.map = ⟨c.ia, op⟩)
    (hin : op + c.sz ≤ I.pos s.sto) (hpp : 0 < I.pos s.sto) (hal : c.al ∣ op) (hal0 : 0 < c.al) (hale : c.al ≤ I.C.maxValueAlign)
    (data : Nat → Cell) {α : Type} (f : Nat → M (KSer σ) α) {Q : α → KSer σ → Prop} {ub : Nat}
    (hub : roundUp (roundUp (I.pos s.sto) L.align + L.size * len) I.C.valueAlign ≤ ub)
    (hf : ∀ g1 : GSer σ, g1.map = s.map → I.pos g1.sto = roundUp (roundUp (I.pos s.sto) L.align + L.size * len) I.C.valueAlign →
      GRel I Inv content g1 (K.storeMode.putPtr I.C.arch (m.blit (roundUp (I.pos s.sto) L.align) (L.size * len) data) (outPos c.ia op ptr)
        (roundUp (I.pos s.sto) L.align)) →
      GKept I Inv content op s.toGSer g1 → (f (roundUp (I.pos s.sto) L.align) ⟨g1, s.log⟩).Sat Q
        (fun pk s' => GFull I Inv content ub op s.toGSer pk s'.toGSer) (¬ I.NeverAborts Inv)) :
    ((KSer.lift (GSer.pushRawSlice I ⟨L, len, src, data⟩) >>= fun pos => KSer.writePtr I K ⟨c.ia, op⟩ ptr pos >>= fun _ => f pos) s).Sat Q
      (fun pk s' => GFull I Inv content ub op s.toGSer pk s'.toGSer) (¬ I.NeverAborts Inv) := by
  cases hK : K.offsets with
  | false =>
    have hm : ∀ m x t, K.storeMode.putPtr I.C.arch m x t = m := by intro m x t; simp [Kit.storeMode, Mode.putPtr, hK]
    simp only [hm] at hf
    rw [sat_bind, sat_klift]
    refine (h.gpush hr ho hL (Or.inr hpp) data (lo := op) (by omega)).mono ?_
      (fun _ _ hh => GFull.from (GKept.refl hr) hh (Nat.le_refl _) hub) id
    rintro p g1 ⟨rfl, hm1, hp1, hr1, hk1⟩
    rw [bind_ok (show KSer.writePtr I K ⟨c.ia, op⟩ ptr _ _ = .ok () _ from by unfold KSer.writePtr; rw [hK]; rfl)]
    exact hf g1 hm1 hp1 hr1 hk1
  | true =>
    have hm : ∀ m x t, K.storeMode.putPtr I.C.arch m x t = m.blit x I.C.arch.ptrBytes (wordCells I.C.arch t) := by
      intro m x t; simp [Kit.storeMode, Mode.putPtr, hK]
    simp only [hm] at hf
    have core := h.gpushPtr hr ho hL ht hin hpp hal hal0 hale data (fun pos => (pure pos : M (GSer σ) Nat)) (ub := ub)
      (Q := fun p g => p = roundUp (I.pos s.sto) L.align ∧ g.map = s.map ∧
        I.pos g.sto = roundUp (roundUp (I.pos s.sto) L.align + L.size * len) I.C.valueAlign ∧
        GRel I Inv content g ((m.blit (roundUp (I.pos s.sto) L.align) (L.size * len) data).blit (outPos c.ia op ptr) I.C.arch.ptrBytes
          (wordCells I.C.arch (roundUp (I.pos s.sto) L.align))) ∧ GKept I Inv content op s.toGSer g) hub
      (fun g1 a b c d => ⟨rfl, a, b, c, d⟩)
    rw [sat_bind, sat_klift]
    rw [sat_bind] at core
    refine core.mono ?_ (fun _ _ hh => hh) id
    intro p g1 hh
    have hw : KSer.writePtr I K ⟨c.ia, op⟩ ptr p = (PosMapping.posForAddr I.C.arch ⟨c.ia, op⟩ ptr >>= fun pp =>
        KSer.lift (GSer.doOverwritePtr I pp p)) := by unfold KSer.writePtr; rw [hK]; rfl
    rw [hw, bind_assoc_M]
    rw [sat_bind] at hh ⊢
    have hpos : ∀ {τ : Type} (x : τ), PosMapping.posForAddr (σ := τ) I.C.arch ⟨c.ia, op⟩ ptr x = .ok (outPos c.ia op ptr) x := by
      intro τ x
      have := h.storage.pos_le _ hr.inv; have := h.storage.cap_le _ hr.inv; have := h.storage.facts.max_lt
      have h1 := ht.lo; have h2 := ht.hi
      exact posForAddr_ok I.C.arch h1 (by omega) x
    rw [hpos] at hh ⊢
    simp only [sat_ok] at hh ⊢
    rw [sat_bind] at hh ⊢
    rw [sat_klift]
    refine hh.mono ?_ (fun _ _ hh => hh) id
    rintro _ g2 ⟨rfl, a, b, c, d⟩
    exact hf g2 a b c d

/-- Running a well-formed script: the storage gets the reference output, the log the corrections if they are recorded. -/
theorem Conforms.runK (h : I.Conforms Inv content) {K : Kit} {im : Mem} (sc : Script) {c : Ctx} {op : Nat} {s : KSer σ} {m : Mem}
    (hr : GRel I Inv content s.toGSer m) (hwf : sc.WF I.C c) (hty : sc.RealTypes) (hov : sc.RealOverwrites) (hmap : s.map = ⟨c.ia, op⟩)
    (hin : op + c.sz ≤ I.pos s.sto) (hpp : 0 < I.pos s.sto) (hal : c.al ∣ op) (hal0 : 0 < c.al) (hale : c.al ≤ I.C.maxValueAlign) :
    (sc.runA (kitSerializer I K) im s).Sat
      (fun _ s' => GRel I Inv content s'.toGSer (sc.ideal I.C.arch I.C.valueAlign K.storeMode im c.ia op (m, I.pos s.sto)).1 ∧
        I.pos s'.sto = (sc.ideal I.C.arch I.C.valueAlign K.storeMode im c.ia op (m, I.pos s.sto)).2 ∧ s'.map = s.map ∧
        s'.log = s.log ++ K.recorded (sc.fixes I.C.valueAlign c.ia op (I.pos s.sto)) ∧
        GKept I Inv content op s.toGSer s'.toGSer)
      (fun pk s' => GFull I Inv content (sc.ideal I.C.arch I.C.valueAlign K.storeMode im c.ia op (m, I.pos s.sto)).2 op s.toGSer pk s'.toGSer)
      (¬ I.NeverAborts Inv) := by
  have F := h.storage.facts
  have hva := F.va.pos
  induction sc generalizing c op s m with
  | done => exact ⟨hr, rfl, rfl, by simp [Script.fixes, Kit.recorded], hr.inv, hr.dvd, Nat.le_refl _, fun _ _ => rfl⟩
  | pushRaw L len src rest ih =>
    obtain ⟨ho, hw⟩ := hwf
    obtain ⟨hL, hty⟩ := hty
    simp only [Script.runA, Script.ideal, Script.fixes]
    rw [sat_bind, show (kitSerializer I K).pushRawSlice ⟨L, len, src, fun i => im (src + i)⟩ =
      KSer.lift (GSer.pushRawSlice I ⟨L, len, src, fun i => im (src + i)⟩) from rfl, sat_klift]
    refine (h.gpush hr ho hL (Or.inr hpp) _ (lo := op) (by omega)).mono ?_ (fun _ _ hh => GFull.from (GKept.refl hr) hh (Nat.le_refl _) (ideal_mono hva rest hw _ _ (_, _))) id
    rintro p g1 ⟨rfl, hm1, hp1, hr1, hk1⟩
    have hk1p := hk1.pos
    refine (ih (s := ⟨g1, s.log⟩) hr1 hw hty hov (hm1.trans hmap) (by simp only; omega) (by simp only; omega) hal hal0 hale).mono ?_
      (fun _ _ hh => GFull.from hk1 hh (Nat.le_refl _) (by simp only [hp1]; exact Nat.le_refl _)) id
    rintro _ s2 ⟨a1, a2, a3, a4, a5⟩
    simp only [hp1] at a1 a2 a4
    exact ⟨a1, a2, a3.trans hm1, a4, hk1.trans a5⟩
  | overwrite a L data rest ih =>
    obtain ⟨ht, hw⟩ := hwf
    obtain ⟨hL, hov⟩ := hov
    have hlo := ht.lo; have hhi := ht.hi
    have hpos : ∀ {τ : Type} (x : τ), PosMapping.posForAddr (σ := τ) I.C.arch ⟨c.ia, op⟩ a x = .ok (outPos c.ia op a) x := by
      intro τ x
      have := h.storage.pos_le _ hr.inv; have := h.storage.cap_le _ hr.inv; have := h.storage.facts.max_lt
      exact posForAddr_ok I.C.arch hlo (by omega) x
    have hget : KSer.lift GSer.getMap s = .ok ⟨c.ia, op⟩ s := by
      rw [klift_ok (show GSer.getMap s.toGSer = .ok s.map s.toGSer from rfl), hmap]
    simp only [Script.runA, Script.ideal, Script.fixes]
    obtain ⟨off, fm⟩ := K
    cases fm with
    | drop =>
      rw [bind_ok (show (kitSerializer I ⟨off, .drop⟩).overwriteWith _ s = .ok () s from rfl)]
      have hmode : ∀ m x n d, (Kit.storeMode ⟨off, .drop⟩).putValue m x n d = m := by intro m x n d; simp [Kit.storeMode, Mode.putValue]
      simp only [hmode]
      exact ih hr hw hty hov hmap hin hpp hal hal0 hale
    | apply =>
      have hmode : ∀ m x n d, (Kit.storeMode ⟨off, .apply⟩).putValue m x n d = m.blit x n d := by
        intro m x n d; simp [Kit.storeMode, Mode.putValue]
      simp only [hmode]
      obtain ⟨g1, e1, hm1, hp1, hr1, hk1⟩ := h.gfix (lo := op) hr data ht.size_ne hL hmap hlo (by unfold outPos; omega)
        (Nat.dvd_add (Nat.dvd_trans ht.al hal) ht.off) (Nat.le_trans (Nat.le_of_dvd hal0 ht.al) hale) (outPos_ge _ _ _)
      have hrun : (kitSerializer I ⟨off, .apply⟩).overwriteWith ((kitSerializer I ⟨off, .apply⟩).overwrite
          ((kitSerializer I ⟨off, .apply⟩).fromRef a) L data) s = .ok () ⟨g1, s.log⟩ := by
        show (do let m ← KSer.lift GSer.getMap; let pos ← m.posForAddr I.C.arch a; KSer.lift (GSer.lift (I.write pos L data)) : M (KSer σ) Unit) s = _
        rw [bind_ok hget, bind_ok (hpos s), klift_ok e1]
      rw [bind_ok hrun]
      refine (ih (s := ⟨g1, s.log⟩) hr1 hw hty hov (hm1.trans hmap) (by simp only; omega) (by simp only; omega) hal hal0 hale).mono ?_
        (fun _ _ hh => GFull.from hk1 hh (Nat.le_refl _) (by simp only [hp1]; exact Nat.le_refl _)) id
      rintro _ s2 ⟨a1, a2, a3, a4, a5⟩
      simp only [hp1] at a1 a2 a4
      exact ⟨a1, a2, a3.trans hm1, a4, hk1.trans a5⟩
    | record =>
      have hmode : ∀ m x n d, (Kit.storeMode ⟨off, .record⟩).putValue m x n d = m := by intro m x n d; simp [Kit.storeMode, Mode.putValue]
      simp only [hmode]
      have hrun : (kitSerializer I ⟨off, .record⟩).overwriteWith ((kitSerializer I ⟨off, .record⟩).overwrite
          ((kitSerializer I ⟨off, .record⟩).fromRef a) L data) s =
          .ok () { s with log := s.log ++ [⟨outPos c.ia op a, L.size, data⟩] } := by
        show (do let m ← KSer.lift GSer.getMap; let pos ← m.posForAddr I.C.arch a; KSer.push ⟨pos, L.size, data⟩ : M (KSer σ) Unit) s = _
        rw [bind_ok hget, bind_ok (hpos s)]; rfl
      rw [bind_ok hrun]
      refine (ih (s := { s with log := s.log ++ [⟨outPos c.ia op a, L.size, data⟩] }) hr hw hty hov hmap hin hpp hal hal0 hale).imp ?_
      rintro _ s2 ⟨a1, a2, a3, a4, a5⟩
      exact ⟨a1, a2, a3, by rw [a4]; simp [Kit.recorded], a5⟩
  | push L len src ptr rest ih =>
    obtain ⟨ho, ht, _, hw⟩ := hwf
    obtain ⟨hL, hty⟩ := hty
    have hlo := ht.lo
    simp only [Script.runA, Script.ideal, Script.fixes]
    have hcore := h.kpushPtr (K := K) hr ho hL ht hmap hin hpp hal hal0 hale (fun i => im (src + i)) (fun _ => rest.runA (kitSerializer I K) im)
      (Q := fun _ s' => GRel I Inv content s'.toGSer (rest.ideal I.C.arch I.C.valueAlign K.storeMode im c.ia op
          (K.storeMode.putPtr I.C.arch (m.blit (roundUp (I.pos s.sto) L.align) (L.size * len) fun i => im (src + i)) (outPos c.ia op ptr)
            (roundUp (I.pos s.sto) L.align), roundUp (roundUp (I.pos s.sto) L.align + L.size * len) I.C.valueAlign)).1 ∧
        I.pos s'.sto = (rest.ideal I.C.arch I.C.valueAlign K.storeMode im c.ia op
          (K.storeMode.putPtr I.C.arch (m.blit (roundUp (I.pos s.sto) L.align) (L.size * len) fun i => im (src + i)) (outPos c.ia op ptr)
            (roundUp (I.pos s.sto) L.align), roundUp (roundUp (I.pos s.sto) L.align + L.size * len) I.C.valueAlign)).2 ∧
        s'.map = s.map ∧ s'.log = s.log ++ K.recorded (rest.fixes I.C.valueAlign c.ia op (roundUp (roundUp (I.pos s.sto) L.align + L.size * len) I.C.valueAlign)) ∧
        GKept I Inv content op s.toGSer s'.toGSer)
        (ideal_mono (A := I.C.arch) (md := K.storeMode) (im := im) hva rest hw c.ia op
          (K.storeMode.putPtr I.C.arch (m.blit (roundUp (I.pos s.sto) L.align) (L.size * len) fun i => im (src + i)) (outPos c.ia op ptr)
            (roundUp (I.pos s.sto) L.align), roundUp (roundUp (I.pos s.sto) L.align + L.size * len) I.C.valueAlign)) ?_
    · show ((KSer.pushSlice I K ⟨L, len, src, fun i => im (src + i)⟩ ptr >>= fun _ => rest.runA (kitSerializer I K) im) s).Sat _ _ _
      unfold KSer.pushSlice
      simp only [bind_assoc_M, pure_bind_M]
      rw [sat_bind] at hcore ⊢
      rw [sat_klift] at hcore ⊢
      refine (hcore.and (h.gpush hr ho hL (Or.inr hpp) (fun i => im (src + i)) (lo := op) (by omega))).mono (fun p g hh => ?_) (fun _ _ hh => hh.1) And.left
      obtain ⟨hh, _, hm1, _⟩ := hh
      rw [bind_ok (show KSer.lift GSer.getMap ⟨g, s.log⟩ = .ok ⟨c.ia, op⟩ ⟨g, s.log⟩ from by
        rw [klift_ok (show GSer.getMap g = .ok g.map g from rfl), hm1, hmap])]
      exact hh
    · intro g1 hm1 hp1 hr1 hk1
      have hk1p := hk1.pos
      refine (ih (s := ⟨g1, s.log⟩) hr1 hw hty hov (hm1.trans hmap) (by simp only; omega) (by simp only; omega) hal hal0 hale).mono ?_
        (fun _ _ hh => GFull.from hk1 hh (Nat.le_refl _) (by simp only [hp1]; exact Nat.le_refl _)) id
      rintro _ s2 ⟨a1, a2, a3, a4, a5⟩
      simp only [hp1] at a1 a2 a4
      exact ⟨a1, a2, a3.trans hm1, a4, hk1.trans a5⟩
  | pushProcess L len src ptr inner rest ih1 ih2 =>
    obtain ⟨ho, ht, _, hwi, hw⟩ := hwf
    obtain ⟨hL, hti, hty⟩ := hty
    obtain ⟨hovi, hov⟩ := hov
    have hlo := ht.lo; have hhi := ht.hi
    have hge := le_roundUp (I.pos s.sto) ho.pow2.pos
    have hge2 := le_roundUp (roundUp (I.pos s.sto) L.align + L.size * len) hva
    simp only [Script.runA, Script.ideal, Script.fixes]
    show ((KSer.pushAndProcessSlice I K ⟨L, len, src, fun i => im (src + i)⟩ ptr (inner.runA (kitSerializer I K) im) >>= fun _ =>
      rest.runA (kitSerializer I K) im) s).Sat _ _ _
    unfold KSer.pushAndProcessSlice
    simp only [bind_assoc_M, pure_bind_M]
    rw [bind_ok (show KSer.lift GSer.getMap s = .ok ⟨c.ia, op⟩ s from by
        rw [klift_ok (show GSer.getMap s.toGSer = .ok s.map s.toGSer from rfl), hmap])]
    refine h.kpushPtr (K := K) hr ho hL ht hmap hin hpp hal hal0 hale (fun i => im (src + i)) _
      (Nat.le_trans (ideal_mono hva inner hwi _ _ (_, _)) (ideal_mono hva rest hw _ _ _)) ?_
    intro g1 hm1 hp1 hr1 hk1
    rw [bind_ok (show KSer.lift (GSer.setMap ⟨src, roundUp (I.pos s.sto) L.align⟩) ⟨g1, s.log⟩ =
      .ok () ⟨⟨g1.sto, ⟨src, roundUp (I.pos s.sto) L.align⟩⟩, s.log⟩ from rfl), sat_bind]
    have hr1' : GRel I Inv content ⟨g1.sto, ⟨src, roundUp (I.pos s.sto) L.align⟩⟩ _ := ⟨hr1.inv, hr1.dvd, hr1.fresh, hr1.sub⟩
    have hk1' : GKept I Inv content op s.toGSer ⟨g1.sto, ⟨src, roundUp (I.pos s.sto) L.align⟩⟩ := ⟨hk1.inv, hk1.dvd, hk1.pos, hk1.below⟩
    refine (ih1 (c := ⟨src, L.size * len, L.align⟩) (op := roundUp (I.pos s.sto) L.align)
      (s := ⟨⟨g1.sto, ⟨src, roundUp (I.pos s.sto) L.align⟩⟩, s.log⟩) hr1' hwi hti hovi rfl (by simp only; omega) (by simp only; omega)
      (dvd_roundUp _ _) ho.pow2.pos ho.align_le).mono ?_ (fun _ _ hh => GFull.from hk1' hh (by omega)
        (by simp only [hp1]; exact ideal_mono hva rest hw _ _ _)) id
    rintro _ s2 ⟨a1, a2, a3, a4, a5⟩
    simp only [hp1] at a1 a2 a4
    rw [bind_ok (show KSer.lift (GSer.setMap ⟨c.ia, op⟩) s2 = .ok () ⟨⟨s2.sto, ⟨c.ia, op⟩⟩, s2.log⟩ from rfl)]
    have hr2 : GRel I Inv content ⟨s2.sto, ⟨c.ia, op⟩⟩ _ := ⟨a1.inv, a1.dvd, a1.fresh, a1.sub⟩
    have hk2 : GKept I Inv content op s.toGSer ⟨s2.sto, ⟨c.ia, op⟩⟩ := by
      have := hk1'.trans (a5.lower (lo' := op) (by omega))
      exact ⟨this.inv, this.dvd, this.pos, this.below⟩
    have hk2p := hk2.pos
    simp only at hk2p
    refine (ih2 (s := ⟨⟨s2.sto, ⟨c.ia, op⟩⟩, s2.log⟩) hr2 hw hty hov rfl (by simp only; omega) (by simp only; omega) hal hal0 hale).mono ?_
      (fun _ _ hh => GFull.from hk2 hh (Nat.le_refl _) (by simp only [a2]; exact Nat.le_refl _)) id
    rintro _ s3 ⟨b1, b2, b3, b4, b5⟩
    simp only [a2] at b1 b2 b4
    refine ⟨b1, b2, b3.trans hmap.symm, ?_, hk2.trans b5⟩
    rw [b4, a4, ideal_end, Kit.recorded_append, List.append_assoc]

end RandomImpl
end SerRaw
