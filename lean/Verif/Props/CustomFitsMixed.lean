import Verif.Props.CustomFits
import Verif.Props.CustomMixed
import Verif.Props.CustomMixedComplete
/-
C67 in mixed sessions (C65, C66): a call gives no position only if its value does not fit, or the hand-written implementation panics.
-/
namespace SerRaw

section
variable {σ : Type} {P : Prog}

/-- The event gives a position exactly if its value fits (and the hand-written implementation, if it has one, returns); the value then lies at the next
aligned place and what the call appends ends where it must. -/
def GEv.FitsIff (C : Cfg) (P : Prog) (e : GEv) : Prop :=
  (∀ r xs, e.act = .typed r → Blocks C.arch P r.im r.t r.a xs →
    (e.res = none ↔ C.maxCapacity < placeEnd C.valueAlign e.lo xs) ∧
    ∀ p, e.res = some p → e.hi = placeEnd C.valueAlign e.lo xs ∧ ((P.layout r.t).size ≠ 0 → p = roundUp e.lo (P.layout r.t).align)) ∧
  ∀ r, e.act = .user r →
    let need := (rootIdeal C.arch C.valueAlign ⟨none, false⟩ r.L r.im r.a r.body.script (fun _ => none, e.lo)).2
    (e.res = none ↔ (∃ st, r.body = .panics st) ∨ C.maxCapacity < need) ∧
    ∀ p, e.res = some p → e.hi = need ∧ p = roundUp e.lo r.L.align

/-- The outcome of one call, for `FitsIff`. -/
structure Fit (C : Cfg) (L : Layout) (sc : Script) (dies : Prop) (lo : Nat) (res : Option Nat) (hi : Nat) : Prop where
  iff : res = none ↔ dies ∨ C.maxCapacity < placeEnd C.valueAlign lo (rootShapes L sc)
  at_ : ∀ p, res = some p → hi = placeEnd C.valueAlign lo (rootShapes L sc) ∧ p = rootPos L lo

theorem GEv.FitsIff.of {C : Cfg} (hW : 0 < C.arch.ptrBytes) (hP : P.WF C.arch) {e : GEv}
    (ht : ∀ r, e.act = .typed r → ∃ n sc, script C.arch P r.im n r.t r.a = some sc ∧ Fit C (P.layout r.t) sc False e.lo e.res e.hi)
    (hu : ∀ r, e.act = .user r → r.L.size ≠ 0 ∧ Fit C r.L r.body.script (∃ st, r.body = .panics st) e.lo e.res e.hi) : e.FitsIff C P := by
  constructor
  · intro r xs ha hb
    obtain ⟨n, sc, h3, h4⟩ := ht r ha
    obtain ⟨as, h5, h7⟩ := script_blocks hW hP h3
    rw [hb.unique ⟨n, as, h5, rfl⟩, h7]
    refine ⟨by rw [h4.iff]; simp, fun p hp => ⟨(h4.at_ p hp).1, fun hz => ?_⟩⟩
    rw [(h4.at_ p hp).2, rootPos, if_neg hz]
  · intro r ha
    obtain ⟨hz, h4⟩ := hu r ha
    rw [rootIdeal_end]
    refine ⟨h4.iff, fun p hp => ⟨(h4.at_ p hp).1, ?_⟩⟩
    rw [(h4.at_ p hp).2, rootPos, if_neg hz]

theorem gSerValue_fit {I : RandomImpl σ} {Inv : σ → Prop} {content : σ → Mem} (h : I.Conforms Inv content) (hx : I.Exact Inv)
    (hP : P.WF I.C.arch) (hacc : P.Accepted I.C) {k : DKind} {r : Root} (hv : Valid I.C.arch P r) {s : GSer σ} {m : Mem}
    (hr : RandomImpl.GRel I Inv content s m) {fuel : Nat} {res : Option Nat} {s' : GSer σ} (he : M.caught (gSerValue I k P fuel r) s = .ok res s') :
    ∃ n sc, script I.C.arch P r.im n r.t r.a = some sc ∧ Fit I.C (P.layout r.t) sc False (I.pos s.sto) res (I.pos s'.sto) := by
  have hW := h.storage.arch.ptr_pos
  obtain ⟨fl, v, n, hd⟩ := hv
  have hd := decode_mono (k := max n fuel) (by omega) hd
  obtain ⟨sc, hs, hg⟩ := gData_eq (I := I) hW (k := k) hP hd
  have hj : Job.OK I.C P fl (max n fuel) ⟨r, v, sc⟩ := ⟨hd, hs⟩
  have h0 := h.gvalue (k := k) (hj.gval hW hP hacc) hr
  rw [rootIdeal_end] at h0
  refine ⟨_, sc, hs, ?_⟩
  have hne : gSerValue I k P fuel r s ≠ .fuel := by
    intro e; unfold M.caught at he; rw [e] at he; cases he
  have he' := gSerValue_fuel (Nat.le_max_right n fuel) hne
  unfold M.caught at he
  rw [← he'] at he
  unfold gSerValue at he
  rw [hg] at he
  change (GSer.serializeValue I k (P.layout r.t) r.a (inputAt r.im r.a) (sc.runG I k r.im) s).Sat _ _ _ at h0
  cases hq : GSer.serializeValue I k (P.layout r.t) r.a (inputAt r.im r.a) (sc.runG I k r.im) s with
  | ok p s1 =>
    rw [hq] at h0 he
    cases he
    obtain ⟨h1, h2, h3, _⟩ := h0
    have h4 := h.storage.pos_le _ h2.inv; have h5 := h.storage.cap_le _ h2.inv
    refine ⟨⟨fun e => (by cases e), fun e => ?_⟩, fun q e => ?_⟩
    · rcases e with e | e
      · exact e.elim
      · change I.pos s'.sto = placeEnd I.C.valueAlign (I.pos s.sto) (rootShapes (P.layout r.t) sc) at h3; omega
    · cases e; exact ⟨h3, h1⟩
  | panic pk s1 =>
    rw [hq] at h0 he
    cases he
    exact ⟨⟨fun _ => .inr (h0.2 hx), fun _ => rfl⟩, fun q e => by cases e⟩
  | abort => rw [hq] at he; cases he
  | ub => rw [hq] at he; cases he
  | fuel => rw [hq] at he; cases he

theorem UserCall.serG_fit {I : RandomImpl σ} {Inv : σ → Prop} {content : σ → Mem} (h : I.Conforms Inv content) (hx : I.Exact Inv)
    {k : DKind} {r : UserCall} (hr : r.OK I.C) (hL : r.L.OK) (hty : r.body.script.RealTypes) {s : GSer σ} {m : Mem}
    (hs : RandomImpl.GRel I Inv content s m) {res : Option Nat} {s' : GSer σ} (he : M.caught (r.serG I k) s = .ok res s') :
    Fit I.C r.L r.body.script (∃ st, r.body = .panics st) (I.pos s.sto) res (I.pos s'.sto) := by
  have hz : r.L.size ≠ 0 := hr.1.size_ne
  have hv : RandomImpl.GValueOK I.C r.quiet := ⟨hL, fun _ => hr.1, fun _ => hr.2, hty, fun h0 => absurd h0 hz⟩
  have h0 := h.gvalue (k := k) hv hs
  rw [rootIdeal_end] at h0
  change (r.quiet.serG I k s).Sat _ _ _ at h0
  have hq := r.serG_eq (I := I) (k := k) s
  obtain ⟨im, L, a, b⟩ := r
  unfold M.caught at he
  cases b with
  | panics st =>
    simp only at hq
    have : res = none := by
      cases hr' : UserCall.serG I k ⟨im, L, a, .panics st⟩ s with
      | ok p s1 => rw [hr'] at hq; cases hq' : (UserCall.quiet ⟨im, L, a, .panics st⟩).serG I k s <;> rw [hq'] at hq <;> simp [GCut] at hq
      | panic pk s1 => rw [hr'] at he; cases he; rfl
      | abort => rw [hr'] at he; cases he
      | ub => rw [hr'] at he; cases he
      | fuel => rw [hr'] at he; cases he
    subst this
    exact ⟨⟨fun _ => .inl ⟨st, rfl⟩, fun _ => rfl⟩, fun q e => by cases e⟩
  | returns sc =>
    simp only at hq
    rw [hq] at he
    cases hr' : (UserCall.quiet ⟨im, L, a, .returns sc⟩).serG I k s with
    | ok p s1 =>
      rw [hr'] at h0 he
      cases he
      obtain ⟨h1, h2, h3, _⟩ := h0
      have h4 := h.storage.pos_le _ h2.inv; have h5 := h.storage.cap_le _ h2.inv
      refine ⟨⟨fun e => (by cases e), fun e => ?_⟩, fun q e => ?_⟩
      · rcases e with ⟨st, e⟩ | e
        · cases e
        · change I.pos s'.sto = placeEnd I.C.valueAlign (I.pos s.sto) (rootShapes L sc) at h3
          change I.C.maxCapacity < placeEnd I.C.valueAlign (I.pos s.sto) (rootShapes L sc) at e
          omega
      · cases e; exact ⟨h3, h1⟩
    | panic pk s1 =>
      rw [hr'] at h0 he
      cases he
      exact ⟨⟨fun _ => .inr (h0.2 hx), fun _ => rfl⟩, fun q e => by cases e⟩
    | abort => rw [hr'] at he; cases he
    | ub => rw [hr'] at he; cases he
    | fuel => rw [hr'] at he; cases he

/-- C67, mixed sessions, kinds `pure_copy`, `pos_tracking`, `ptr_offset`: on a storage with exact `reserve`, a call with the crate's own or derived
implementations gives no position exactly if its value does not fit after what was there; a call with a hand-written implementation, exactly if that
implementation panics or the value does not fit. Otherwise the value is at the next position aligned for it, and what the call appended ends where the
blocks laid out in order end. -/
theorem C67_mixed_fits_iff {I : RandomImpl σ} {Inv : σ → Prop} {content : σ → Mem} (h : I.Conforms Inv content) (hx : I.Exact Inv)
    (hP : P.WF I.C.arch) (hacc : P.Accepted I.C) {t : σ} (ht : LReach I P t) {k : DKind} {es : List GEv} {s : GSer σ} (hs : GSess I k P t es s) :
    ∀ e ∈ es,
      (∀ r xs, e.act = .typed r → Blocks I.C.arch P r.im r.t r.a xs →
        (e.res = none ↔ I.C.maxCapacity < placeEnd I.C.valueAlign e.lo xs) ∧
        ∀ p, e.res = some p → e.hi = placeEnd I.C.valueAlign e.lo xs ∧ ((P.layout r.t).size ≠ 0 → p = roundUp e.lo (P.layout r.t).align)) ∧
      ∀ r, e.act = .user r →
        let need := (rootIdeal I.C.arch I.C.valueAlign ⟨none, false⟩ r.L r.im r.a r.body.script (fun _ => none, e.lo)).2
        (e.res = none ↔ (∃ st, r.body = .panics st) ∨ I.C.maxCapacity < need) ∧
        ∀ p, e.res = some p → e.hi = need ∧ p = roundUp e.lo r.L.align := by
  have hW := h.storage.arch.ptr_pos
  obtain ⟨hI, hd⟩ := ht.inv h.lawful hP hacc
  suffices hh : ∀ e ∈ es, e.FitsIff I.C P from hh
  induction hs with
  | start => simp
  | @step es s a fuel res s' hs hl hr ih =>
    obtain ⟨m, h1⟩ := hs.inv h.lawful hP hacc hI hd
    intro e he
    rcases List.mem_append.1 he with he | he
    · exact ih e he
    obtain rfl := List.mem_singleton.1 he
    refine .of hW hP ?_ ?_
    · rintro r rfl; exact gSerValue_fit h hx hP hacc hl h1.rel hr
    · rintro r rfl; exact ⟨hl.1.1.size_ne, UserCall.serG_fit h hx hl.1 hl.2.1 hl.2.2 h1.rel hr⟩

/-- C67, mixed sessions, kind `complete`. -/
theorem C67_complete_mixed_fits_iff {I : ContigImpl σ} {Inv : σ → Prop} {content : σ → Mem} (h : I.Conforms Inv content) (hx : I.Exact Inv)
    (hP : P.WF I.C.arch) (hacc : P.Accepted I.C) {t : σ} (ht : QReach I P t) {es : List GEv} {s : CSer σ} (hs : CSess I P t es s) :
    ∀ e ∈ es,
      (∀ r xs, e.act = .typed r → Blocks I.C.arch P r.im r.t r.a xs →
        (e.res = none ↔ I.C.maxCapacity < placeEnd I.C.valueAlign e.lo xs) ∧
        ∀ p, e.res = some p → e.hi = placeEnd I.C.valueAlign e.lo xs ∧ ((P.layout r.t).size ≠ 0 → p = roundUp e.lo (P.layout r.t).align)) ∧
      ∀ r, e.act = .user r →
        let need := (rootIdeal I.C.arch I.C.valueAlign ⟨none, false⟩ r.L r.im r.a r.body.script (fun _ => none, e.lo)).2
        (e.res = none ↔ (∃ st, r.body = .panics st) ∨ I.C.maxCapacity < need) ∧
        ∀ p, e.res = some p → e.hi = need ∧ p = roundUp e.lo r.L.align := by
  have hW := h.random.storage.arch.ptr_pos
  obtain ⟨hI, hd⟩ := ht.inv h hP hacc
  suffices hh : ∀ e ∈ es, e.FitsIff I.C P from hh
  induction hs with
  | start => simp
  | @step es s a fuel res s' hs hl hr ih =>
    obtain ⟨m, h1⟩ := hs.inv h hP hacc hI hd
    intro e he
    rcases List.mem_append.1 he with he | he
    · exact ih e he
    obtain rfl := List.mem_singleton.1 he
    refine .of hW hP ?_ ?_
    · rintro r rfl
      have hne : cSerValue I P fuel r s ≠ .fuel := by
        intro e; unfold M.caught at hr; rw [show GAct.runC I P fuel (.typed r) s = .fuel from e] at hr; cases hr
      obtain ⟨n, sc, h3, h4⟩ := ctyped_sat h hP hacc hl h1.rel (fuel := fuel) hne
      refine ⟨n, sc, h3, ?_⟩
      unfold M.caught at hr
      simp only [GAct.runC] at hr
      cases hq : cSerValue I P fuel r s with
      | ok p s1 =>
        rw [hq] at h4 hr
        cases hr
        obtain ⟨m', h4⟩ := h4
        have h5 := h4.left.end_
        have h6 := h.random.storage.pos_le _ (h4.rel 0).inv; have h7 := h.random.storage.cap_le _ (h4.rel 0).inv
        refine ⟨⟨fun e => (by cases e), fun e => ?_⟩, fun q e => ?_⟩
        · rcases e with e | e
          · exact e.elim
          · change I.pos s'.sto = placeEnd I.C.valueAlign (I.pos s.sto) (rootShapes (P.layout r.t) sc) at h5
            change I.C.maxCapacity < placeEnd I.C.valueAlign (I.pos s.sto) (rootShapes (P.layout r.t) sc) at e
            change I.pos s'.sto ≤ I.capacity s'.sto at h6
            change I.capacity s'.sto ≤ I.C.maxCapacity at h7
            omega
        · cases e; exact ⟨h5, h4.left.at_⟩
      | panic pk s1 =>
        rw [hq] at h4 hr
        cases hr
        exact ⟨⟨fun _ => .inr (h4.2.2.1 hx), fun _ => rfl⟩, fun q e => by cases e⟩
      | abort => rw [hq] at hr; cases hr
      | ub => rw [hq] at hr; cases hr
      | fuel => rw [hq] at hr; cases hr
    · rintro r rfl
      refine ⟨hl.1.1.size_ne, ?_⟩
      have h4 := cuser_sat h hl.1 hl.2.1 hl.2.2.1 hl.2.2.2 h1.rel
      unfold M.caught at hr
      simp only [GAct.runC] at hr
      cases hq : r.serC I s with
      | ok p s1 =>
        rw [hq] at h4 hr
        cases hr
        obtain ⟨⟨sc, hsc⟩, m', h4⟩ := h4
        have h5 := h4.left.end_
        have h6 := h.random.storage.pos_le _ (h4.rel 0).inv; have h7 := h.random.storage.cap_le _ (h4.rel 0).inv
        refine ⟨⟨fun e => (by cases e), fun e => ?_⟩, fun q e => ?_⟩
        · rcases e with ⟨st, e⟩ | e
          · rw [hsc] at e; cases e
          · change I.pos s'.sto = placeEnd I.C.valueAlign (I.pos s.sto) (rootShapes r.L r.body.script) at h5
            change I.C.maxCapacity < placeEnd I.C.valueAlign (I.pos s.sto) (rootShapes r.L r.body.script) at e
            change I.pos s'.sto ≤ I.capacity s'.sto at h6
            change I.capacity s'.sto ≤ I.C.maxCapacity at h7
            omega
        · cases e; exact ⟨h5, h4.left.at_⟩
      | panic pk s1 =>
        rw [hq] at h4 hr
        cases hr
        refine ⟨⟨fun _ => ?_, fun _ => rfl⟩, fun q e => by cases e⟩
        rcases h4 with h4 | ⟨_, h4, _⟩
        · exact .inr (h4.2.2.1 hx)
        · exact .inl h4
      | abort => rw [hq] at hr; cases hr
      | ub => rw [hq] at hr; cases hr
      | fuel => rw [hq] at hr; cases hr

end

/-- C67 applies to the session of C66, where one call panicked itself, and another for lack of room: the node takes 136 bytes, and 288 + 136 > 400. -/
example : ∃ s, CSess (movingImpl cfgMove) exP (movingImpl cfgMove).new exCEvs s ∧
    (cfgMove.maxCapacity < placeEnd 8 288 [⟨⟨40, 8⟩, 1⟩, ⟨⟨40, 8⟩, 1⟩, ⟨⟨24, 8⟩, 2⟩, ⟨⟨1, 1⟩, 5⟩]) ∧ ∃ st, exPanic.body = .panics st := by
  obtain ⟨s, hs, _⟩ := exCSess
  have h := C67_complete_mixed_fits_iff (C63_moving cfgMove_ok) (moving_exact _) exP_wf exP_accepted_move .new hs
  have h1 := ((h ⟨.typed ⟨exIm, 1, 4096⟩, none, 288, 368⟩ (by simp [exCEvs])).1 _ _ rfl exBlocks).1.1 rfl
  have h2 := ((h ⟨.user exPanic, none, 144, 208⟩ (by simp [exCEvs])).2 _ rfl).1.1 rfl
  exact ⟨s, hs, h1, h2.resolve_right (by decide +kernel)⟩

/-- … and to the other kinds: on an array of 128 bytes the node does not fit after the enum, and another enum, serialized after that panic was caught, does. -/
example (k : DKind) : ∃ es s, GSess (arrayImpl cfgTiny) k exP (arrayImpl cfgTiny).new es s ∧ es.map GEv.res = [some 0, none, some 96] ∧
    cfgTiny.maxCapacity < placeEnd 8 16 [⟨⟨40, 8⟩, 1⟩, ⟨⟨40, 8⟩, 1⟩, ⟨⟨24, 8⟩, 2⟩, ⟨⟨1, 1⟩, 5⟩] := by
  obtain ⟨s, h0, hp⟩ := Out.arrayResult_ok (o := gactsRun (arrayImpl cfgTiny) k exP 6
      [.typed ⟨exIm, 9, 4288⟩, .typed ⟨exIm, 1, 4096⟩, .typed ⟨exIm, 9, 4288⟩] (GSer.fromStorage (arrayImpl cfgTiny).new))
    (r := ([(some 0, 0, 16, 128), (none, 16, 96, 128), (some 96, 96, 112, 128)], 112)) (by cases k <;> decide +kernel)
  obtain ⟨s1, a1, b1, c1, d1, h1⟩ := gactsRun_cons h0
  obtain ⟨s2, a2, b2, c2, d2, h2⟩ := gactsRun_cons h1
  obtain ⟨s3, a3, b3, c3, d3, h3⟩ := gactsRun_cons h2
  have n9 : Valid x64 exP ⟨exIm, 9, 4288⟩ := ⟨⟨true, false⟩, exEnum, exInputs (⟨exIm, 9, 4288⟩, exEnum) (by simp [exRoots])⟩
  have r1 := (GSess.start (I := arrayImpl cfgTiny) (k := k) (P := exP) (t := (arrayImpl cfgTiny).new)).step (a := .typed ⟨exIm, 9, 4288⟩) (fuel := 6) n9 a1
  have r2 := r1.step (a := .typed ⟨exIm, 1, 4096⟩) ⟨⟨true, false⟩, exNode, exInputs (⟨exIm, 1, 4096⟩, exNode) (by simp [exRoots])⟩ a2
  have r3 := r2.step (a := .typed ⟨exIm, 9, 4288⟩) n9 a3
  rw [b1, b2, b3, c3] at r3
  have h := ((C67_mixed_fits_iff (C62_array cfgTiny_ok) (array_exact _) exP_wf exP_accepted_tiny .new r3 ⟨.typed ⟨exIm, 1, 4096⟩, none, 16, 96⟩
    (by simp)).1 _ _ rfl exBlocks).1.1 rfl
  exact ⟨_, _, r3, rfl, h⟩

end SerRaw
