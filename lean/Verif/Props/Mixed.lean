import Verif.Lemmas.Mixed
import Verif.Props.Serialize
import Verif.Props.UserPanic
/-
C59: one serializer used for everything at once. Model/Mixed.lean: `Sess C k P t es s` is a serializer of kind `k` on the storage `t` after the
events `es` — values with the crate's own and derived implementations, values with hand-written implementations (some of which
panic), and direct storage operations, in any order, with every panic caught. Each event carries its result and the storage's
position before (`lo`) and after it (`hi`).
-/
namespace SerRaw

theorem script_blocks {A : Arch} {P : Prog} {im : Mem} {n tid a : Nat} {sc : Script} (hW : 0 < A.ptrBytes) (hP : P.WF A)
    (h : script A P im n tid a = some sc) : ∃ as, owned A P im n tid a = some as ∧ blocksOf (P.layout tid) as = rootShapes (P.layout tid) sc := by
  obtain ⟨as, h1, h2⟩ := script_own n _ _ _ h
  have h3 : as.map Own.shape = sc.shapes := by
    unfold Script.shapes; rw [← h2, List.map_map]; rfl
  refine ⟨as, h1, ?_⟩
  unfold blocksOf rootShapes
  rw [h3]
  split
  · rename_i hz; rw [script_zst hW hP hz h]; rfl
  · rfl

section
variable {C : Cfg} {P : Prog} {k : Kind} {t : Sto} {es : List Ev} {s s' : Ser}

/-- Whatever the state is, the next thing is safe. -/
theorem SessInv.safe (hC : C.OK) (hP : P.WF C.arch) (hacc : P.Accepted C) {m : Nat → Mem} (h1 : SessInv C k P t es s m) :
    (∀ a : Act, a.Legal C P es s →
      (∀ fuel, M.caught (a.run C k P fuel) s ≠ .ub ∧ (∀ pk s1, M.caught (a.run C k P fuel) s ≠ .panic pk s1) ∧
        (M.caught (a.run C k P fuel) s = .abort → ¬ C.NeverFails)) ∧
      ∃ N, ∀ fuel, N ≤ fuel → M.caught (a.run C k P fuel) s ≠ .fuel) ∧
    ∃ s', finalize C k s = .ok () s' ∧ s'.sto.vec = s.sto.vec := by
  refine ⟨fun a ha => ⟨fun fuel => ?_, ?_⟩, ?_⟩
  · by_cases hne : M.caught (a.run C k P fuel) s = .fuel
    · rw [hne]; simp
    · have := act_sat hC hP hacc h1 ha hne
      cases hr : M.caught (a.run C k P fuel) s with
      | ok r s' => simp
      | panic pk s' => rw [hr] at this; exact this.elim
      | abort => rw [hr] at this; exact ⟨by simp, by simp, fun _ => this⟩
      | ub => rw [hr] at this; exact this.elim
      | fuel => exact absurd hr hne
  · cases a with
    | typed r =>
      obtain ⟨fl, v, n, hd⟩ := ha
      refine ⟨n, fun fuel hf he => ?_⟩
      have hd' := decode_mono (k := fuel) hf hd
      obtain ⟨sc, hs, _⟩ := serData_eq hC.arch.ptr_pos .pureCopy hP hd'
      have h0 := serValue_sat hC hP hacc k hd' hs h1.rel
      unfold M.caught at he
      simp only [Act.run] at he
      cases hr : serValue C k P r.im fuel r.t r.a s <;> rw [hr] at he h0 <;> first | (cases he; done) | exact h0.elim
    | user r =>
      refine ⟨0, fun fuel _ he => ?_⟩
      have := userCall_sat hC k ha h1.rel
      simp only [Act.run] at he
      rw [he] at this
      exact this.elim
    | sto o =>
      refine ⟨0, fun fuel _ he => ?_⟩
      have := step_sat hC (h1.rel.1 0).inv ha.1
      unfold M.caught at he
      simp only [Act.run, Ser.lift] at he
      cases hr : o.run C s.sto <;> rw [hr] at he this <;> first | (cases he; done) | exact this.elim
  · obtain ⟨s2, e1, e2, _⟩ := finalize_ok hC k (h1.rel.1 _) h1.rel.2
    exact ⟨s2, e1, e2⟩

/-- C59, safety: whatever was done before, the next permitted thing neither is undefined behaviour nor lets a panic through `catch_unwind`, it ends
(recursion on the value is finite), it aborts only if the allocator fails — and `finalize` always works. -/
theorem C59_safe (hC : C.OK) (hP : P.WF C.arch) (hacc : P.Accepted C) (ht : GReach C P t) (h : Sess C k P t es s) :
    (∀ a : Act, a.Legal C P es s →
      (∀ fuel, M.caught (a.run C k P fuel) s ≠ .ub ∧ (∀ pk s1, M.caught (a.run C k P fuel) s ≠ .panic pk s1) ∧
        (M.caught (a.run C k P fuel) s = .abort → ¬ C.NeverFails)) ∧
      ∃ N, ∀ fuel, N ≤ fuel → M.caught (a.run C k P fuel) s ≠ .fuel) ∧
    ∃ s', finalize C k s = .ok () s' ∧ s'.sto.vec = s.sto.vec := by
  obtain ⟨m, h1⟩ := h.inv hC hP hacc (ht.inv hC hP hacc)
  exact h1.safe hC hP hacc

/-- C59, order: the outputs of the events lie one after the other, after what the storage held before. -/
theorem C59_order (hC : C.OK) (hP : P.WF C.arch) (hacc : P.Accepted C) (ht : GReach C P t) (h : Sess C k P t es s) :
    (∀ e ∈ es, t.vec.pos ≤ e.lo ∧ e.lo ≤ e.hi ∧ e.hi ≤ s.sto.vec.pos) ∧ es.Pairwise fun e e' => e.hi ≤ e'.lo := by
  obtain ⟨m, h1⟩ := h.inv hC hP hacc (ht.inv hC hP hacc)
  exact ⟨h1.bounds, h1.order⟩

/-- A typed value that was serialized, with the job it makes. -/
theorem SessInv.typed (hC : C.OK) (hP : P.WF C.arch) {m : Nat → Mem} (h : SessInv C k P t es s m) {e : Ev} (he : e ∈ es) {r : Root} {p : Nat}
    (ha : e.act = .typed r) (hp : e.res = some p) {fl : Flags} {v : Val} (hv : Denotes C.arch P fl r.im r.t r.a v) :
    ∃ n sc, Job.OK C P fl n ⟨r, v, sc⟩ ∧ Left C k (P.layout r.t) r.im r.a sc m e.lo e.hi p := by
  have h1 := h.left e he p hp
  rw [ha] at h1
  obtain ⟨n, sc, h2, h3⟩ := h1
  obtain ⟨n', hd⟩ := hv
  exact ⟨max n n', sc, ⟨decode_mono (by omega) hd, script_mono (by omega) h2⟩, h3⟩

theorem Left.pos_of_nz {L : Layout} {im : Mem} {a : Nat} {sc : Script} {m : Nat → Mem} {lo hi p : Nat} (hva : 0 < C.valueAlign)
    (hal : ∀ x ∈ rootShapes L sc, 0 < x.L.align) (h : Left C k L im a sc m lo hi p) (hz : L.size ≠ 0) : lo ≤ p ∧ p + L.size ≤ hi := by
  have hL : 0 < L.align := hal ⟨L, 1⟩ (by unfold rootShapes; rw [if_neg hz]; simp)
  have h1 := h.at_
  have h2 := h.end_
  rw [rootPos, if_neg hz] at h1
  rw [rootShapes, if_neg hz] at h2
  simp only [placeEnd, Shape.bytes, Nat.mul_one] at h2
  have h3 := le_placeEnd (xs := sc.shapes) hva (fun x hx => hal x (by unfold rootShapes; rw [if_neg hz]; simp [hx]))
    (roundUp (roundUp lo L.align + L.size) C.valueAlign)
  have h4 := le_roundUp (roundUp lo L.align + L.size) hva
  have h5 := le_roundUp lo hL
  omega

/-- As `C59_complete`. -/
theorem Ended.complete (hC : C.OK) (hP : P.WF C.arch) (hacc : P.Accepted C) (h : Ended C .complete P t es s s') :
    ∀ e ∈ es, ∀ r p, e.act = .typed r → e.res = some p → ∀ fl v, Denotes C.arch P fl r.im r.t r.a v →
      ((P.layout r.t).size ≠ 0 ∨ (P.layout r.t).align ∣ s'.sto.vec.ptr) →
      Denotes C.arch P ⟨fl.canon, true⟩ s'.sto.buffer r.t (s'.sto.vec.ptr + p) v ∧
      ((P.layout r.t).size ≠ 0 → e.lo ≤ p ∧ p + (P.layout r.t).size ≤ e.hi) := by
  have hW := hC.arch.ptr_pos
  have F := hC.facts
  obtain ⟨m, h1, hI, hvec, hb⟩ := h
  intro e he r p ha hp fl v hv hz
  obtain ⟨n, sc, hj, hl⟩ := h1.typed hC hP he ha hp hv
  obtain ⟨m0, hc⟩ := hl.cells s'.sto.vec.ptr
  have hhi := (h1.bounds e he).2.2
  rw [← hvec] at hhi
  have hend := ptr_end_lt hC hI
  have hcap := hI.pos_le
  have hnz := hl.pos_of_nz F.va.pos (hj.align hW hP hacc)
  refine ⟨?_, hnz⟩
  rw [hl.at_]
  refine ⟨n, (root_read (j := ⟨r, v, sc⟩) (md := Kind.mode s'.sto.vec.ptr .complete) (D := s'.sto.vec.ptr) (m := m0) (p := e.lo) F.va.pos hW hP hacc rfl hj
    (fun h0 => hz.resolve_left (fun h => h h0)) (fun hnz' u hu => align_dvd_ptr hC hP hacc hI
      (by have := (hnz hnz').2; have := Nat.pos_of_ne_zero hnz'; omega) hu) ?_ ?_).1⟩
  · have : placeEnd C.valueAlign e.lo (Job.shapes P ⟨r, v, sc⟩) = e.hi := hl.end_.symm
    omega
  · intro i h2 h3
    have h3 : i < e.hi := by rw [hl.end_]; exact h3
    rw [(hb i (by omega)).2]
    exact hc i h2 h3

/-- C59, `CompleteSerializer`: after `finalize`, each value with the crate's own or derived implementations whose call returned a
position is at that position of the final buffer. -/
theorem C59_complete (hC : C.OK) (hP : P.WF C.arch) (hacc : P.Accepted C) (ht : GReach C P t) (h : Sess C .complete P t es s)
    (hf : finalize C .complete s = .ok () s') :
    ∀ e ∈ es, ∀ r p, e.act = .typed r → e.res = some p → ∀ fl v, Denotes C.arch P fl r.im r.t r.a v →
      ((P.layout r.t).size ≠ 0 ∨ (P.layout r.t).align ∣ s'.sto.vec.ptr) →
      Denotes C.arch P ⟨fl.canon, true⟩ s'.sto.buffer r.t (s'.sto.vec.ptr + p) v ∧
      ((P.layout r.t).size ≠ 0 → e.lo ≤ p ∧ p + (P.layout r.t).size ≤ e.hi) :=
  Ended.complete hC hP hacc (h.final hC hP hacc (ht.inv hC hP hacc) hf)

/-- As `C59_offset`. -/
theorem Ended.offset (hC : C.OK) (hP : P.WF C.arch) (hacc : P.Accepted C) (h : Ended C .ptrOffset P t es s s') :
    ∀ e ∈ es, ∀ r p, e.act = .typed r → e.res = some p → ∀ fl v, Denotes C.arch P fl r.im r.t r.a v →
      Denotes C.arch P ⟨fl.canon, false⟩ s'.sto.bytes r.t p v := by
  have hW := hC.arch.ptr_pos
  have F := hC.facts
  obtain ⟨m, h1, hI, hvec, hb⟩ := h
  intro e he r p ha hp fl v hv
  obtain ⟨n, sc, hj, hl⟩ := h1.typed hC hP he ha hp hv
  obtain ⟨m0, hc⟩ := hl.cells s'.sto.vec.ptr
  have hhi := (h1.bounds e he).2.2
  rw [← hvec] at hhi
  have hend := ptr_end_lt hC hI
  have hs : placeEnd C.valueAlign e.lo (Job.shapes P ⟨r, v, sc⟩) = e.hi := hl.end_.symm
  have := (root_read (j := ⟨r, v, sc⟩) (md := Kind.mode s'.sto.vec.ptr .ptrOffset) (D := 0) (m := m0) (p := e.lo) (dm := s'.sto.bytes) F.va.pos hW hP hacc rfl hj
    (fun _ => Nat.dvd_zero _) (fun _ _ _ => Nat.dvd_zero _) (by omega)
    (fun i h2 h3 => by rw [Nat.zero_add, (hb i (by omega)).1]; exact hc i h2 (by omega))).1
  rw [Nat.zero_add] at this
  rw [hl.at_]
  exact ⟨n, this⟩

/-- C59, `PtrOffsetSerializer`. -/
theorem C59_offset (hC : C.OK) (hP : P.WF C.arch) (hacc : P.Accepted C) (ht : GReach C P t) (h : Sess C .ptrOffset P t es s)
    (hf : finalize C .ptrOffset s = .ok () s') :
    ∀ e ∈ es, ∀ r p, e.act = .typed r → e.res = some p → ∀ fl v, Denotes C.arch P fl r.im r.t r.a v →
      Denotes C.arch P ⟨fl.canon, false⟩ s'.sto.bytes r.t p v :=
  Ended.offset hC hP hacc (h.final hC hP hacc (ht.inv hC hP hacc) hf)

/-- As `C59_in_order`. -/
theorem Ended.inOrder (hC : C.OK) (hP : P.WF C.arch) (hacc : P.Accepted C) (hk : k = .pureCopy ∨ k = .posTracking)
    (h : Ended C k P t es s s') :
    ∀ e ∈ es, ∀ r p, e.act = .typed r → e.res = some p → ∀ fl v, Denotes C.arch P fl r.im r.t r.a v →
      ∃ n, seqRoots C.arch P C.valueAlign s'.sto.bytes n [r.t] e.lo = some ([v], e.hi) := by
  have hW := hC.arch.ptr_pos
  have F := hC.facts
  obtain ⟨m, h1, hI, hvec, hb⟩ := h
  intro e he r p ha hp fl v hv
  obtain ⟨n, sc, hj, hl⟩ := h1.typed hC hP he ha hp hv
  obtain ⟨m0, hc⟩ := hl.cells s'.sto.vec.ptr
  have hhi := (h1.bounds e he).2.2
  rw [← hvec] at hhi
  have hmode : k.mode s'.sto.vec.ptr = Mode.plain := by rcases hk with rfl | rfl <;> rfl
  have hs : placeEnd C.valueAlign e.lo (jobsShapes P [⟨r, v, sc⟩]) = e.hi := by
    rw [hl.end_]; simp [jobsShapes, Job.shapes]
  have hj1 : ∀ x ∈ [(⟨r, v, sc⟩ : Job)], x.OK C P fl n := by
    intro x hx; obtain rfl := List.mem_singleton.1 hx; exact hj
  have := seqRoots_of [(⟨r, v, sc⟩ : Job)] e.lo (jobs_seq (m := m0) (p := e.lo) (dm := s'.sto.bytes) F.va.pos hW hP hacc hj1 ?_)
  · rw [hs] at this
    exact ⟨n, this⟩
  · intro i h2 h3
    rw [(hb i (by omega)).1, hc i h2 (by omega), hmode]
    rfl

/-- C59, `PureCopySerializer` and position tracking: a reader that knows the type and where the call started recovers the value, and
ends where the call ended. -/
theorem C59_in_order (hC : C.OK) (hP : P.WF C.arch) (hacc : P.Accepted C) (ht : GReach C P t) (hk : k = .pureCopy ∨ k = .posTracking)
    (h : Sess C k P t es s) (hf : finalize C k s = .ok () s') :
    ∀ e ∈ es, ∀ r p, e.act = .typed r → e.res = some p → ∀ fl v, Denotes C.arch P fl r.im r.t r.a v →
      ∃ n, seqRoots C.arch P C.valueAlign s'.sto.bytes n [r.t] e.lo = some ([v], e.hi) :=
  Ended.inOrder hC hP hacc hk (h.final hC hP hacc (ht.inv hC hP hacc) hf)

/-- As `C59_user`. -/
theorem Ended.user (hC : C.OK) (hP : P.WF C.arch) (hacc : P.Accepted C) (h : Ended C k P t es s s') :
    ∀ e ∈ es, ∀ r p, e.act = .user r → e.res = some p →
      (∃ sc, r.body = .returns sc) ∧ p = rootPos r.L e.lo ∧
      ∃ m0, let out := rootIdeal C.arch C.valueAlign (k.mode s'.sto.vec.ptr) r.L r.im r.a r.body.script (m0, e.lo)
        out.2 = e.hi ∧ ∀ i, e.lo ≤ i → i < e.hi → s'.sto.bytes i = out.1 i := by
  obtain ⟨m, h1, hI, hvec, hb⟩ := h
  intro e he r p ha hp
  have h2 := h1.left e he p hp
  rw [ha] at h2
  obtain ⟨h3, h4⟩ := h2
  obtain ⟨m0, hc⟩ := h4.cells s'.sto.vec.ptr
  have hhi := (h1.bounds e he).2.2
  rw [← hvec] at hhi
  refine ⟨h3, h4.at_, m0, ?_⟩
  intro out
  refine ⟨by rw [show out.2 = _ from rootIdeal_end, h4.end_], fun i h5 h6 => ?_⟩
  rw [(hb i (by omega)).1]
  exact hc i h5 h6

/-- C59, hand-written implementations: each call that gave a position returned, and its output is the reference output for that value. -/
theorem C59_user (hC : C.OK) (hP : P.WF C.arch) (hacc : P.Accepted C) (ht : GReach C P t) (h : Sess C k P t es s)
    (hf : finalize C k s = .ok () s') :
    ∀ e ∈ es, ∀ r p, e.act = .user r → e.res = some p →
      (∃ sc, r.body = .returns sc) ∧ p = rootPos r.L e.lo ∧
      ∃ m0, let out := rootIdeal C.arch C.valueAlign (k.mode s'.sto.vec.ptr) r.L r.im r.a r.body.script (m0, e.lo)
        out.2 = e.hi ∧ ∀ i, e.lo ≤ i → i < e.hi → s'.sto.bytes i = out.1 i :=
  Ended.user hC hP hacc (h.final hC hP hacc (ht.inv hC hP hacc) hf)

/-- As `C59_direct`. -/
theorem Ended.direct (hC : C.OK) (hP : P.WF C.arch) (hacc : P.Accepted C) (h : Ended C k P t es s s') {es1 es2 : List Ev} {e : Ev} (hes : es = es1 ++ e :: es2) :
    (∀ L len d p, e.act = .sto (.pushSlice L len d) → L.size ≠ 0 → e.res = some p →
      e.lo ≤ p ∧ p + L.size * len ≤ e.hi ∧ ∀ j < L.size * len, (∀ e' ∈ es2, ¬ e'.Writes (p + j)) → s'.sto.bytes (p + j) = d j) ∧
    ∀ p L len d, e.act = .sto (.writeSlice p L len d) →
      ∀ j < L.size * len, (∀ e' ∈ es2, ¬ e'.Writes (p + j)) → p + j < e.hi → s'.sto.bytes (p + j) = d j := by
  obtain ⟨m, h1, hI, hvec, hb⟩ := h
  have hhi := (h1.bounds e (by rw [hes]; simp)).2.2
  rw [← hvec] at hhi
  constructor
  · intro L len d p ha hz hp
    have h2 := h1.left e (by rw [hes]; simp) p hp
    rw [ha] at h2
    obtain ⟨h3, h4⟩ := h2 L len d rfl hz
    refine ⟨h3, h4, fun j hj hn => ?_⟩
    rw [(hb _ (by omega)).1]
    exact h1.puts es1 e es2 hes _ _ (by omega) (.inl ⟨L, len, d, p, j, ha, hz, hp, hj, rfl, rfl⟩) hn _
  · intro p L len d ha j hj hn hlt
    rw [(hb _ (by omega)).1]
    exact h1.puts es1 e es2 hes _ _ hlt (.inr ⟨p, L, len, d, j, ha, hj, rfl, rfl⟩) hn _

/-- C59, bytes put directly: what `push_slice` and `write_slice` put below the position is in the final output, unless a later `write_slice` was
to the same byte. -/
theorem C59_direct (hC : C.OK) (hP : P.WF C.arch) (hacc : P.Accepted C) (ht : GReach C P t) (h : Sess C k P t es s)
    (hf : finalize C k s = .ok () s') {es1 es2 : List Ev} {e : Ev} (hes : es = es1 ++ e :: es2) :
    (∀ L len d p, e.act = .sto (.pushSlice L len d) → L.size ≠ 0 → e.res = some p →
      e.lo ≤ p ∧ p + L.size * len ≤ e.hi ∧ ∀ j < L.size * len, (∀ e' ∈ es2, ¬ e'.Writes (p + j)) → s'.sto.bytes (p + j) = d j) ∧
    ∀ p L len d, e.act = .sto (.writeSlice p L len d) →
      ∀ j < L.size * len, (∀ e' ∈ es2, ¬ e'.Writes (p + j)) → p + j < e.hi → s'.sto.bytes (p + j) = d j :=
  Ended.direct hC hP hacc (h.final hC hP hacc (ht.inv hC hP hacc) hf) hes

/-- As `C59_none`. -/
theorem SessInv.none (hC : C.OK) (hP : P.WF C.arch) {m : Nat → Mem} (h1 : SessInv C k P t es s m) :
    ∀ e ∈ es, e.res = none →
      (∀ r xs, e.act = .typed r → Blocks C.arch P r.im r.t r.a xs → C.maxCapacity < placeEnd C.valueAlign e.lo xs) ∧
      ∀ r, e.act = .user r → (∃ st, r.body = .panics st) ∨
        C.maxCapacity < (rootIdeal C.arch C.valueAlign ⟨none, false⟩ r.L r.im r.a r.body.script (fun _ => none, e.lo)).2 := by
  have hW := hC.arch.ptr_pos
  intro e he hn
  have h2 := h1.failed e he hn
  constructor
  · intro r xs ha hb
    rw [ha] at h2
    obtain ⟨n, sc, h3, h4⟩ := h2
    obtain ⟨as, h5, h7⟩ := script_blocks hW hP h3
    rw [hb.unique ⟨n, as, h5, rfl⟩, h7]
    exact h4
  · intro r ha
    rw [ha] at h2
    rw [rootIdeal_end]
    exact h2

/-- C59, no position: a call with the crate's own or derived implementations gives none only if its value does not fit after what was
there; a call with a hand-written implementation, only if that implementation panics or the value does not fit. -/
theorem C59_none (hC : C.OK) (hP : P.WF C.arch) (hacc : P.Accepted C) (ht : GReach C P t) (h : Sess C k P t es s) :
    ∀ e ∈ es, e.res = none →
      (∀ r xs, e.act = .typed r → Blocks C.arch P r.im r.t r.a xs → C.maxCapacity < placeEnd C.valueAlign e.lo xs) ∧
      ∀ r, e.act = .user r → (∃ st, r.body = .panics st) ∨
        C.maxCapacity < (rootIdeal C.arch C.valueAlign ⟨none, false⟩ r.L r.im r.a r.body.script (fun _ => none, e.lo)).2 := by
  obtain ⟨m, h1⟩ := h.inv hC hP hacc (ht.inv hC hP hacc)
  exact h1.none hC hP

/-- As `C59_before`. -/
theorem Ended.before (hC : C.OK) (hP : P.WF C.arch) (hacc : P.Accepted C) (hT : t.Inv C) (h : Ended C k P t es s s') :
    t.vec.pos ≤ s'.sto.vec.pos ∧ ∀ i < t.vec.pos, (∀ e ∈ es, ¬ e.Writes i) → s'.sto.bytes i = t.bytes i := by
  obtain ⟨m, h1, hI, hvec, hb⟩ := h
  have hpos := h1.pos
  rw [← hvec] at hpos
  refine ⟨hpos, fun i hi hn => ?_⟩
  rw [(hb i (by omega)).1, h1.before i hi hn, Sto.bytes, if_pos hi, load_eq_view hT.toWInv (Nat.lt_of_lt_of_le hi hT.pos_le)]

/-- C59: what the storage held before is untouched, except where `write_slice` was called. -/
theorem C59_before (hC : C.OK) (hP : P.WF C.arch) (hacc : P.Accepted C) (ht : GReach C P t) (h : Sess C k P t es s)
    (hf : finalize C k s = .ok () s') :
    t.vec.pos ≤ s'.sto.vec.pos ∧ ∀ i < t.vec.pos, (∀ e ∈ es, ¬ e.Writes i) → s'.sto.bytes i = t.bytes i :=
  Ended.before hC hP hacc (ht.inv hC hP hacc) (h.final hC hP hacc (ht.inv hC hP hacc) hf)

end

/-! ### A concrete case -/

/-- Do the things in order, catching panics; for each, the result, the position before and after, and the capacity after. -/
def actsRun (C : Cfg) (k : Kind) (P : Prog) (fuel : Nat) : List Act → M Ser (List (Option Nat × Nat × Nat × Nat))
  | [] => pure []
  | a :: as => do
    let s ← M.get
    let r ← M.caught (a.run C k P fuel)
    let s1 ← M.get
    let rest ← actsRun C k P fuel as
    pure ((r, s.sto.vec.pos, s1.sto.vec.pos, s1.sto.vec.capacity) :: rest)

theorem actsRun_cons {C : Cfg} {k : Kind} {P : Prog} {fuel : Nat} {a : Act} {as : List Act} {s s' : Ser} {x} {xs}
    (h : actsRun C k P fuel (a :: as) s = .ok (x :: xs) s') :
    ∃ s1, M.caught (a.run C k P fuel) s = .ok x.1 s1 ∧ s.sto.vec.pos = x.2.1 ∧ s1.sto.vec.pos = x.2.2.1 ∧ s1.sto.vec.capacity = x.2.2.2 ∧
      actsRun C k P fuel as s1 = .ok xs s' := by
  rw [actsRun] at h
  simp only [bind_def, M.get] at h
  cases h1 : M.caught (a.run C k P fuel) s <;> rw [h1] at h <;> simp only at h <;> first | (cases h; done) | skip
  rename_i r s1
  cases h2 : actsRun C k P fuel as s1 <;> rw [h2] at h <;> simp only [pure_run] at h <;> first | (cases h; done) | skip
  cases h
  exact ⟨s1, rfl, rfl, rfl, rfl, h2⟩

/-- Reserve a header; serialize the node; a hand-written implementation panics; another returns; shrink the storage; serialize the
enum; fill in the header. -/
def exActs : List Act :=
  [.sto (.pushEmptySlice ⟨8, 8⟩ 1), .typed ⟨exIm, 1, 4096⟩, .user exPanic, .user exReturns, .sto .shrinkToFit, .typed ⟨exIm, 9, 4288⟩,
   .sto (.writeSlice 0 ⟨8, 8⟩ 1 fun i => some (UInt8.ofNat (65 + i)))]

/-- The events of `exActs`. -/
def exEvs : List Ev :=
  [⟨.sto (.pushEmptySlice ⟨8, 8⟩ 1), some 0, 0, 8⟩, ⟨.typed ⟨exIm, 1, 4096⟩, some 8, 8, 144⟩, ⟨.user exPanic, none, 144, 208⟩,
   ⟨.user exReturns, some 208, 208, 288⟩, ⟨.sto .shrinkToFit, some 0, 288, 288⟩, ⟨.typed ⟨exIm, 9, 4288⟩, some 288, 288, 304⟩,
   ⟨.sto (.writeSlice 0 ⟨8, 8⟩ 1 fun i => some (UInt8.ofNat (65 + i))), some 0, 304, 304⟩]

/-- The results of `exActs`. -/
def exRes : List (Option Nat × Nat × Nat × Nat) :=
  [(some 0, 0, 8, 16), (some 8, 8, 144, 256), (none, 144, 208, 256), (some 208, 208, 288, 512),
    (some 0, 288, 288, 288), (some 288, 288, 304, 512), (some 0, 304, 304, 512)]

theorem exSess_of (k : Kind) {s : Ser} (h0 : actsRun cfg64 k exP 6 exActs (Ser.fromStorage Sto.new) = .ok exRes s) :
    Sess cfg64 k exP Sto.new exEvs s := by
  obtain ⟨s1, a1, b1, c1, d1, h1⟩ := actsRun_cons h0
  obtain ⟨s2, a2, b2, c2, d2, h2⟩ := actsRun_cons h1
  obtain ⟨s3, a3, b3, c3, d3, h3⟩ := actsRun_cons h2
  obtain ⟨s4, a4, b4, c4, d4, h4⟩ := actsRun_cons h3
  obtain ⟨s5, a5, b5, c5, d5, h5⟩ := actsRun_cons h4
  obtain ⟨s6, a6, b6, c6, d6, h6⟩ := actsRun_cons h5
  obtain ⟨s7, a7, b7, c7, d7, h7⟩ := actsRun_cons h6
  have e8 : Layout.OK ⟨8, 8⟩ := ⟨⟨3, rfl⟩, by decide⟩
  have r1 := (Sess.start (C := cfg64) (k := k) (P := exP) (t := Sto.new)).step (a := .sto (.pushEmptySlice ⟨8, 8⟩ 1)) (fuel := 6)
    ⟨⟨e8, by decide, by decide⟩, (by intro h; cases h), (by intro p L len d h; cases h)⟩ a1
  have r2 := r1.step (a := .typed ⟨exIm, 1, 4096⟩) ⟨⟨true, false⟩, exNode, exInputs (⟨exIm, 1, 4096⟩, exNode) (by simp [exRoots])⟩ a2
  have r3 := r2.step (a := .user exPanic) exPanic_ok a3
  have r4 := r3.step (a := .user exReturns) exReturns_ok a4
  have r5 := r4.step (a := .sto .shrinkToFit) ⟨trivial, (by intro h; cases h), (by intro p L len d h; cases h)⟩ a5
  have r6 := r5.step (a := .typed ⟨exIm, 9, 4288⟩) ⟨⟨true, false⟩, exEnum, exInputs (⟨exIm, 9, 4288⟩, exEnum) (by simp [exRoots])⟩ a6
  rw [b1, b2, b3, b4, b5, b6, c6] at r6
  have r7 := r6.step (a := .sto (.writeSlice 0 ⟨8, 8⟩ 1 fun i => some (UInt8.ofNat (65 + i)))) (fuel := 6) ?_ a7
  · cases h7
    rw [b7, c7] at r7
    exact r7
  · refine ⟨⟨e8, ?_, Nat.dvd_zero _, .inr ⟨by decide, .inl ?_⟩⟩, (by intro h; cases h), ?_⟩
    · rw [d6]; decide
    · rw [d6]; decide
    · intro p L len d h e he hv
      cases h
      right
      simp only [List.nil_append, List.cons_append, List.mem_cons, List.not_mem_nil, or_false] at he
      rcases he with rfl | rfl | rfl | rfl | rfl | rfl <;> first | exact hv.elim | decide

theorem exSess (k : Kind) : ∃ s, Sess cfg64 k exP Sto.new exEvs s ∧ s.sto.vec.pos = 304 ∧ s.sto.vec.ptr = 7 * 2 ^ 20 := by
  obtain ⟨s, h0, hp, hb⟩ := Out.result_ok (o := actsRun cfg64 k exP 6 exActs (Ser.fromStorage Sto.new))
    (r := (exRes, 304, 7 * 2 ^ 20)) (by cases k <;> decide +kernel)
  exact ⟨s, exSess_of k h0, hp, hb⟩

/-- C59 applies: the buffer has moved seven times; the node and the enum are read from the final buffer, the header is there, and so
is the output of the hand-written implementation. -/
example : ∃ s s' : Ser, Sess cfg64 .complete exP Sto.new exEvs s ∧ finalize cfg64 .complete s = .ok () s' ∧
    Denotes x64 exP ⟨true, true⟩ s'.sto.buffer 1 (7 * 2 ^ 20 + 8) exNode ∧
    Denotes x64 exP ⟨true, true⟩ s'.sto.buffer 9 (7 * 2 ^ 20 + 288) exEnum ∧
    (∀ j < 8, s'.sto.bytes j = some (UInt8.ofNat (65 + j))) ∧
    ∃ m0, ∀ i, 208 ≤ i → i < 288 →
      s'.sto.bytes i = (rootIdeal x64 8 ⟨some (7 * 2 ^ 20), true⟩ exUser.L exUser.im exUser.a exUser.sc (m0, 208)).1 i := by
  obtain ⟨s, hs, hp, hb⟩ := exSess .complete
  obtain ⟨_, s', hf, hv⟩ := C59_safe cfg64_ok exP_wf exP_accepted .new hs
  have hb' : s'.sto.vec.ptr = 7 * 2 ^ 20 := by rw [hv]; exact hb
  have hc := C59_complete cfg64_ok exP_wf exP_accepted .new hs hf
  have n1 := (hc ⟨.typed ⟨exIm, 1, 4096⟩, some 8, 8, 144⟩ (by simp [exEvs]) _ 8 rfl rfl ⟨true, false⟩ exNode
    (exInputs (⟨exIm, 1, 4096⟩, exNode) (by simp [exRoots])) (.inl (by decide))).1
  have n2 := (hc ⟨.typed ⟨exIm, 9, 4288⟩, some 288, 288, 304⟩ (by simp [exEvs]) _ 288 rfl rfl ⟨true, false⟩ exEnum
    (exInputs (⟨exIm, 9, 4288⟩, exEnum) (by simp [exRoots])) (.inl (by decide))).1
  have hu := C59_user cfg64_ok exP_wf exP_accepted .new hs hf ⟨.user exReturns, some 208, 208, 288⟩ (by simp [exEvs]) _ 208 rfl rfl
  obtain ⟨_, _, m0, _, hu⟩ := hu
  have hd := (C59_direct cfg64_ok exP_wf exP_accepted .new hs hf (es1 := exEvs.take 6) (es2 := []) rfl).2 0 ⟨8, 8⟩ 1 _ rfl
  rw [hb'] at n1 n2 hu
  refine ⟨s, s', hs, hf, n1, n2, ?_, m0, hu⟩
  intro j hj
  have := hd j (by simpa using hj) (by simp) (by simp only; omega)
  rw [Nat.zero_add] at this
  exact this

/-- C59. Which random-access writes the histories of C59 may contain: those legal on the storage by themselves which touch no byte of a
value (also when they end exactly where a value begins, or begin where it ends). -/
theorem C59_write_allowed {C : Cfg} {P : Prog} {es : List Ev} {s : Ser} {p len : Nat} {L : Layout} {d : Nat → Cell} (hn : 0 < L.size * len)
    (hes : ∀ e ∈ es, e.act.IsValue → e.lo < e.hi) :
    Act.Legal C P es s (.sto (.writeSlice p L len d)) ↔ SOp.Legal C s.sto (.writeSlice p L len d) ∧
      ∀ e ∈ es, e.act.IsValue → ∀ i, e.lo ≤ i → i < e.hi → ¬ (p ≤ i ∧ i < p + L.size * len) := by
  constructor
  · rintro ⟨h1, _, h2⟩
    refine ⟨h1, fun e he hv i h3 h4 => ?_⟩
    have := h2 _ _ _ _ rfl e he hv
    omega
  · rintro ⟨h1, h2⟩
    refine ⟨h1, by simp, ?_⟩
    intro p' L' len' d' h e he hv
    cases h
    have h3 := hes e he hv
    have h4 := h2 e he hv e.lo (Nat.le_refl _) h3
    by_cases h5 : e.lo ≤ p
    · by_cases h6 : p < e.hi
      · exact absurd ⟨Nat.le_refl _, by omega⟩ (h2 e he hv p h5 h6)
      · exact Or.inl (by omega)
    · exact Or.inr (by omega)

end SerRaw
