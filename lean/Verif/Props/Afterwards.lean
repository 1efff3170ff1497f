import Verif.Lemmas.Afterwards
import Verif.Props.Relocate
/-
C80: what a serializer left stays readable whatever else the storage is used for. Model/Afterwards.lean: `Afterwards C P K t t'` — from `t`,
storage operations and whole sessions (finished or dropped) lead to `t'`, with no random-access write to a byte of `K`.
-/
namespace SerRaw

section
variable {C : Cfg} {P : Prog} {k : Kind} {K : Nat → Prop} {t t' : Sto} {es : List Ev} {s s' : Ser}

/-- C80, bytes: a byte of a storage changes only through a random-access write to it (or `clear`). -/
theorem C80_stays (hC : C.OK) (hP : P.WF C.arch) (hacc : P.Accepted C) (ht : GReach C P t) (ha : Afterwards C P K t t') :
    t.vec.pos ≤ t'.vec.pos ∧ ∀ i < t.vec.pos, K i → t'.bytes i = t.bytes i := by
  have hI := ht.inv hC hP hacc
  exact (ha.holds hC hP hacc hI).bytes hI

theorem Lasting.offset (hC : C.OK) (hP : P.WF C.arch) (hacc : P.Accepted C) (h0 : Lasting C .ptrOffset P K t es s s' t') :
    ∀ e ∈ es, (∀ i, e.lo ≤ i → i < e.hi → K i) → ∀ r p, e.act = .typed r → e.res = some p → ∀ fl v, Denotes C.arch P fl r.im r.t r.a v →
      Denotes C.arch P ⟨fl.canon, false⟩ t'.bytes r.t p v := by
  have hW := hC.arch.ptr_pos
  have F := hC.facts
  obtain ⟨m, h1, hI, hvec, hI', hpp, hb⟩ := h0
  intro e he hK r p ha hp fl v hv
  obtain ⟨n, sc, hj, hl⟩ := h1.typed hC hP he ha hp hv
  obtain ⟨m0, hc⟩ := hl.cells s'.sto.vec.ptr
  have hhi := (h1.bounds e he).2.2
  rw [← hvec] at hhi
  have hend := ptr_end_lt hC hI
  have hs : placeEnd C.valueAlign e.lo (Job.shapes P ⟨r, v, sc⟩) = e.hi := hl.end_.symm
  have := (root_read (j := ⟨r, v, sc⟩) (md := Kind.mode s'.sto.vec.ptr .ptrOffset) (D := 0) (m := m0) (p := e.lo) (dm := t'.bytes) F.va.pos hW hP hacc rfl hj
    (fun _ => Nat.dvd_zero _) (fun _ _ _ => Nat.dvd_zero _) (by omega)
    (fun i h2 h3 => by rw [Nat.zero_add, (hb i (by omega) (hK i h2 (by omega))).1]; exact hc i h2 (by omega))).1
  rw [Nat.zero_add] at this
  rw [hl.at_]
  exact ⟨n, this⟩

/-- C80, `PtrOffsetSerializer`: a value stays readable at its position. -/
theorem C80_offset (hC : C.OK) (hP : P.WF C.arch) (hacc : P.Accepted C) (ht : GReach C P t) (h : Sess C .ptrOffset P t es s)
    (hf : finalize C .ptrOffset s = .ok () s') (ha : Afterwards C P K s'.sto t') :
    ∀ e ∈ es, (∀ i, e.lo ≤ i → i < e.hi → K i) → ∀ r p, e.act = .typed r → e.res = some p → ∀ fl v, Denotes C.arch P fl r.im r.t r.a v →
      Denotes C.arch P ⟨fl.canon, false⟩ t'.bytes r.t p v :=
  Lasting.offset hC hP hacc (h.after hC hP hacc (ht.inv hC hP hacc) hf ha)

theorem Lasting.inOrder (hC : C.OK) (hP : P.WF C.arch) (hacc : P.Accepted C) (hk : k = .pureCopy ∨ k = .posTracking) (h0 : Lasting C k P K t es s s' t') :
    ∀ e ∈ es, (∀ i, e.lo ≤ i → i < e.hi → K i) → ∀ r p, e.act = .typed r → e.res = some p → ∀ fl v, Denotes C.arch P fl r.im r.t r.a v →
      ∃ n, seqRoots C.arch P C.valueAlign t'.bytes n [r.t] e.lo = some ([v], e.hi) := by
  have hW := hC.arch.ptr_pos
  have F := hC.facts
  obtain ⟨m, h1, hI, hvec, hI', hpp, hb⟩ := h0
  intro e he hK r p ha hp fl v hv
  obtain ⟨n, sc, hj, hl⟩ := h1.typed hC hP he ha hp hv
  obtain ⟨m0, hc⟩ := hl.cells s'.sto.vec.ptr
  have hhi := (h1.bounds e he).2.2
  rw [← hvec] at hhi
  have hmode : k.mode s'.sto.vec.ptr = Mode.plain := by rcases hk with rfl | rfl <;> rfl
  have hs : placeEnd C.valueAlign e.lo (jobsShapes P [⟨r, v, sc⟩]) = e.hi := by
    rw [hl.end_]; simp [jobsShapes, Job.shapes]
  have hj1 : ∀ x ∈ [(⟨r, v, sc⟩ : Job)], x.OK C P fl n := by
    intro x hx; obtain rfl := List.mem_singleton.1 hx; exact hj
  have := seqRoots_of [(⟨r, v, sc⟩ : Job)] e.lo (jobs_seq (m := m0) (p := e.lo) (dm := t'.bytes) F.va.pos hW hP hacc hj1 ?_)
  · rw [hs] at this
    exact ⟨n, this⟩
  · intro i h2 h3
    rw [(hb i (by omega) (hK i h2 (by omega))).1, hc i h2 (by omega), hmode]
    rfl

/-- C80, `PureCopySerializer` and position tracking: a reader that knows the type and where the call started still recovers the value. -/
theorem C80_in_order (hC : C.OK) (hP : P.WF C.arch) (hacc : P.Accepted C) (ht : GReach C P t) (hk : k = .pureCopy ∨ k = .posTracking)
    (h : Sess C k P t es s) (hf : finalize C k s = .ok () s') (ha : Afterwards C P K s'.sto t') :
    ∀ e ∈ es, (∀ i, e.lo ≤ i → i < e.hi → K i) → ∀ r p, e.act = .typed r → e.res = some p → ∀ fl v, Denotes C.arch P fl r.im r.t r.a v →
      ∃ n, seqRoots C.arch P C.valueAlign t'.bytes n [r.t] e.lo = some ([v], e.hi) :=
  Lasting.inOrder hC hP hacc hk (h.after hC hP hacc (ht.inv hC hP hacc) hf ha)

theorem Lasting.complete (hC : C.OK) (hP : P.WF C.arch) (hacc : P.Accepted C) (h0 : Lasting C .complete P K t es s s' t') (hsame : t'.asPtr = s'.sto.asPtr) :
    ∀ e ∈ es, (∀ i, e.lo ≤ i → i < e.hi → K i) → ∀ r p, e.act = .typed r → e.res = some p → ∀ fl v, Denotes C.arch P fl r.im r.t r.a v →
      ((P.layout r.t).size ≠ 0 ∨ (P.layout r.t).align ∣ t'.asPtr) →
      Denotes C.arch P ⟨fl.canon, true⟩ t'.buffer r.t (t'.asPtr + p) v := by
  have hW := hC.arch.ptr_pos
  have F := hC.facts
  obtain ⟨m, h1, hI, hvec, hI', hpp, hb⟩ := h0
  intro e he hK r p ha hp fl v hv hz
  obtain ⟨n, sc, hj, hl⟩ := h1.typed hC hP he ha hp hv
  obtain ⟨m0, hc⟩ := hl.cells s'.sto.vec.ptr
  have hhi := (h1.bounds e he).2.2
  rw [← hvec] at hhi
  have hend := ptr_end_lt hC hI
  have hcap := hI.pos_le
  have hnz := hl.pos_of_nz F.va.pos (hj.align hW hP hacc)
  rw [hsame] at hz ⊢
  replace hsame : t'.vec.ptr = s'.sto.vec.ptr := hsame
  rw [hl.at_]
  refine ⟨n, (root_read (j := ⟨r, v, sc⟩) (md := Kind.mode s'.sto.vec.ptr .complete) (D := s'.sto.vec.ptr) (m := m0) (p := e.lo) F.va.pos hW hP hacc rfl hj
    (fun h0 => hz.resolve_left (fun h => h h0)) (fun hnz' u hu => align_dvd_ptr hC hP hacc hI
      (by have := (hnz hnz').2; have := Nat.pos_of_ne_zero hnz'; omega) hu) ?_ ?_).1⟩
  · have : placeEnd C.valueAlign e.lo (Job.shapes P ⟨r, v, sc⟩) = e.hi := hl.end_.symm
    omega
  · intro i h2 h3
    have h3 : i < e.hi := by rw [hl.end_]; exact h3
    have := (hb i (by omega) (hK i h2 h3)).2
    rw [hsame] at this
    rw [this]
    exact hc i h2 h3

/-- C80, `CompleteSerializer`: as long as the buffer is where it was when the serializer finished, a value stays readable there. -/
theorem C80_complete (hC : C.OK) (hP : P.WF C.arch) (hacc : P.Accepted C) (ht : GReach C P t) (h : Sess C .complete P t es s)
    (hf : finalize C .complete s = .ok () s') (ha : Afterwards C P K s'.sto t') (hsame : t'.asPtr = s'.sto.asPtr) :
    ∀ e ∈ es, (∀ i, e.lo ≤ i → i < e.hi → K i) → ∀ r p, e.act = .typed r → e.res = some p → ∀ fl v, Denotes C.arch P fl r.im r.t r.a v →
      ((P.layout r.t).size ≠ 0 ∨ (P.layout r.t).align ∣ t'.asPtr) →
      Denotes C.arch P ⟨fl.canon, true⟩ t'.buffer r.t (t'.asPtr + p) v :=
  Lasting.complete hC hP hacc (h.after hC hP hacc (ht.inv hC hP hacc) hf ha) hsame

theorem Lasting.user (hC : C.OK) (hP : P.WF C.arch) (hacc : P.Accepted C) (h0 : Lasting C k P K t es s s' t') :
    ∀ e ∈ es, ∀ r p, e.act = .user r → e.res = some p →
      ∃ m0, let out := rootIdeal C.arch C.valueAlign (k.mode s'.sto.asPtr) r.L r.im r.a r.body.script (m0, e.lo)
        out.2 = e.hi ∧ ∀ i, e.lo ≤ i → i < e.hi → K i → t'.bytes i = out.1 i := by
  obtain ⟨m, h1, hI, hvec, hI', hpp, hb⟩ := h0
  intro e he r p ha hp
  have h2 := h1.left e he p hp
  rw [ha] at h2
  obtain ⟨h3, h4⟩ := h2
  obtain ⟨m0, hc⟩ := h4.cells s'.sto.vec.ptr
  have hhi := (h1.bounds e he).2.2
  rw [← hvec] at hhi
  refine ⟨m0, ?_⟩
  intro out
  refine ⟨by rw [show out.2 = _ from rootIdeal_end, h4.end_], fun i h5 h6 hk => ?_⟩
  rw [(hb i (by omega) hk).1]
  exact hc i h5 h6

/-- C80, hand-written implementations: the output stays, byte for byte, the reference output of the call. -/
theorem C80_user (hC : C.OK) (hP : P.WF C.arch) (hacc : P.Accepted C) (ht : GReach C P t) (h : Sess C k P t es s)
    (hf : finalize C k s = .ok () s') (ha : Afterwards C P K s'.sto t') :
    ∀ e ∈ es, ∀ r p, e.act = .user r → e.res = some p →
      ∃ m0, let out := rootIdeal C.arch C.valueAlign (k.mode s'.sto.asPtr) r.L r.im r.a r.body.script (m0, e.lo)
        out.2 = e.hi ∧ ∀ i, e.lo ≤ i → i < e.hi → K i → t'.bytes i = out.1 i :=
  Lasting.user hC hP hacc (h.after hC hP hacc (ht.inv hC hP hacc) hf ha)

theorem Lasting.direct (hC : C.OK) (hP : P.WF C.arch) (hacc : P.Accepted C) (h0 : Lasting C k P K t es s s' t') {es1 es2 : List Ev} {e : Ev} (hes : es = es1 ++ e :: es2) :
    ∀ L len d p, e.act = .sto (.pushSlice L len d) → L.size ≠ 0 → e.res = some p →
      ∀ j < L.size * len, K (p + j) → (∀ e' ∈ es2, ¬ e'.Writes (p + j)) → t'.bytes (p + j) = d j := by
  intro L len d p h1 h2 h3 j hj hk hn
  obtain ⟨m, hm, hI, hvec, hI', hpp, hb⟩ := h0
  have hhi := (hm.bounds e (by rw [hes]; simp)).2.2
  rw [← hvec] at hhi
  have h4 := hm.left e (by rw [hes]; simp) p h3
  rw [h1] at h4
  obtain ⟨h5, h6⟩ := h4 L len d rfl h2
  rw [(hb _ (by omega) hk).1]
  exact hm.puts es1 e es2 hes _ _ (by omega) (.inl ⟨L, len, d, p, j, h1, h2, h3, hj, rfl, rfl⟩) hn _

/-- C80, bytes put directly with `push_slice` stay as well. -/
theorem C80_direct (hC : C.OK) (hP : P.WF C.arch) (hacc : P.Accepted C) (ht : GReach C P t) (h : Sess C k P t es s)
    (hf : finalize C k s = .ok () s') (ha : Afterwards C P K s'.sto t') {es1 es2 : List Ev} {e : Ev} (hes : es = es1 ++ e :: es2) :
    ∀ L len d p, e.act = .sto (.pushSlice L len d) → L.size ≠ 0 → e.res = some p →
      ∀ j < L.size * len, K (p + j) → (∀ e' ∈ es2, ¬ e'.Writes (p + j)) → t'.bytes (p + j) = d j :=
  Lasting.direct hC hP hacc (h.after hC hP hacc (ht.inv hC hP hacc) hf ha) hes

theorem Lasting.filled (hC : C.OK) (hP : P.WF C.arch) (hacc : P.Accepted C) (h0 : Lasting C k P K t es s s' t') {B : Nat} (hB : C.maxValueAlign ∣ B) {dm : Mem} :
    ∀ e ∈ es, (∀ i, e.lo ≤ i → i < e.hi → K i) → ∀ r p, e.act = .typed r → e.res = some p → ∀ fl v, Denotes C.arch P fl r.im r.t r.a v →
      ((P.layout r.t).size ≠ 0 ∨ (P.layout r.t).align ∣ B) → B + e.hi < C.arch.usizeMod →
      FilledAt C.arch t'.bytes dm e.lo e.hi B (v.pointersAt C.arch P C.valueAlign r.t p) →
      Denotes C.arch P ⟨fl.canon, (k.mode B).fixup⟩ dm r.t (B + p) v := by
  obtain ⟨m, h1, hI, hvec, hI', hpp, hb⟩ := h0
  intro e he hK r p ha hp fl v hv hz hend hfill
  obtain ⟨n, sc, hj, hl⟩ := h1.typed hC hP he ha hp hv
  have hhi := (h1.bounds e he).2.2
  rw [← hvec] at hhi
  refine hl.filled hC hP hacc hj (D := s'.sto.vec.ptr) (fun _ => hB) hz hend ⟨hfill.word, fun i h2 h3 h4 => ?_⟩
  rw [hfill.same i h2 h3 h4, (hb i (by omega) (hK i h2 h3)).1]

/-- C80, moving one value. Of everything in the storage, the bytes of the one call suffice: a copy of them at any address aligned for
the values, with the pointer words of that value filled in for the new address, is the value — whatever the kind of the serializer. -/
theorem C80_filled (hC : C.OK) (hP : P.WF C.arch) (hacc : P.Accepted C) (ht : GReach C P t) (h : Sess C k P t es s)
    (hf : finalize C k s = .ok () s') (ha : Afterwards C P K s'.sto t') {B : Nat} (hB : C.maxValueAlign ∣ B) {dm : Mem} :
    ∀ e ∈ es, (∀ i, e.lo ≤ i → i < e.hi → K i) → ∀ r p, e.act = .typed r → e.res = some p → ∀ fl v, Denotes C.arch P fl r.im r.t r.a v →
      ((P.layout r.t).size ≠ 0 ∨ (P.layout r.t).align ∣ B) → B + e.hi < C.arch.usizeMod →
      FilledAt C.arch t'.bytes dm e.lo e.hi B (v.pointersAt C.arch P C.valueAlign r.t p) →
      Denotes C.arch P ⟨fl.canon, (k.mode B).fixup⟩ dm r.t (B + p) v :=
  Lasting.filled hC hP hacc (h.after hC hP hacc (ht.inv hC hP hacc) hf ha) hB

theorem Lasting.repair (hC : C.OK) (hP : P.WF C.arch) (hacc : P.Accepted C) (h0 : Lasting C .complete P K t es s s' t') :
    ∀ e ∈ es, (∀ i, e.lo ≤ i → i < e.hi → K i) → ∀ r p, e.act = .typed r → e.res = some p → ∀ fl v, Denotes C.arch P fl r.im r.t r.a v →
      ((P.layout r.t).size ≠ 0 ∨ (P.layout r.t).align ∣ t'.asPtr) →
      Denotes C.arch P ⟨fl.canon, true⟩
        (rebase C.arch s'.sto.asPtr t'.asPtr (v.pointersAt C.arch P C.valueAlign r.t p) t'.buffer) r.t (t'.asPtr + p) v ∧
      ∀ a, (a < t'.asPtr + e.lo ∨ t'.asPtr + e.hi ≤ a) →
        rebase C.arch s'.sto.asPtr t'.asPtr (v.pointersAt C.arch P C.valueAlign r.t p) t'.buffer a = t'.buffer a := by
  have hW := hC.arch.ptr_pos
  obtain ⟨m, h1, hI, hvec, hI', hpp, hb⟩ := h0
  intro e he hK r p ha hp fl v hv hz
  obtain ⟨n, sc, hj, hl⟩ := h1.typed hC hP he ha hp hv
  have hhi := (h1.bounds e he).2.2
  rw [← hvec] at hhi
  obtain ⟨_, hap, hsl⟩ := hl.slots hC hP hacc hj
  have hend := ptr_end_lt hC hI'
  have hend0 := ptr_end_lt hC hI
  have hout : ∀ a, (a < t'.asPtr + e.lo ∨ t'.asPtr + e.hi ≤ a) →
        rebase C.arch s'.sto.asPtr t'.asPtr (v.pointersAt C.arch P C.valueAlign r.t p) t'.buffer a = t'.buffer a := by
    intro a ha'
    exact rebase_out _ _ fun x hx => by have := hsl x hx; omega
  refine ⟨?_, hout⟩
  have hcap := hI'.pos_le
  have hB : (P.layout r.t).size ≠ 0 → C.maxValueAlign ∣ t'.asPtr := by
    intro hsz
    have hpos := hl.pos_of_nz hC.facts.va.pos (hj.align hW hP hacc) hsz
    replace hpos : e.lo ≤ p ∧ p + (P.layout r.t).size ≤ e.hi := hpos
    rcases hI'.mem with ⟨hc0, _, _⟩ | ⟨_, _, hd, _, _⟩
    · omega
    · exact Nat.dvd_trans hC.facts.mva_dvd_sa hd
  have hrd : t'.asPtr + e.hi < C.arch.usizeMod := by
    have : t'.asPtr = t'.vec.ptr := rfl
    omega
  have := hl.filled hC hP hacc hj (B := t'.asPtr) (D := s'.sto.vec.ptr) hB hz hrd
    (dm := rebase C.arch s'.sto.asPtr t'.asPtr (v.pointersAt C.arch P C.valueAlign r.t p) t'.buffer) ⟨fun x hx => ?_, fun i h2 h3 h4 => ?_⟩
  · exact this
  · obtain ⟨k1, k2, k3, k4⟩ := hsl x hx
    have hw : readWord C.arch t'.buffer (t'.asPtr + x.1) = some (s'.sto.asPtr + x.2) := by
      rw [readWord_some_iff]
      refine ⟨show s'.sto.vec.ptr + x.2 < _ by omega, fun j hj' => ?_⟩
      have e1 := (hb (x.1 + j) (by omega) (hK _ (by omega) (by omega))).2
      rw [Nat.add_assoc]
      exact e1.trans (k4 s'.sto.vec.ptr rfl j hj')
    have := rebase_word (A := C.arch) (old := s'.sto.asPtr) (B := t'.asPtr) _ hap t'.buffer hx hw (by omega)
    rw [this]
    rw [show s'.sto.asPtr + x.2 - s'.sto.asPtr + t'.asPtr = t'.asPtr + x.2 by omega]
  · rw [rebase_out _ _ fun x hx => by have := h4 x hx; omega]
    exact (hb i (by omega) (hK i h2 h3)).2

/-- C80, repairing one value of a `CompleteSerializer` after the buffer has moved: adjust the pointers of that value in place, from the
address the buffer had when the serializer finished to the one it has now. The value is readable again, and no byte outside the output
of its call has changed. -/
theorem C80_repair (hC : C.OK) (hP : P.WF C.arch) (hacc : P.Accepted C) (ht : GReach C P t) (h : Sess C .complete P t es s)
    (hf : finalize C .complete s = .ok () s') (ha : Afterwards C P K s'.sto t') :
    ∀ e ∈ es, (∀ i, e.lo ≤ i → i < e.hi → K i) → ∀ r p, e.act = .typed r → e.res = some p → ∀ fl v, Denotes C.arch P fl r.im r.t r.a v →
      ((P.layout r.t).size ≠ 0 ∨ (P.layout r.t).align ∣ t'.asPtr) →
      Denotes C.arch P ⟨fl.canon, true⟩
        (rebase C.arch s'.sto.asPtr t'.asPtr (v.pointersAt C.arch P C.valueAlign r.t p) t'.buffer) r.t (t'.asPtr + p) v ∧
      ∀ a, (a < t'.asPtr + e.lo ∨ t'.asPtr + e.hi ≤ a) →
        rebase C.arch s'.sto.asPtr t'.asPtr (v.pointersAt C.arch P C.valueAlign r.t p) t'.buffer a = t'.buffer a :=
  Lasting.repair hC hP hacc (h.after hC hP hacc (ht.inv hC hP hacc) hf ha)

end

/-! ### A concrete case -/

/-- The session of `exSess`, finished; then `reserve`, which moves the buffer; then a serializer of another kind, dropped without `finalize`. -/
theorem exAfter (k k' : Kind) : ∃ (s s' : Ser) (u : Sto), Sess cfg64 k exP Sto.new exEvs s ∧ finalize cfg64 k s = .ok () s' ∧
    Afterwards cfg64 exP (fun i => 8 ≤ i) s'.sto u ∧ u.vec.pos = 440 ∧ u.asPtr ≠ s'.sto.asPtr := by
  have h : (actsRun cfg64 k exP 6 exActs (Ser.fromStorage Sto.new)).result.map (·.1) = some exRes ∧
      (actsRun cfg64 k exP 6 exActs (Ser.fromStorage Sto.new)).andThen (fun s => (finalize cfg64 k s).andThen fun s' =>
        ((SOp.reserve 1000).run cfg64 s'.sto).andThen fun u =>
          (M.caught ((Act.typed ⟨exIm, 1, 4096⟩).run cfg64 k' exP 6) (Ser.fromStorage u)).andThen fun s2 =>
            some (s2.sto.vec.pos, decide (s2.sto.asPtr = s'.sto.asPtr))) = some (440, false) := by
    cases k <;> cases k' <;> decide +kernel
  obtain ⟨h1, h2⟩ := h
  obtain ⟨rs, s, h3, h4⟩ := Out.andThen_some h2
  obtain ⟨_, s', h5, h6⟩ := Out.andThen_some h4
  obtain ⟨_, u, h7, h8⟩ := Out.andThen_some h6
  obtain ⟨_, s2, h9, h10⟩ := Out.andThen_some h8
  simp only [Option.some.injEq, Prod.mk.injEq, decide_eq_false_iff_not] at h10
  rw [h3] at h1
  have e : rs = exRes := Option.some.inj h1
  subst e
  have hs := (Sess.start (C := cfg64) (k := k') (P := exP) (t := u)).step (a := .typed ⟨exIm, 1, 4096⟩)
    ⟨⟨true, false⟩, exNode, exInputs (⟨exIm, 1, 4096⟩, exNode) (by simp [exRoots])⟩ h9
  refine ⟨s, s', s2.sto, exSess_of k h3, h5, .dropped (.op .now ?_ (by intro h; cases h) (by intro p L len d h; cases h) h7) hs ?_, h10.1, h10.2⟩
  · exact (by decide : 1000 < cfg64.arch.usizeMod)
  · intro e he i _
    simp only [List.nil_append, List.mem_singleton] at he
    subst he
    rintro ⟨p, L, len, d, h, _⟩
    cases h

/-- C80 applies: offsets still lead to the node and the enum. (The histories allow the header before them to be rewritten.) -/
example : ∃ u : Sto, u.vec.pos = 440 ∧ Denotes x64 exP ⟨true, false⟩ u.bytes 1 8 exNode ∧ Denotes x64 exP ⟨true, false⟩ u.bytes 9 288 exEnum := by
  obtain ⟨s, s', u, hs, hf, ha, hp, _⟩ := exAfter .ptrOffset .complete
  have hc := C80_offset cfg64_ok exP_wf exP_accepted .new hs hf ha
  exact ⟨u, hp, hc ⟨.typed ⟨exIm, 1, 4096⟩, some 8, 8, 144⟩ (by simp [exEvs]) (fun i h _ => h) _ 8 rfl rfl ⟨true, false⟩ exNode
    (exInputs (⟨exIm, 1, 4096⟩, exNode) (by simp [exRoots])), hc ⟨.typed ⟨exIm, 9, 4288⟩, some 288, 288, 304⟩ (by simp [exEvs])
    (fun i (h : 288 ≤ i) _ => show 8 ≤ i by omega) _ 288 rfl rfl ⟨true, false⟩ exEnum (exInputs (⟨exIm, 9, 4288⟩, exEnum) (by simp [exRoots]))⟩

/-- C80 applies: in-order reading of the node. -/
example : ∃ (u : Sto) (n : Nat), u.vec.pos = 440 ∧ seqRoots x64 exP 8 u.bytes n [1] 8 = some ([exNode], 144) := by
  obtain ⟨s, s', u, hs, hf, ha, hp, _⟩ := exAfter .pureCopy .complete
  obtain ⟨n, h⟩ := C80_in_order cfg64_ok exP_wf exP_accepted .new (.inl rfl) hs hf ha ⟨.typed ⟨exIm, 1, 4096⟩, some 8, 8, 144⟩ (by simp [exEvs])
    (fun i h _ => h) _ 8 rfl rfl ⟨true, false⟩ exNode (exInputs (⟨exIm, 1, 4096⟩, exNode) (by simp [exRoots]))
  exact ⟨u, n, hp, h⟩

/-- C80 applies: the buffer of a `CompleteSerializer` has moved; the node is repaired where it is. -/
example : ∃ (s' : Ser) (u : Sto), u.asPtr ≠ s'.sto.asPtr ∧
    Denotes x64 exP ⟨true, true⟩ (rebase x64 s'.sto.asPtr u.asPtr (exNode.pointersAt x64 exP 8 1 8) u.buffer) 1 (u.asPtr + 8) exNode := by
  obtain ⟨s, s', u, hs, hf, ha, _, hne⟩ := exAfter .complete .ptrOffset
  exact ⟨s', u, hne, (C80_repair cfg64_ok exP_wf exP_accepted .new hs hf ha ⟨.typed ⟨exIm, 1, 4096⟩, some 8, 8, 144⟩ (by simp [exEvs])
    (fun i h _ => h) _ 8 rfl rfl ⟨true, false⟩ exNode (exInputs (⟨exIm, 1, 4096⟩, exNode) (by simp [exRoots])) (.inl (by decide))).1⟩

/-- C80 applies: the buffer did not move while nothing was done. -/
example : ∃ s' : Ser, Denotes x64 exP ⟨true, true⟩ s'.sto.buffer 1 (s'.sto.asPtr + 8) exNode := by
  obtain ⟨s, s', u, hs, hf, _, _, _⟩ := exAfter .complete .ptrOffset
  exact ⟨s', C80_complete cfg64_ok exP_wf exP_accepted .new hs hf (K := fun _ => True) .now rfl ⟨.typed ⟨exIm, 1, 4096⟩, some 8, 8, 144⟩
    (by simp [exEvs]) (fun _ _ _ => trivial) _ 8 rfl rfl ⟨true, false⟩ exNode (exInputs (⟨exIm, 1, 4096⟩, exNode) (by simp [exRoots])) (.inl (by decide))⟩

/-- The node has pointer words. -/
example : (exNode.pointersAt x64 exP 8 1 8).length ≠ 0 := by decide +kernel

end SerRaw
