import Verif.Lemmas.Streaming
import Verif.Props.Relocate
import Verif.Props.Lossless
/-
C81: output can be written out while the serializer is still running, and a file that lost bytes never reads wrongly.
Model/Streaming.lean: `Goes C k P es s more s'` — the serializer, in state `s` after `es`, goes on with `more` and is then in state `s'`.
Spec/Streaming.lean: `Mem.upTo`, `Mem.PartOf`.
-/
namespace SerRaw

section
variable {C : Cfg} {P : Prog} {k : Kind} {t : Sto} {es more : List Ev} {s s' f : Ser}

/-- Every moment of a session is covered: any session is an earlier part of it followed by the rest. -/
theorem Sess.split (h : Sess C k P t (es ++ more) s') : ∃ s, Sess C k P t es s ∧ Goes C k P es s more s' := by
  generalize hx : es ++ more = xs at h
  induction h generalizing more with
  | start =>
    obtain ⟨rfl, rfl⟩ := List.append_eq_nil_iff.1 hx
    exact ⟨_, .start, .here⟩
  | @step xs u a fuel r u' h0 hl hr ih =>
    rcases List.eq_nil_or_concat more with rfl | ⟨more', e, rfl⟩
    · rw [List.append_nil] at hx
      subst hx
      exact ⟨_, h0.step hl hr, .here⟩
    · rw [List.concat_eq_append, ← List.append_assoc] at hx
      obtain ⟨h1, h2⟩ := List.append_inj' hx rfl
      obtain rfl := List.cons.inj h2 |>.1
      obtain ⟨s, h3, h4⟩ := ih h1
      subst h1
      exact ⟨s, h3, by rw [List.concat_eq_append]; exact h4.step hl hr⟩

theorem SessInv.bytes_stay {t t' : Sto} {es es' : List Ev} {m m' : Nat → Mem} (h1 : SessInv C k P t es s m) (h1' : SessInv C k P t' es' s' m') {W : Nat → Prop}
    (h : s.sto.vec.pos ≤ s'.sto.vec.pos ∧ ∀ i < s.sto.vec.pos, W i → s'.sto.view i = s.sto.view i) :
    s.sto.vec.pos ≤ s'.sto.vec.pos ∧ ∀ i < s.sto.vec.pos, W i → s'.sto.bytes i = s.sto.bytes i := by
  obtain ⟨hp, hv⟩ := h
  refine ⟨hp, fun i hi hn => ?_⟩
  have e1 := (h1.rel.1 0).inv
  have e2 := (h1'.rel.1 0).inv
  have := e1.pos_le
  have := e2.pos_le
  rw [Sto.bytes, Sto.bytes, if_pos hi, if_pos (by omega), load_eq_view e1.toWInv (by omega), load_eq_view e2.toWInv (by omega), hv i hi hn]

theorem Ended.same (hC : C.OK) (hP : P.WF C.arch) (hacc : P.Accepted C) (hk : k ≠ .complete) (h0 : Ended C k P t es s f) : f.sto.bytes = s.sto.bytes := by
  obtain ⟨m, h1, hI, hvec, hb⟩ := h0
  funext i
  by_cases hi : i < s.sto.vec.pos
  · rw [(hb i (by rw [hvec]; exact hi)).1, h1.bytes hk hi f.sto.vec.ptr]
  · rw [Sto.bytes, Sto.bytes, if_neg hi, if_neg (by rw [hvec]; exact hi)]

/-- C81, bytes: while the serializer goes on, no byte below the position it had changes, except through a random-access write to it. All
kinds of serializer; also when the buffer moves. So these bytes can be written out now. -/
theorem C81_stays (hC : C.OK) (hP : P.WF C.arch) (hacc : P.Accepted C) (ht : GReach C P t) (h : Sess C k P t es s) (hg : Goes C k P es s more s') :
    s.sto.vec.pos ≤ s'.sto.vec.pos ∧ ∀ i < s.sto.vec.pos, (∀ e ∈ more, ¬ e.Writes i) → s'.sto.bytes i = s.sto.bytes i := by
  have hI := ht.inv hC hP hacc
  obtain ⟨m, h1⟩ := h.inv hC hP hacc hI
  obtain ⟨m', h1'⟩ := (hg.sess h).inv hC hP hacc hI
  exact h1.bytes_stay h1' (hg.stays hC hP hacc hI h)

/-- C81, `finalize`: with every kind but `CompleteSerializer` it changes no byte. -/
theorem C81_final (hC : C.OK) (hP : P.WF C.arch) (hacc : P.Accepted C) (ht : GReach C P t) (hk : k ≠ .complete) (h : Sess C k P t es s)
    (hf : finalize C k s = .ok () f) : f.sto.bytes = s.sto.bytes :=
  Ended.same hC hP hacc hk (h.final hC hP hacc (ht.inv hC hP hacc) hf)

theorem Ended.fixups (hC : C.OK) (hP : P.WF C.arch) (hacc : P.Accepted C) (h0 : Ended C .complete P t es s f) :
    (∀ i, (∀ e ∈ es, e.act.IsValue → i < e.lo ∨ e.hi ≤ i) → f.sto.bytes i = s.sto.bytes i) ∧
    ∀ e ∈ es, ∀ r p, e.act = .typed r → e.res = some p → ∀ fl v, Denotes C.arch P fl r.im r.t r.a v →
      ∀ i, InBlock C.valueAlign e.lo (v.blocks P r.t) i →
        (∀ x ∈ v.pointersAt C.arch P C.valueAlign r.t p, i < x.1 ∨ x.1 + C.arch.ptrBytes ≤ i) → f.sto.bytes i = s.sto.bytes i := by
  have hW := hC.arch.ptr_pos
  have F := hC.facts
  obtain ⟨m, h1, hI, hvec, hb⟩ := h0
  have hI0 := (h1.rel.1 0).inv
  have hcap := hI0.pos_le
  refine ⟨fun i hi => ?_, fun e he r p ha hp fl v hv i hin hout => ?_⟩
  · by_cases hp : i < s.sto.vec.pos
    · rw [(hb i (by rw [hvec]; exact hp)).1, Sto.bytes, if_pos hp, load_eq_view hI0.toWInv (by omega), (h1.rel.1 f.sto.vec.ptr).rest i]
      intro x hx
      obtain ⟨e, he, hv, h5, h6⟩ := h1.ents x hx
      have := hi e he hv
      omega
    · rw [Sto.bytes, Sto.bytes, if_neg hp, if_neg (by rw [hvec]; exact hp)]
  · obtain ⟨n, sc, hj, hl⟩ := h1.typed hC hP he ha hp hv
    obtain ⟨hsl, _, _⟩ := hl.slots hC hP hacc hj
    have hhi := (h1.bounds e he).2.2
    obtain ⟨as, o1, _, o3⟩ := hj.blocks hW hP
    have hbl : v.blocks P r.t = Job.shapes P ⟨r, v, sc⟩ :=
      (C49_blocks hC.arch hP hv).unique ⟨n, as, o1, o3.symm⟩
    rw [hbl] at hin
    rw [hsl] at hout
    have hsh : jobsShapes P [⟨r, v, sc⟩] = Job.shapes P ⟨r, v, sc⟩ := by simp [jobsShapes]
    obtain ⟨hlo, hhi'⟩ : e.lo ≤ i ∧ i < placeEnd C.valueAlign e.lo (Job.shapes P ⟨r, v, sc⟩) := by
      obtain ⟨z, hz, z1, z2⟩ := hin
      have := place_bounds F.va.pos (hj.align hW hP hacc) _ z hz
      omega
    replace hhi' : i < e.hi := by rw [hl.end_]; exact hhi'
    have hfix : ∀ B B', m B i = m B' i := by
      intro B B'
      obtain ⟨m0, c0⟩ := hl.cells B
      obtain ⟨m1, c1⟩ := hl.cells B'
      rw [c0 i hlo hhi', c1 i hlo hhi']
      exact jobsIdeal_agree (P := P) (A := C.arch) (va := C.valueAlign) (md1 := Kind.mode B .complete) (md2 := Kind.mode B' .complete) rfl [⟨r, v, sc⟩] e.lo
        (.inr (by rw [hsh]; exact hin)) (.inr hout)
    rw [(hb i (by rw [hvec]; omega)).1, h1.bytes_fixed (by omega) hfix]

/-- C81, `finalize` of a `CompleteSerializer`: it changes no byte outside the values (headers, data put directly into the storage, …),
and of a value's blocks no byte outside its pointers. -/
theorem C81_complete (hC : C.OK) (hP : P.WF C.arch) (hacc : P.Accepted C) (ht : GReach C P t) (h : Sess C .complete P t es s)
    (hf : finalize C .complete s = .ok () f) :
    (∀ i, (∀ e ∈ es, e.act.IsValue → i < e.lo ∨ e.hi ≤ i) → f.sto.bytes i = s.sto.bytes i) ∧
    ∀ e ∈ es, ∀ r p, e.act = .typed r → e.res = some p → ∀ fl v, Denotes C.arch P fl r.im r.t r.a v →
      ∀ i, InBlock C.valueAlign e.lo (v.blocks P r.t) i →
        (∀ x ∈ v.pointersAt C.arch P C.valueAlign r.t p, i < x.1 ∨ x.1 + C.arch.ptrBytes ≤ i) → f.sto.bytes i = s.sto.bytes i :=
  Ended.fixups hC hP hacc (h.final hC hP hacc (ht.inv hC hP hacc) hf)

theorem SessInv.prefixOffset (hC : C.OK) (hP : P.WF C.arch) (hacc : P.Accepted C) {m : Nat → Mem} (h1 : SessInv C .ptrOffset P t es s m) {n : Nat} {file : Mem}
    (hfile : ∀ i < n, file i = s.sto.bytes i) :
    ∀ e ∈ es, e.hi ≤ n → ∀ r p, e.act = .typed r → e.res = some p → ∀ fl v, Denotes C.arch P fl r.im r.t r.a v →
      Denotes C.arch P ⟨fl.canon, false⟩ file r.t p v := by
  have hW := hC.arch.ptr_pos
  have F := hC.facts
  intro e he hn r p ha hp fl v hv
  obtain ⟨k, sc, hj, hl⟩ := h1.typed hC hP he ha hp hv
  obtain ⟨m0, hc⟩ := hl.cells 0
  have hhi := (h1.bounds e he).2.2
  have hend := ptr_end_lt hC (h1.rel.1 0).inv
  have hs : placeEnd C.valueAlign e.lo (Job.shapes P ⟨r, v, sc⟩) = e.hi := hl.end_.symm
  have := (root_read (j := ⟨r, v, sc⟩) (md := Kind.mode 0 .ptrOffset) (D := 0) (m := m0) (p := e.lo) (dm := file) F.va.pos hW hP hacc rfl hj
    (fun _ => Nat.dvd_zero _) (fun _ _ _ => Nat.dvd_zero _) (by omega)
    (fun i h2 h3 => by rw [Nat.zero_add, hfile i (by omega), h1.bytes (by simp) (by omega) 0]; exact hc i h2 (by omega))).1
  rw [Nat.zero_add] at this
  rw [hl.at_]
  exact ⟨k, this⟩

/-- C81, crash points, `PtrOffsetSerializer`: the serializer has not finished and perhaps never will; of what is in its storage the first
`n` bytes have been written to a file, which may have anything behind them (nothing, or what was there before, or a torn write). Every
value whose call ended at or before `n` can be read from it. -/
theorem C81_prefix_offset (hC : C.OK) (hP : P.WF C.arch) (hacc : P.Accepted C) (ht : GReach C P t) (h : Sess C .ptrOffset P t es s) {n : Nat} {file : Mem}
    (hfile : ∀ i < n, file i = s.sto.bytes i) :
    ∀ e ∈ es, e.hi ≤ n → ∀ r p, e.act = .typed r → e.res = some p → ∀ fl v, Denotes C.arch P fl r.im r.t r.a v →
      Denotes C.arch P ⟨fl.canon, false⟩ file r.t p v := by
  obtain ⟨m, h1⟩ := h.inv hC hP hacc (ht.inv hC hP hacc)
  exact SessInv.prefixOffset hC hP hacc h1 hfile

theorem SessInv.prefixInOrder (hC : C.OK) (hP : P.WF C.arch) (hacc : P.Accepted C) (hk : k = .pureCopy ∨ k = .posTracking)
    {m : Nat → Mem} (h1 : SessInv C k P t es s m) {n : Nat} {file : Mem} (hfile : ∀ i < n, file i = s.sto.bytes i) :
    ∀ e ∈ es, e.hi ≤ n → ∀ r p, e.act = .typed r → e.res = some p → ∀ fl v, Denotes C.arch P fl r.im r.t r.a v →
      ∃ d, seqRoots C.arch P C.valueAlign file d [r.t] e.lo = some ([v], e.hi) := by
  have hW := hC.arch.ptr_pos
  have F := hC.facts
  intro e he hn r p ha hp fl v hv
  obtain ⟨d, sc, hj, hl⟩ := h1.typed hC hP he ha hp hv
  obtain ⟨m0, hc⟩ := hl.cells 0
  have hhi := (h1.bounds e he).2.2
  have hmode : k.mode 0 = Mode.plain := by rcases hk with rfl | rfl <;> rfl
  have hs : placeEnd C.valueAlign e.lo (jobsShapes P [⟨r, v, sc⟩]) = e.hi := by
    rw [hl.end_]; simp [jobsShapes, Job.shapes]
  have hj1 : ∀ x ∈ [(⟨r, v, sc⟩ : Job)], x.OK C P fl d := by
    intro x hx; obtain rfl := List.mem_singleton.1 hx; exact hj
  have := seqRoots_of [(⟨r, v, sc⟩ : Job)] e.lo (jobs_seq (m := m0) (p := e.lo) (dm := file) F.va.pos hW hP hacc hj1 ?_)
  · rw [hs] at this
    exact ⟨d, this⟩
  · intro i h2 h3
    rw [hfile i (by omega), h1.bytes (by rcases hk with rfl | rfl <;> simp) (by omega) 0, hc i h2 (by omega), hmode]
    rfl

/-- C81, crash points, `PureCopySerializer` and position tracking: the same, reading in order. -/
theorem C81_prefix_in_order (hC : C.OK) (hP : P.WF C.arch) (hacc : P.Accepted C) (ht : GReach C P t) (hk : k = .pureCopy ∨ k = .posTracking)
    (h : Sess C k P t es s) {n : Nat} {file : Mem} (hfile : ∀ i < n, file i = s.sto.bytes i) :
    ∀ e ∈ es, e.hi ≤ n → ∀ r p, e.act = .typed r → e.res = some p → ∀ fl v, Denotes C.arch P fl r.im r.t r.a v →
      ∃ d, seqRoots C.arch P C.valueAlign file d [r.t] e.lo = some ([v], e.hi) := by
  obtain ⟨m, h1⟩ := h.inv hC hP hacc (ht.inv hC hP hacc)
  exact SessInv.prefixInOrder hC hP hacc hk h1 hfile

theorem SessInv.lostOffset (hC : C.OK) (hP : P.WF C.arch) (hacc : P.Accepted C) {m : Nat → Mem} (h1 : SessInv C .ptrOffset P t es s m)
    {part : Mem} (hpart : part.PartOf s.sto.bytes) :
    ∀ e ∈ es, ∀ r p, e.act = .typed r → e.res = some p → ∀ fl v, Denotes C.arch P fl r.im r.t r.a v →
      ∀ w, Denotes C.arch P ⟨fl.canon, false⟩ part r.t p w → w = v := by
  intro e he r p ha hp fl v hv w hw
  have h2 := SessInv.prefixOffset hC hP hacc h1 (n := e.hi) (fun _ h => upTo_of_lt h) e he (Nat.le_refl _) r p ha hp fl v hv
  obtain ⟨d, hw⟩ := hw
  obtain ⟨d', h2⟩ := h2
  exact Denotes.unique ⟨d, decode_le (PartOf.le hpart) d _ _ _ hw⟩ ⟨d', decode_le (PartOf.le (upTo_partOf _ _)) d' _ _ _ h2⟩

/-- C81, bytes lost, `PtrOffsetSerializer`: of the output at any moment, or of the final one (`C81_final`), any bytes are missing but none
is altered. Whatever can still be read at the position of a value is that value. -/
theorem C81_lost_offset (hC : C.OK) (hP : P.WF C.arch) (hacc : P.Accepted C) (ht : GReach C P t) (h : Sess C .ptrOffset P t es s)
    {part : Mem} (hpart : part.PartOf s.sto.bytes) :
    ∀ e ∈ es, ∀ r p, e.act = .typed r → e.res = some p → ∀ fl v, Denotes C.arch P fl r.im r.t r.a v →
      ∀ w, Denotes C.arch P ⟨fl.canon, false⟩ part r.t p w → w = v := by
  obtain ⟨m, h1⟩ := h.inv hC hP hacc (ht.inv hC hP hacc)
  exact SessInv.lostOffset hC hP hacc h1 hpart

theorem SessInv.lostInOrder (hC : C.OK) (hP : P.WF C.arch) (hacc : P.Accepted C) (hk : k = .pureCopy ∨ k = .posTracking)
    {m : Nat → Mem} (h1 : SessInv C k P t es s m) {part : Mem} (hpart : part.PartOf s.sto.bytes) :
    ∀ e ∈ es, ∀ r p, e.act = .typed r → e.res = some p → ∀ fl v, Denotes C.arch P fl r.im r.t r.a v →
      ∀ d w q, seqRoots C.arch P C.valueAlign part d [r.t] e.lo = some ([w], q) → w = v ∧ q = e.hi := by
  intro e he r p ha hp fl v hv d w q hw
  obtain ⟨d', h0⟩ := SessInv.prefixInOrder hC hP hacc hk h1 (n := e.hi) (fun _ h => upTo_of_lt h) e he (Nat.le_refl _) r p ha hp fl v hv
  have h2 := seqRoots_mono (Nat.le_max_left d d') (seqRoots_le (PartOf.le hpart) _ hw)
  have h3 := seqRoots_mono (Nat.le_max_right d d') (seqRoots_le (PartOf.le (upTo_partOf _ _)) _ h0)
  rw [h2] at h3
  simp only [Option.some.injEq, Prod.mk.injEq, List.cons.injEq, and_true] at h3
  exact h3

/-- C81, bytes lost, `PureCopySerializer` and position tracking. -/
theorem C81_lost_in_order (hC : C.OK) (hP : P.WF C.arch) (hacc : P.Accepted C) (ht : GReach C P t) (hk : k = .pureCopy ∨ k = .posTracking)
    (h : Sess C k P t es s) {part : Mem} (hpart : part.PartOf s.sto.bytes) :
    ∀ e ∈ es, ∀ r p, e.act = .typed r → e.res = some p → ∀ fl v, Denotes C.arch P fl r.im r.t r.a v →
      ∀ d w q, seqRoots C.arch P C.valueAlign part d [r.t] e.lo = some ([w], q) → w = v ∧ q = e.hi := by
  obtain ⟨m, h1⟩ := h.inv hC hP hacc (ht.inv hC hP hacc)
  exact SessInv.lostInOrder hC hP hacc hk h1 hpart

theorem Ended.lost (hC : C.OK) (hP : P.WF C.arch) (hacc : P.Accepted C) (h0 : Ended C .complete P t es s f) {part : Mem} (hpart : part.PartOf f.sto.buffer) :
    ∀ e ∈ es, ∀ r p, e.act = .typed r → e.res = some p → ∀ fl v, Denotes C.arch P fl r.im r.t r.a v →
      ((P.layout r.t).size ≠ 0 ∨ (P.layout r.t).align ∣ f.sto.asPtr) →
      ∀ w, Denotes C.arch P ⟨fl.canon, true⟩ part r.t (f.sto.asPtr + p) w → w = v := by
  intro e he r p ha hp fl v hv hz w hw
  have h1 := (Ended.complete hC hP hacc h0 e he r p ha hp fl v hv hz).1
  obtain ⟨d, hw⟩ := hw
  exact Denotes.unique ⟨d, decode_le (PartOf.le hpart) d _ _ _ hw⟩ h1

/-- C81, bytes lost, `CompleteSerializer`, finished: the buffer back at its address with bytes missing. -/
theorem C81_lost_complete (hC : C.OK) (hP : P.WF C.arch) (hacc : P.Accepted C) (ht : GReach C P t) (h : Sess C .complete P t es s)
    (hf : finalize C .complete s = .ok () f) {part : Mem} (hpart : part.PartOf f.sto.buffer) :
    ∀ e ∈ es, ∀ r p, e.act = .typed r → e.res = some p → ∀ fl v, Denotes C.arch P fl r.im r.t r.a v →
      ((P.layout r.t).size ≠ 0 ∨ (P.layout r.t).align ∣ f.sto.asPtr) →
      ∀ w, Denotes C.arch P ⟨fl.canon, true⟩ part r.t (f.sto.asPtr + p) w → w = v :=
  Ended.lost hC hP hacc (h.final hC hP hacc (ht.inv hC hP hacc) hf) hpart

end

/-! ### A concrete case -/

/-- A moment of `exSess`: a header and the node are in the storage; a panic, a hand-written implementation, `shrink_to_fit`, an enum and
the late write of the header are still to come. -/
theorem exGoes (k : Kind) : ∃ s s' : Ser, Sess cfg64 k exP Sto.new (exEvs.take 2) s ∧ Goes cfg64 k exP (exEvs.take 2) s (exEvs.drop 2) s' ∧
    s'.sto.vec.pos = 304 := by
  obtain ⟨s', h, hp, _⟩ := exSess k
  rw [← List.take_append_drop 2 exEvs] at h
  obtain ⟨s, h1, h2⟩ := h.split
  exact ⟨s, s', h1, h2, hp⟩

/-- C81 applies: every byte of the node, as it was when the call returned, is still the same at the end; only the header changes. -/
example (k : Kind) : ∃ s s' : Ser, Sess cfg64 k exP Sto.new exEvs s' ∧ 144 ≤ s.sto.vec.pos ∧ ∀ i, 8 ≤ i → i < 144 → s'.sto.bytes i = s.sto.bytes i := by
  obtain ⟨s, s', h1, h2, _⟩ := exGoes k
  obtain ⟨_, h3⟩ := C81_stays cfg64_ok exP_wf exP_accepted .new h1 h2
  obtain ⟨m, hm⟩ := h1.inv cfg64_ok exP_wf exP_accepted ((GReach.new (C := cfg64) (P := exP)).inv cfg64_ok exP_wf exP_accepted)
  have hp : 144 ≤ s.sto.vec.pos := (hm.bounds ⟨.typed ⟨exIm, 1, 4096⟩, some 8, 8, 144⟩ (by simp [exEvs])).2.2
  have h4 := h2.sess h1
  rw [List.take_append_drop] at h4
  refine ⟨s, s', h4, hp, fun i hi hi' => h3 i (by omega) ?_⟩
  intro e he
  simp only [exEvs, List.drop_succ_cons, List.drop_zero, List.mem_cons, List.not_mem_nil, or_false] at he
  rcases he with rfl | rfl | rfl | rfl | rfl <;> rintro ⟨p, L, len, d, h, h5, h6⟩ <;> cases h
  simp at h6
  omega

/-- C81 applies: the process stops during the session; 150 bytes have been written out. The node is read from them. -/
example : ∃ s : Ser, Sess cfg64 .ptrOffset exP Sto.new exEvs s ∧ Denotes x64 exP ⟨true, false⟩ (s.sto.bytes.upTo 150) 1 8 exNode := by
  obtain ⟨s, h, _⟩ := exSess .ptrOffset
  exact ⟨s, h, C81_prefix_offset cfg64_ok exP_wf exP_accepted .new h (n := 150) (fun _ h => upTo_of_lt h) ⟨.typed ⟨exIm, 1, 4096⟩, some 8, 8, 144⟩ (by simp [exEvs])
    (show 144 ≤ 150 by decide) _ 8 rfl rfl ⟨true, false⟩ exNode (exInputs (⟨exIm, 1, 4096⟩, exNode) (by simp [exRoots]))⟩

/-- The same with `PureCopySerializer`. -/
example : ∃ (s : Ser) (d : Nat), Sess cfg64 .pureCopy exP Sto.new exEvs s ∧ seqRoots x64 exP 8 (s.sto.bytes.upTo 150) d [1] 8 = some ([exNode], 144) := by
  obtain ⟨s, h, _⟩ := exSess .pureCopy
  obtain ⟨d, h1⟩ := C81_prefix_in_order cfg64_ok exP_wf exP_accepted .new (.inl rfl) h (n := 150) (fun _ h => upTo_of_lt h) ⟨.typed ⟨exIm, 1, 4096⟩, some 8, 8, 144⟩ (by simp [exEvs])
    (show 144 ≤ 150 by decide) _ 8 rfl rfl ⟨true, false⟩ exNode (exInputs (⟨exIm, 1, 4096⟩, exNode) (by simp [exRoots]))
  exact ⟨s, d, h, h1⟩

/-- C81 applies: of the final buffer of a `CompleteSerializer` only a part came back. What can be read of the node is the node. -/
example (part : Mem) : ∃ f : Ser, part.PartOf f.sto.buffer → ∀ w, Denotes x64 exP ⟨true, true⟩ part 1 (f.sto.asPtr + 8) w → w = exNode := by
  obtain ⟨s, h, _⟩ := exSess .complete
  obtain ⟨_, f, hf, _⟩ := C59_safe cfg64_ok exP_wf exP_accepted .new h
  exact ⟨f, fun hp => C81_lost_complete cfg64_ok exP_wf exP_accepted .new h hf hp ⟨.typed ⟨exIm, 1, 4096⟩, some 8, 8, 144⟩ (by simp [exEvs])
    _ 8 rfl rfl ⟨true, false⟩ exNode (exInputs (⟨exIm, 1, 4096⟩, exNode) (by simp [exRoots])) (.inl (by decide))⟩

/-- C81, `finalize` of a `CompleteSerializer`: the header, and e.g. byte 32 of the node (in a block, in no pointer word). -/
example : ∃ s f : Ser, finalize cfg64 .complete s = .ok () f ∧ (∀ i < 8, f.sto.bytes i = s.sto.bytes i) ∧ f.sto.bytes 32 = s.sto.bytes 32 := by
  obtain ⟨s, h, _⟩ := exSess .complete
  obtain ⟨_, f, hf, _⟩ := C59_safe cfg64_ok exP_wf exP_accepted .new h
  obtain ⟨h1, h2⟩ := C81_complete cfg64_ok exP_wf exP_accepted .new h hf
  refine ⟨s, f, hf, fun i hi => h1 i ?_, h2 ⟨.typed ⟨exIm, 1, 4096⟩, some 8, 8, 144⟩ (by simp [exEvs])
    _ 8 rfl rfl ⟨true, false⟩ exNode (exInputs (⟨exIm, 1, 4096⟩, exNode) (by simp [exRoots])) 32 ?_ ?_⟩
  · intro e he hv
    simp only [exEvs, List.mem_cons, List.not_mem_nil, or_false] at he
    rcases he with rfl | rfl | rfl | rfl | rfl | rfl | rfl <;> first | exact hv.elim | (left; simp only; omega)
  · exact (by unfold InBlock; decide +kernel : InBlock 8 8 (exNode.blocks exP 1) 32)
  · exact (by decide +kernel : ∀ x ∈ exNode.pointersAt x64 exP 8 1 8, 32 < x.1 ∨ x.1 + x64.ptrBytes ≤ 32)

end SerRaw
