import Verif.Lemmas.ProgramsLater
import Verif.Props.Programs
import Verif.Props.Afterwards
import Verif.Props.Streaming
/-
C84: crash points, and later uses of the storage, with any programs as `serialize_data`: what C80 and C81 say of the histories of Model/Mixed.lean, of those of
Model/Programs.lean. Model/ProgramsLater.lean: `XGoes C k P xs s more s'` — the serializer, in state `s` after `xs`, goes on with `more` and is then in state `s'`;
`XAfter C P K t t'` — from `t`, storage operations and whole sessions lead to `t'`, with no random-access write to a byte of `K`.
-/
namespace SerRaw

section
variable {C : Cfg} {P : Prog} {k : Kind} {K : Nat → Prop} {t t' : Sto} {xs more : List XEv} {s s' f : Ser}

/-! ### While the serializer is running -/

/-- Every moment of a session is covered: any session is an earlier part of it followed by the rest. -/
theorem XSess.split (h : XSess C k P t (xs ++ more) s') : ∃ s, XSess C k P t xs s ∧ XGoes C k P xs s more s' := by
  generalize hx : xs ++ more = ys at h
  induction h generalizing more with
  | start =>
    obtain ⟨rfl, rfl⟩ := List.append_eq_nil_iff.1 hx
    exact ⟨_, .start, .here⟩
  | @step ys u a fuel r u' h0 hl hr ih =>
    rcases List.eq_nil_or_concat more with rfl | ⟨more', e, rfl⟩
    · rw [List.append_nil] at hx
      subst hx
      exact ⟨_, h0.step hl hr, .here⟩
    · rw [List.concat_eq_append, ← List.append_assoc] at hx
      obtain ⟨h1, h2⟩ := List.append_inj' hx rfl
      obtain rfl := List.cons.inj h2 |>.1
      obtain ⟨s, h3, h4⟩ := ih h1
      subst h1
      exact ⟨s, h3, by rw [List.concat_eq_append]; exact h4.step hl hr⟩

/-- C84, bytes: while the serializer goes on, whatever the programs do, no byte below the position it had changes, except through a random-access write to
it. All kinds of serializer; also when the buffer moves. -/
theorem C84_stays (hC : C.OK) (hP : P.WF C.arch) (hacc : P.Accepted C) (ht : XReach C P t) (h : XSess C k P t xs s) (hg : XGoes C k P xs s more s') :
    s.sto.vec.pos ≤ s'.sto.vec.pos ∧ ∀ i < s.sto.vec.pos, (∀ x ∈ more, ¬ x.Writes i) → s'.sto.bytes i = s.sto.bytes i := by
  have hI := ht.inv hC hP hacc
  obtain ⟨es, m, _, h1⟩ := h.inv hC hP hacc hI
  obtain ⟨es', m', _, h1'⟩ := (hg.sess h).inv hC hP hacc hI
  exact h1.bytes_stay h1' (hg.stays hC hP hacc hI h)

/-- C84, `finalize`: with every kind but `CompleteSerializer` it changes no byte. -/
theorem C84_final (hC : C.OK) (hP : P.WF C.arch) (hacc : P.Accepted C) (ht : XReach C P t) (hk : k ≠ .complete) (h : XSess C k P t xs s)
    (hf : finalize C k s = .ok () f) : f.sto.bytes = s.sto.bytes := by
  obtain ⟨es, _, hend⟩ := h.ended hC hP hacc ht hf
  exact Ended.same hC hP hacc hk hend

/-- C84, `finalize` of a `CompleteSerializer`: it changes no byte outside what the values' calls appended, and of a value with the crate's own or derived
implementations no byte of its blocks outside its pointers. -/
theorem C84_complete (hC : C.OK) (hP : P.WF C.arch) (hacc : P.Accepted C) (ht : XReach C P t) (h : XSess C .complete P t xs s)
    (hf : finalize C .complete s = .ok () f) :
    (∀ i, (∀ x ∈ xs, x.act.IsValue → i < x.lo ∨ x.hi ≤ i) → f.sto.bytes i = s.sto.bytes i) ∧
    ∀ x ∈ xs, ∀ r p, x.act = .plain (.typed r) → x.res = some p → ∀ fl v, Denotes C.arch P fl r.im r.t r.a v →
      ∀ i, InBlock C.valueAlign x.lo (v.blocks P r.t) i →
        (∀ y ∈ v.pointersAt C.arch P C.valueAlign r.t p, i < y.1 ∨ y.1 + C.arch.ptrBytes ≤ i) → f.sto.bytes i = s.sto.bytes i := by
  obtain ⟨es, hsim, hend⟩ := h.ended hC hP hacc ht hf
  obtain ⟨h1, h2⟩ := Ended.fixups hC hP hacc hend
  refine ⟨fun i hi => h1 i fun e he hv => ?_, fun x hx r p ha hp fl v hv i hb hn => ?_⟩
  · obtain ⟨x, hx, hs⟩ := sim_mem' hsim he
    rw [hs.lo, hs.hi]
    exact hi x hx (hs.isValue.1 hv)
  · obtain ⟨e, he, hs⟩ := sim_mem hsim hx
    rw [← hs.lo] at hb
    exact h2 e he r p (hs.plain _ ha) (hs.res.trans hp) fl v hv i hb hn

/-- C84, crash points, `PtrOffsetSerializer`: the first `n` bytes of an unfinished output are in a file, with anything behind them. Every value with the crate's
own or derived implementations whose call ended at or before `n` can be read from it, whatever the programs before and after it did. -/
theorem C84_prefix_offset (hC : C.OK) (hP : P.WF C.arch) (hacc : P.Accepted C) (ht : XReach C P t) (h : XSess C .ptrOffset P t xs s) {n : Nat} {file : Mem}
    (hfile : ∀ i < n, file i = s.sto.bytes i) :
    ∀ x ∈ xs, x.hi ≤ n → ∀ r p, x.act = .plain (.typed r) → x.res = some p → ∀ fl v, Denotes C.arch P fl r.im r.t r.a v →
      Denotes C.arch P ⟨fl.canon, false⟩ file r.t p v := by
  obtain ⟨es, m, hsim, h1⟩ := h.inv hC hP hacc (ht.inv hC hP hacc)
  intro x hx hn r p ha hp fl v hv
  obtain ⟨e, he, hs⟩ := sim_mem hsim hx
  exact SessInv.prefixOffset hC hP hacc h1 hfile e he (hs.hi.trans_le hn) r p (hs.plain _ ha) (hs.res.trans hp) fl v hv

/-- C84, crash points, `PureCopySerializer` and position tracking: the same, reading in order. -/
theorem C84_prefix_in_order (hC : C.OK) (hP : P.WF C.arch) (hacc : P.Accepted C) (ht : XReach C P t) (hk : k = .pureCopy ∨ k = .posTracking)
    (h : XSess C k P t xs s) {n : Nat} {file : Mem} (hfile : ∀ i < n, file i = s.sto.bytes i) :
    ∀ x ∈ xs, x.hi ≤ n → ∀ r p, x.act = .plain (.typed r) → x.res = some p → ∀ fl v, Denotes C.arch P fl r.im r.t r.a v →
      ∃ d, seqRoots C.arch P C.valueAlign file d [r.t] x.lo = some ([v], x.hi) := by
  obtain ⟨es, m, hsim, h1⟩ := h.inv hC hP hacc (ht.inv hC hP hacc)
  intro x hx hn r p ha hp fl v hv
  obtain ⟨e, he, hs⟩ := sim_mem hsim hx
  rw [← hs.lo, ← hs.hi]
  exact SessInv.prefixInOrder hC hP hacc hk h1 hfile e he (hs.hi.trans_le hn) r p (hs.plain _ ha) (hs.res.trans hp) fl v hv

/-- C84, crash points, programs: with every kind but `CompleteSerializer`, the output of a call on a program is in the file as well: it is the reference output
of the calls that were made. -/
theorem C84_prefix_program (hC : C.OK) (hP : P.WF C.arch) (hacc : P.Accepted C) (ht : XReach C P t) (hk : k ≠ .complete) (h : XSess C k P t xs s)
    {n : Nat} {file : Mem} (hfile : ∀ i < n, file i = s.sto.bytes i) :
    ∀ x ∈ xs, ∀ L a data b p, x.act = .program L a data b → x.res = some p →
      ∃ m0, let out := TRoot.ideal C.arch C.valueAlign (k.mode 0) ⟨L, a, data, x.calls⟩ (m0, x.lo)
        out.2 = x.hi ∧ ∀ i, x.lo ≤ i → i < x.hi → i < n → file i = out.1 i := by
  obtain ⟨es, m, hsim, h1⟩ := h.inv hC hP hacc (ht.inv hC hP hacc)
  intro x hx L a data b p ha hp
  obtain ⟨e, he, hs⟩ := sim_mem hsim hx
  obtain ⟨hok, stop, _, h2⟩ := hs.program _ _ _ _ ha
  have h3 := h1.left e he p (hs.res.trans hp)
  rw [h2] at h3
  obtain ⟨_, h4⟩ := h3
  obtain ⟨m0, hc⟩ := h4.cells 0
  have hhi := (h1.bounds e he).2.2
  have h5 := h4.end_
  rw [hs.lo, hs.hi] at hc
  rw [hs.hi] at hhi h5
  rw [hs.lo] at h5
  rw [TRoot.image_script] at hc h5
  have e1 := TRoot.virt_ideal hC hok (A := C.arch) (va := C.valueAlign) (md := k.mode 0) (st := (m0, x.lo))
  have e2 : (TRoot.ideal C.arch C.valueAlign (k.mode 0) ⟨L, a, data, x.calls⟩ (m0, x.lo)).2 = x.hi := by
    rw [← e1]
    exact rootIdeal_end.trans h5.symm
  refine ⟨m0, e2, fun i h6 h7 h8 => ?_⟩
  rw [hfile i h8, h1.bytes hk (by omega) 0, hc i h6 h7]
  show _ = (TRoot.ideal C.arch C.valueAlign (k.mode 0) ⟨L, a, data, x.calls⟩ (m0, x.lo)).1 i
  rw [← e1]
  rfl

/-- C84, bytes lost, `PtrOffsetSerializer`: bytes of the output at any moment are missing but none is altered. Whatever can still be read at the position
of a value is that value. -/
theorem C84_lost_offset (hC : C.OK) (hP : P.WF C.arch) (hacc : P.Accepted C) (ht : XReach C P t) (h : XSess C .ptrOffset P t xs s)
    {part : Mem} (hpart : part.PartOf s.sto.bytes) :
    ∀ x ∈ xs, ∀ r p, x.act = .plain (.typed r) → x.res = some p → ∀ fl v, Denotes C.arch P fl r.im r.t r.a v →
      ∀ w, Denotes C.arch P ⟨fl.canon, false⟩ part r.t p w → w = v := by
  obtain ⟨es, m, hsim, h1⟩ := h.inv hC hP hacc (ht.inv hC hP hacc)
  intro x hx r p ha hp
  obtain ⟨e, he, hs⟩ := sim_mem hsim hx
  exact SessInv.lostOffset hC hP hacc h1 hpart e he r p (hs.plain _ ha) (hs.res.trans hp)

/-- C84, bytes lost, `PureCopySerializer` and position tracking. -/
theorem C84_lost_in_order (hC : C.OK) (hP : P.WF C.arch) (hacc : P.Accepted C) (ht : XReach C P t) (hk : k = .pureCopy ∨ k = .posTracking)
    (h : XSess C k P t xs s) {part : Mem} (hpart : part.PartOf s.sto.bytes) :
    ∀ x ∈ xs, ∀ r p, x.act = .plain (.typed r) → x.res = some p → ∀ fl v, Denotes C.arch P fl r.im r.t r.a v →
      ∀ d w q, seqRoots C.arch P C.valueAlign part d [r.t] x.lo = some ([w], q) → w = v ∧ q = x.hi := by
  obtain ⟨es, m, hsim, h1⟩ := h.inv hC hP hacc (ht.inv hC hP hacc)
  intro x hx r p ha hp
  obtain ⟨e, he, hs⟩ := sim_mem hsim hx
  rw [← hs.lo, ← hs.hi]
  exact SessInv.lostInOrder hC hP hacc hk h1 hpart e he r p (hs.plain _ ha) (hs.res.trans hp)

/-- C84, bytes lost, `CompleteSerializer`, finished: the buffer back at its address with bytes missing. -/
theorem C84_lost_complete (hC : C.OK) (hP : P.WF C.arch) (hacc : P.Accepted C) (ht : XReach C P t) (h : XSess C .complete P t xs s)
    (hf : finalize C .complete s = .ok () f) {part : Mem} (hpart : part.PartOf f.sto.buffer) :
    ∀ x ∈ xs, ∀ r p, x.act = .plain (.typed r) → x.res = some p → ∀ fl v, Denotes C.arch P fl r.im r.t r.a v →
      ((P.layout r.t).size ≠ 0 ∨ (P.layout r.t).align ∣ f.sto.asPtr) →
      ∀ w, Denotes C.arch P ⟨fl.canon, true⟩ part r.t (f.sto.asPtr + p) w → w = v := by
  obtain ⟨es, hsim, hend⟩ := h.ended hC hP hacc ht hf
  intro x hx r p ha hp
  obtain ⟨e, he, hs⟩ := sim_mem hsim hx
  exact Ended.lost hC hP hacc hend hpart e he r p (hs.plain _ ha) (hs.res.trans hp)

/-! ### After it has finished -/

/-- C84, bytes: a byte of a storage changes only through a random-access write to it (or `clear`), whatever programs run on it. -/
theorem C84_after (hC : C.OK) (hP : P.WF C.arch) (hacc : P.Accepted C) (ht : XReach C P t) (ha : XAfter C P K t t') :
    t.vec.pos ≤ t'.vec.pos ∧ ∀ i < t.vec.pos, K i → t'.bytes i = t.bytes i := by
  have hI := ht.inv hC hP hacc
  exact (ha.holds hC hP hacc hI).bytes hI

theorem XSess.after (hC : C.OK) (hP : P.WF C.arch) (hacc : P.Accepted C) (ht : XReach C P t) (h : XSess C k P t xs s)
    (hf : finalize C k s = .ok () s') (ha : XAfter C P K s'.sto t') : ∃ es, List.Forall₂ (EvSim C) xs es ∧ Lasting C k P K t es s s' t' := by
  obtain ⟨es, hsim, hend⟩ := h.ended hC hP hacc ht hf
  refine ⟨es, hsim, hend.lasting (ha.holds hC hP hacc ?_)⟩
  obtain ⟨_, _, h2, _⟩ := hend
  exact h2

theorem EvSim.kept {x : XEv} {e : Ev} (hs : EvSim C x e) (hK : ∀ i, x.lo ≤ i → i < x.hi → K i) : ∀ i, e.lo ≤ i → i < e.hi → K i := by
  rw [hs.lo, hs.hi]
  exact hK

/-- C84, `PtrOffsetSerializer`: a value stays readable at its position. -/
theorem C84_after_offset (hC : C.OK) (hP : P.WF C.arch) (hacc : P.Accepted C) (ht : XReach C P t) (h : XSess C .ptrOffset P t xs s)
    (hf : finalize C .ptrOffset s = .ok () s') (ha : XAfter C P K s'.sto t') :
    ∀ x ∈ xs, (∀ i, x.lo ≤ i → i < x.hi → K i) → ∀ r p, x.act = .plain (.typed r) → x.res = some p → ∀ fl v, Denotes C.arch P fl r.im r.t r.a v →
      Denotes C.arch P ⟨fl.canon, false⟩ t'.bytes r.t p v := by
  obtain ⟨es, hsim, hl⟩ := h.after hC hP hacc ht hf ha
  intro x hx hK r p ha hp
  obtain ⟨e, he, hs⟩ := sim_mem hsim hx
  exact hl.offset hC hP hacc e he (hs.kept hK) r p (hs.plain _ ha) (hs.res.trans hp)

/-- C84, `PureCopySerializer` and position tracking: a reader that knows the type and where the call started still recovers the value. -/
theorem C84_after_in_order (hC : C.OK) (hP : P.WF C.arch) (hacc : P.Accepted C) (ht : XReach C P t) (hk : k = .pureCopy ∨ k = .posTracking)
    (h : XSess C k P t xs s) (hf : finalize C k s = .ok () s') (ha : XAfter C P K s'.sto t') :
    ∀ x ∈ xs, (∀ i, x.lo ≤ i → i < x.hi → K i) → ∀ r p, x.act = .plain (.typed r) → x.res = some p → ∀ fl v, Denotes C.arch P fl r.im r.t r.a v →
      ∃ n, seqRoots C.arch P C.valueAlign t'.bytes n [r.t] x.lo = some ([v], x.hi) := by
  obtain ⟨es, hsim, hl⟩ := h.after hC hP hacc ht hf ha
  intro x hx hK r p ha hp
  obtain ⟨e, he, hs⟩ := sim_mem hsim hx
  have := hl.inOrder hC hP hacc hk e he (hs.kept hK) r p (hs.plain _ ha) (hs.res.trans hp)
  rw [hs.lo, hs.hi] at this
  exact this

/-- C84, `CompleteSerializer`: as long as the buffer is where it was when the serializer finished, a value stays readable there. -/
theorem C84_after_complete (hC : C.OK) (hP : P.WF C.arch) (hacc : P.Accepted C) (ht : XReach C P t) (h : XSess C .complete P t xs s)
    (hf : finalize C .complete s = .ok () s') (ha : XAfter C P K s'.sto t') (hsame : t'.asPtr = s'.sto.asPtr) :
    ∀ x ∈ xs, (∀ i, x.lo ≤ i → i < x.hi → K i) → ∀ r p, x.act = .plain (.typed r) → x.res = some p → ∀ fl v, Denotes C.arch P fl r.im r.t r.a v →
      ((P.layout r.t).size ≠ 0 ∨ (P.layout r.t).align ∣ t'.asPtr) →
      Denotes C.arch P ⟨fl.canon, true⟩ t'.buffer r.t (t'.asPtr + p) v := by
  obtain ⟨es, hsim, hl⟩ := h.after hC hP hacc ht hf ha
  intro x hx hK r p ha hp
  obtain ⟨e, he, hs⟩ := sim_mem hsim hx
  exact hl.complete hC hP hacc hsame e he (hs.kept hK) r p (hs.plain _ ha) (hs.res.trans hp)

/-- C84, programs: the output of a call on a program stays, byte for byte, the reference output of the calls that were made. -/
theorem C84_after_program (hC : C.OK) (hP : P.WF C.arch) (hacc : P.Accepted C) (ht : XReach C P t) (h : XSess C k P t xs s)
    (hf : finalize C k s = .ok () s') (ha : XAfter C P K s'.sto t') :
    ∀ x ∈ xs, ∀ L a data b p, x.act = .program L a data b → x.res = some p →
      ∃ m0, let out := TRoot.ideal C.arch C.valueAlign (k.mode s'.sto.asPtr) ⟨L, a, data, x.calls⟩ (m0, x.lo)
        out.2 = x.hi ∧ ∀ i, x.lo ≤ i → i < x.hi → K i → t'.bytes i = out.1 i := by
  obtain ⟨es, hsim, hl⟩ := h.after hC hP hacc ht hf ha
  intro x hx L a data b p ha hp
  obtain ⟨e, he, hs⟩ := sim_mem hsim hx
  obtain ⟨hok, stop, _, h2⟩ := hs.program _ _ _ _ ha
  obtain ⟨m0, h5, h6⟩ := hl.user hC hP hacc e he _ p h2 (hs.res.trans hp)
  rw [hs.lo] at h5 h6
  rw [hs.hi] at h5 h6
  rw [TRoot.image_script] at h5 h6
  have e1 := TRoot.virt_ideal hC hok (A := C.arch) (va := C.valueAlign) (md := k.mode s'.sto.asPtr) (st := (m0, x.lo))
  refine ⟨m0, ?_⟩
  rw [← e1]
  exact ⟨h5, h6⟩

/-- C84, moving one value: a copy of the bytes of its call at any address aligned for the values, with its pointer words filled in for the new address, is
the value. -/
theorem C84_after_filled (hC : C.OK) (hP : P.WF C.arch) (hacc : P.Accepted C) (ht : XReach C P t) (h : XSess C k P t xs s)
    (hf : finalize C k s = .ok () s') (ha : XAfter C P K s'.sto t') {B : Nat} (hB : C.maxValueAlign ∣ B) {dm : Mem} :
    ∀ x ∈ xs, (∀ i, x.lo ≤ i → i < x.hi → K i) → ∀ r p, x.act = .plain (.typed r) → x.res = some p → ∀ fl v, Denotes C.arch P fl r.im r.t r.a v →
      ((P.layout r.t).size ≠ 0 ∨ (P.layout r.t).align ∣ B) → B + x.hi < C.arch.usizeMod →
      FilledAt C.arch t'.bytes dm x.lo x.hi B (v.pointersAt C.arch P C.valueAlign r.t p) →
      Denotes C.arch P ⟨fl.canon, (k.mode B).fixup⟩ dm r.t (B + p) v := by
  obtain ⟨es, hsim, hl⟩ := h.after hC hP hacc ht hf ha
  intro x hx hK r p ha hp
  obtain ⟨e, he, hs⟩ := sim_mem hsim hx
  have := hl.filled hC hP hacc hB (dm := dm) e he (hs.kept hK) r p (hs.plain _ ha) (hs.res.trans hp)
  rw [hs.lo, hs.hi] at this
  exact this

/-- C84, repairing one value of a `CompleteSerializer` after the buffer has moved. -/
theorem C84_after_repair (hC : C.OK) (hP : P.WF C.arch) (hacc : P.Accepted C) (ht : XReach C P t) (h : XSess C .complete P t xs s)
    (hf : finalize C .complete s = .ok () s') (ha : XAfter C P K s'.sto t') :
    ∀ x ∈ xs, (∀ i, x.lo ≤ i → i < x.hi → K i) → ∀ r p, x.act = .plain (.typed r) → x.res = some p → ∀ fl v, Denotes C.arch P fl r.im r.t r.a v →
      ((P.layout r.t).size ≠ 0 ∨ (P.layout r.t).align ∣ t'.asPtr) →
      Denotes C.arch P ⟨fl.canon, true⟩
        (rebase C.arch s'.sto.asPtr t'.asPtr (v.pointersAt C.arch P C.valueAlign r.t p) t'.buffer) r.t (t'.asPtr + p) v ∧
      ∀ a, (a < t'.asPtr + x.lo ∨ t'.asPtr + x.hi ≤ a) →
        rebase C.arch s'.sto.asPtr t'.asPtr (v.pointersAt C.arch P C.valueAlign r.t p) t'.buffer a = t'.buffer a := by
  obtain ⟨es, hsim, hl⟩ := h.after hC hP hacc ht hf ha
  intro x hx hK r p ha hp
  obtain ⟨e, he, hs⟩ := sim_mem hsim hx
  have := hl.repair hC hP hacc e he (hs.kept hK) r p (hs.plain _ ha) (hs.res.trans hp)
  rw [hs.lo, hs.hi] at this
  exact this

end

/-! ### A concrete case -/

/-- The session of `exProgSess`, finished; then a serializer of another kind on the same storage, used for the program that panics there, dropped without
`finalize`. -/
theorem exXAfter (k k' : Kind) : ∃ c1 c2 s s' u, XSess cfg64 k exP Sto.new
    [⟨.program ⟨16, 8⟩ 4096 exLoudData exLoud, c1, some 0, 0, 56⟩, ⟨.plain (.typed ⟨exIm, 1, 4096⟩), .done, some 56, 56, 192⟩,
     ⟨.program ⟨16, 8⟩ 4096 exLoudData exLoud, c2, none, 192, 232⟩, ⟨.plain (.typed ⟨exIm, 9, 4288⟩), .done, some 232, 232, 248⟩] s ∧
    finalize cfg64 k s = .ok () s' ∧ XAfter cfg64 exP (fun _ => True) s'.sto u ∧
    ∃ xs s2, xs.length = 1 ∧ (∀ x ∈ xs, ∀ i, ¬ x.Writes i) ∧ XSess cfg64 k' exP s'.sto xs s2 ∧ u = s2.sto := by
  obtain ⟨c1, c2, s, _, hs, _, _⟩ := exProgSess k
  obtain ⟨_, s', hf, _⟩ := C83_safe cfg64_ok exP_wf exP_accepted .new hs
  have h0 : XSess cfg64 k' exP s'.sto [] (Ser.fromStorage s'.sto) := .start
  obtain ⟨h1, _⟩ := C83_safe cfg64_ok exP_wf exP_accepted (.finished .new hs hf) h0
  obtain ⟨h2, N, h3⟩ := h1 _ (exLoud_legal k' _ _)
  obtain ⟨h4, h5, h6⟩ := h2 N
  have h7 := h3 N (Nat.le_refl _)
  cases hr : M.caught ((XAct.program ⟨16, 8⟩ 4096 exLoudData exLoud).run cfg64 k' exP N) (Ser.fromStorage s'.sto) with
  | ok r s2 =>
    have h8 := h0.step (exLoud_legal k' _ _) hr
    have h9 : ∀ (x : XEv), x.act = .program ⟨16, 8⟩ 4096 exLoudData exLoud → ∀ i, ¬ x.Writes i := by
      rintro x e i ⟨_, _, _, _, h, _⟩
      rw [e] at h
      cases h
    refine ⟨c1, c2, s, s', s2.sto, hs, hf, .dropped .now h8 fun x hx i _ => h9 x ?_ i, _, s2, rfl, fun x hx i => h9 x ?_ i, h8, rfl⟩
    all_goals
      obtain rfl := List.mem_singleton.1 hx
      rfl
  | panic pk s1 => exact (h5 pk s1 hr).elim
  | abort => exact (h6 hr cfg64_never).elim
  | ub => exact (h4 hr).elim
  | fuel => exact (h7 hr).elim

/-- C84 applies: after another serializer was used on the storage and dropped, offsets still lead to the node and the enum. -/
example (k' : Kind) : ∃ u : Sto, Denotes x64 exP ⟨true, false⟩ u.bytes 1 56 exNode ∧ Denotes x64 exP ⟨true, false⟩ u.bytes 9 232 exEnum := by
  obtain ⟨c1, c2, s, s', u, hs, hf, ha, _⟩ := exXAfter .ptrOffset k'
  have hc := C84_after_offset cfg64_ok exP_wf exP_accepted .new hs hf ha
  exact ⟨u, hc ⟨.plain (.typed ⟨exIm, 1, 4096⟩), .done, some 56, 56, 192⟩ (by simp) (fun _ _ _ => trivial) _ 56 rfl rfl ⟨true, false⟩ exNode
    (exInputs (⟨exIm, 1, 4096⟩, exNode) (by simp [exRoots])), hc ⟨.plain (.typed ⟨exIm, 9, 4288⟩), .done, some 232, 232, 248⟩ (by simp)
    (fun _ _ _ => trivial) _ 232 rfl rfl ⟨true, false⟩ exEnum (exInputs (⟨exIm, 9, 4288⟩, exEnum) (by simp [exRoots]))⟩

/-- C84 applies: the process stops during the session; the first 200 bytes are in a file that has anything behind them. The node is read from it. -/
example : ∃ s : Ser, s.sto.vec.pos = 248 ∧ ∀ file : Mem, (∀ i < 200, file i = s.sto.bytes i) → Denotes x64 exP ⟨true, false⟩ file 1 56 exNode := by
  obtain ⟨c1, c2, s, _, hs, hp, _⟩ := exProgSess .ptrOffset
  exact ⟨s, hp, fun file hfile => C84_prefix_offset cfg64_ok exP_wf exP_accepted .new hs hfile
    ⟨.plain (.typed ⟨exIm, 1, 4096⟩), .done, some 56, 56, 192⟩ (by simp) (show 192 ≤ 200 by decide) _ 56 rfl rfl ⟨true, false⟩ exNode
    (exInputs (⟨exIm, 1, 4096⟩, exNode) (by simp [exRoots]))⟩

/-- C84 applies: what was there after the first two events is there at the end. -/
example (k : Kind) : ∃ s s' : Ser, s'.sto.vec.pos = 248 ∧ ∀ i < 192, s'.sto.bytes i = s.sto.bytes i := by
  obtain ⟨c1, c2, s', _, hs, hp, _⟩ := exProgSess k
  obtain ⟨s, h1, h2⟩ := XSess.split (xs := [_, _]) (more := [_, _]) hs
  obtain ⟨_, h3⟩ := C84_stays cfg64_ok exP_wf exP_accepted .new h1 h2
  have hb := (C83_order cfg64_ok exP_wf exP_accepted .new h1).1 ⟨.plain (.typed ⟨exIm, 1, 4096⟩), .done, some 56, 56, 192⟩ (by simp)
  replace hb : 192 ≤ s.sto.vec.pos := hb.2.2
  refine ⟨s, s', hp, fun i hi => h3 i (by omega) fun x hx hw => ?_⟩
  obtain ⟨_, _, _, _, h, _⟩ := hw
  simp only [List.mem_cons, List.not_mem_nil, or_false] at hx
  rcases hx with rfl | rfl <;> cases h

end SerRaw
