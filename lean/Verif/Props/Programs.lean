import Verif.Lemmas.Programs
import Verif.Spec.Programs
import Verif.Props.Adaptive
/-
C83: any program as `serialize_data`, in any history. Model/Programs.lean: `XSess C k P t xs s` is a serializer of kind `k` on the storage `t` after the
events `xs`: values whose `serialize_data` is a `Program` — it decides by what it is told, pushes temporaries, and may panic at any depth of
closures —, and everything that C59 is about, in any order, with every panic caught.
-/
namespace SerRaw

section
variable {C : Cfg} {k : Kind}

/-! ### One call -/

/-- C83, the calls of a program: `serialize_value` on a value whose `serialize_data` is the program `b` does what `serialize_value` does on the same value
with the calls that the program is recorded to have made — same result, same state, same panic —, or the program panicked, and then the storage
and the recorded pointers are as if it had returned instead. A program without a `panic!` does the former. -/
theorem C83_calls (C : Cfg) (k : Kind) (L : Layout) (a : Nat) (data : Nat → Cell) (b : Program) (s : Ser)
    (h : C.arch.debug = false ∨ b.marked.NoPosFor ∨ ∀ s', serializeValue C k L a data (do let _ ← b.run C k; pure ()) s ≠ .panic .arith s') :
    let r : TRoot := ⟨L, a, data, b.callsFrom C k L a data s⟩
    serializeValue C k L a data (do let _ ← b.run C k; pure ()) s = r.ser C k s ∨
    (¬ b.NoPanic ∧ ∃ p s1 s2, r.ser C k s = .ok p s1 ∧ serializeValue C k L a data (do let _ ← b.run C k; pure ()) s = .panic .user s2 ∧
      s2.sto = s1.sto ∧ s2.ptrs = s1.ptrs) := by
  intro r
  have e := program_made (b := b) (s := s) h
  rcases program_ser (C := C) (k := k) (L := L) (a := a) (data := data) b s with h1 | ⟨hn, h1, p, s1, h2⟩
  · exact .inl (h1.trans e)
  · refine .inr ⟨hn, p, s1, ?_⟩
    rw [h2] at h1
    obtain ⟨m, h1⟩ := h1
    exact ⟨_, e.symm.trans h2, h1, rfl, rfl⟩

theorem calls_run (c : TCalls) (rest : Program) : (Program.calls c rest).run C k = (c.run C k >>= fun _ => rest.run C k) := by
  induction c generalizing rest with
  | done => rfl
  | pushProcess L len src data ptr inner c ih1 ih2 =>
    funext s
    simp only [Program.calls, Program.run, TCalls.run, ih1, ih2, bind_assoc_M]
    have e := capturing_fst (C := C) (k := k) ⟨L, len, src, data⟩ (addrFromRef k ptr) (inner.run C k >>= fun _ => (pure [] : M Ser (List Nat))) s
    have e2 : void (inner.run C k >>= fun _ => (pure [] : M Ser (List Nat))) = inner.run C k := by
      unfold void
      rw [bind_assoc_M]
      exact bind_pure_unit _
    rw [e2] at e
    exact (bind_congr_map (f := fun _ => _) e.symm fun r s1 _ => rfl).symm
  | push L len src data ptr c ih => simp only [Program.calls, Program.run, TCalls.run, ih, bind_assoc_M]
  | pushRaw L len src data c ih => simp only [Program.calls, Program.run, TCalls.run, ih, bind_assoc_M]
  | pushRawBytes len data c ih => simp only [Program.calls, Program.run, TCalls.run, ih, bind_assoc_M]
  | overwrite addr L data c ih => simp only [Program.calls, Program.run, TCalls.run, ih, bind_assoc_M]

/-- C83, nested calls: in a program, `value.serialize_data(serializer)` for a value with the crate's own or derived implementations is written as the
calls it makes. -/
theorem C83_nested (hC : C.OK) {P : Prog} (hP : P.WF C.arch) {fl : Flags} {im : Mem} {n tid x : Nat} {v : Val}
    (hd : decode C.arch P fl im n tid x = some v) : ∃ c, ∀ (k : Kind) (rest : Program),
    (Program.calls c rest).run C k = (do serData C k P im n tid x; rest.run C k) := by
  obtain ⟨sc, hs, _⟩ := serData_eq hC.arch.ptr_pos .complete hP hd
  refine ⟨TCalls.ofScript im sc, fun k rest => ?_⟩
  obtain ⟨sc', hs', h1⟩ := serData_eq hC.arch.ptr_pos k hP hd
  rw [hs] at hs'
  cases hs'
  rw [calls_run, (C76_plain C k im sc).1, h1]

theorem touch_may (b : Program) (s : Ser) : ∀ t ∈ (b.marked.made C k s).touch C.arch, b.MayTouch C.arch t := by
  induction b generalizing s with
  | done out => intro t h; cases h
  | panic => intro t h; cases h
  | look f ih => exact fun t h => ⟨s, ih s s t h⟩
  | lookPos f ih => exact fun t h => ⟨_, ih _ s t h⟩
  | lookFor x f ih =>
    intro t h
    simp only [Program.marked, Adaptive.made] at h
    split at h
    · exact ⟨_, ih _ _ t h⟩
    · cases h
  | pushProcess L len src data ptr inner rest ih1 ih2 =>
    intro t h
    simp only [Program.marked, Adaptive.made, TCalls.touch] at h
    rcases List.mem_cons.1 h with rfl | h
    · exact .inl rfl
    · split at h
      · rename_i r s1 _
        rcases r with ⟨p, _ | ⟨y, out⟩⟩
        · cases h
        · exact .inr ⟨p, out, ih2 p out s1 t h⟩
      · cases h
  | push L len src data ptr rest ih =>
    intro t h
    simp only [Program.marked, Adaptive.made, TCalls.touch] at h
    rcases List.mem_cons.1 h with rfl | h
    · exact .inl rfl
    · split at h
      · exact .inr ⟨_, ih _ _ t h⟩
      · cases h
  | pushRaw L len src data rest ih =>
    intro t h
    simp only [Program.marked, Adaptive.made, TCalls.touch] at h
    split at h
    · exact ⟨_, ih _ _ t h⟩
    · cases h
  | pushRawBytes len data rest ih =>
    intro t h
    simp only [Program.marked, Adaptive.made, TCalls.touch] at h
    split at h
    · exact ⟨_, ih _ _ t h⟩
    · cases h
  | overwrite addr L data rest ih =>
    intro t h
    simp only [Program.marked, Adaptive.made, TCalls.touch] at h
    rcases List.mem_cons.1 h with rfl | h
    · exact .inl rfl
    · split at h
      · exact .inr (ih _ t h)
      · cases h

theorem follows_wf (b : Program) (s : Ser) {c : Ctx} (h : b.Follows C c) : (b.marked.made C k s).WF C c := by
  induction b generalizing s c with
  | done out => trivial
  | panic => trivial
  | look f ih => exact ih s s (h s)
  | lookPos f ih => exact ih _ s (h _)
  | lookFor x f ih =>
    simp only [Program.marked, Adaptive.made]
    split
    · exact ih _ _ (h _)
    · trivial
  | pushProcess L len src data ptr inner rest ih1 ih2 =>
    obtain ⟨h1, h2, h3, h4, h5⟩ := h
    simp only [Program.marked, Adaptive.made]
    refine ⟨h1, h2, ?_, ?_, ?_⟩
    · intro t ht
      split at ht
      · rename_i r s1 _
        rcases r with ⟨p, _ | ⟨y, out⟩⟩
        · cases ht
        · exact h3 p out t (touch_may _ s1 t ht)
      · cases ht
    · split
      · exact ih1 _ h4
      · trivial
    · split
      · rename_i r s1 _
        rcases r with ⟨p, _ | ⟨y, out⟩⟩
        · trivial
        · exact ih2 p out s1 (h5 p out)
      · trivial
  | push L len src data ptr rest ih =>
    obtain ⟨h1, h2, h3, h4⟩ := h
    simp only [Program.marked, Adaptive.made]
    refine ⟨h1, h2, ?_, ?_⟩
    · intro t ht
      split at ht
      · exact h3 _ t (touch_may _ _ t ht)
      · cases ht
    · split
      · exact ih _ _ (h4 _)
      · trivial
  | pushRaw L len src data rest ih =>
    simp only [Program.marked, Adaptive.made]
    refine ⟨h.1, ?_⟩
    split
    · exact ih _ _ (h.2 _)
    · trivial
  | pushRawBytes len data rest ih =>
    simp only [Program.marked, Adaptive.made]
    refine ⟨h.1, ?_⟩
    split
    · exact ih _ _ (h.2 _)
    · trivial
  | overwrite addr L data rest ih =>
    simp only [Program.marked, Adaptive.made]
    refine ⟨h.1, ?_⟩
    split
    · exact ih _ h.2
    · trivial

/-- C83, rules: the calls of a program that follows the rules whatever it is told follow the rules, in whatever state it is run. -/
theorem C83_follows (C : Cfg) (k : Kind) {L : Layout} {a : Nat} {data : Nat → Cell} {b : Program} (hL : PushOK C L 1 a)
    (hb : b.Follows C ⟨a, L.size, L.align⟩) (s : Ser) : TRoot.OK C ⟨L, a, data, b.callsFrom C k L a data s⟩ := by
  refine ⟨hL, ?_⟩
  simp only [Program.callsFrom]
  split
  · exact follows_wf b _ hb
  · trivial

/-! ### Histories -/

variable {P : Prog} {t : Sto} {xs : List XEv} {s s' : Ser}

/-- C83: the histories of C59 are among these. -/
theorem C83_includes {es : List Ev} (h : Sess C k P t es s) : XSess C k P t (es.map fun e => ⟨.plain e.act, .done, e.res, e.lo, e.hi⟩) s := by
  induction h with
  | start => exact .start
  | @step es s a fuel r s' _ hl hr ih =>
    rw [List.map_append]
    refine ih.step (a := .plain a) (fuel := fuel) ?_ hr
    cases a with
    | typed r => exact hl
    | user r => exact hl
    | sto o =>
      refine ⟨hl.1, hl.2.1, fun p L len d ho x hx hv => ?_⟩
      obtain ⟨e, he, rfl⟩ := List.mem_map.1 hx
      exact hl.2.2 p L len d ho e he hv

/-- C83: the storages that C59 starts from are among those from which these histories start. -/
theorem C83_storages (h : GReach C P t) : XReach C P t := by
  induction h with
  | new => exact .new
  | withCapacity h1 h2 => exact .withCapacity h1 h2
  | op _ h1 h2 ih => exact ih.op h1 h2
  | opPanic _ h1 h2 ih => exact ih.opPanic h1 h2
  | finished _ h1 h2 ih => exact ih.finished (C83_includes h1) h2
  | dropped _ h1 ih => exact ih.dropped (C83_includes h1)

/-- C83, safety: whatever was done before, the next permitted thing neither is undefined behaviour nor lets a panic through `catch_unwind`, it ends, it
aborts only if the allocator fails — and `finalize` always works. -/
theorem C83_safe (hC : C.OK) (hP : P.WF C.arch) (hacc : P.Accepted C) (ht : XReach C P t) (h : XSess C k P t xs s) :
    (∀ a : XAct, a.Legal C k P xs s →
      (∀ fuel, M.caught (a.run C k P fuel) s ≠ .ub ∧ (∀ pk s1, M.caught (a.run C k P fuel) s ≠ .panic pk s1) ∧
        (M.caught (a.run C k P fuel) s = .abort → ¬ C.NeverFails)) ∧
      ∃ N, ∀ fuel, N ≤ fuel → M.caught (a.run C k P fuel) s ≠ .fuel) ∧
    ∃ s', finalize C k s = .ok () s' ∧ s'.sto.vec = s.sto.vec := by
  obtain ⟨es, m, hsim, hinv⟩ := h.inv hC hP hacc (ht.inv hC hP hacc)
  have hs := hinv.safe hC hP hacc
  refine ⟨fun a ha => ?_, hs.2⟩
  cases a with
  | plain a => exact hs.1 a (legal_plain hsim ha)
  | program L a data b =>
    obtain ⟨stop, _, hl⟩ := program_image hC ha.2 ha.1
    obtain ⟨h1, N, h2⟩ := hs.1 (.user (TRoot.image C.arch.usizeMod stop ⟨L, a, data, b.callsFrom C k L a data s⟩)) (TRoot.image_ok hC ha.1)
    obtain ⟨h3, h4, h5⟩ := h1 0
    have h6 := h2 N (Nat.le_refl _)
    simp only [Act.run] at h3 h4 h5 h6
    have key : ∀ fuel, M.caught ((XAct.program L a data b).run C k P fuel) s = M.caught (serializeValue C k L a data (void (b.run C k))) s := fun _ => rfl
    simp only [key]
    cases hx : M.caught (serializeValue C k L a data (void (b.run C k))) s <;>
      cases hy : M.caught ((TRoot.image C.arch.usizeMod stop ⟨L, a, data, b.callsFrom C k L a data s⟩).ser C k) s <;> rw [hx, hy] at hl <;>
      first | exact hl.elim | skip
    · simp
    · exact (h4 _ _ hy).elim
    · exact ⟨fun _ => ⟨by simp, by simp, fun _ => h5 hy⟩, 0, by simp⟩
    · exact (h3 hy).elim
    · exact (h6 hy).elim
  | catching L a data b =>
    obtain ⟨stop, hl⟩ := catching_image hC ha.2.1 ha.2.2 hinv.rel ha.1
    obtain ⟨h1, N, h2⟩ := hs.1 (.user (TRoot.image C.arch.usizeMod stop ⟨L, a, data, b.callsFrom C k L a data s⟩)) (TRoot.image_ok hC ha.1)
    obtain ⟨h3, h4, h5⟩ := h1 0
    have h6 := h2 N (Nat.le_refl _)
    simp only [Act.run] at h3 h4 h5 h6
    have key : ∀ fuel, M.caught ((XAct.catching L a data b).run C k P fuel) s = M.caught (serializeValue C k L a data (void (b.run C k))) s := fun _ => rfl
    simp only [key]
    cases hx : M.caught (serializeValue C k L a data (void (b.run C k))) s <;>
      cases hy : M.caught ((TRoot.image C.arch.usizeMod stop ⟨L, a, data, b.callsFrom C k L a data s⟩).ser C k) s <;> rw [hx, hy] at hl <;>
      first | exact hl.elim | skip
    · simp
    · exact (h4 _ _ hy).elim
    · exact ⟨fun _ => ⟨by simp, by simp, fun _ => h5 hy⟩, 0, by simp⟩
    · exact (h3 hy).elim
    · exact (h6 hy).elim

/-- C83, order: the outputs of the events lie one after the other, after what the storage held before. -/
theorem C83_order (hC : C.OK) (hP : P.WF C.arch) (hacc : P.Accepted C) (ht : XReach C P t) (h : XSess C k P t xs s) :
    (∀ x ∈ xs, t.vec.pos ≤ x.lo ∧ x.lo ≤ x.hi ∧ x.hi ≤ s.sto.vec.pos) ∧ xs.Pairwise fun x x' => x.hi ≤ x'.lo := by
  obtain ⟨es, m, hsim, hinv⟩ := h.inv hC hP hacc (ht.inv hC hP hacc)
  refine ⟨fun x hx => ?_, sim_pairwise (fun x e x' e' h1 h2 h3 => ?_) hsim hinv.order⟩
  · obtain ⟨e, he, h1⟩ := sim_mem hsim hx
    rw [← h1.lo, ← h1.hi]
    exact hinv.bounds e he
  · rw [← h1.hi, ← h2.lo]
    exact h3

theorem XSess.ended (hC : C.OK) (hP : P.WF C.arch) (hacc : P.Accepted C) (ht : XReach C P t) (h : XSess C k P t xs s)
    (hf : finalize C k s = .ok () s') : ∃ es, List.Forall₂ (EvSim C) xs es ∧ Ended C k P t es s s' := by
  obtain ⟨es, m, hsim, hinv⟩ := h.inv hC hP hacc (ht.inv hC hP hacc)
  exact ⟨es, hsim, hinv.ended hC hf⟩

/-- C83, programs: a call on a program that gave a position put the value at the next multiple of its alignment, and its output is the reference output of the
calls that were made. -/
theorem C83_program (hC : C.OK) (hP : P.WF C.arch) (hacc : P.Accepted C) (ht : XReach C P t) (h : XSess C k P t xs s)
    (hf : finalize C k s = .ok () s') :
    ∀ x ∈ xs, ∀ L a data b p, x.act = .program L a data b → x.res = some p →
      p = roundUp x.lo L.align ∧
      ∃ m0, let out := TRoot.ideal C.arch C.valueAlign (k.mode s'.sto.vec.ptr) ⟨L, a, data, x.calls⟩ (m0, x.lo)
        out.2 = x.hi ∧ ∀ i, x.lo ≤ i → i < x.hi → s'.sto.bytes i = out.1 i := by
  obtain ⟨es, hsim, hend⟩ := h.ended hC hP hacc ht hf
  intro x hx L a data b p ha hp
  obtain ⟨e, he, h1⟩ := sim_mem hsim hx
  obtain ⟨hok, stop, _, h2⟩ := h1.program _ _ _ _ ha
  obtain ⟨h3, h4, m0, h5, h6⟩ := Ended.user hC hP hacc hend e he _ p h2 (h1.res.trans hp)
  rw [h1.lo] at h4 h5 h6
  rw [h1.hi] at h5 h6
  rw [TRoot.image_script] at h5 h6
  have e1 := TRoot.virt_ideal hC hok (A := C.arch) (va := C.valueAlign) (md := k.mode s'.sto.vec.ptr) (st := (m0, x.lo))
  rw [rootPos, if_neg (show ¬ (TRoot.image C.arch.usizeMod stop ⟨L, a, data, x.calls⟩).L.size = 0 from hok.1.size_ne)] at h4
  refine ⟨h4, m0, ?_⟩
  rw [← e1]
  exact ⟨h5, h6⟩

/-- C83, no position: a call on a program that has no `panic!` gives none only if what it pushes does not fit after what was there; so does a call with the
crate's own or derived implementations. -/
theorem C83_none (hC : C.OK) (hP : P.WF C.arch) (hacc : P.Accepted C) (ht : XReach C P t) (h : XSess C k P t xs s) :
    ∀ x ∈ xs, x.res = none →
      (∀ r bs, x.act = .plain (.typed r) → Blocks C.arch P r.im r.t r.a bs → C.maxCapacity < placeEnd C.valueAlign x.lo bs) ∧
      ∀ L a data b, x.act = .program L a data b → b.NoPanic →
        C.maxCapacity < (TRoot.ideal C.arch C.valueAlign ⟨none, false⟩ ⟨L, a, data, x.calls⟩ (fun _ => none, x.lo)).2 := by
  obtain ⟨es, m, hsim, hinv⟩ := h.inv hC hP hacc (ht.inv hC hP hacc)
  intro x hx hn
  obtain ⟨e, he, h1⟩ := sim_mem hsim hx
  obtain ⟨h2, h3⟩ := hinv.none hC hP e he (h1.res.trans hn)
  rw [h1.lo] at h2 h3
  refine ⟨fun r bs ha hb => h2 r bs (h1.plain _ ha) hb, fun L a data b ha hb => ?_⟩
  obtain ⟨hok, stop, hst, h4⟩ := h1.program _ _ _ _ ha
  obtain rfl := hst hb
  rcases h3 _ h4 with ⟨st, h5⟩ | h5
  · cases h5
  · rw [TRoot.image_script] at h5
    have e1 := TRoot.virt_ideal hC hok (A := C.arch) (va := C.valueAlign) (md := ⟨none, false⟩) (st := (fun _ => none, x.lo))
    rw [← e1]
    exact h5

/-- C83, `CompleteSerializer`: after `finalize`, each value with the crate's own or derived implementations whose call returned a position is at that
position of the final buffer, whatever the programs before and after it did. -/
theorem C83_complete (hC : C.OK) (hP : P.WF C.arch) (hacc : P.Accepted C) (ht : XReach C P t) (h : XSess C .complete P t xs s)
    (hf : finalize C .complete s = .ok () s') :
    ∀ x ∈ xs, ∀ r p, x.act = .plain (.typed r) → x.res = some p → ∀ fl v, Denotes C.arch P fl r.im r.t r.a v →
      ((P.layout r.t).size ≠ 0 ∨ (P.layout r.t).align ∣ s'.sto.vec.ptr) →
      Denotes C.arch P ⟨fl.canon, true⟩ s'.sto.buffer r.t (s'.sto.vec.ptr + p) v ∧
      ((P.layout r.t).size ≠ 0 → x.lo ≤ p ∧ p + (P.layout r.t).size ≤ x.hi) := by
  obtain ⟨es, hsim, hend⟩ := h.ended hC hP hacc ht hf
  intro x hx r p ha hp fl v hv hz
  obtain ⟨e, he, h1⟩ := sim_mem hsim hx
  rw [← h1.lo, ← h1.hi]
  exact Ended.complete hC hP hacc hend e he r p (h1.plain _ ha) (h1.res.trans hp) fl v hv hz

/-- C83, `PtrOffsetSerializer`. -/
theorem C83_offset (hC : C.OK) (hP : P.WF C.arch) (hacc : P.Accepted C) (ht : XReach C P t) (h : XSess C .ptrOffset P t xs s)
    (hf : finalize C .ptrOffset s = .ok () s') :
    ∀ x ∈ xs, ∀ r p, x.act = .plain (.typed r) → x.res = some p → ∀ fl v, Denotes C.arch P fl r.im r.t r.a v →
      Denotes C.arch P ⟨fl.canon, false⟩ s'.sto.bytes r.t p v := by
  obtain ⟨es, hsim, hend⟩ := h.ended hC hP hacc ht hf
  intro x hx r p ha hp fl v hv
  obtain ⟨e, he, h1⟩ := sim_mem hsim hx
  exact Ended.offset hC hP hacc hend e he r p (h1.plain _ ha) (h1.res.trans hp) fl v hv

/-- C83, `PureCopySerializer` and position tracking: a reader that knows the type and where the call started recovers the value, and ends where the call
ended. -/
theorem C83_in_order (hC : C.OK) (hP : P.WF C.arch) (hacc : P.Accepted C) (ht : XReach C P t) (hk : k = .pureCopy ∨ k = .posTracking)
    (h : XSess C k P t xs s) (hf : finalize C k s = .ok () s') :
    ∀ x ∈ xs, ∀ r p, x.act = .plain (.typed r) → x.res = some p → ∀ fl v, Denotes C.arch P fl r.im r.t r.a v →
      ∃ n, seqRoots C.arch P C.valueAlign s'.sto.bytes n [r.t] x.lo = some ([v], x.hi) := by
  obtain ⟨es, hsim, hend⟩ := h.ended hC hP hacc ht hf
  intro x hx r p ha hp fl v hv
  obtain ⟨e, he, h1⟩ := sim_mem hsim hx
  rw [← h1.lo, ← h1.hi]
  exact Ended.inOrder hC hP hacc hk hend e he r p (h1.plain _ ha) (h1.res.trans hp) fl v hv

/-- C83, bytes put directly: what `push_slice` and `write_slice` put below the position is in the final output, unless a later `write_slice` was to the
same byte. -/
theorem C83_direct (hC : C.OK) (hP : P.WF C.arch) (hacc : P.Accepted C) (ht : XReach C P t) (h : XSess C k P t xs s)
    (hf : finalize C k s = .ok () s') {xs1 xs2 : List XEv} {x : XEv} (hxs : xs = xs1 ++ x :: xs2) :
    (∀ L len d p, x.act = .plain (.sto (.pushSlice L len d)) → L.size ≠ 0 → x.res = some p →
      x.lo ≤ p ∧ p + L.size * len ≤ x.hi ∧ ∀ j < L.size * len, (∀ x' ∈ xs2, ¬ x'.Writes (p + j)) → s'.sto.bytes (p + j) = d j) ∧
    ∀ p L len d, x.act = .plain (.sto (.writeSlice p L len d)) →
      ∀ j < L.size * len, (∀ x' ∈ xs2, ¬ x'.Writes (p + j)) → p + j < x.hi → s'.sto.bytes (p + j) = d j := by
  obtain ⟨es, hsim, hend⟩ := h.ended hC hP hacc ht hf
  rw [hxs] at hsim
  obtain ⟨es1, e, es2, he, h1, h2⟩ := sim_split hsim
  obtain ⟨h3, h4⟩ := Ended.direct hC hP hacc hend he
  rw [h1.lo, h1.hi, h1.res] at h3
  rw [h1.hi] at h4
  have hw : ∀ i, (∀ x' ∈ xs2, ¬ x'.Writes i) → ∀ e' ∈ es2, ¬ e'.Writes i := by
    intro i hn e' he' hi
    obtain ⟨x', hx', h5⟩ := sim_mem' h2 he'
    exact hn x' hx' (h5.writes.1 hi)
  constructor
  · intro L len d p ha hz hp
    obtain ⟨h5, h6, h7⟩ := h3 L len d p (h1.plain _ ha) hz hp
    exact ⟨h5, h6, fun j hj hn => h7 j hj (hw _ hn)⟩
  · intro p L len d ha j hj hn hlt
    exact h4 p L len d (h1.plain _ ha) j hj (hw _ hn) hlt

/-- C83: what the storage held before is untouched, except where `write_slice` was called. -/
theorem C83_before (hC : C.OK) (hP : P.WF C.arch) (hacc : P.Accepted C) (ht : XReach C P t) (h : XSess C k P t xs s)
    (hf : finalize C k s = .ok () s') :
    t.vec.pos ≤ s'.sto.vec.pos ∧ ∀ i < t.vec.pos, (∀ x ∈ xs, ¬ x.Writes i) → s'.sto.bytes i = t.bytes i := by
  obtain ⟨es, hsim, hend⟩ := h.ended hC hP hacc ht hf
  obtain ⟨h1, h2⟩ := Ended.before hC hP hacc (ht.inv hC hP hacc) hend
  refine ⟨h1, fun i hi hn => h2 i hi fun e he hw => ?_⟩
  obtain ⟨x, hx, h3⟩ := sim_mem' hsim he
  exact hn x hx (h3.writes.1 hw)

end
/-! ### Concrete case -/

/-- A 16-byte value at 4096. Its implementation pushes a string; then, from a temporary at 32, the position of the string and its end, to which the first word of the
value points; while this is processed it looks at the end of the output, and pushes one more byte if that is below 100, and panics if it is not; then it
pushes the position of that byte, from another temporary at 32, to which the second word points. -/
def exLoud : Program :=
  .pushRawBytes 3 (fun i => ([97, 98, 99] : List UInt8)[i]?) fun p =>
  .pushProcess ⟨8, 8⟩ 2 32 (wordsCells x64 [p, p + 3]) 4096
    (.lookPos fun q => if q < 100 then .pushRawBytes 1 (fun _ => some 33) fun r => .done [r] else .panic)
    fun _ out => .push ⟨8, 8⟩ 1 32 (wordsCells x64 [out.headD 0]) 4104 fun _ => .done []

/-- Its bytes. -/
def exLoudData (i : Nat) : Cell := some (UInt8.ofNat i)

theorem exLoud_follows : exLoud.Follows cfg64 ⟨4096, 16, 8⟩ := by
  have e8 : Pow2 8 := ⟨3, rfl⟩
  have h2 : PushOK cfg64 ⟨8, 8⟩ 2 32 := ⟨by decide, e8, by decide, by decide⟩
  have h3 : PushOK cfg64 ⟨8, 8⟩ 1 32 := ⟨by decide, e8, by decide, by decide⟩
  have h4 : TouchOK cfg64 ⟨4096, 16, 8⟩ 4096 cfg64.arch.ptrBytes := ⟨by decide, by decide, by decide, by decide⟩
  have h5 : TouchOK cfg64 ⟨4096, 16, 8⟩ 4104 cfg64.arch.ptrBytes := ⟨by decide, by decide, by decide, by decide⟩
  have h6 : 3 ≤ cfg64.arch.isizeMax ∧ 1 ≤ cfg64.arch.isizeMax := by decide
  refine ⟨h6.1, fun p => ⟨h2, h4, ?_, ?_, fun _ _ => ⟨h3, h5, ?_, fun _ => trivial⟩⟩⟩
  · rintro p r t (rfl | ⟨_, h⟩)
    · exact .inl (by decide)
    · exact h.elim
  · intro q
    show Program.Follows cfg64 (if q < 100 then _ else _) _
    split
    · exact ⟨h6.2, fun _ => trivial⟩
    · trivial
  · rintro p t h
    exact h.elim

theorem exLoud_legal (k : Kind) (xs : List XEv) (s : Ser) : (XAct.program ⟨16, 8⟩ 4096 exLoudData exLoud).Legal cfg64 k exP xs s := by
  refine ⟨C83_follows cfg64 k ⟨by decide, ⟨3, rfl⟩, by decide, by decide⟩ exLoud_follows s, .inr (.inl fun p => ⟨fun q => ?_, fun p r => ?_⟩)⟩
  · show Adaptive.NoPosFor (Program.marked (if q < 100 then _ else _))
    split
    · exact fun _ => trivial
    · trivial
  · cases r with
    | nil => trivial
    | cons x out => exact fun _ => trivial

/-- Do the things in order, catching panics; for each, the result, and the position before and after. -/
def xActsRun (C : Cfg) (k : Kind) (P : Prog) (fuel : Nat) : List XAct → M Ser (List (Option Nat × Nat × Nat))
  | [] => pure []
  | a :: as => do
    let s ← M.get
    let r ← M.caught (a.run C k P fuel)
    let s1 ← M.get
    let rest ← xActsRun C k P fuel as
    pure ((r, s.sto.vec.pos, s1.sto.vec.pos) :: rest)

theorem xActsRun_cons {C : Cfg} {k : Kind} {P : Prog} {fuel : Nat} {a : XAct} {as : List XAct} {s s' : Ser} {x} {xs}
    (h : xActsRun C k P fuel (a :: as) s = .ok (x :: xs) s') :
    ∃ s1, M.caught (a.run C k P fuel) s = .ok x.1 s1 ∧ s.sto.vec.pos = x.2.1 ∧ s1.sto.vec.pos = x.2.2 ∧
      xActsRun C k P fuel as s1 = .ok xs s' := by
  rw [xActsRun] at h
  simp only [bind_def, M.get] at h
  cases h1 : M.caught (a.run C k P fuel) s <;> rw [h1] at h <;> simp only at h <;> first | (cases h; done) | skip
  rename_i r s1
  cases h2 : xActsRun C k P fuel as s1 <;> rw [h2] at h <;> simp only [pure_run] at h <;> first | (cases h; done) | skip
  cases h
  exact ⟨s1, rfl, rfl, rfl, h2⟩

/-- The program returns; a node is serialized; the program panics, because the output is longer now; an enum is serialized. -/
theorem exProgSess (k : Kind) : ∃ c1 c2 s, c1 = exLoud.callsFrom cfg64 k ⟨16, 8⟩ 4096 exLoudData (Ser.fromStorage Sto.new) ∧
    XSess cfg64 k exP Sto.new
    [⟨.program ⟨16, 8⟩ 4096 exLoudData exLoud, c1, some 0, 0, 56⟩, ⟨.plain (.typed ⟨exIm, 1, 4096⟩), .done, some 56, 56, 192⟩,
     ⟨.program ⟨16, 8⟩ 4096 exLoudData exLoud, c2, none, 192, 232⟩, ⟨.plain (.typed ⟨exIm, 9, 4288⟩), .done, some 232, 232, 248⟩] s ∧
    s.sto.vec.pos = 248 ∧ s.sto.vec.ptr = 5 * 2 ^ 20 := by
  obtain ⟨s, h0, hp, hb⟩ := Out.result_ok (o := xActsRun cfg64 k exP 6
    [.program ⟨16, 8⟩ 4096 exLoudData exLoud, .plain (.typed ⟨exIm, 1, 4096⟩), .program ⟨16, 8⟩ 4096 exLoudData exLoud, .plain (.typed ⟨exIm, 9, 4288⟩)]
    (Ser.fromStorage Sto.new)) (r := ([(some 0, 0, 56), (some 56, 56, 192), (none, 192, 232), (some 232, 232, 248)], 248, 5 * 2 ^ 20))
    (by cases k <;> decide +kernel)
  obtain ⟨s1, a1, b1, c1, h1⟩ := xActsRun_cons h0
  obtain ⟨s2, a2, b2, c2, h2⟩ := xActsRun_cons h1
  obtain ⟨s3, a3, b3, c3, h3⟩ := xActsRun_cons h2
  obtain ⟨s4, a4, b4, c4, h4⟩ := xActsRun_cons h3
  have r1 := (XSess.start (C := cfg64) (k := k) (P := exP) (t := Sto.new)).step (exLoud_legal k _ _) a1
  have r2 := r1.step (a := .plain (.typed ⟨exIm, 1, 4096⟩)) ⟨⟨true, false⟩, exNode, exInputs (⟨exIm, 1, 4096⟩, exNode) (by simp [exRoots])⟩ a2
  have r3 := r2.step (exLoud_legal k _ _) a3
  have r4 := r3.step (a := .plain (.typed ⟨exIm, 9, 4288⟩)) ⟨⟨true, false⟩, exEnum, exInputs (⟨exIm, 9, 4288⟩, exEnum) (by simp [exRoots])⟩ a4
  cases h4
  rw [b1, b2, b3, b4, c4] at r4
  exact ⟨_, _, _, rfl, r4, hp, hb⟩

/-- C83 applies: the node and the enum are read from the final buffer, and the output of the first call on the program is there … -/
example : ∃ s s' : Ser, finalize cfg64 .complete s = .ok () s' ∧
    Denotes x64 exP ⟨true, true⟩ s'.sto.buffer 1 (5 * 2 ^ 20 + 56) exNode ∧
    Denotes x64 exP ⟨true, true⟩ s'.sto.buffer 9 (5 * 2 ^ 20 + 232) exEnum ∧
    ∃ m0, ∀ i, 0 ≤ i → i < 56 → s'.sto.bytes i = (TRoot.ideal x64 8 ⟨some (5 * 2 ^ 20), true⟩
      ⟨⟨16, 8⟩, 4096, exLoudData, exLoud.callsFrom cfg64 .complete ⟨16, 8⟩ 4096 exLoudData (Ser.fromStorage Sto.new)⟩ (m0, 0)).1 i := by
  obtain ⟨c1, c2, s, hc, hs, hp, hb⟩ := exProgSess .complete
  obtain ⟨_, s', hf, hv⟩ := C83_safe cfg64_ok exP_wf exP_accepted .new hs
  have hb' : s'.sto.vec.ptr = 5 * 2 ^ 20 := by rw [hv]; exact hb
  have hx := C83_complete cfg64_ok exP_wf exP_accepted .new hs hf
  have n1 := (hx ⟨.plain (.typed ⟨exIm, 1, 4096⟩), .done, some 56, 56, 192⟩ (by simp) _ 56 rfl rfl ⟨true, false⟩ exNode
    (exInputs (⟨exIm, 1, 4096⟩, exNode) (by simp [exRoots])) (.inl (by decide))).1
  have n2 := (hx ⟨.plain (.typed ⟨exIm, 9, 4288⟩), .done, some 232, 232, 248⟩ (by simp) _ 232 rfl rfl ⟨true, false⟩ exEnum
    (exInputs (⟨exIm, 9, 4288⟩, exEnum) (by simp [exRoots])) (.inl (by decide))).1
  obtain ⟨_, m0, _, hu⟩ := C83_program cfg64_ok exP_wf exP_accepted .new hs hf ⟨.program ⟨16, 8⟩ 4096 exLoudData exLoud, c1, some 0, 0, 56⟩ List.mem_cons_self
    _ _ _ _ 0 rfl rfl
  rw [hb'] at n1 n2 hu
  rw [← hc]
  exact ⟨s, s', hf, n1, n2, m0, hu⟩

/-- … which is: the string at 16, its position and end at 24, one more byte at 40, and its position at 48. -/
example : let c := exLoud.callsFrom cfg64 .complete ⟨16, 8⟩ 4096 exLoudData (Ser.fromStorage Sto.new)
    let r := TRoot.ideal x64 8 ⟨some (5 * 2 ^ 20), true⟩ ⟨⟨16, 8⟩, 4096, exLoudData, c⟩ (fun _ => none, 0)
    r.2 = 56 ∧ readWord x64 r.1 0 = some (5 * 2 ^ 20 + 24) ∧ readWord x64 r.1 8 = some (5 * 2 ^ 20 + 48) ∧ r.1 16 = some 97 ∧
    readWord x64 r.1 24 = some 16 ∧ readWord x64 r.1 32 = some 19 ∧ r.1 40 = some 33 ∧ readWord x64 r.1 48 = some 40 := by
  decide +kernel

end SerRaw
