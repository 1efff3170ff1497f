import Verif.Lemmas.CustomMixedComplete
import Verif.Props.CustomMixed
import Verif.Props.CustomComplete
/-
C66: one serializer of kind `complete` over a custom contiguous storage used for everything at once (C59 for such storages).
Model/CustomMixedComplete.lean: `CSess I P t es s` is the serializer over the storage `t` after the events `es` — values with the crate's own and
derived implementations, values with hand-written implementations (some of which panic), and direct storage operations, in any order, with every
panic caught. Each event carries its result and the storage's position before (`lo`) and after it (`hi`). `QReach`: the states of a storage reached in all
these ways, by serializers of all four kinds, finalized or dropped.

`I.buffer content s`: the memory `as_ptr() .. as_ptr() + pos()` (Spec/CustomComplete.lean).
-/
namespace SerRaw

section
variable {σ : Type} {I : ContigImpl σ} {Inv : σ → Prop} {content : σ → Mem} {P : Prog} {t : σ} {es : List GEv} {s s' : CSer σ}

/-- C66, safety: whatever was done before and whichever calls panicked, the next permitted thing is never undefined behaviour, it ends, and if it
panics then because there is no room, because the hand-written implementation itself panics, or because the size given to `push_empty_slice`
overflows `usize`; and `finalize` always works, at the current address and position. -/
theorem C66_safe (h : I.Conforms Inv content) (hP : P.WF I.C.arch) (hacc : P.Accepted I.C) (ht : QReach I P t) (hs : CSess I P t es s) :
    (∀ a : GAct, a.CLegal I P es s →
      (∀ fuel, a.runC I P fuel s ≠ .ub ∧ ∀ pk s', a.runC I P fuel s = .panic pk s' →
        pk = .capacity ∨ (pk = .user ∧ ∃ r st, a = .user r ∧ r.body = .panics st) ∨
        pk = .arith ∧ ∃ L n, a = .sto (.pushEmptySlice L n) ∧ I.C.arch.usizeMod ≤ L.size * n) ∧
      ∃ N, ∀ fuel, N ≤ fuel → a.runC I P fuel s ≠ .fuel) ∧
    ∃ s', CSer.finalize I s = .ok () s' ∧ I.pos s'.sto = I.pos s.sto ∧ I.asPtr s'.sto = I.asPtr s.sto := by
  obtain ⟨hI, hd⟩ := ht.inv h hP hacc
  obtain ⟨m, h1⟩ := hs.inv h hP hacc hI hd
  refine ⟨fun a ha => ⟨fun fuel => ?_, ?_⟩, ?_⟩
  · by_cases hne : a.runC I P fuel s = .fuel
    · rw [hne]; simp
    · have := cact_sat h hP hacc h1 ha hne
      cases hr : a.runC I P fuel s with
      | ok r s' => simp
      | panic pk s' =>
        rw [hr] at this
        refine ⟨by simp, ?_⟩
        intro pk' s'' e
        cases e
        exact this.1
      | abort => simp
      | ub => rw [hr] at this; exact this.elim
      | fuel => exact absurd hr hne
  · cases a with
    | typed r =>
      obtain ⟨fl, v, n, hd⟩ := ha
      refine ⟨n, fun fuel hf he => ?_⟩
      obtain ⟨sc, _, h0⟩ := cSerValue_enough h hP hacc (decode_mono (k := fuel) hf hd) h1.rel
      simp only [GAct.runC] at he
      rw [he] at h0
      exact h0.elim
    | user r =>
      refine ⟨0, fun fuel _ he => ?_⟩
      have := cuser_sat h ha.1 ha.2.1 ha.2.2.1 ha.2.2.2 h1.rel
      simp only [GAct.runC] at he
      rw [he] at this
      exact this.elim
    | sto o =>
      refine ⟨0, fun fuel _ he => ?_⟩
      have := csto_sat (P := P) h h1.rel ha.1 ha.2
      simp only [GAct.runC] at he
      rw [he] at this
      exact this.elim
    | write p L len d =>
      refine ⟨0, fun fuel _ he => ?_⟩
      obtain ⟨b1, b2, b3, b4, b5, b6, b7⟩ := ha
      obtain ⟨s', m', e, _⟩ := cwrite_ok (P := P) (d := d) h h1.rel b1 b2 b3 b4 b5 b6 (fun x hx => by
        obtain ⟨e, he, hv, c1, c2⟩ := h1.ents x hx
        have := b7 e he hv
        omega)
      simp only [GAct.runC] at he
      rw [he] at e; cases e
  · obtain ⟨s', e, hf⟩ := h1.final h
    exact ⟨s', e, hf.pos, hf.ptr⟩

/-- C66, order: the outputs of the events lie one after the other, after what the storage held before; and the storage stays consistent. -/
theorem C66_order (h : I.Conforms Inv content) (hP : P.WF I.C.arch) (hacc : P.Accepted I.C) (ht : QReach I P t) (hs : CSess I P t es s) :
    (∀ e ∈ es, I.pos t ≤ e.lo ∧ e.lo ≤ e.hi ∧ e.hi ≤ I.pos s.sto) ∧ es.Pairwise (fun e e' => e.hi ≤ e'.lo) ∧
    I.pos s.sto ≤ I.capacity s.sto ∧ I.capacity s.sto ≤ I.C.maxCapacity ∧ I.C.valueAlign ∣ I.pos s.sto := by
  obtain ⟨hI, hd⟩ := ht.inv h hP hacc
  obtain ⟨m, h1⟩ := hs.inv h hP hacc hI hd
  exact ⟨h1.bounds, h1.order, h.random.storage.pos_le _ (h1.rel 0).inv, h.random.storage.cap_le _ (h1.rel 0).inv, (h1.rel 0).dvd⟩

/-- The state after `finalize`. -/
theorem CSess.fin (h : I.Conforms Inv content) (hP : P.WF I.C.arch) (hacc : P.Accepted I.C) (ht : QReach I P t) (hs : CSess I P t es s)
    (hf : CSer.finalize I s = .ok () s') : ∃ m, CSessInv I Inv content P t es s m ∧ CFinal I Inv content es s s' m := by
  obtain ⟨hI, hd⟩ := ht.inv h hP hacc
  obtain ⟨m, h1⟩ := hs.inv h hP hacc hI hd
  obtain ⟨s2, e, h2⟩ := h1.final h
  rw [hf] at e
  cases e
  exact ⟨m, h1, h2⟩

theorem CFinal.buffer {m : Nat → Mem} (h1 : CSessInv I Inv content P t es s m) (h2 : CFinal I Inv content es s s' m) :
    Mem.Le (fun a => if I.asPtr s'.sto ≤ a then m (I.asPtr s'.sto) (a - I.asPtr s'.sto) else none) (I.buffer content s'.sto) := by
  intro a b hb
  simp only at hb
  split at hb
  · rename_i hle
    have hlt : a - I.asPtr s'.sto < I.pos s'.sto := by
      apply Nat.lt_of_not_le; intro hge
      rw [(h1.rel _).fresh _ (by rw [← h2.pos]; exact hge)] at hb; cases hb
    unfold ContigImpl.buffer
    rw [if_pos ⟨hle, by omega⟩]
    exact h2.le _ b hb
  · cases hb

/-- C66: after `finalize`, each value with the crate's own or derived implementations whose call returned a position `p` is found at `as_ptr() + p` — whatever
else was done with the serializer before and after, whichever other calls panicked, and however often the buffer moved: reading there, following
only pointers stored in the buffer and looking only at the buffer, gives the value, capacities equal to lengths. -/
theorem C66_roundtrip (h : I.Conforms Inv content) (hP : P.WF I.C.arch) (hacc : P.Accepted I.C) (ht : QReach I P t) (hs : CSess I P t es s)
    (hf : CSer.finalize I s = .ok () s') :
    ∀ e ∈ es, ∀ r p, e.act = .typed r → e.res = some p → ∀ fl v, Denotes I.C.arch P fl r.im r.t r.a v →
      ((P.layout r.t).size ≠ 0 ∨ (P.layout r.t).align ∣ I.asPtr s'.sto) →
      Denotes I.C.arch P ⟨fl.canon, true⟩ (I.buffer content s'.sto) r.t (I.asPtr s'.sto + p) v ∧
      ((P.layout r.t).size ≠ 0 → e.lo ≤ p ∧ p + (P.layout r.t).size ≤ e.hi) := by
  have hW := h.random.storage.arch.ptr_pos
  have F := h.random.storage.facts
  obtain ⟨m, h1, h2⟩ := hs.fin h hP hacc ht hf
  intro e he r p ha hp fl v hv hz
  have h3 := h1.left e he p hp
  rw [ha] at h3
  obtain ⟨n, sc, h4, hl⟩ := h3
  obtain ⟨n', hd⟩ := hv
  have hj : Job.OK I.C P fl (max n n') ⟨r, v, sc⟩ := ⟨decode_mono (by omega) hd, script_mono (by omega) h4⟩
  obtain ⟨m0, hc⟩ := hl.cells (I.asPtr s'.sto)
  have hhi := (h1.bounds e he).2.2
  rw [← h2.pos] at hhi
  have b1 := h.random.storage.pos_le _ h2.inv
  have b2 := h.fits _ h2.inv
  have hnz := hl.pos_of_nz F.va.pos (hj.align hW hP hacc)
  refine ⟨?_, hnz⟩
  rw [hl.at_]
  refine Denotes.le (CFinal.buffer h1 h2) ⟨max n n', (root_read (j := ⟨r, v, sc⟩) (md := Kind.mode (I.asPtr s'.sto) .complete) (D := I.asPtr s'.sto) (m := m0) (p := e.lo)
    F.va.pos hW hP hacc rfl hj (fun h0 => hz.resolve_left (fun h => h h0)) (fun hnz' u hu => ?_) ?_ ?_).1⟩
  · have hacc' := hacc u hu
    rw [accepts_iff] at hacc'
    exact Nat.dvd_trans (Pow2.dvd_of_le (hP u).1 F.sa (Nat.le_trans hacc' F.mva_le))
      (h.aligned _ h2.inv (by have := (hnz hnz').2; have := Nat.pos_of_ne_zero hnz'; omega))
  · have : placeEnd I.C.valueAlign e.lo (Job.shapes P ⟨r, v, sc⟩) = e.hi := hl.end_.symm
    omega
  · intro i h5 h6
    have h6 : i < e.hi := by rw [hl.end_]; exact h6
    simp only
    rw [if_pos (by omega), show I.asPtr s'.sto + i - I.asPtr s'.sto = i by omega]
    exact hc i h5 h6

/-- C66, hand-written implementations: a call that gave a position is one whose implementation returned; the position is where the reference serializer
puts the value, the output of the call ends where the reference output ends, and the final buffer contains every byte of the reference output, pointers
being addresses in the final buffer. -/
theorem C66_user (h : I.Conforms Inv content) (hP : P.WF I.C.arch) (hacc : P.Accepted I.C) (ht : QReach I P t) (hs : CSess I P t es s)
    (hf : CSer.finalize I s = .ok () s') :
    ∀ e ∈ es, ∀ r p, e.act = .user r → e.res = some p →
      (∃ sc, r.body = .returns sc) ∧ p = rootPos r.L e.lo ∧
      ∃ m0, let out := rootIdeal I.C.arch I.C.valueAlign (Kind.complete.mode (I.asPtr s'.sto)) r.L r.im r.a r.body.script (m0, e.lo)
        out.2 = e.hi ∧ ∀ i, e.lo ≤ i → i < e.hi → ∀ b, out.1 i = some b → I.buffer content s'.sto (I.asPtr s'.sto + i) = some b := by
  obtain ⟨m, h1, h2⟩ := hs.fin h hP hacc ht hf
  intro e he r p ha hp
  have h3 := h1.left e he p hp
  rw [ha] at h3
  obtain ⟨h4, hl⟩ := h3
  obtain ⟨m0, hc⟩ := hl.cells (I.asPtr s'.sto)
  refine ⟨h4, hl.at_, m0, ?_⟩
  intro out
  refine ⟨by rw [show out.2 = _ from rootIdeal_end, hl.end_], fun i h5 h6 b hb => ?_⟩
  refine CFinal.buffer h1 h2 _ b ?_
  simp only
  rw [if_pos (by omega), show I.asPtr s'.sto + i - I.asPtr s'.sto = i by omega, ← hb]
  exact hc i h5 h6

/-- C66, bytes put directly: what `push_slice` and `write_slice` put below the position is in the final buffer, unless a later `write_slice` was to the same
byte: `finalize` corrects pointers of serialized values only. -/
theorem C66_direct (h : I.Conforms Inv content) (hP : P.WF I.C.arch) (hacc : P.Accepted I.C) (ht : QReach I P t) (hs : CSess I P t es s)
    (hf : CSer.finalize I s = .ok () s') {es1 es2 : List GEv} {e : GEv} (hes : es = es1 ++ e :: es2) :
    (∀ L len d p, e.act = .sto (.pushSlice L len d) → L.size ≠ 0 → e.res = some p →
      e.lo ≤ p ∧ L.align ∣ p ∧ p + L.size * len ≤ e.hi ∧
      ∀ j < L.size * len, (∀ e' ∈ es2, ¬ e'.Writes (p + j)) → I.buffer content s'.sto (I.asPtr s'.sto + (p + j)) = d j) ∧
    ∀ p L len d q, e.act = .write p L len d → e.res = some q →
      ∀ j < L.size * len, (∀ e' ∈ es2, ¬ e'.Writes (p + j)) → p + j < e.hi → I.buffer content s'.sto (I.asPtr s'.sto + (p + j)) = d j := by
  obtain ⟨m, h1, h2⟩ := hs.fin h hP hacc ht hf
  have hmem : e ∈ es := by rw [hes]; simp
  have hhi := (h1.bounds e hmem).2.2
  have hb : ∀ i c, i < e.hi → e.Puts i c → (∀ e' ∈ es2, ¬ e'.Writes i) → I.buffer content s'.sto (I.asPtr s'.sto + i) = c := by
    intro i c hi hput hn
    unfold ContigImpl.buffer
    rw [if_pos ⟨by omega, by rw [h2.pos]; omega⟩, show I.asPtr s'.sto + i - I.asPtr s'.sto = i by omega,
      h2.other i (by omega) (h1.apart e hmem i c hi hput)]
    exact h1.puts es1 e es2 hes i c hi hput hn
  constructor
  · intro L len d p ha hz hp
    have h3 := h1.left e hmem p hp
    rw [ha] at h3
    obtain ⟨h4, h5, h6⟩ := h3 L len d rfl hz
    exact ⟨h4, h5, h6, fun j hj hn => hb _ _ (by omega) (.inl ⟨L, len, d, p, j, ha, hz, hp, hj, rfl, rfl⟩) hn⟩
  · intro p L len d q ha hq j hj hn hlt
    exact hb _ _ hlt (.inr ⟨p, L, len, d, q, j, ha, hq, hj, rfl, rfl⟩) hn

/-- C66: what the storage held before is untouched, except where `write_slice` was called — both by the calls and by `finalize`. -/
theorem C66_before (h : I.Conforms Inv content) (hP : P.WF I.C.arch) (hacc : P.Accepted I.C) (ht : QReach I P t) (hs : CSess I P t es s)
    (hf : CSer.finalize I s = .ok () s') :
    I.pos t ≤ I.pos s'.sto ∧ ∀ i < I.pos t, (∀ e ∈ es, ¬ e.Writes i) →
      I.buffer content s'.sto (I.asPtr s'.sto + i) = I.buffer content t (I.asPtr t + i) := by
  obtain ⟨m, h1, h2⟩ := hs.fin h hP hacc ht hf
  have hp := h1.pos
  refine ⟨by rw [h2.pos]; exact hp, fun i hi hn => ?_⟩
  unfold ContigImpl.buffer
  rw [if_pos ⟨by omega, by rw [h2.pos]; omega⟩, if_pos ⟨by omega, by omega⟩, show I.asPtr s'.sto + i - I.asPtr s'.sto = i by omega,
    show I.asPtr t + i - I.asPtr t = i by omega, h2.other i (by omega) fun e he _ => .inl (by have := (h1.bounds e he).1; omega)]
  exact h1.before i hi hn

/-- C66 covers the sessions of C63: a session without panics is a list of events followed by `finalize`, and a storage reached by such sessions (also ones
that panicked, also of the other kinds) is reached here. -/
theorem CReach.q (h : I.Conforms Inv content) (hP : P.WF I.C.arch) (hacc : P.Accepted I.C) (ht : CReach I P t) : QReach I P t := by
  induction ht with
  | new => exact .new
  | withCapacity h1 h2 => exact .withCapacity h1 h2
  | op _ h1 h2 ih => exact .op ih h1 h2
  | opPanic _ h1 h2 ih => exact .opPanic ih h1 h2
  | session _ hv hr ih =>
    obtain ⟨es, h1, _⟩ := (gSession_split .start hv).1 _ _ hr
    exact .session ih h1
  | sessionPanic _ hv hr ih =>
    obtain ⟨es, h1⟩ := (gSession_split .start hv).2 _ _ hr
    exact .session ih h1
  | @complete t fuel rs ps s' _ hv hr ih =>
    unfold cSession at hr
    rw [bind_def] at hr
    cases h1 : cRoots I P fuel rs (CSer.fromStorage t) <;> rw [h1] at hr <;> simp only at hr <;> try (cases hr; done)
    rename_i qs s1
    obtain ⟨es, h2, _⟩ := (cRoots_split .start hv).1 _ _ h1
    rw [bind_def] at hr
    cases h3 : CSer.finalize I s1 <;> rw [h3] at hr <;> simp only at hr <;> try (cases hr; done)
    cases hr
    exact .finalized ih h2 h3
  | @completePanic t fuel rs pk s' _ hv hr ih =>
    unfold cSession at hr
    rw [bind_def] at hr
    cases h1 : cRoots I P fuel rs (CSer.fromStorage t) <;> rw [h1] at hr <;> simp only at hr <;> try (cases hr; done)
    · rename_i qs s1
      obtain ⟨es, h2, _⟩ := (cRoots_split .start hv).1 _ _ h1
      obtain ⟨s2, h4, _⟩ := (C66_safe h hP hacc ih h2).2
      rw [bind_def, h4] at hr
      cases hr
    · cases hr
      obtain ⟨es, h2⟩ := (cRoots_split .start hv).2 _ _ h1
      exact .dropped ih h2

theorem C66_covers (h : I.Conforms Inv content) (hP : P.WF I.C.arch) (hacc : P.Accepted I.C) {n : Nat} {rs : List Root} {ps : List Nat}
    (hv : ∀ r ∈ rs, Valid I.C.arch P r) (hrun : cSession I P n rs (CSer.fromStorage t) = .ok ps s') (ht : CReach I P t) :
    QReach I P t ∧ ∃ es s, CSess I P t es s ∧ CSer.finalize I s = .ok () s' ∧ es.map GEv.act = rs.map GAct.typed ∧ es.map GEv.res = ps.map some := by
  refine ⟨ht.q h hP hacc, ?_⟩
  unfold cSession at hrun
  rw [bind_def] at hrun
  cases h1 : cRoots I P n rs (CSer.fromStorage t) <;> rw [h1] at hrun <;> simp only at hrun <;> try (cases hrun; done)
  rename_i qs s1
  obtain ⟨es, h2, h4⟩ := (cRoots_split .start hv).1 _ _ h1
  rw [bind_def] at hrun
  cases h3 : CSer.finalize I s1 <;> rw [h3] at hrun <;> simp only at hrun <;> try (cases hrun; done)
  cases hrun
  exact ⟨es, s1, h2, h3, h4⟩

end

/-! ### A concrete case -/

/-- Do the things in order, catching panics; for each, the result, the position before and after, and the capacity after. -/
def cactsRun {σ : Type} (I : ContigImpl σ) (P : Prog) (fuel : Nat) : List GAct → M (CSer σ) (List (Option Nat × Nat × Nat × Nat))
  | [] => pure []
  | a :: as => do
    let s ← M.get
    let r ← M.caught (a.runC I P fuel)
    let s1 ← M.get
    let rest ← cactsRun I P fuel as
    pure ((r, I.pos s.sto, I.pos s1.sto, I.capacity s1.sto) :: rest)

theorem cactsRun_cons {σ : Type} {I : ContigImpl σ} {P : Prog} {fuel : Nat} {a : GAct} {as : List GAct} {s s' : CSer σ} {x} {xs}
    (h : cactsRun I P fuel (a :: as) s = .ok (x :: xs) s') :
    ∃ s1, M.caught (a.runC I P fuel) s = .ok x.1 s1 ∧ I.pos s.sto = x.2.1 ∧ I.pos s1.sto = x.2.2.1 ∧ I.capacity s1.sto = x.2.2.2 ∧
      cactsRun I P fuel as s1 = .ok xs s' := by
  rw [cactsRun] at h
  simp only [bind_def, M.get] at h
  cases h1 : M.caught (a.runC I P fuel) s <;> rw [h1] at h <;> simp only at h <;> first | (cases h; done) | skip
  rename_i r s1
  cases h2 : cactsRun I P fuel as s1 <;> rw [h2] at h <;> simp only [pure_run] at h <;> first | (cases h; done) | skip
  cases h
  exact ⟨s1, rfl, rfl, rfl, rfl, h2⟩

/-- A moving storage of at most 400 bytes. -/
def cfgMove : Cfg := mkCfg x64 16 16 8 400
theorem cfgMove_ok : cfgMove.OK := ⟨⟨Or.inr rfl⟩, by decide, moving_ok ⟨Or.inr rfl⟩⟩
theorem exP_accepted_move : exP.Accepted cfgMove := exP_accepted

theorem exUser_move : exUser.OK cfgMove := by
  have e8 : Pow2 8 := ⟨3, rfl⟩
  have e4 : Pow2 4 := ⟨2, rfl⟩
  have e1 : Pow2 1 := ⟨0, rfl⟩
  refine ⟨⟨by decide, e8, by decide, by decide⟩, ⟨by decide, e8, by decide, by decide⟩,
    ⟨by decide, by decide, by decide, by decide⟩, ?_, ⟨⟨by decide, e1, by decide, by decide⟩,
      ⟨by decide, by decide, by decide, by decide⟩, by simp [Script.touch], trivial⟩,
    ⟨by decide, ⟨1, rfl⟩, by decide, by decide, by decide, by decide⟩,
      ⟨by decide, e4, by decide, by decide⟩, ⟨by decide, e8, by decide, by decide⟩,
      ⟨by decide, by decide, by decide, by decide⟩, by simp [Script.touch], trivial⟩
  intro t ht
  simp only [Script.touch, List.mem_cons, List.not_mem_nil, or_false] at ht
  rcases ht with rfl | rfl
  · left; decide
  · right; decide

theorem exPanic_move : exPanic.OK cfgMove := by
  have e8 : Pow2 8 := ⟨3, rfl⟩
  have e1 : Pow2 1 := ⟨0, rfl⟩
  refine ⟨⟨by decide, e8, by decide, by decide⟩, ⟨by decide, e8, by decide, by decide⟩,
    ⟨by decide, by decide, by decide, by decide⟩, ?_, ⟨⟨by decide, e1, by decide, by decide⟩,
      ⟨by decide, by decide, by decide, by decide⟩, ?_, trivial⟩, trivial⟩
  · intro t ht; simp [Script.touch] at ht
  · intro t ht; simp [Stop.script, Script.app, Script.touch] at ht

/-- The events of `exGActs` (reserve a header; serialize the node; a hand-written implementation panics; another returns; serialize the node again, for
which there is no room; serialize the enum, for which there is; fill in the header). -/
def exCEvs : List GEv :=
  [⟨.sto (.pushEmptySlice ⟨8, 8⟩ 1), some 0, 0, 8⟩, ⟨.typed ⟨exIm, 1, 4096⟩, some 8, 8, 144⟩, ⟨.user exPanic, none, 144, 208⟩,
   ⟨.user exReturns, some 208, 208, 288⟩, ⟨.typed ⟨exIm, 1, 4096⟩, none, 288, 368⟩, ⟨.typed ⟨exIm, 9, 4288⟩, some 368, 368, 384⟩,
   ⟨.write 0 ⟨8, 8⟩ 1 fun i => some (UInt8.ofNat (65 + i)), some 0, 384, 384⟩]

set_option maxRecDepth 100000 in
theorem exCSess : ∃ s, CSess (movingImpl cfgMove) exP (movingImpl cfgMove).new exCEvs s ∧ s.sto.pos = 384 ∧ s.sto.addr = 16 ∧ s.ptrs.past.length = 4 := by
  obtain ⟨s, h0, hp⟩ := Out.movingResult_ok (o := cactsRun (movingImpl cfgMove) exP 6 exGActs (CSer.fromStorage (movingImpl cfgMove).new))
    (r := ([(some 0, 0, 8, 400), (some 8, 8, 144, 400), (none, 144, 208, 400), (some 208, 208, 288, 400), (none, 288, 368, 400),
      (some 368, 368, 384, 400), (some 0, 384, 384, 400)], 384, 16, 4)) (by decide +kernel)
  obtain ⟨s1, a1, b1, c1, d1, h1⟩ := cactsRun_cons h0
  obtain ⟨s2, a2, b2, c2, d2, h2⟩ := cactsRun_cons h1
  obtain ⟨s3, a3, b3, c3, d3, h3⟩ := cactsRun_cons h2
  obtain ⟨s4, a4, b4, c4, d4, h4⟩ := cactsRun_cons h3
  obtain ⟨s5, a5, b5, c5, d5, h5⟩ := cactsRun_cons h4
  obtain ⟨s6, a6, b6, c6, d6, h6⟩ := cactsRun_cons h5
  obtain ⟨s7, a7, b7, c7, d7, h7⟩ := cactsRun_cons h6
  have p8 : Pow2 8 := ⟨3, rfl⟩
  have p4 : Pow2 4 := ⟨2, rfl⟩
  have p2 : Pow2 2 := ⟨1, rfl⟩
  have p1 : Pow2 1 := ⟨0, rfl⟩
  have e8 : Layout.OK ⟨8, 8⟩ := ⟨p8, by decide⟩
  have r1 := (CSess.start (I := movingImpl cfgMove) (P := exP) (t := (movingImpl cfgMove).new)).step (a := .sto (.pushEmptySlice ⟨8, 8⟩ 1)) (fuel := 6)
    ⟨⟨e8, by decide, by decide, by decide⟩, (by intro h; cases h)⟩ a1
  have n1 : Valid x64 exP ⟨exIm, 1, 4096⟩ := ⟨⟨true, false⟩, exNode, exInputs (⟨exIm, 1, 4096⟩, exNode) (by simp [exRoots])⟩
  have r2 := r1.step (a := .typed ⟨exIm, 1, 4096⟩) n1 a2
  have r3 := r2.step (a := .user exPanic) ⟨exPanic_move, ⟨p8, by decide⟩, ⟨⟨p8, by decide⟩, ⟨⟨p1, by decide⟩, trivial⟩, trivial⟩, ⟨trivial, trivial⟩⟩ a3
  have r4 := r3.step (a := .user exReturns) ⟨exUser_move, ⟨p8, by decide⟩,
    ⟨⟨p8, by decide⟩, ⟨⟨p1, by decide⟩, trivial⟩, ⟨p4, by decide⟩, ⟨p8, by decide⟩, trivial⟩, ⟨trivial, ⟨p2, by decide⟩, trivial⟩⟩ a4
  have r5 := r4.step (a := .typed ⟨exIm, 1, 4096⟩) n1 a5
  have r6 := r5.step (a := .typed ⟨exIm, 9, 4288⟩) ⟨⟨true, false⟩, exEnum, exInputs (⟨exIm, 9, 4288⟩, exEnum) (by simp [exRoots])⟩ a6
  rw [b1, b2, b3, b4, b5, b6, c6] at r6
  have r7 := r6.step (a := .write 0 ⟨8, 8⟩ 1 fun i => some (UInt8.ofNat (65 + i))) (fuel := 6) ?_ a7
  · cases h7
    rw [b7, c7] at r7
    exact ⟨_, r7, hp⟩
  · refine ⟨e8, by decide, by decide, by decide, ?_, Nat.dvd_zero _, ?_⟩
    · rw [d6]; decide
    · intro e he hv
      right
      simp only [List.nil_append, List.cons_append, List.mem_cons, List.not_mem_nil, or_false] at he
      rcases he with rfl | rfl | rfl | rfl | rfl | rfl <;> first | exact hv.elim | decide

/-- C66 applies: `finalize`, which has four groups of pointers to correct — among them those of the two calls that panicked — works; then the node
serialized first and the enum serialized after two calls had panicked are found, and the header is there; and the storage can be used again. -/
example : ∃ t : MovingStorage, t.addr = 16 ∧
    Denotes x64 exP ⟨true, true⟩ ((movingImpl cfgMove).buffer MovingStorage.mem t) 1 24 exNode ∧
    Denotes x64 exP ⟨true, true⟩ ((movingImpl cfgMove).buffer MovingStorage.mem t) 9 384 exEnum ∧
    (∀ j < 8, (movingImpl cfgMove).buffer MovingStorage.mem t (16 + j) = some (UInt8.ofNat (65 + j))) ∧
    (∃ m0, let out := rootIdeal x64 8 (Kind.complete.mode 16) exUser.L exUser.im exUser.a exUser.sc (m0, 208)
      out.2 = 288 ∧ ∀ i, 208 ≤ i → i < 288 → ∀ b, out.1 i = some b → (movingImpl cfgMove).buffer MovingStorage.mem t (16 + i) = some b) ∧
    QReach (movingImpl cfgMove) exP t := by
  obtain ⟨s, hs, hp, hadr, _⟩ := exCSess
  have hm := C63_moving cfgMove_ok
  obtain ⟨s', hf, hp', ha'⟩ := (C66_safe hm exP_wf exP_accepted_move .new hs).2
  have ha : s'.sto.addr = 16 := (show s'.sto.addr = s.sto.addr from ha').trans hadr
  have hc := C66_roundtrip hm exP_wf exP_accepted_move .new hs hf
  have n1 := (hc ⟨.typed ⟨exIm, 1, 4096⟩, some 8, 8, 144⟩ (by simp [exCEvs]) _ 8 rfl rfl ⟨true, false⟩ exNode
    (exInputs (⟨exIm, 1, 4096⟩, exNode) (by simp [exRoots])) (Or.inl (by decide))).1
  have n2 := (hc ⟨.typed ⟨exIm, 9, 4288⟩, some 368, 368, 384⟩ (by simp [exCEvs]) _ 368 rfl rfl ⟨true, false⟩ exEnum
    (exInputs (⟨exIm, 9, 4288⟩, exEnum) (by simp [exRoots])) (Or.inl (by decide))).1
  have hu := C66_user hm exP_wf exP_accepted_move .new hs hf
    ⟨.user exReturns, some 208, 208, 288⟩ (by simp [exCEvs]) _ 208 rfl rfl
  have hd := (C66_direct hm exP_wf exP_accepted_move .new hs hf (es1 := exCEvs.take 6) (es2 := []) rfl).2 0 ⟨8, 8⟩ 1 _ 0 rfl rfl
  rw [show (movingImpl cfgMove).asPtr s'.sto = 16 from ha] at n1 n2 hu hd
  refine ⟨s'.sto, ha, n1, n2, ?_, ?_, .finalized .new hs hf⟩
  · intro j hj
    have := hd j (by simpa using hj) (by simp) (by simp only; omega)
    rw [Nat.zero_add] at this
    exact this
  · obtain ⟨_, _, m0, h1, h2⟩ := hu
    exact ⟨m0, h1, h2⟩

/-- C66. Which random-access writes the histories of C66 may contain: of real values, inside the capacity and aligned, which touch no byte
of a value serialized before (also when they end exactly where a value begins, or begin where it ends). -/
theorem C66_write_allowed {σ : Type} {I : ContigImpl σ} {P : Prog} {es : List GEv} {s : CSer σ} {p len : Nat} {L : Layout} {d : Nat → Cell}
    (hes : ∀ e ∈ es, e.act.IsValue → e.lo < e.hi) :
    GAct.CLegal I P es s (.write p L len d) ↔
      (L.OK ∧ L.size ≠ 0 ∧ I.C.accepts L = true ∧ 0 < len ∧ p + L.size * len ≤ I.capacity s.sto ∧ L.align ∣ p) ∧
      ∀ e ∈ es, e.act.IsValue → ∀ i, e.lo ≤ i → i < e.hi → ¬ (p ≤ i ∧ i < p + L.size * len) := by
  constructor
  · rintro ⟨h1, h2, h3, h4, h5, h6, h7⟩
    refine ⟨⟨h1, h2, h3, h4, h5, h6⟩, fun e he hv i h8 h9 => ?_⟩
    have := h7 e he hv
    omega
  · rintro ⟨⟨h1, h2, h3, h4, h5, h6⟩, h7⟩
    refine ⟨h1, h2, h3, h4, h5, h6, ?_⟩
    intro e he hv
    have hn : 0 < L.size * len := Nat.mul_pos (Nat.pos_of_ne_zero h2) h4
    have h8 := hes e he hv
    have h9 := h7 e he hv e.lo (Nat.le_refl _) h8
    by_cases h10 : e.lo ≤ p
    · by_cases h11 : p < e.hi
      · exact absurd ⟨Nat.le_refl _, by omega⟩ (h7 e he hv p h10 h11)
      · exact Or.inl (by omega)
    · exact Or.inr (by omega)

end SerRaw
