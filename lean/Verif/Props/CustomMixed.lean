import Verif.Lemmas.CustomMixed
import Verif.Props.Jump
import Verif.Props.Mixed
/-
C65: one serializer over a custom storage used for everything at once (C59 for custom storages). Model/CustomMixed.lean: `GSess I k P t es s` is a
serializer of kind `k` derived over the custom storage `t` after the events `es` — values with the crate's own and derived implementations, values
with hand-written implementations (some of which panic), and direct storage operations, in any order, with every panic caught. Each event carries its
result and the storage's position before (`lo`) and after it (`hi`). `LReach`: the states of a storage reached in all these ways.

`RandomImpl.Lawful`, `OwnIn`, `Copied`, `RootLaid`: Spec/Jump.lean.
-/
namespace SerRaw

section
variable {σ : Type} {I : RandomImpl σ} {Inv : σ → Prop} {content : σ → Mem} {P : Prog} {k : DKind} {t : σ} {es : List GEv} {s : GSer σ}

/-- C65, safety: whatever was done before and whichever calls panicked, the next permitted thing is never undefined behaviour, it ends (recursion on the
value is finite), and if it panics then because there is no room, because the hand-written implementation itself panics, or because the size given to
`push_empty_slice` overflows `usize`. -/
theorem C65_safe (h : I.Lawful Inv content) (hP : P.WF I.C.arch) (hacc : P.Accepted I.C) (ht : LReach I P t) (hs : GSess I k P t es s)
    {a : GAct} (ha : a.Legal I P es s) :
    (∀ fuel, a.run I k P fuel s ≠ .ub ∧ ∀ pk s', a.run I k P fuel s = .panic pk s' →
      pk = .capacity ∨ (pk = .user ∧ ∃ r st, a = .user r ∧ r.body = .panics st) ∨
      pk = .arith ∧ ∃ L n, a = .sto (.pushEmptySlice L n) ∧ I.C.arch.usizeMod ≤ L.size * n) ∧
    ∃ N, ∀ fuel, N ≤ fuel → a.run I k P fuel s ≠ .fuel := by
  obtain ⟨hI, hd⟩ := ht.inv h hP hacc
  obtain ⟨m, h1⟩ := hs.inv h hP hacc hI hd
  constructor
  · intro fuel
    by_cases hne : a.run I k P fuel s = .fuel
    · rw [hne]; simp
    · have := gact_sat h hP hacc h1 ha hne
      cases hr : a.run I k P fuel s with
      | ok r s' => simp
      | panic pk s' =>
        rw [hr] at this
        refine ⟨by simp, ?_⟩
        intro pk' s'' e
        cases e
        exact this.1
      | abort => simp
      | ub => rw [hr] at this; exact this.elim
      | fuel => exact absurd hr hne
  · cases a with
    | typed r =>
      obtain ⟨fl, v, n, hd⟩ := ha
      refine ⟨n, fun fuel hf he => ?_⟩
      obtain ⟨sc, _, h0⟩ := gSerValue_enough (k := k) h hP hacc (decode_mono (k := fuel) hf hd) h1.rel
      simp only [GAct.run] at he
      rw [he] at h0
      exact h0.elim
    | user r =>
      refine ⟨0, fun fuel _ he => ?_⟩
      have := guser_sat (k := k) h ha.1 ha.2.1 ha.2.2 h1.rel
      simp only [GAct.run] at he
      rw [he] at this
      exact this.elim
    | sto o =>
      refine ⟨0, fun fuel _ he => ?_⟩
      have := gsto_sat (P := P) (k := k) h h1.rel ha.1 ha.2
      simp only [GAct.run] at he
      rw [he] at this
      exact this.elim
    | write p L len d =>
      refine ⟨0, fun fuel _ he => ?_⟩
      obtain ⟨b1, b2, b3, b4, b5, b6, _⟩ := ha
      obtain ⟨s', m', e, _⟩ := gwrite_ok (P := P) (k := k) (d := d) h h1.rel b1 b2 b3 b4 b5 b6
      simp only [GAct.run] at he
      rw [he] at e; cases e

/-- C65, order: the outputs of the events lie one after the other, after what the storage held before; and the storage stays consistent. -/
theorem C65_order (h : I.Lawful Inv content) (hP : P.WF I.C.arch) (hacc : P.Accepted I.C) (ht : LReach I P t) (hs : GSess I k P t es s) :
    (∀ e ∈ es, I.pos t ≤ e.lo ∧ e.lo ≤ e.hi ∧ e.hi ≤ I.pos s.sto) ∧ es.Pairwise (fun e e' => e.hi ≤ e'.lo) ∧
    I.pos s.sto ≤ I.capacity s.sto ∧ I.capacity s.sto ≤ I.C.maxCapacity ∧ I.C.valueAlign ∣ I.pos s.sto := by
  obtain ⟨hI, hd⟩ := ht.inv h hP hacc
  obtain ⟨m, h1⟩ := hs.inv h hP hacc hI hd
  exact ⟨h1.bounds, h1.order, h.storage.pos_le _ h1.rel.inv, h.storage.cap_le _ h1.rel.inv, h1.rel.dvd⟩

/-- The contents below the position are what the consumer sees. -/
theorem GSessInv.bytes {m : Mem} (h : GSessInv I Inv content k P t es s m) : m.Le (I.bytes content s.sto) := by
  intro i b hb
  have hlt : i < I.pos s.sto := by
    apply Nat.lt_of_not_le; intro hle
    rw [h.rel.fresh i hle] at hb; cases hb
  show (if i < I.pos s.sto then content s.sto i else none) = some b
  rw [if_pos hlt]
  exact h.rel.sub i b hb

theorem GSessInv.typed {m : Mem} (h : GSessInv I Inv content k P t es s m) {e : GEv} (he : e ∈ es) {r : Root} {p : Nat}
    (ha : e.act = .typed r) (hp : e.res = some p) {fl : Flags} {v : Val} (hv : Denotes I.C.arch P fl r.im r.t r.a v) :
    ∃ n sc, Job.OK I.C P fl n ⟨r, v, sc⟩ ∧ GLeft I.C.arch (RandomImpl.wr k) (Job.gval P ⟨r, v, sc⟩) m e.lo e.hi p := by
  have h1 := h.left e he p hp
  rw [ha] at h1
  obtain ⟨n, sc, h2, h3⟩ := h1
  obtain ⟨n', hd⟩ := hv
  exact ⟨max n n', sc, ⟨decode_mono (by omega) hd, script_mono (by omega) h2⟩, h3⟩

theorem rootLaid_bounds {A : Arch} {w : Bool} {v : UserRoot} {p : Nat} {st st' : Mem × Nat} (h : RootLaid A w v p st st') (hz : v.L.size ≠ 0) :
    st.2 ≤ p ∧ v.L.align ∣ p ∧ p + v.L.size ≤ st'.2 := by
  unfold RootLaid at h
  rw [if_neg hz] at h
  obtain ⟨e, h1, h2, h3, h4⟩ := h
  have := laid_mono _ h4
  simp only at this
  exact ⟨h1, h2, by omega⟩

/-- C65, kind `ptr_offset`: each value with the crate's own or derived implementations whose call returned a position is found at that position — whatever
else was done with the serializer before and after, and whichever other calls panicked. The blocks it owns come after it, within what its own call
appended: in order, aligned, without overlap. -/
theorem C65_offset (h : I.Lawful Inv content) (hP : P.WF I.C.arch) (hacc : P.Accepted I.C) (ht : LReach I P t) (hs : GSess I .ptrOffset P t es s) :
    ∀ e ∈ es, ∀ r p, e.act = .typed r → e.res = some p → ∀ fl v, Denotes I.C.arch P fl r.im r.t r.a v →
      Denotes I.C.arch P ⟨fl.canon, false⟩ (I.bytes content s.sto) r.t p v ∧
      (∃ n as, owned I.C.arch P (I.bytes content s.sto) n r.t p = some as ∧ OwnIn (p + (P.layout r.t).size) e.hi as) ∧
      ((P.layout r.t).size ≠ 0 → e.lo ≤ p ∧ p + (P.layout r.t).size ≤ e.hi) := by
  have F := h.storage.facts
  have hW := h.storage.arch.ptr_pos
  obtain ⟨hI, hd⟩ := ht.inv h hP hacc
  obtain ⟨m, h1⟩ := hs.inv h hP hacc hI hd
  intro e he r p ha hp fl v hv
  obtain ⟨n, sc, hj, m1, m2, hl, hc⟩ := h1.typed he ha hp hv
  have b1 := h.storage.pos_le _ h1.rel.inv
  have b2 := h.storage.cap_le _ h1.rel.inv
  have b3 := F.max_lt
  have b4 := (h1.bounds e he).2.2
  obtain ⟨k1, as, k2, k3⟩ := rootLaid_read (dm := m) hW hP hacc hj hl (by simp only; omega) hc
  refine ⟨Denotes.le h1.bytes ⟨n, k1⟩, ⟨n, as, owned_le h1.bytes n _ _ _ k2, k3⟩, fun hz => ?_⟩
  have := rootLaid_bounds hl hz
  exact ⟨this.1, this.2.2⟩

/-- C65, kinds `pure_copy` and `pos_tracking`: each value (that is stored) whose call returned a position is copied verbatim to that position, and the
allocations it owns are copied verbatim after it, within what its own call appended. -/
theorem C65_copies (h : I.Lawful Inv content) (hP : P.WF I.C.arch) (hacc : P.Accepted I.C) (ht : LReach I P t)
    (hk : k = .pureCopy ∨ k = .posTracking) (hs : GSess I k P t es s) :
    ∀ e ∈ es, ∀ r p, e.act = .typed r → e.res = some p → (P.layout r.t).size ≠ 0 →
      e.lo ≤ p ∧ (P.layout r.t).align ∣ p ∧
      (∀ j < (P.layout r.t).size, ∀ b, r.im (r.a + j) = some b → I.bytes content s.sto (p + j) = some b) ∧
      ∃ n as qs, owned I.C.arch P r.im n r.t r.a = some as ∧
        Copied r.im (I.bytes content s.sto) (p + (P.layout r.t).size) e.hi (as.map fun o => (o.shape, o.ptr)) qs := by
  have hW := h.storage.arch.ptr_pos
  obtain ⟨hI, hd⟩ := ht.inv h hP hacc
  obtain ⟨m, h1⟩ := hs.inv h hP hacc hI hd
  intro e he r p ha hp hz
  have h2 := h1.left e he p hp
  rw [ha] at h2
  obtain ⟨n, sc, hsc, m1, m2, hl, hc⟩ := h2
  have hw : RandomImpl.wr k = false := by rcases hk with rfl | rfl <;> rfl
  rw [hw] at hl
  obtain ⟨c1, qs, c2⟩ := rootLaid_copied hl hz
  obtain ⟨b1, b2, b3⟩ := rootLaid_bounds hl hz
  simp only at b1 b2 b3
  obtain ⟨as, ho, hkey⟩ := script_own n _ _ _ hsc
  have hsub : ∀ i, e.lo ≤ i → i < e.hi → ∀ b, m2 i = some b → I.bytes content s.sto i = some b :=
    fun i hi1 hi2 b hb => h1.bytes i b (by rw [← hb]; exact hc i hi1 hi2)
  refine ⟨b1, b2, fun x hx b hb => hsub _ (by omega) (by omega) b ((c1 x hx).trans hb), n, as, qs, ho, ?_⟩
  have hkey' : (as.map fun o => (o.shape, o.ptr)) = sc.pushes := hkey
  rw [hkey']
  exact c2.mono fun i hi1 hi2 => hsub i (by simp only at hi1; omega) hi2

/-- C65, hand-written implementations: a call that gave a position is one whose implementation returned, and its output is one that its calls allow
(`RootLaid`: each slice at the next aligned place the storage chose, pointers to positions if the kind is `ptr_offset`). -/
theorem C65_user (h : I.Lawful Inv content) (hP : P.WF I.C.arch) (hacc : P.Accepted I.C) (ht : LReach I P t) (hs : GSess I k P t es s) :
    ∀ e ∈ es, ∀ r p, e.act = .user r → e.res = some p →
      ∃ sc, r.body = .returns sc ∧ ∃ m1 m2, RootLaid I.C.arch (decide (k = .ptrOffset)) ⟨r.im, r.L, r.a, sc⟩ p (m1, e.lo) (m2, e.hi) ∧
        ∀ i, e.lo ≤ i → i < e.hi → ∀ b, m2 i = some b → I.bytes content s.sto i = some b := by
  obtain ⟨hI, hd⟩ := ht.inv h hP hacc
  obtain ⟨m, h1⟩ := hs.inv h hP hacc hI hd
  intro e he r p ha hp
  have h2 := h1.left e he p hp
  rw [ha] at h2
  obtain ⟨⟨sc, hsc⟩, m1, m2, hl, hc⟩ := h2
  refine ⟨sc, hsc, m1, m2, ?_, fun i a b x hx => h1.bytes i x (by rw [← hx]; exact hc i a b)⟩
  have : r.quiet = ⟨r.im, r.L, r.a, sc⟩ := by simp only [UserCall.quiet, hsc, Body.script]
  rw [← this]
  exact hl

/-- C65, bytes put directly: what `push_slice` and `write_slice` put below the position is in the output, unless a later `write_slice` was to the same byte. -/
theorem C65_direct (h : I.Lawful Inv content) (hP : P.WF I.C.arch) (hacc : P.Accepted I.C) (ht : LReach I P t) (hs : GSess I k P t es s)
    {es1 es2 : List GEv} {e : GEv} (hes : es = es1 ++ e :: es2) :
    (∀ L len d p, e.act = .sto (.pushSlice L len d) → L.size ≠ 0 → e.res = some p →
      e.lo ≤ p ∧ L.align ∣ p ∧ p + L.size * len ≤ e.hi ∧
      ∀ j < L.size * len, (∀ e' ∈ es2, ¬ e'.Writes (p + j)) → I.bytes content s.sto (p + j) = d j) ∧
    ∀ p L len d q, e.act = .write p L len d → e.res = some q →
      ∀ j < L.size * len, (∀ e' ∈ es2, ¬ e'.Writes (p + j)) → p + j < e.hi → I.bytes content s.sto (p + j) = d j := by
  obtain ⟨hI, hd⟩ := ht.inv h hP hacc
  obtain ⟨m, h1⟩ := hs.inv h hP hacc hI hd
  have hmem : e ∈ es := by rw [hes]; simp
  have hhi := (h1.bounds e hmem).2.2
  have hb : ∀ i < e.hi, I.bytes content s.sto i = content s.sto i := fun i hi => if_pos (show i < I.pos s.sto by omega)
  constructor
  · intro L len d p ha hz hp
    have h2 := h1.left e hmem p hp
    rw [ha] at h2
    obtain ⟨h3, h4, h5⟩ := h2 L len d rfl hz
    refine ⟨h3, h4, h5, fun j hj hn => ?_⟩
    rw [hb _ (by omega)]
    exact h1.puts es1 e es2 hes _ _ (by omega) (.inl ⟨L, len, d, p, j, ha, hz, hp, hj, rfl, rfl⟩) hn
  · intro p L len d q ha hq j hj hn hlt
    rw [hb _ hlt]
    exact h1.puts es1 e es2 hes _ _ hlt (.inr ⟨p, L, len, d, q, j, ha, hq, hj, rfl, rfl⟩) hn

/-- C65: what the storage held before is untouched, except where `write_slice` was called. -/
theorem C65_before (h : I.Lawful Inv content) (hP : P.WF I.C.arch) (hacc : P.Accepted I.C) (ht : LReach I P t) (hs : GSess I k P t es s) :
    ∀ i < I.pos t, (∀ e ∈ es, ¬ e.Writes i) → I.bytes content s.sto i = I.bytes content t i := by
  obtain ⟨hI, hd⟩ := ht.inv h hP hacc
  obtain ⟨m, h1⟩ := hs.inv h hP hacc hI hd
  intro i hi hn
  have := h1.pos
  show (if i < I.pos s.sto then content s.sto i else none) = if i < I.pos t then content t i else none
  rw [if_pos (by omega), if_pos hi]
  exact h1.before i hi hn

/-- C65 covers the sessions of C62 and C64: a session without panics is a list of events, and a storage reached by such sessions (also ones that
panicked) is reached here. -/
theorem C65_covers {n : Nat} {rs : List Root} {ps : List Nat} (hv : ∀ r ∈ rs, Valid I.C.arch P r)
    (hrun : gSession I k P n rs (GSer.fromStorage t) = .ok ps s) (ht : KReach I P t) :
    LReach I P t ∧ ∃ es, GSess I k P t es s ∧ es.map GEv.act = rs.map GAct.typed ∧ es.map GEv.res = ps.map some :=
  ⟨ht.l, (gSession_split .start hv).1 _ _ hrun⟩

end

/-! ### A concrete case -/

/-- Do the things in order, catching panics; for each, the result, the position before and after, and the capacity after. -/
def gactsRun {σ : Type} (I : RandomImpl σ) (k : DKind) (P : Prog) (fuel : Nat) : List GAct → M (GSer σ) (List (Option Nat × Nat × Nat × Nat))
  | [] => pure []
  | a :: as => do
    let s ← M.get
    let r ← M.caught (a.run I k P fuel)
    let s1 ← M.get
    let rest ← gactsRun I k P fuel as
    pure ((r, I.pos s.sto, I.pos s1.sto, I.capacity s1.sto) :: rest)

theorem gactsRun_cons {σ : Type} {I : RandomImpl σ} {k : DKind} {P : Prog} {fuel : Nat} {a : GAct} {as : List GAct} {s s' : GSer σ} {x} {xs}
    (h : gactsRun I k P fuel (a :: as) s = .ok (x :: xs) s') :
    ∃ s1, M.caught (a.run I k P fuel) s = .ok x.1 s1 ∧ I.pos s.sto = x.2.1 ∧ I.pos s1.sto = x.2.2.1 ∧ I.capacity s1.sto = x.2.2.2 ∧
      gactsRun I k P fuel as s1 = .ok xs s' := by
  rw [gactsRun] at h
  simp only [bind_def, M.get] at h
  cases h1 : M.caught (a.run I k P fuel) s <;> rw [h1] at h <;> simp only at h <;> first | (cases h; done) | skip
  rename_i r s1
  cases h2 : gactsRun I k P fuel as s1 <;> rw [h2] at h <;> simp only [pure_run] at h <;> first | (cases h; done) | skip
  cases h
  exact ⟨s1, rfl, rfl, rfl, rfl, h2⟩

/-- A chunked storage of at most 416 bytes. -/
def cfgChunk : Cfg := mkCfg x64 16 16 8 416
theorem cfgChunk_ok : cfgChunk.OK := ⟨⟨Or.inr rfl⟩, by decide, moving_ok ⟨Or.inr rfl⟩⟩
theorem exP_accepted_chunk : exP.Accepted cfgChunk := exP_accepted


theorem exUser_chunk : exUser.OK cfgChunk := by
  have e8 : Pow2 8 := ⟨3, rfl⟩
  have e4 : Pow2 4 := ⟨2, rfl⟩
  have e1 : Pow2 1 := ⟨0, rfl⟩
  refine ⟨⟨by decide, e8, by decide, by decide⟩, ⟨by decide, e8, by decide, by decide⟩,
    ⟨by decide, by decide, by decide, by decide⟩, ?_, ⟨⟨by decide, e1, by decide, by decide⟩,
      ⟨by decide, by decide, by decide, by decide⟩, by simp [Script.touch], trivial⟩,
    ⟨by decide, ⟨1, rfl⟩, by decide, by decide, by decide, by decide⟩,
      ⟨by decide, e4, by decide, by decide⟩, ⟨by decide, e8, by decide, by decide⟩,
      ⟨by decide, by decide, by decide, by decide⟩, by simp [Script.touch], trivial⟩
  intro t ht
  simp only [Script.touch, List.mem_cons, List.not_mem_nil, or_false] at ht
  rcases ht with rfl | rfl
  · left; decide
  · right; decide

theorem exPanic_chunk : exPanic.OK cfgChunk := by
  have e8 : Pow2 8 := ⟨3, rfl⟩
  have e1 : Pow2 1 := ⟨0, rfl⟩
  refine ⟨⟨by decide, e8, by decide, by decide⟩, ⟨by decide, e8, by decide, by decide⟩,
    ⟨by decide, by decide, by decide, by decide⟩, ?_, ⟨⟨by decide, e1, by decide, by decide⟩,
      ⟨by decide, by decide, by decide, by decide⟩, ?_, trivial⟩, trivial⟩
  · intro t ht; simp [Script.touch] at ht
  · intro t ht; simp [Stop.script, Script.app, Script.touch] at ht

/-- Reserve a header; serialize the node; a hand-written implementation panics; another returns; serialize the node again, for which there is no room;
serialize the enum, for which there is; fill in the header. -/
def exGActs : List GAct :=
  [.sto (.pushEmptySlice ⟨8, 8⟩ 1), .typed ⟨exIm, 1, 4096⟩, .user exPanic, .user exReturns, .typed ⟨exIm, 1, 4096⟩, .typed ⟨exIm, 9, 4288⟩,
   .write 0 ⟨8, 8⟩ 1 fun i => some (UInt8.ofNat (65 + i))]

/-- The events of `exGActs`. -/
def exGEvs : List GEv :=
  [⟨.sto (.pushEmptySlice ⟨8, 8⟩ 1), some 0, 0, 8⟩, ⟨.typed ⟨exIm, 1, 4096⟩, some 16, 8, 168⟩, ⟨.user exPanic, none, 168, 248⟩,
   ⟨.user exReturns, some 256, 248, 352⟩, ⟨.typed ⟨exIm, 1, 4096⟩, none, 352, 392⟩, ⟨.typed ⟨exIm, 9, 4288⟩, some 400, 392, 416⟩,
   ⟨.write 0 ⟨8, 8⟩ 1 fun i => some (UInt8.ofNat (65 + i)), some 0, 416, 416⟩]

theorem exGSess (k : DKind) : ∃ s, GSess (chunkedRandom cfgChunk) k exP (chunkedRandom cfgChunk).new exGEvs s ∧ s.sto.pos = 416 := by
  obtain ⟨s, h0, hp⟩ := Out.chunkedResult_ok (o := gactsRun (chunkedRandom cfgChunk) k exP 6 exGActs (GSer.fromStorage (chunkedRandom cfgChunk).new))
    (r := ([(some 0, 0, 8, 16), (some 16, 8, 168, 176), (none, 168, 248, 256), (some 256, 248, 352, 352), (none, 352, 392, 400),
      (some 400, 392, 416, 416), (some 0, 416, 416, 416)], 416)) (by cases k <;> decide +kernel)
  obtain ⟨s1, a1, b1, c1, d1, h1⟩ := gactsRun_cons h0
  obtain ⟨s2, a2, b2, c2, d2, h2⟩ := gactsRun_cons h1
  obtain ⟨s3, a3, b3, c3, d3, h3⟩ := gactsRun_cons h2
  obtain ⟨s4, a4, b4, c4, d4, h4⟩ := gactsRun_cons h3
  obtain ⟨s5, a5, b5, c5, d5, h5⟩ := gactsRun_cons h4
  obtain ⟨s6, a6, b6, c6, d6, h6⟩ := gactsRun_cons h5
  obtain ⟨s7, a7, b7, c7, d7, h7⟩ := gactsRun_cons h6
  have p8 : Pow2 8 := ⟨3, rfl⟩
  have p4 : Pow2 4 := ⟨2, rfl⟩
  have p1 : Pow2 1 := ⟨0, rfl⟩
  have e8 : Layout.OK ⟨8, 8⟩ := ⟨p8, by decide⟩
  have r1 := (GSess.start (I := chunkedRandom cfgChunk) (k := k) (P := exP) (t := (chunkedRandom cfgChunk).new)).step (a := .sto (.pushEmptySlice ⟨8, 8⟩ 1)) (fuel := 6)
    ⟨⟨e8, by decide, by decide, by decide⟩, (by intro h; cases h)⟩ a1
  have n1 : Valid x64 exP ⟨exIm, 1, 4096⟩ := ⟨⟨true, false⟩, exNode, exInputs (⟨exIm, 1, 4096⟩, exNode) (by simp [exRoots])⟩
  have r2 := r1.step (a := .typed ⟨exIm, 1, 4096⟩) n1 a2
  have r3 := r2.step (a := .user exPanic) ⟨exPanic_chunk, ⟨p8, by decide⟩, ⟨p8, by decide⟩, ⟨⟨p1, by decide⟩, trivial⟩, trivial⟩ a3
  have r4 := r3.step (a := .user exReturns) ⟨exUser_chunk, ⟨p8, by decide⟩, ⟨p8, by decide⟩, ⟨⟨p1, by decide⟩, trivial⟩, ⟨p4, by decide⟩, ⟨p8, by decide⟩, trivial⟩ a4
  have r5 := r4.step (a := .typed ⟨exIm, 1, 4096⟩) n1 a5
  have r6 := r5.step (a := .typed ⟨exIm, 9, 4288⟩) ⟨⟨true, false⟩, exEnum, exInputs (⟨exIm, 9, 4288⟩, exEnum) (by simp [exRoots])⟩ a6
  rw [b1, b2, b3, b4, b5, b6, c6] at r6
  have r7 := r6.step (a := .write 0 ⟨8, 8⟩ 1 fun i => some (UInt8.ofNat (65 + i))) (fuel := 6) ?_ a7
  · cases h7
    rw [b7, c7] at r7
    exact ⟨_, r7, hp⟩
  · refine ⟨e8, by decide, by decide, by decide, ?_, Nat.dvd_zero _, ?_⟩
    · rw [d6]; decide
    · intro e he hv
      right
      simp only [List.nil_append, List.cons_append, List.mem_cons, List.not_mem_nil, or_false] at he
      rcases he with rfl | rfl | rfl | rfl | rfl | rfl <;> first | exact hv.elim | decide

/-- C65 applies: the node serialized first and the enum serialized after two calls had panicked are found, the header is there, and so is the output of the
hand-written implementation that returned. -/
example : ∃ s : Chunked, Denotes x64 exP ⟨true, false⟩ ((chunkedRandom cfgChunk).bytes Chunked.mem s) 1 16 exNode ∧
    Denotes x64 exP ⟨true, false⟩ ((chunkedRandom cfgChunk).bytes Chunked.mem s) 9 400 exEnum ∧
    (∀ j < 8, (chunkedRandom cfgChunk).bytes Chunked.mem s j = some (UInt8.ofNat (65 + j))) ∧
    ∃ m1 m2, RootLaid x64 true exUser 256 (m1, 248) (m2, 352) ∧
      ∀ i, 248 ≤ i → i < 352 → ∀ b, m2 i = some b → (chunkedRandom cfgChunk).bytes Chunked.mem s i = some b := by
  obtain ⟨s, hs, _⟩ := exGSess .ptrOffset
  have hc := C65_offset (C64_chunked cfgChunk_ok) exP_wf exP_accepted_chunk .new hs
  have n1 := (hc ⟨.typed ⟨exIm, 1, 4096⟩, some 16, 8, 168⟩ (by simp [exGEvs]) _ 16 rfl rfl ⟨true, false⟩ exNode
    (exInputs (⟨exIm, 1, 4096⟩, exNode) (by simp [exRoots]))).1
  have n2 := (hc ⟨.typed ⟨exIm, 9, 4288⟩, some 400, 392, 416⟩ (by simp [exGEvs]) _ 400 rfl rfl ⟨true, false⟩ exEnum
    (exInputs (⟨exIm, 9, 4288⟩, exEnum) (by simp [exRoots]))).1
  obtain ⟨sc, hsc, m1, m2, hl, hm⟩ := C65_user (C64_chunked cfgChunk_ok) exP_wf exP_accepted_chunk .new hs
    ⟨.user exReturns, some 256, 248, 352⟩ (by simp [exGEvs]) _ 256 rfl rfl
  have hd := (C65_direct (C64_chunked cfgChunk_ok) exP_wf exP_accepted_chunk .new hs (es1 := exGEvs.take 6) (es2 := []) rfl).2 0 ⟨8, 8⟩ 1 _ 0 rfl rfl
  refine ⟨s.sto, n1, n2, ?_, m1, m2, ?_, hm⟩
  · intro j hj
    have := hd j (by simpa using hj) (by simp) (by simp only; omega)
    rw [Nat.zero_add] at this
    exact this
  · cases hsc; exact hl

/-- Plain copies: the node is copied to 16, and its blocks to places between 56 and 168. -/
example : ∃ (s : Chunked) (n : Nat) (as : List Own) (qs : List Nat), owned x64 exP exIm n 1 4096 = some as ∧
    Copied exIm ((chunkedRandom cfgChunk).bytes Chunked.mem s) 56 168 (as.map fun o => (o.shape, o.ptr)) qs := by
  obtain ⟨s, hs, _⟩ := exGSess .pureCopy
  obtain ⟨_, _, _, n, as, qs, h1, h2⟩ := C65_copies (C64_chunked cfgChunk_ok) exP_wf exP_accepted_chunk .new (Or.inl rfl) hs
    ⟨.typed ⟨exIm, 1, 4096⟩, some 16, 8, 168⟩ (by simp [exGEvs]) _ 16 rfl rfl (by decide)
  exact ⟨s.sto, n, as, qs, h1, h2⟩

/-- The storage can be used again: here by a serializer of another kind. -/
example : ∃ s : Chunked, LReach (chunkedRandom cfgChunk) exP s ∧ s.pos = 416 := by
  obtain ⟨s, hs, hp⟩ := exGSess .pureCopy
  exact ⟨s.sto, .session .new hs, hp⟩

/-- C65. Which random-access writes the histories of C65 may contain: of real values, inside the capacity and aligned, which touch no byte
of a value serialized before (also when they end exactly where a value begins, or begin where it ends). -/
theorem C65_write_allowed {σ : Type} {I : RandomImpl σ} {P : Prog} {es : List GEv} {s : GSer σ} {p len : Nat} {L : Layout} {d : Nat → Cell}
    (hes : ∀ e ∈ es, e.act.IsValue → e.lo < e.hi) :
    GAct.Legal I P es s (.write p L len d) ↔
      (L.OK ∧ L.size ≠ 0 ∧ I.C.accepts L = true ∧ 0 < len ∧ p + L.size * len ≤ I.capacity s.sto ∧ L.align ∣ p) ∧
      ∀ e ∈ es, e.act.IsValue → ∀ i, e.lo ≤ i → i < e.hi → ¬ (p ≤ i ∧ i < p + L.size * len) := by
  constructor
  · rintro ⟨h1, h2, h3, h4, h5, h6, h7⟩
    refine ⟨⟨h1, h2, h3, h4, h5, h6⟩, fun e he hv i h8 h9 => ?_⟩
    have := h7 e he hv
    omega
  · rintro ⟨⟨h1, h2, h3, h4, h5, h6⟩, h7⟩
    refine ⟨h1, h2, h3, h4, h5, h6, ?_⟩
    intro e he hv
    have hn : 0 < L.size * len := Nat.mul_pos (Nat.pos_of_ne_zero h2) h4
    have h8 := hes e he hv
    have h9 := h7 e he hv e.lo (Nat.le_refl _) h8
    by_cases h10 : e.lo ≤ p
    · by_cases h11 : p < e.hi
      · exact absurd ⟨Nat.le_refl _, by omega⟩ (h7 e he hv p h10 h11)
      · exact Or.inl (by omega)
    · exact Or.inr (by omega)

end SerRaw
