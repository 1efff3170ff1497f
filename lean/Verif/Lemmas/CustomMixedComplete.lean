import Verif.Model.CustomMixedComplete
import Verif.Lemmas.CustomMixed
import Verif.Lemmas.CustomComplete
/-
Mixed sessions of serializers of kind `complete` over custom contiguous storages (Model/CustomMixedComplete.lean): what each event leaves stays, and
`finalize` relocates all recorded pointers, also those of calls that panicked.
-/
namespace SerRaw

section
variable {σ : Type}

/-- `o` is `o'` with a panic of user code in place of a normal return (the position mapping may differ). -/
def CCut {α β} (o : Out (CSer σ) α) (o' : Out (CSer σ) β) : Prop :=
  match o' with
  | .ok _ s' => ∃ m, o = .panic .user { s' with map := m }
  | .panic k s' => o = .panic k s'
  | .abort => o = .abort
  | .ub => o = .ub
  | .fuel => o = .fuel

theorem CCut.bind {α β γ} {x : M (CSer σ) α} {f : α → M (CSer σ) β} {g : α → M (CSer σ) γ} (h : ∀ a s, CCut (f a s) (g a s)) (s : CSer σ) :
    CCut ((x >>= f) s) ((x >>= g) s) := by
  rw [bind_def, bind_def]
  cases x s with
  | ok a s' => exact h a s'
  | _ => rfl

theorem CCut.then {α β γ δ} {x : M (CSer σ) α} {y : M (CSer σ) β} {f : α → M (CSer σ) γ} {g : β → M (CSer σ) δ} {s : CSer σ} (h : CCut (x s) (y s))
    (hg : ∀ b s, ∃ d m, g b s = .ok d { s with map := m }) : CCut ((x >>= f) s) ((y >>= g) s) := by
  rw [bind_def, bind_def]
  cases hy : y s with
  | ok b s' =>
    rw [hy] at h
    obtain ⟨m, hx⟩ := h
    obtain ⟨d, m', hd⟩ := hg b s'
    simp only [hx, hd]
    exact ⟨m, rfl⟩
  | panic k s' => rw [hy] at h; simp only [CCut] at h; simp only [h]; rfl
  | abort => rw [hy] at h; simp only [CCut] at h; simp only [h]; rfl
  | ub => rw [hy] at h; simp only [CCut] at h; simp only [h]; rfl
  | fuel => rw [hy] at h; simp only [CCut] at h; simp only [h]; rfl

variable {I : ContigImpl σ} {im : Mem}

theorem CCut.pushAndProcessSlice {sl : Slice} {ptr : Nat} {x y : M (CSer σ) Unit} (h : ∀ s, CCut (x s) (y s)) (s : CSer σ) :
    CCut (CSer.pushAndProcessSlice I sl ptr x s) (CSer.pushAndProcessSlice I sl ptr y s) :=
  CCut.bind (fun b s => CCut.bind (fun p s => CCut.bind (fun _ s => CCut.bind (fun _ s => CCut.bind (fun _ s =>
    (h s).then fun _ s => ⟨p, b, rfl⟩) s) s) s) s) s

theorem CCut.serializeValue {L : Layout} {a : Nat} {d : Nat → Cell} {x y : M (CSer σ) Unit} (h : ∀ s, CCut (x s) (y s)) (s : CSer σ) :
    CCut (CSer.serializeValue I L a d x s) (CSer.serializeValue I L a d y s) :=
  CCut.bind (fun p s => CCut.bind (fun _ s => (h s).then fun _ s => ⟨p, s.map, rfl⟩) s) s

theorem Stop.ccut (st : Stop) (s : CSer σ) : CCut (st.runC I im s) (st.script.runC I im s) := by
  induction st generalizing s with
  | here => exact ⟨s.map, rfl⟩
  | after sc rest ih => simp only [Stop.runC, Stop.script, runC_app]; exact CCut.bind (fun _ s => ih s) s
  | inside L len src ptr inner ih =>
    simp only [Stop.runC, Stop.script, Script.runC]
    exact (CCut.pushAndProcessSlice ih s).then fun _ s => ⟨(), s.map, rfl⟩

/-- `serialize_value` on a value with a hand-written implementation that returns. -/
abbrev UserRoot.serC (I : ContigImpl σ) (v : UserRoot) : M (CSer σ) Nat :=
  CSer.serializeValue I v.L v.a (fun i => v.im (v.a + i)) (v.sc.runC I v.im)

theorem UserCall.serC_eq (r : UserCall) (s : CSer σ) :
    match r.body with
    | .returns _ => r.serC I s = r.quiet.serC I s
    | .panics _ => CCut (r.serC I s) (r.quiet.serC I s) := by
  obtain ⟨im, L, a, b⟩ := r
  cases b with
  | returns sc => rfl
  | panics st => exact CCut.serializeValue st.ccut s

end

section
variable {σ : Type} {I : ContigImpl σ} {Inv : σ → Prop} {content : σ → Mem} {P : Prog} {t : σ}

/-- What an event left in the contents. -/
def GEv.CLeft (C : Cfg) (P : Prog) (m : Nat → Mem) (e : GEv) : Prop :=
  ∀ p, e.res = some p → match e.act with
    | .typed r => ∃ n sc, script C.arch P r.im n r.t r.a = some sc ∧ SerRaw.Left C .complete (P.layout r.t) r.im r.a sc m e.lo e.hi p
    | .user r => (∃ sc, r.body = .returns sc) ∧ SerRaw.Left C .complete r.L r.im r.a r.body.script m e.lo e.hi p
    | .sto o => ∀ L len d, o = .pushSlice L len d → L.size ≠ 0 → e.lo ≤ p ∧ L.align ∣ p ∧ p + L.size * len ≤ e.hi
    | .write _ _ _ _ => True

theorem Left.congr {C : Cfg} {k : Kind} {L : Layout} {im : Mem} {a : Nat} {sc : Script} {m m' : Nat → Mem} {lo hi p : Nat}
    (h : Left C k L im a sc m lo hi p) (hm : ∀ B i, lo ≤ i → i < hi → m' B i = m B i) : Left C k L im a sc m' lo hi p := by
  refine ⟨h.at_, h.end_, fun B => ?_⟩
  obtain ⟨m0, h3⟩ := h.cells B
  exact ⟨m0, fun i h4 h5 => (hm B i h4 h5).trans (h3 i h4 h5)⟩

theorem GEv.CLeft.congr {C : Cfg} {m m' : Nat → Mem} {e : GEv} (h : e.CLeft C P m)
    (hm : e.act.IsValue → ∀ B i, e.lo ≤ i → i < e.hi → m' B i = m B i) : e.CLeft C P m' := by
  intro p hp
  have h1 := h p hp
  obtain ⟨act, res, lo, hi⟩ := e
  cases act with
  | typed r =>
    obtain ⟨n, sc, h2, h3⟩ := h1
    exact ⟨n, sc, h2, h3.congr (hm trivial)⟩
  | user r => exact ⟨h1.1, h1.2.congr (hm trivial)⟩
  | sto o => exact h1
  | write p L len d => trivial

/-- What one event leaves. -/
structure CStepPost (I : ContigImpl σ) (Inv : σ → Prop) (content : σ → Mem) (P : Prog) (e : GEv) (s : CSer σ) (m : Nat → Mem) (s' : CSer σ) (m' : Nat → Mem) : Prop where
  rel : ∀ B, ContigImpl.CRel I Inv content B s' (m' B)
  pos : I.pos s.sto ≤ I.pos s'.sto
  frame : ∀ i < I.pos s.sto, ¬ e.Writes i → (∀ B, m' B i = m B i) ∧ content s'.sto i = content s.sto i
  ents : ∀ x ∈ s'.ptrs.entries, x ∈ s.ptrs.entries ∨ (e.act.IsValue ∧ I.pos s.sto ≤ x.2)
  left : e.CLeft I.C P m'
  puts : ∀ i c, i < I.pos s'.sto → e.Puts i c → content s'.sto i = c

theorem ContigImpl.CKept.entsAt {s s' : CSer σ} {lo : Nat} (h : ContigImpl.CKept I Inv content lo s s') {a : GAct} (ha : a.IsValue) :
    ∀ x ∈ s'.ptrs.entries, x ∈ s.ptrs.entries ∨ (a.IsValue ∧ lo ≤ x.2) := by
  obtain ⟨new, h1, h2⟩ := h.ents
  intro x hx
  rw [h1] at hx
  rcases List.mem_append.1 hx with hx | hx
  · exact .inl hx
  · exact .inr ⟨ha, h2 x hx⟩

/-! Typed values -/

theorem cSerValue_fle (n : Nat) (r : Root) : FLe (cSerValue I P n r) (cSerValue I P (n + 1) r) := by
  have h := cData_fle (I := I) (P := P) (im := r.im) n r.t r.a
  exact (FLe.refl _).bind fun _ => (FLe.refl _).bind fun _ => h.bind fun _ => FLe.refl _

theorem cSerValue_fuel {n m : Nat} (h : n ≤ m) {r : Root} {s : CSer σ} (hn : cSerValue I P n r s ≠ .fuel) :
    cSerValue I P m r s = cSerValue I P n r s := by
  induction h with
  | refl => rfl
  | step _ ih =>
    rcases cSerValue_fle (I := I) (P := P) _ r s with h | h
    · rw [ih] at h; exact absurd h hn
    · rw [← h, ih]

/-- What a value's call gives if it returns. -/
structure CDone (I : ContigImpl σ) (Inv : σ → Prop) (content : σ → Mem) (v : UserRoot) (s : CSer σ) (m : Nat → Mem) (p : Nat) (s' : CSer σ) (m' : Nat → Mem) : Prop where
  rel : ∀ B, ContigImpl.CRel I Inv content B s' (m' B)
  left : Left I.C .complete v.L v.im v.a v.sc m' (I.pos s.sto) (I.pos s'.sto) p
  frame : ∀ B, ∀ i < I.pos s.sto, m' B i = m B i
  kept : ContigImpl.CKept I Inv content (I.pos s.sto) s s'

theorem rootIdeal_low {C : Cfg} {md : Mode} {v : UserRoot} (hva : 0 < C.valueAlign) (hv : RandomImpl.GValueOK C v) {st : Mem × Nat} {i : Nat} (hi : i < st.2) :
    (rootIdeal C.arch C.valueAlign md v.L v.im v.a v.sc st).1 i = st.1 i := by
  unfold rootIdeal
  split
  · rfl
  · rename_i hz
    have ho := hv.push hz
    have h1 := le_roundUp st.2 ho.pow2.pos
    have h2 := le_roundUp (roundUp st.2 v.L.align + v.L.size) hva
    rw [ideal_below hva v.sc (hv.wf hz) _ _ _ (by simp only; omega) (by omega)]
    simp only
    rw [blit_out (by omega)]

theorem ContigImpl.Conforms.cdone (h : I.Conforms Inv content) {v : UserRoot} (hv : ContigImpl.CValueOK I.C v) {s : CSer σ} {m : Nat → Mem}
    (hr : ∀ B, ContigImpl.CRel I Inv content B s (m B)) :
    (v.serC I s).Sat (fun p s' => ∃ m', CDone I Inv content v s m p s' m')
      (ContigImpl.CHalts I Inv content (placeEnd I.C.valueAlign (I.pos s.sto) (rootShapes v.L v.sc)) m s) True := by
  have hva := h.random.storage.facts.va.pos
  refine (h.cvalue hv hr).mono ?_ (fun _ _ hh => by rw [rootIdeal_end] at hh; exact hh) fun _ => trivial
  rintro p s' ⟨h1, h2, h3, h4⟩
  refine ⟨fun B => (rootIdeal I.C.arch I.C.valueAlign (ContigImpl.cmode B) v.L v.im v.a v.sc (m B, I.pos s.sto)).1, h2, ⟨h1, ?_, fun B => ⟨m B, fun i _ _ => rfl⟩⟩,
    fun B i hi => rootIdeal_low hva hv.toGValueOK hi, h4⟩
  rw [h3 0, rootIdeal_end]

theorem cSerValue_enough (h : I.Conforms Inv content) (hP : P.WF I.C.arch) (hacc : P.Accepted I.C) {r : Root} {fl : Flags} {v : Val} {n : Nat}
    (hd : decode I.C.arch P fl r.im n r.t r.a = some v) {s : CSer σ} {m : Nat → Mem} (hr : ∀ B, ContigImpl.CRel I Inv content B s (m B)) :
    ∃ sc, script I.C.arch P r.im n r.t r.a = some sc ∧
      (cSerValue I P n r s).Sat (fun p s' => ∃ m', CDone I Inv content ⟨r.im, P.layout r.t, r.a, sc⟩ s m p s' m')
        (ContigImpl.CHalts I Inv content (placeEnd I.C.valueAlign (I.pos s.sto) (rootShapes (P.layout r.t) sc)) m s) True := by
  have hA := h.random.storage.arch
  obtain ⟨sc, hs, he⟩ := cData_eq (I := I) hA.ptr_pos hP hd
  refine ⟨sc, hs, ?_⟩
  have hj : Job.OK I.C P fl n ⟨r, v, sc⟩ := ⟨hd, hs⟩
  have := h.cdone (hj.cval hA hP hacc) hr
  unfold cSerValue
  rw [he]
  exact this

theorem ctyped_sat (h : I.Conforms Inv content) (hP : P.WF I.C.arch) (hacc : P.Accepted I.C) {r : Root} (hv : Valid I.C.arch P r) {s : CSer σ} {m : Nat → Mem}
    (hr : ∀ B, ContigImpl.CRel I Inv content B s (m B)) {fuel : Nat} (hne : cSerValue I P fuel r s ≠ .fuel) :
    ∃ n sc, script I.C.arch P r.im n r.t r.a = some sc ∧
      (cSerValue I P fuel r s).Sat (fun p s' => ∃ m', CDone I Inv content ⟨r.im, P.layout r.t, r.a, sc⟩ s m p s' m')
        (ContigImpl.CHalts I Inv content (placeEnd I.C.valueAlign (I.pos s.sto) (rootShapes (P.layout r.t) sc)) m s) True := by
  obtain ⟨fl, v, n, hd⟩ := hv
  have hd' := decode_mono (k := max n fuel) (by omega) hd
  obtain ⟨sc, hs, h0⟩ := cSerValue_enough h hP hacc hd' hr
  rw [cSerValue_fuel (Nat.le_max_right n fuel) hne] at h0
  exact ⟨_, sc, hs, h0⟩

theorem cvalue_ok {v : UserRoot} {s s' : CSer σ} {m m' : Nat → Mem} {p : Nat} {a : GAct} {res : Option Nat} (ha : a.IsValue)
    (h : CDone I Inv content v s m p s' m')
    (hl : Left I.C .complete v.L v.im v.a v.sc m' (I.pos s.sto) (I.pos s'.sto) p → GEv.CLeft I.C P m' ⟨a, res, I.pos s.sto, I.pos s'.sto⟩) :
    CStepPost I Inv content P ⟨a, res, I.pos s.sto, I.pos s'.sto⟩ s m s' m' := by
  refine ⟨h.rel, h.kept.pos, fun i hi _ => ⟨fun B => h.frame B i hi, h.kept.below i hi⟩, h.kept.entsAt ha, hl h.left, ?_⟩
  intro i c _ hp
  exact absurd hp (gnotWrites ha)

theorem cvalue_panic {ub : Nat} {s s' : CSer σ} {m : Nat → Mem} {pk : PanicKind} {a : GAct} (ha : a.IsValue)
    (h : ContigImpl.CHalts I Inv content ub m s pk s') : ∃ m', CStepPost I Inv content P ⟨a, none, I.pos s.sto, I.pos s'.sto⟩ s m s' m' := by
  obtain ⟨_, h1, _, m', h2, h3⟩ := h
  refine ⟨m', h2, h1.pos, fun i hi _ => ⟨fun B => h3 B i hi, h1.below i hi⟩, h1.entsAt ha, (fun p hp => by cases hp), ?_⟩
  intro i c _ hp
  exact absurd hp (gnotWrites ha)

/-! Hand-written implementations -/

theorem cuser_sat (h : I.Conforms Inv content) {r : UserCall} (hr : r.OK I.C) (hL : r.L.OK) (hty : r.body.script.RealTypes) (hov : r.body.script.RealOverwrites)
    {s : CSer σ} {m : Nat → Mem} (hs : ∀ B, ContigImpl.CRel I Inv content B s (m B)) :
    (r.serC I s).Sat (fun p s' => (∃ sc, r.body = .returns sc) ∧ ∃ m', CDone I Inv content r.quiet s m p s' m')
      (fun pk s' => ContigImpl.CHalts I Inv content (placeEnd I.C.valueAlign (I.pos s.sto) (rootShapes r.L r.body.script)) m s pk s' ∨
        pk = .user ∧ (∃ st, r.body = .panics st) ∧ ∃ p m', CDone I Inv content r.quiet s m p s' m') True := by
  have hz : r.L.size ≠ 0 := hr.1.size_ne
  have hv : ContigImpl.CValueOK I.C r.quiet := ⟨⟨hL, fun _ => hr.1, fun _ => hr.2, hty, fun h0 => absurd h0 hz⟩, hov⟩
  have h0 := h.cdone hv hs
  have he := r.serC_eq (I := I) s
  obtain ⟨im, L, a, b⟩ := r
  cases b with
  | returns sc =>
    simp only at he
    rw [he]
    refine h0.mono (fun p s' hh => ⟨⟨sc, rfl⟩, hh⟩) (fun pk s' hh => .inl hh) id
  | panics st =>
    simp only at he
    cases hq : (UserCall.quiet ⟨im, L, a, .panics st⟩).serC I s with
    | ok p s1 =>
      rw [hq] at h0 he
      obtain ⟨m1, he⟩ := he
      rw [he]
      obtain ⟨m', h1, h2, h3, h4⟩ := h0
      exact .inr ⟨rfl, ⟨st, rfl⟩, p, m', fun B => (h1 B).congr rfl rfl, h2, h3, h4.congr rfl rfl⟩
    | panic pk s1 =>
      rw [hq] at h0 he
      simp only [CCut] at he
      rw [he]
      exact .inl h0
    | abort => rw [hq] at h0 he; simp only [CCut] at he; rw [he]; trivial
    | ub => rw [hq] at h0; exact h0.elim
    | fuel => rw [hq] at h0; exact h0.elim

/-! Direct storage operations -/

theorem csto_sat (h : I.Conforms Inv content) {o : KOp} {s : CSer σ} {m : Nat → Mem} (hr : ∀ B, ContigImpl.CRel I Inv content B s (m B))
    (hl : o.Legal I.toStorageImpl s.sto) (hc : o ≠ .clear) :
    (CSer.lift (o.run I.toStorageImpl) s).Sat
      (fun p s' => CStepPost I Inv content P ⟨.sto o, some p, I.pos s.sto, I.pos s'.sto⟩ s m s' m)
      (fun pk s' => o.MayPanic I.C pk ∧ CStepPost I Inv content P ⟨.sto o, none, I.pos s.sto, I.pos s'.sto⟩ s m s' m) True := by
  have hS := h.random.lawful.storage
  have hI := (hr 0).inv
  have hdv := (hr 0).dvd
  have main : ∀ {res : Option Nat} {u : σ}, StorageImpl.Step I.toStorageImpl Inv content o s.sto u →
      GEv.CLeft I.C P m ⟨.sto o, res, I.pos s.sto, I.pos u⟩ →
      (∀ i c, i < I.pos u → GEv.Puts ⟨.sto o, res, I.pos s.sto, I.pos u⟩ i c → content u i = c) →
      CStepPost I Inv content P ⟨.sto o, res, I.pos s.sto, I.pos u⟩ s m { s with sto := u } m := by
    intro res u hst hle hpu
    exact ⟨fun B => (hr B).grow hst.inv hst.dvd (hst.pos_mono hc) hst.content, hst.pos_mono hc, fun i hi _ => ⟨fun _ => rfl, hst.content i hi⟩,
      fun x hx => .inl hx, hle, hpu⟩
  rw [ContigImpl.sat_clift]
  by_cases hp : ∃ L len d, o = .pushSlice L len d ∧ L.size ≠ 0
  · obtain ⟨L, len, d, rfl, hz⟩ := hp
    obtain ⟨hL, hacc, hsz, hlen⟩ := hl
    refine (hS.pushSlice_sat (data := d) hI hdv hL hz (accepts_iff.1 (hacc hz)) hsz (hlen.resolve_left hz)).mono ?_ ?_ id
    · rintro p u ⟨h1, h2, h3⟩
      refine main h1 ?_ ?_
      · intro q hq L' len' d' e hz'
        simp only [KOp.pushSlice.injEq] at e
        obtain ⟨rfl, rfl, rfl⟩ := e
        simp only [Option.some.injEq] at hq
        subst hq
        exact ⟨h2.after, h2.aligned, h2.end_ge⟩
      · rintro i c hi (⟨L', len', d', q, j, e, hz', hq, hj, rfl, rfl⟩ | ⟨q, L', len', d', q', j, e, _⟩)
        · simp only [GAct.sto.injEq, KOp.pushSlice.injEq] at e
          obtain ⟨rfl, rfl, rfl⟩ := e
          simp only [Option.some.injEq] at hq
          subst hq
          exact h3 j hj
        · cases e
    · rintro pk u ⟨h1, h2, _⟩
      refine ⟨.inl h1, main h2 (fun q hq => by cases hq) ?_⟩
      rintro i c hi (⟨L', len', d', q, j, e, hz', hq, _⟩ | ⟨q, L', len', d', q', j, e, _⟩)
      · cases hq
      · cases e
  · refine (hS.step_sat hI hdv hl).mono ?_ ?_ id
    · intro p u h1
      refine main h1 (fun q hq L' len' d' e hz' => absurd ⟨L', len', d', e, hz'⟩ hp) ?_
      rintro i c hi (⟨L', len', d', q, j, e, hz', hq, _⟩ | ⟨q, L', len', d', q', j, e, _⟩)
      · simp only [GAct.sto.injEq] at e
        exact absurd ⟨L', len', d', e, hz'⟩ hp
      · cases e
    · rintro pk u ⟨h0, h1⟩
      refine ⟨h0, main h1 (fun q hq => by cases hq) ?_⟩
      rintro i c hi (⟨L', len', d', q, j, e, hz', hq, _⟩ | ⟨q, L', len', d', q', j, e, _⟩)
      · cases hq
      · cases e

theorem cwrite_ok (h : I.Conforms Inv content) {p : Nat} {L : Layout} {len : Nat} {d : Nat → Cell} {s : CSer σ} {m : Nat → Mem}
    (hr : ∀ B, ContigImpl.CRel I Inv content B s (m B))
    (hL : L.OK) (hz : L.size ≠ 0) (hacc : I.C.accepts L = true) (hlen : 0 < len) (hroom : p + L.size * len ≤ I.capacity s.sto) (hd : L.align ∣ p)
    (hdj : ∀ e ∈ s.ptrs.entries, e.2 + I.C.arch.ptrBytes ≤ p ∨ p + L.size * len ≤ e.2) :
    ∃ s' m', (do CSer.lift (I.writeSlice p L len d); pure 0 : M (CSer σ) Nat) s = .ok 0 s' ∧
      CStepPost I Inv content P ⟨.write p L len d, some 0, I.pos s.sto, I.pos s'.sto⟩ s m s' m' := by
  obtain ⟨u, e, i1, p1, c1, hdata, hother⟩ := h.random.writeSlice s.sto p L len d (hr 0).inv hL hz (accepts_iff.1 hacc) hlen hroom hd
  refine ⟨{ s with sto := u }, fun B i => if p ≤ i ∧ i < p + L.size * len then none else m B i, ?_, fun B => ⟨i1, by rw [p1]; exact (hr B).dvd, ?_, (hr B).nodup, ?_, ?_, ?_⟩,
    by rw [p1], ?_, fun x hx => .inl hx, ?_, ?_⟩
  · rw [bind_ok (ContigImpl.clift_ok e)]
    rfl
  · simp only [p1]; exact (hr B).bound
  · intro x hx
    obtain ⟨b1, _, _⟩ := (hr B).bound x hx
    obtain ⟨w, w1, w2⟩ := (hr B).word x hx
    have hx' := hdj x hx
    refine ⟨w, ?_, ?_⟩
    · rw [← w1]; exact readWord_congr fun i hi => hother _ (by omega) (by omega)
    · rw [← w2]; exact readWord_congr fun i hi => if_neg (by omega)
  · intro i b hi hb
    split at hb
    · cases hb
    · rename_i hn
      have hlt : i < I.pos s.sto := by
        apply Nat.lt_of_not_le; intro hle
        rw [(hr B).fresh i hle] at hb; cases hb
      simp only
      rw [hother i hlt (by omega)]
      exact (hr B).rest i b hi hb
  · intro i hi
    simp only [p1] at hi ⊢
    split
    · rfl
    · exact (hr B).fresh i hi
  · intro i hi hw
    have hn : ¬ (p ≤ i ∧ i < p + L.size * len) := fun hh => hw ⟨p, L, len, d, rfl, hh.1, hh.2⟩
    exact ⟨fun B => if_neg hn, hother i hi (by omega)⟩
  · intro q _; trivial
  · rintro i c hi (⟨L', len', d', q, j, e, _⟩ | ⟨q, L', len', d', q', j, e, _, hj, rfl, rfl⟩)
    · cases e
    · simp only [GAct.write.injEq] at e
      obtain ⟨rfl, rfl, rfl, rfl⟩ := e
      exact hdata j hj

/-! The whole session -/

/-- The state of a session: contents `m B` (for final address `B`) that hold what the values left. -/
structure CSessInv (I : ContigImpl σ) (Inv : σ → Prop) (content : σ → Mem) (P : Prog) (t : σ) (es : List GEv) (s : CSer σ) (m : Nat → Mem) : Prop where
  rel : ∀ B, ContigImpl.CRel I Inv content B s (m B)
  pos : I.pos t ≤ I.pos s.sto
  bounds : ∀ e ∈ es, I.pos t ≤ e.lo ∧ e.lo ≤ e.hi ∧ e.hi ≤ I.pos s.sto
  order : es.Pairwise fun e e' => e.hi ≤ e'.lo
  ents : ∀ x ∈ s.ptrs.entries, ∃ e ∈ es, e.act.IsValue ∧ e.lo ≤ x.2 ∧ x.2 + I.C.arch.ptrBytes ≤ e.hi
  left : ∀ e ∈ es, e.CLeft I.C P m
  puts : ∀ es1 e es2, es = es1 ++ e :: es2 → ∀ i c, i < e.hi → e.Puts i c → (∀ e' ∈ es2, ¬ e'.Writes i) → content s.sto i = c
  apart : ∀ e ∈ es, ∀ i c, i < e.hi → e.Puts i c → ∀ e' ∈ es, e'.act.IsValue → i < e'.lo ∨ e'.hi ≤ i
  before : ∀ i < I.pos t, (∀ e ∈ es, ¬ e.Writes i) → content s.sto i = content t i

theorem CSessInv.start (ht : Inv t) (hd : I.C.valueAlign ∣ I.pos t) : CSessInv I Inv content P t [] (CSer.fromStorage t) fun _ _ => none := by
  refine ⟨fun B => ⟨ht, hd, by simp [CSer.fromStorage, entries_new], by simp [CSer.fromStorage, entries_new], by simp [CSer.fromStorage, entries_new],
      fun i b _ hb => (by cases hb), fun _ _ => rfl⟩, Nat.le_refl _, by simp, .nil, by simp [CSer.fromStorage, entries_new], by simp, ?_, by simp, fun _ _ _ => rfl⟩
  intro es1 e es2 he; simp at he

theorem CSessInv.step {es : List GEv} {s s' : CSer σ} {m m' : Nat → Mem} {a : GAct} {res : Option Nat} (h : CSessInv I Inv content P t es s m)
    (hl : a.CLegal I P es s) (hs : CStepPost I Inv content P ⟨a, res, I.pos s.sto, I.pos s'.sto⟩ s m s' m') :
    CSessInv I Inv content P t (es ++ [⟨a, res, I.pos s.sto, I.pos s'.sto⟩]) s' m' := by
  have hp := hs.pos
  have hw : ∀ e ∈ es, e.act.IsValue → ∀ i, e.lo ≤ i → i < e.hi → ¬ GEv.Writes ⟨a, res, I.pos s.sto, I.pos s'.sto⟩ i := by
    rintro e he hv i h1 h2 ⟨p, L, len, d, ha, h3, h4⟩
    simp only at ha
    subst ha
    have := hl.2.2.2.2.2.2 e he hv
    omega
  refine ⟨hs.rel, Nat.le_trans h.pos hp, ?_, ?_, ?_, ?_, ?_, ?_, ?_⟩
  · intro e he
    rcases List.mem_append.1 he with he | he
    · obtain ⟨h1, h2, h3⟩ := h.bounds e he
      exact ⟨h1, h2, Nat.le_trans h3 hp⟩
    · obtain rfl := List.mem_singleton.1 he
      exact ⟨h.pos, hp, Nat.le_refl _⟩
  · rw [List.pairwise_append]
    refine ⟨h.order, List.pairwise_singleton _ _, ?_⟩
    intro e he e' he'
    obtain rfl := List.mem_singleton.1 he'
    exact (h.bounds e he).2.2
  · intro x hx
    rcases hs.ents x hx with hx | ⟨hv, hx'⟩
    · obtain ⟨e, he, h1⟩ := h.ents x hx
      exact ⟨e, List.mem_append_left _ he, h1⟩
    · exact ⟨_, List.mem_append_right _ (List.mem_singleton.2 rfl), hv, hx', ((hs.rel 0).bound x hx).1⟩
  · intro e he
    rcases List.mem_append.1 he with he | he
    · refine (h.left e he).congr fun hv B i h1 h2 => (hs.frame i ?_ (hw e he hv i h1 h2)).1 B
      have := (h.bounds e he).2.2
      omega
    · obtain rfl := List.mem_singleton.1 he
      exact hs.left
  · intro es1 e es2 he i c hi hput hn
    rcases List.eq_nil_or_concat es2 with rfl | ⟨es3, e', rfl⟩
    · obtain ⟨rfl, h2⟩ := List.append_inj' he rfl
      simp only [List.cons.injEq, and_true] at h2
      subst h2
      exact hs.puts i c hi hput
    · rw [List.concat_eq_append, ← List.cons_append, ← List.append_assoc] at he
      obtain ⟨rfl, h2⟩ := List.append_inj' he rfl
      simp only [List.cons.injEq, and_true] at h2
      subst h2
      have h3 := h.bounds e (by simp)
      rw [(hs.frame i (by omega) (hn _ (by simp))).2]
      exact h.puts es1 e es3 rfl i c hi hput (fun x hx => hn x (by simp [hx]))
  · intro e he i c hi hput e' he' hv
    rcases List.mem_append.1 he with he | he
    · rcases List.mem_append.1 he' with he' | he'
      · exact h.apart e he i c hi hput e' he' hv
      · obtain rfl := List.mem_singleton.1 he'
        have := (h.bounds e he).2.2
        simp only
        omega
    · obtain rfl := List.mem_singleton.1 he
      rcases List.mem_append.1 he' with hm | hm
      · rcases hput with ⟨L, len, d, q, j, ha, hz, hq, hj, rfl, _⟩ | ⟨q, L, len, d, q', j, ha, _, hj, rfl, _⟩
        · simp only at ha hq
          have h1 := hs.left q hq
          simp only [ha] at h1
          have h2 := h1 L len d rfl hz
          have := (h.bounds e' hm).2.2
          omega
        · simp only at ha
          subst ha
          have := hl.2.2.2.2.2.2 e' hm hv
          omega
      · obtain rfl := List.mem_singleton.1 hm
        exact absurd hput (gnotWrites hv)
  · intro i hi hn
    rw [(hs.frame i (by have := h.pos; omega) (hn _ (by simp))).2]
    exact h.before i hi (fun e he => hn e (by simp [he]))

/-- A legal step leaves a good state. -/
theorem cact_sat (h : I.Conforms Inv content) (hP : P.WF I.C.arch) (hacc : P.Accepted I.C) {es : List GEv} {s : CSer σ} {m : Nat → Mem}
    (hs : CSessInv I Inv content P t es s m) {a : GAct} (hl : a.CLegal I P es s) {fuel : Nat} (hne : a.runC I P fuel s ≠ .fuel) :
    (a.runC I P fuel s).Sat
      (fun p s' => ∃ m', CSessInv I Inv content P t (es ++ [⟨a, some p, I.pos s.sto, I.pos s'.sto⟩]) s' m')
      (fun pk s' => a.MayPanic I.C pk ∧ ∃ m', CSessInv I Inv content P t (es ++ [⟨a, none, I.pos s.sto, I.pos s'.sto⟩]) s' m') True := by
  cases a with
  | typed r =>
    obtain ⟨n, sc, h1, h2⟩ := ctyped_sat h hP hacc hl hs.rel (fuel := fuel) hne
    refine h2.mono ?_ ?_ id
    · rintro p s' ⟨m', hh⟩
      exact ⟨m', hs.step (a := .typed r) hl (cvalue_ok (a := .typed r) (res := some p) trivial hh (by
        intro hg q hq
        simp only [Option.some.injEq] at hq
        subst hq
        exact ⟨n, sc, h1, hg⟩))⟩
    · intro pk s' h3
      obtain ⟨m', hh⟩ := cvalue_panic (P := P) (a := .typed r) trivial h3
      exact ⟨.inl h3.1, m', hs.step (a := .typed r) hl hh⟩
  | user r =>
    refine (cuser_sat h hl.1 hl.2.1 hl.2.2.1 hl.2.2.2 hs.rel).mono ?_ ?_ id
    · rintro p s' ⟨h1, m', hh⟩
      exact ⟨m', hs.step (a := .user r) hl (cvalue_ok (a := .user r) (res := some p) trivial hh (by
        intro hg q hq
        simp only [Option.some.injEq] at hq
        subst hq
        exact ⟨h1, hg⟩))⟩
    · rintro pk s' (h3 | ⟨h3, ⟨st, h4⟩, p, m', hh⟩)
      · obtain ⟨m', hh⟩ := cvalue_panic (P := P) (a := .user r) trivial h3
        exact ⟨.inl h3.1, m', hs.step (a := .user r) hl hh⟩
      · exact ⟨.inr (.inl ⟨h3, r, st, rfl, h4⟩), m', hs.step (a := .user r) hl
          (cvalue_ok (a := .user r) (res := none) trivial hh (fun _ q hq => by cases hq))⟩
  | sto o =>
    refine (csto_sat (P := P) h hs.rel hl.1 hl.2).mono ?_ ?_ id
    · intro p s' hh
      exact ⟨m, hs.step (a := .sto o) hl hh⟩
    · rintro pk s' ⟨h1, hh⟩
      refine ⟨?_, m, hs.step (a := .sto o) hl hh⟩
      rcases h1 with h1 | ⟨h1, L, n, rfl, h2⟩
      · exact .inl h1
      · exact .inr (.inr ⟨h1, L, n, rfl, h2⟩)
  | write p L len d =>
    have hl' := hl
    obtain ⟨h1, h2, h3, h4, h5, h6, h7⟩ := hl'
    obtain ⟨s', m', e, hh⟩ := cwrite_ok (P := P) (d := d) h hs.rel h1 h2 h3 h4 h5 h6 (fun x hx => by
      obtain ⟨e, he, hv, b1, b2⟩ := hs.ents x hx
      have := h7 e he hv
      omega)
    simp only [GAct.runC]
    rw [e, sat_ok]
    exact ⟨m', hs.step (a := .write p L len d) hl hh⟩

theorem CSess.inv (h : I.Conforms Inv content) (hP : P.WF I.C.arch) (hacc : P.Accepted I.C) (ht : Inv t) (hd : I.C.valueAlign ∣ I.pos t)
    {es : List GEv} {s : CSer σ} (hs : CSess I P t es s) : ∃ m, CSessInv I Inv content P t es s m := by
  induction hs with
  | start => exact ⟨_, .start ht hd⟩
  | @step es s a fuel r s' _ hl hr ih =>
    obtain ⟨m, ih⟩ := ih
    have hne : a.runC I P fuel s ≠ .fuel := by
      intro he; unfold M.caught at hr; rw [he] at hr; cases hr
    have := cact_sat h hP hacc ih hl hne
    unfold M.caught at hr
    cases hq : a.runC I P fuel s with
    | ok p s1 => rw [hq] at hr this; cases hr; exact this
    | panic pk s1 => rw [hq] at hr this; cases hr; exact this.2
    | abort => rw [hq] at hr; cases hr
    | ub => rw [hq] at hr; cases hr
    | fuel => rw [hq] at hr; cases hr

/-- What `finalize` leaves after a session. -/
structure CFinal (I : ContigImpl σ) (Inv : σ → Prop) (content : σ → Mem) (es : List GEv) (s s' : CSer σ) (m : Nat → Mem) : Prop where
  inv : Inv s'.sto
  pos : I.pos s'.sto = I.pos s.sto
  ptr : I.asPtr s'.sto = I.asPtr s.sto
  le : (m (I.asPtr s'.sto)).Le (content s'.sto)
  other : ∀ i < I.pos s.sto, (∀ e ∈ es, e.act.IsValue → i < e.lo ∨ e.hi ≤ i) → content s'.sto i = content s.sto i

theorem CSessInv.final (h : I.Conforms Inv content) {es : List GEv} {s : CSer σ} {m : Nat → Mem} (hs : CSessInv I Inv content P t es s m) :
    ∃ s', CSer.finalize I s = .ok () s' ∧ CFinal I Inv content es s s' m := by
  obtain ⟨s', h1, h2, h3, h4, h5, h6⟩ := h.cfinalize_at (hs.rel (I.asPtr s.sto))
  refine ⟨s', h1, h2, h3, h4, by rw [h4]; exact h5, fun i hi hn => h6 i hi fun x hx => ?_⟩
  obtain ⟨e, he, hv, b1, b2⟩ := hs.ents x hx
  have := hn e he hv
  omega

theorem QReach.inv (h : I.Conforms Inv content) (hP : P.WF I.C.arch) (hacc : P.Accepted I.C) (ht : QReach I P t) : Inv t ∧ I.C.valueAlign ∣ I.pos t := by
  have hL := h.random.lawful
  induction ht with
  | new => exact ⟨hL.storage.new.1, by rw [hL.storage.new.2]; exact Nat.dvd_zero _⟩
  | @withCapacity c s _ e =>
    have := hL.storage.withCapacity_sat c
    rw [e] at this
    exact ⟨this.1, by rw [this.2.1]; exact Nat.dvd_zero _⟩
  | op _ hl hr ih => have := hL.storage.step_sat ih.1 ih.2 hl; rw [hr] at this; exact ⟨this.inv, this.dvd⟩
  | opPanic _ hl hr ih => have := hL.storage.step_sat ih.1 ih.2 hl; rw [hr] at this; exact ⟨this.2.inv, this.2.dvd⟩
  | session _ hs ih =>
    obtain ⟨m, hi⟩ := hs.inv hL hP hacc ih.1 ih.2
    exact ⟨hi.rel.inv, hi.rel.dvd⟩
  | dropped _ hs ih =>
    obtain ⟨m, hi⟩ := hs.inv h hP hacc ih.1 ih.2
    exact ⟨(hi.rel 0).inv, (hi.rel 0).dvd⟩
  | finalized _ hs hf ih =>
    obtain ⟨m, hi⟩ := hs.inv h hP hacc ih.1 ih.2
    obtain ⟨s', e, hfin⟩ := hi.final h
    rw [hf] at e
    cases e
    exact ⟨hfin.inv, by rw [hfin.pos]; exact (hi.rel 0).dvd⟩

/-! A session of values is one of these. -/

theorem cRoots_split {n : Nat} {rs : List Root} {es : List GEv} {s : CSer σ} (hs : CSess I P t es s) (hv : ∀ r ∈ rs, Valid I.C.arch P r) :
    (∀ ps s', cRoots I P n rs s = .ok ps s' → ∃ es', CSess I P t (es ++ es') s' ∧ es'.map GEv.act = rs.map GAct.typed ∧ es'.map GEv.res = ps.map some) ∧
    ∀ pk s', cRoots I P n rs s = .panic pk s' → ∃ es', CSess I P t (es ++ es') s' := by
  induction rs generalizing es s with
  | nil =>
    constructor
    · intro ps s' h
      rw [cRoots, pure_run] at h
      cases h
      exact ⟨[], by rw [List.append_nil]; exact hs, rfl, rfl⟩
    · intro pk s' h; rw [cRoots, pure_run] at h; cases h
  | cons r rs ih =>
    have he : cRoots I P n (r :: rs) = (cSerValue I P n r >>= fun p => cRoots I P n rs >>= fun ps => pure (p :: ps)) := rfl
    rw [he, bind_def]
    cases h1 : cSerValue I P n r s with
    | ok p s1 =>
      have hc : M.caught ((GAct.typed r).runC I P n) s = .ok (some p) s1 := by unfold M.caught; simp only [GAct.runC, h1]
      obtain ⟨i1, i2⟩ := ih (hs.step (a := .typed r) (hv r (by simp)) hc) (fun x hx => hv x (by simp [hx]))
      simp only [bind_def]
      cases h2 : cRoots I P n rs s1 with
      | ok ps s2 =>
        refine ⟨fun qs s' h => ?_, fun pk s' h => (by cases h)⟩
        cases h
        obtain ⟨es', g1, g2, g3⟩ := i1 ps s2 h2
        exact ⟨_ :: es', by rw [List.append_assoc] at g1; exact g1, by simp [g2], by simp [g3]⟩
      | panic pk s2 =>
        refine ⟨fun qs s' h => (by cases h), fun pk s' h => ?_⟩
        cases h
        obtain ⟨es', g1⟩ := i2 pk s2 h2
        exact ⟨_ :: es', by rw [List.append_assoc] at g1; exact g1⟩
      | _ => exact ⟨fun qs s' h => (by cases h), fun pk s' h => (by cases h)⟩
    | panic pk s1 =>
      have hc : M.caught ((GAct.typed r).runC I P n) s = .ok none s1 := by unfold M.caught; simp only [GAct.runC, h1]
      refine ⟨fun qs s' h => (by cases h), fun pk s' h => ?_⟩
      cases h
      exact ⟨_, hs.step (a := .typed r) (hv r (by simp)) hc⟩
    | _ => exact ⟨fun qs s' h => (by cases h), fun pk s' h => (by cases h)⟩

end
end SerRaw
