import Verif.Model.CustomMixed
import Verif.Lemmas.JumpRun
import Verif.Lemmas.Mixed
/-
Mixed sessions of serializers over custom storages (Model/CustomMixed.lean): what each event leaves stays.
-/
namespace SerRaw

section
variable {σ : Type}

/-- `o` is `o'` with a panic of user code in place of a normal return (the position mapping may differ). -/
def GCut {α β} (o : Out (GSer σ) α) (o' : Out (GSer σ) β) : Prop :=
  match o' with
  | .ok _ s' => ∃ m, o = .panic .user { s' with map := m }
  | .panic k s' => o = .panic k s'
  | .abort => o = .abort
  | .ub => o = .ub
  | .fuel => o = .fuel

theorem GCut.bind {α β γ} {x : M (GSer σ) α} {f : α → M (GSer σ) β} {g : α → M (GSer σ) γ} (h : ∀ a s, GCut (f a s) (g a s)) (s : GSer σ) :
    GCut ((x >>= f) s) ((x >>= g) s) := by
  rw [bind_def, bind_def]
  cases x s with
  | ok a s' => exact h a s'
  | _ => rfl

theorem GCut.then {α β γ δ} {x : M (GSer σ) α} {y : M (GSer σ) β} {f : α → M (GSer σ) γ} {g : β → M (GSer σ) δ} {s : GSer σ} (h : GCut (x s) (y s))
    (hg : ∀ b s, ∃ d m, g b s = .ok d { s with map := m }) : GCut ((x >>= f) s) ((y >>= g) s) := by
  rw [bind_def, bind_def]
  cases hy : y s with
  | ok b s' =>
    rw [hy] at h
    obtain ⟨m, hx⟩ := h
    obtain ⟨d, m', hd⟩ := hg b s'
    simp only [hx, hd]
    exact ⟨m, rfl⟩
  | panic k s' => rw [hy] at h; simp only [GCut] at h; simp only [h]; rfl
  | abort => rw [hy] at h; simp only [GCut] at h; simp only [h]; rfl
  | ub => rw [hy] at h; simp only [GCut] at h; simp only [h]; rfl
  | fuel => rw [hy] at h; simp only [GCut] at h; simp only [h]; rfl

variable {I : RandomImpl σ} {k : DKind} {im : Mem}

theorem GCut.pushAndProcessSlice {sl : Slice} {ptr : Nat} {x y : M (GSer σ) Unit} (h : ∀ s, GCut (x s) (y s)) (s : GSer σ) :
    GCut (GSer.pushAndProcessSlice I k sl ptr x s) (GSer.pushAndProcessSlice I k sl ptr y s) := by
  cases k with
  | pureCopy => exact GCut.bind (fun p s => (h s).then fun _ s => ⟨p, s.map, rfl⟩) s
  | posTracking =>
    refine GCut.bind (fun b s => GCut.bind (fun p s => GCut.bind (fun _ s => (h s).then fun _ s => ⟨p, b, rfl⟩) s) s) s
  | ptrOffset =>
    exact GCut.bind (fun b s => GCut.bind (fun p s => GCut.bind (fun _ s => GCut.bind (fun _ s => GCut.bind (fun _ s =>
      (h s).then fun _ s => ⟨p, b, rfl⟩) s) s) s) s) s

theorem GCut.serializeValue {L : Layout} {a : Nat} {d : Nat → Cell} {x y : M (GSer σ) Unit} (h : ∀ s, GCut (x s) (y s)) (s : GSer σ) :
    GCut (GSer.serializeValue I k L a d x s) (GSer.serializeValue I k L a d y s) := by
  rw [RandomImpl.gserializeValue_eq, RandomImpl.gserializeValue_eq]
  exact GCut.bind (fun p s => GCut.bind (fun _ s => (h s).then fun _ s => ⟨p, s.map, rfl⟩) s) s

theorem Stop.gcut (st : Stop) (s : GSer σ) : GCut (st.runG I k im s) (st.script.runG I k im s) := by
  induction st generalizing s with
  | here => exact ⟨s.map, rfl⟩
  | after sc rest ih => simp only [Stop.runG, Stop.script, runG_app]; exact GCut.bind (fun _ s => ih s) s
  | inside L len src ptr inner ih =>
    simp only [Stop.runG, Stop.script, Script.runG]
    exact (GCut.pushAndProcessSlice ih s).then fun _ s => ⟨(), s.map, rfl⟩

/-- `serialize_value` on a value with a hand-written implementation that returns. -/
abbrev UserRoot.serG (I : RandomImpl σ) (k : DKind) (v : UserRoot) : M (GSer σ) Nat :=
  GSer.serializeValue I k v.L v.a (fun i => v.im (v.a + i)) (v.sc.runG I k v.im)

theorem UserCall.serG_eq (r : UserCall) (s : GSer σ) :
    match r.body with
    | .returns _ => r.serG I k s = r.quiet.serG I k s
    | .panics _ => GCut (r.serG I k s) (r.quiet.serG I k s) := by
  obtain ⟨im, L, a, b⟩ := r
  cases b with
  | returns sc => rfl
  | panics st => exact GCut.serializeValue st.gcut s

end

section
variable {σ : Type} {I : RandomImpl σ} {Inv : σ → Prop} {content : σ → Mem} {P : Prog} {k : DKind} {t : σ}

/-- The output of a value whose call started at `lo`, ended at `hi` and returned `p` is in `m`. -/
def GLeft (A : Arch) (w : Bool) (v : UserRoot) (m : Mem) (lo hi p : Nat) : Prop :=
  ∃ m1 m2, RootLaid A w v p (m1, lo) (m2, hi) ∧ ∀ i, lo ≤ i → i < hi → m i = m2 i

def GEv.Left (I : RandomImpl σ) (k : DKind) (P : Prog) (m : Mem) (e : GEv) : Prop :=
  ∀ p, e.res = some p → match e.act with
    | .typed r => ∃ n sc, script I.C.arch P r.im n r.t r.a = some sc ∧
        GLeft I.C.arch (RandomImpl.wr k) ⟨r.im, P.layout r.t, r.a, sc⟩ m e.lo e.hi p
    | .user r => (∃ sc, r.body = .returns sc) ∧ GLeft I.C.arch (RandomImpl.wr k) r.quiet m e.lo e.hi p
    | .sto o => ∀ L len d, o = .pushSlice L len d → L.size ≠ 0 → e.lo ≤ p ∧ L.align ∣ p ∧ p + L.size * len ≤ e.hi
    | .write _ _ _ _ => True

theorem GLeft.congr {A : Arch} {w : Bool} {v : UserRoot} {m m' : Mem} {lo hi p : Nat} (h : GLeft A w v m lo hi p)
    (hm : ∀ i, lo ≤ i → i < hi → m' i = m i) : GLeft A w v m' lo hi p := by
  obtain ⟨m1, m2, h1, h2⟩ := h
  exact ⟨m1, m2, h1, fun i a b => (hm i a b).trans (h2 i a b)⟩

theorem GEv.Left.congr {m m' : Mem} {e : GEv} (h : e.Left I k P m) (hm : e.act.IsValue → ∀ i, e.lo ≤ i → i < e.hi → m' i = m i) : e.Left I k P m' := by
  intro p hp
  have h1 := h p hp
  obtain ⟨act, res, lo, hi⟩ := e
  cases act with
  | typed r =>
    obtain ⟨n, sc, h2, h3⟩ := h1
    exact ⟨n, sc, h2, h3.congr (hm trivial)⟩
  | user r => exact ⟨h1.1, h1.2.congr (hm trivial)⟩
  | sto o => exact h1
  | write p L len d => trivial

/-- The event puts cell `c` at `i`. -/
def GEv.Puts (e : GEv) (i : Nat) (c : Cell) : Prop :=
  (∃ L len d p j, e.act = .sto (.pushSlice L len d) ∧ L.size ≠ 0 ∧ e.res = some p ∧ j < L.size * len ∧ i = p + j ∧ c = d j) ∨
  ∃ p L len d q j, e.act = .write p L len d ∧ e.res = some q ∧ j < L.size * len ∧ i = p + j ∧ c = d j

/-- What one event leaves. -/
structure GStepPost (I : RandomImpl σ) (Inv : σ → Prop) (content : σ → Mem) (k : DKind) (P : Prog) (e : GEv) (s : GSer σ) (m : Mem) (s' : GSer σ) (m' : Mem) : Prop where
  rel : RandomImpl.GRel I Inv content s' m'
  pos : I.pos s.sto ≤ I.pos s'.sto
  frame : ∀ i < I.pos s.sto, ¬ e.Writes i → m' i = m i ∧ content s'.sto i = content s.sto i
  left : e.Left I k P m'
  puts : ∀ i c, i < I.pos s'.sto → e.Puts i c → content s'.sto i = c

theorem RandomImpl.GKept.rel {s s' : GSer σ} {m : Mem} (h : RandomImpl.GRel I Inv content s m) (hk : RandomImpl.GKept I Inv content (I.pos s.sto) s s') :
    RandomImpl.GRel I Inv content s' m := by
  have := hk.pos
  refine ⟨hk.inv, hk.dvd, fun i hi => h.fresh i (by omega), fun i b hb => ?_⟩
  have hlt : i < I.pos s.sto := by
    apply Nat.lt_of_not_le; intro hle
    rw [h.fresh i hle] at hb; cases hb
  rw [hk.below i hlt]
  exact h.sub i b hb

theorem RandomImpl.GRel.ofSto {s s' : GSer σ} {m : Mem} (h : RandomImpl.GRel I Inv content s m) (e : s'.sto = s.sto) : RandomImpl.GRel I Inv content s' m :=
  ⟨e ▸ h.inv, by rw [e]; exact h.dvd, by rw [e]; exact h.fresh, by rw [e]; exact h.sub⟩

/-! Typed values -/

theorem gSerValue_fle (n : Nat) (r : Root) : FLe (gSerValue I k P n r) (gSerValue I k P (n + 1) r) := by
  have h := gData_fle (I := I) (P := P) (k := k) (im := r.im) n r.t r.a
  cases k with
  | pureCopy => exact (FLe.refl _).bind fun _ => h.bind fun _ => FLe.refl _
  | _ => exact (FLe.refl _).bind fun _ => (FLe.refl _).bind fun _ => h.bind fun _ => FLe.refl _

theorem gSerValue_fuel {n m : Nat} (h : n ≤ m) {r : Root} {s : GSer σ} (hn : gSerValue I k P n r s ≠ .fuel) :
    gSerValue I k P m r s = gSerValue I k P n r s := by
  induction h with
  | refl => rfl
  | step _ ih =>
    rcases gSerValue_fle (I := I) (k := k) (P := P) _ r s with h | h
    · rw [ih] at h; exact absurd h hn
    · rw [← h, ih]

/-- What a value's call gives. -/
abbrev GVal (I : RandomImpl σ) (Inv : σ → Prop) (content : σ → Mem) (k : DKind) (v : UserRoot) (s : GSer σ) (m : Mem) (o : Out (GSer σ) Nat) : Prop :=
  o.Sat (fun p s' => ∃ m', RootLaid I.C.arch (RandomImpl.wr k) v p (m, I.pos s.sto) (m', I.pos s'.sto) ∧ RandomImpl.GRel I Inv content s' m' ∧
        RandomImpl.GKept I Inv content (I.pos s.sto) s s')
      (RandomImpl.GStop I Inv content (I.pos s.sto) s) True

theorem gSerValue_enough (h : I.Lawful Inv content) (hP : P.WF I.C.arch) (hacc : P.Accepted I.C) {r : Root} {fl : Flags} {v : Val} {n : Nat}
    (hd : decode I.C.arch P fl r.im n r.t r.a = some v) {s : GSer σ} {m : Mem} (hr : RandomImpl.GRel I Inv content s m) :
    ∃ sc, script I.C.arch P r.im n r.t r.a = some sc ∧ GVal I Inv content k ⟨r.im, P.layout r.t, r.a, sc⟩ s m (gSerValue I k P n r s) := by
  have hW := h.storage.arch.ptr_pos
  obtain ⟨sc, hs, he⟩ := gData_eq hW (k := k) hP hd
  refine ⟨sc, hs, ?_⟩
  have hj : Job.OK I.C P fl n ⟨r, v, sc⟩ := ⟨hd, hs⟩
  have := h.gvalue (k := k) (hj.gval hW hP hacc) hr
  unfold gSerValue
  rw [he]
  exact this

theorem gtyped_sat (h : I.Lawful Inv content) (hP : P.WF I.C.arch) (hacc : P.Accepted I.C) {r : Root} (hv : Valid I.C.arch P r) {s : GSer σ} {m : Mem}
    (hr : RandomImpl.GRel I Inv content s m) {fuel : Nat} (hne : gSerValue I k P fuel r s ≠ .fuel) :
    ∃ n sc, script I.C.arch P r.im n r.t r.a = some sc ∧ GVal I Inv content k ⟨r.im, P.layout r.t, r.a, sc⟩ s m (gSerValue I k P fuel r s) := by
  obtain ⟨fl, v, n, hd⟩ := hv
  have hd' := decode_mono (k := max n fuel) (by omega) hd
  obtain ⟨sc, hs, h0⟩ := gSerValue_enough (k := k) h hP hacc hd' hr
  rw [gSerValue_fuel (Nat.le_max_right n fuel) hne] at h0
  exact ⟨_, sc, hs, h0⟩

theorem gnotWrites {a : GAct} {res : Option Nat} {lo hi i : Nat} {c : Cell} (ha : a.IsValue) : ¬ GEv.Puts ⟨a, res, lo, hi⟩ i c := by
  rintro (⟨L, len, d, q, j, e, _⟩ | ⟨q, L, len, d, q', j, e, _⟩)
  · simp only at e; subst e; exact ha
  · simp only at e; subst e; exact ha

theorem gvalue_ok {v : UserRoot} {s s' : GSer σ} {m : Mem} {p : Nat} {a : GAct} {res : Option Nat} (ha : a.IsValue)
    (h : ∃ m', RootLaid I.C.arch (RandomImpl.wr k) v p (m, I.pos s.sto) (m', I.pos s'.sto) ∧ RandomImpl.GRel I Inv content s' m' ∧
        RandomImpl.GKept I Inv content (I.pos s.sto) s s')
    (hl : ∀ m', GLeft I.C.arch (RandomImpl.wr k) v m' (I.pos s.sto) (I.pos s'.sto) p → GEv.Left I k P m' ⟨a, res, I.pos s.sto, I.pos s'.sto⟩) :
    ∃ m', GStepPost I Inv content k P ⟨a, res, I.pos s.sto, I.pos s'.sto⟩ s m s' m' := by
  obtain ⟨m', h1, h2, h3⟩ := h
  refine ⟨m', h2, h3.pos, fun i hi _ => ⟨rootLaid_frame h1 hi, h3.below i hi⟩, hl m' ⟨m, m', h1, fun _ _ _ => rfl⟩, ?_⟩
  intro i c _ hp
  exact absurd hp (gnotWrites ha)

theorem gvalue_panic {s s' : GSer σ} {m : Mem} (hr : RandomImpl.GRel I Inv content s m) {a : GAct} (ha : a.IsValue)
    (h : RandomImpl.GKept I Inv content (I.pos s.sto) s s') :
    GStepPost I Inv content k P ⟨a, none, I.pos s.sto, I.pos s'.sto⟩ s m s' m := by
  refine ⟨h.rel hr, h.pos, fun i hi _ => ⟨rfl, h.below i hi⟩, (fun p hp => by cases hp), ?_⟩
  intro i c _ hp
  exact absurd hp (gnotWrites ha)

/-! Hand-written implementations -/

/-- Outcome of a hand-written call. -/
theorem guser_sat (h : I.Lawful Inv content) {r : UserCall} (hr : r.OK I.C) (hL : r.L.OK) (hty : r.body.script.RealTypes) {s : GSer σ} {m : Mem}
    (hs : RandomImpl.GRel I Inv content s m) :
    (r.serG I k s).Sat (fun p s' => (∃ sc, r.body = .returns sc) ∧
        ∃ m', RootLaid I.C.arch (RandomImpl.wr k) r.quiet p (m, I.pos s.sto) (m', I.pos s'.sto) ∧ RandomImpl.GRel I Inv content s' m' ∧
          RandomImpl.GKept I Inv content (I.pos s.sto) s s')
      (fun pk s' => (pk = .capacity ∧ RandomImpl.GKept I Inv content (I.pos s.sto) s s') ∨
        pk = .user ∧ (∃ st, r.body = .panics st) ∧ ∃ p m', RootLaid I.C.arch (RandomImpl.wr k) r.quiet p (m, I.pos s.sto) (m', I.pos s'.sto) ∧
          RandomImpl.GRel I Inv content s' m' ∧ RandomImpl.GKept I Inv content (I.pos s.sto) s s') True := by
  have hz : r.L.size ≠ 0 := hr.1.size_ne
  have hv : RandomImpl.GValueOK I.C r.quiet := ⟨hL, fun _ => hr.1, fun _ => hr.2, hty, fun h0 => absurd h0 hz⟩
  have h0 := h.gvalue (k := k) hv hs
  have he := r.serG_eq (I := I) (k := k) s
  obtain ⟨im, L, a, b⟩ := r
  cases b with
  | returns sc =>
    simp only at he
    rw [he]
    refine h0.mono (fun p s' hh => ⟨⟨sc, rfl⟩, hh⟩) (fun pk s' hh => .inl hh) id
  | panics st =>
    simp only at he
    change ((UserCall.quiet ⟨im, L, a, .panics st⟩).serG I k s).Sat _ _ _ at h0
    cases hq : (UserCall.quiet ⟨im, L, a, .panics st⟩).serG I k s with
    | ok p s1 =>
      rw [hq] at h0 he
      obtain ⟨m1, he⟩ := he
      rw [he]
      obtain ⟨m', h1, h2, h3⟩ := h0
      exact .inr ⟨rfl, ⟨st, rfl⟩, p, m', h1, h2.ofSto rfl, h3.inv, h3.dvd, h3.pos, h3.below⟩
    | panic pk s1 =>
      rw [hq] at h0 he
      simp only [GCut] at he
      rw [he]
      exact .inl h0
    | abort => rw [hq] at h0 he; simp only [GCut] at he; rw [he]; trivial
    | ub => rw [hq] at h0; exact h0.elim
    | fuel => rw [hq] at h0; exact h0.elim

/-! Direct storage operations -/

/-- A panic that a storage operation may end in. -/
def KOp.MayPanic (C : Cfg) (o : KOp) (pk : PanicKind) : Prop :=
  pk = .capacity ∨ pk = .arith ∧ ∃ L n, o = .pushEmptySlice L n ∧ C.arch.usizeMod ≤ L.size * n

theorem gsto_sat (h : I.Lawful Inv content) {o : KOp} {s : GSer σ} {m : Mem} (hr : RandomImpl.GRel I Inv content s m)
    (hl : o.Legal I.toStorageImpl s.sto) (hc : o ≠ .clear) :
    (GSer.lift (o.run I.toStorageImpl) s).Sat
      (fun p s' => GStepPost I Inv content k P ⟨.sto o, some p, I.pos s.sto, I.pos s'.sto⟩ s m s' m)
      (fun pk s' => o.MayPanic I.C pk ∧ GStepPost I Inv content k P ⟨.sto o, none, I.pos s.sto, I.pos s'.sto⟩ s m s' m) True := by
  have hS := h.storage
  have main : ∀ {res : Option Nat} {u : σ}, StorageImpl.Step I.toStorageImpl Inv content o s.sto u →
      GEv.Left I k P m ⟨.sto o, res, I.pos s.sto, I.pos u⟩ →
      (∀ i c, i < I.pos u → GEv.Puts ⟨.sto o, res, I.pos s.sto, I.pos u⟩ i c → content u i = c) →
      GStepPost I Inv content k P ⟨.sto o, res, I.pos s.sto, I.pos u⟩ s m { s with sto := u } m := by
    intro res u hst hle hpu
    have hk : RandomImpl.GKept I Inv content (I.pos s.sto) s { s with sto := u } := ⟨hst.inv, hst.dvd, hst.pos_mono hc, hst.content⟩
    exact ⟨hk.rel hr, hk.pos, fun i hi _ => ⟨rfl, hk.below i hi⟩, hle, hpu⟩
  rw [RandomImpl.sat_glift]
  by_cases hp : ∃ L len d, o = .pushSlice L len d ∧ L.size ≠ 0
  · obtain ⟨L, len, d, rfl, hz⟩ := hp
    obtain ⟨hL, hacc, hsz, hlen⟩ := hl
    refine (hS.pushSlice_sat (data := d) hr.inv hr.dvd hL hz (accepts_iff.1 (hacc hz)) hsz (hlen.resolve_left hz)).mono ?_ ?_ id
    · rintro p u ⟨h1, h2, h3⟩
      refine main h1 ?_ ?_
      · intro q hq L' len' d' e hz'
        simp only [KOp.pushSlice.injEq] at e
        obtain ⟨rfl, rfl, rfl⟩ := e
        simp only [Option.some.injEq] at hq
        subst hq
        exact ⟨h2.after, h2.aligned, h2.end_ge⟩
      · rintro i c hi (⟨L', len', d', q, j, e, hz', hq, hj, rfl, rfl⟩ | ⟨q, L', len', d', q', j, e, _⟩)
        · simp only [GAct.sto.injEq, KOp.pushSlice.injEq] at e
          obtain ⟨rfl, rfl, rfl⟩ := e
          simp only [Option.some.injEq] at hq
          subst hq
          exact h3 j hj
        · cases e
    · rintro pk u ⟨h1, h2, _⟩
      refine ⟨.inl h1, main h2 (fun q hq => by cases hq) ?_⟩
      rintro i c hi (⟨L', len', d', q, j, e, hz', hq, _⟩ | ⟨q, L', len', d', q', j, e, _⟩)
      · cases hq
      · cases e
  · refine (hS.step_sat hr.inv hr.dvd hl).mono ?_ ?_ id
    · intro p u h1
      refine main h1 (fun q hq L' len' d' e hz' => absurd ⟨L', len', d', e, hz'⟩ hp) ?_
      rintro i c hi (⟨L', len', d', q, j, e, hz', hq, _⟩ | ⟨q, L', len', d', q', j, e, _⟩)
      · simp only [GAct.sto.injEq] at e
        exact absurd ⟨L', len', d', e, hz'⟩ hp
      · cases e
    · rintro pk u ⟨h0, h1⟩
      refine ⟨h0, main h1 (fun q hq => by cases hq) ?_⟩
      rintro i c hi (⟨L', len', d', q, j, e, hz', hq, _⟩ | ⟨q, L', len', d', q', j, e, _⟩)
      · cases hq
      · cases e

theorem gwrite_ok (h : I.Lawful Inv content) {p : Nat} {L : Layout} {len : Nat} {d : Nat → Cell} {s : GSer σ} {m : Mem} (hr : RandomImpl.GRel I Inv content s m)
    (hL : L.OK) (hz : L.size ≠ 0) (hacc : I.C.accepts L = true) (hlen : 0 < len) (hroom : p + L.size * len ≤ I.capacity s.sto) (hd : L.align ∣ p) :
    ∃ s' m', (do GSer.lift (I.writeSlice p L len d); pure 0 : M (GSer σ) Nat) s = .ok 0 s' ∧
      GStepPost I Inv content k P ⟨.write p L len d, some 0, I.pos s.sto, I.pos s'.sto⟩ s m s' m' := by
  obtain ⟨u, e, i1, p1, c1, hdata, hother⟩ := h.writeSlice s.sto p L len d hr.inv hL hz (accepts_iff.1 hacc) hlen hroom hd
  refine ⟨{ s with sto := u }, fun i => if p ≤ i ∧ i < p + L.size * len then none else m i, ?_, ⟨i1, by rw [p1]; exact hr.dvd, ?_, ?_⟩, by rw [p1], ?_, ?_, ?_⟩
  · rw [bind_ok (show GSer.lift (I.writeSlice p L len d) s = .ok () { s with sto := u } by unfold GSer.lift; rw [e])]
    rfl
  · intro i hi
    simp only [p1] at hi ⊢
    split
    · rfl
    · exact hr.fresh i hi
  · intro i b hb
    simp only at hb
    split at hb
    · cases hb
    · rename_i hn
      have hlt : i < I.pos s.sto := by
        apply Nat.lt_of_not_le; intro hle
        rw [hr.fresh i hle] at hb; cases hb
      simp only
      rw [hother i hlt (by omega)]
      exact hr.sub i b hb
  · intro i hi hw
    have hn : ¬ (p ≤ i ∧ i < p + L.size * len) := fun hh => hw ⟨p, L, len, d, rfl, hh.1, hh.2⟩
    simp only
    rw [if_neg hn]
    exact ⟨rfl, hother i hi (by omega)⟩
  · intro q _; trivial
  · rintro i c hi (⟨L', len', d', q, j, e, _⟩ | ⟨q, L', len', d', q', j, e, _, hj, rfl, rfl⟩)
    · cases e
    · simp only [GAct.write.injEq] at e
      obtain ⟨rfl, rfl, rfl, rfl⟩ := e
      exact hdata j hj

/-! The whole session -/

/-- The state of a session: contents `m` that hold what the values left. -/
structure GSessInv (I : RandomImpl σ) (Inv : σ → Prop) (content : σ → Mem) (k : DKind) (P : Prog) (t : σ) (es : List GEv) (s : GSer σ) (m : Mem) : Prop where
  rel : RandomImpl.GRel I Inv content s m
  pos : I.pos t ≤ I.pos s.sto
  bounds : ∀ e ∈ es, I.pos t ≤ e.lo ∧ e.lo ≤ e.hi ∧ e.hi ≤ I.pos s.sto
  order : es.Pairwise fun e e' => e.hi ≤ e'.lo
  left : ∀ e ∈ es, e.Left I k P m
  puts : ∀ es1 e es2, es = es1 ++ e :: es2 → ∀ i c, i < e.hi → e.Puts i c → (∀ e' ∈ es2, ¬ e'.Writes i) → content s.sto i = c
  before : ∀ i < I.pos t, (∀ e ∈ es, ¬ e.Writes i) → content s.sto i = content t i

theorem GSessInv.start (ht : Inv t) (hd : I.C.valueAlign ∣ I.pos t) : GSessInv I Inv content k P t [] (GSer.fromStorage t) fun _ => none := by
  refine ⟨⟨ht, hd, fun _ _ => rfl, fun i b hb => by cases hb⟩, Nat.le_refl _, by simp, .nil, by simp, ?_, fun _ _ _ => rfl⟩
  intro es1 e es2 he; simp at he

theorem GSessInv.step {es : List GEv} {s s' : GSer σ} {m m' : Mem} {a : GAct} {res : Option Nat} (h : GSessInv I Inv content k P t es s m)
    (hl : a.Legal I P es s) (hs : GStepPost I Inv content k P ⟨a, res, I.pos s.sto, I.pos s'.sto⟩ s m s' m') :
    GSessInv I Inv content k P t (es ++ [⟨a, res, I.pos s.sto, I.pos s'.sto⟩]) s' m' := by
  have hp := hs.pos
  have hw : ∀ e ∈ es, e.act.IsValue → ∀ i, e.lo ≤ i → i < e.hi → ¬ GEv.Writes ⟨a, res, I.pos s.sto, I.pos s'.sto⟩ i := by
    rintro e he hv i h1 h2 ⟨p, L, len, d, ha, h3, h4⟩
    simp only at ha
    subst ha
    have := hl.2.2.2.2.2.2 e he hv
    omega
  refine ⟨hs.rel, Nat.le_trans h.pos hp, ?_, ?_, ?_, ?_, ?_⟩
  · intro e he
    rcases List.mem_append.1 he with he | he
    · obtain ⟨h1, h2, h3⟩ := h.bounds e he
      exact ⟨h1, h2, Nat.le_trans h3 hp⟩
    · obtain rfl := List.mem_singleton.1 he
      exact ⟨h.pos, hp, Nat.le_refl _⟩
  · rw [List.pairwise_append]
    refine ⟨h.order, List.pairwise_singleton _ _, ?_⟩
    intro e he e' he'
    obtain rfl := List.mem_singleton.1 he'
    exact (h.bounds e he).2.2
  · intro e he
    rcases List.mem_append.1 he with he | he
    · refine (h.left e he).congr fun hv i h1 h2 => (hs.frame i ?_ (hw e he hv i h1 h2)).1
      have := (h.bounds e he).2.2
      omega
    · obtain rfl := List.mem_singleton.1 he
      exact hs.left
  · intro es1 e es2 he i c hi hput hn
    rcases List.eq_nil_or_concat es2 with rfl | ⟨es3, e', rfl⟩
    · obtain ⟨rfl, h2⟩ := List.append_inj' he rfl
      simp only [List.cons.injEq, and_true] at h2
      subst h2
      exact hs.puts i c hi hput
    · rw [List.concat_eq_append, ← List.cons_append, ← List.append_assoc] at he
      obtain ⟨rfl, h2⟩ := List.append_inj' he rfl
      simp only [List.cons.injEq, and_true] at h2
      subst h2
      have h3 := h.bounds e (by simp)
      rw [(hs.frame i (by omega) (hn _ (by simp))).2]
      exact h.puts es1 e es3 rfl i c hi hput (fun x hx => hn x (by simp [hx]))
  · intro i hi hn
    rw [(hs.frame i (by have := h.pos; omega) (hn _ (by simp))).2]
    exact h.before i hi (fun e he => hn e (by simp [he]))

/-- The panics that something legal may end in: no room; a panic of a hand-written implementation; overflow in `push_empty_slice`. -/
def GAct.MayPanic (C : Cfg) (a : GAct) (pk : PanicKind) : Prop :=
  pk = .capacity ∨ (pk = .user ∧ ∃ r st, a = .user r ∧ r.body = .panics st) ∨
  pk = .arith ∧ ∃ L n, a = .sto (.pushEmptySlice L n) ∧ C.arch.usizeMod ≤ L.size * n

/-- A legal step leaves a good state. -/
theorem gact_sat (h : I.Lawful Inv content) (hP : P.WF I.C.arch) (hacc : P.Accepted I.C) {es : List GEv} {s : GSer σ} {m : Mem}
    (hs : GSessInv I Inv content k P t es s m) {a : GAct} (hl : a.Legal I P es s) {fuel : Nat} (hne : a.run I k P fuel s ≠ .fuel) :
    (a.run I k P fuel s).Sat
      (fun p s' => ∃ m', GSessInv I Inv content k P t (es ++ [⟨a, some p, I.pos s.sto, I.pos s'.sto⟩]) s' m')
      (fun pk s' => a.MayPanic I.C pk ∧ ∃ m', GSessInv I Inv content k P t (es ++ [⟨a, none, I.pos s.sto, I.pos s'.sto⟩]) s' m') True := by
  cases a with
  | typed r =>
    obtain ⟨n, sc, h1, h2⟩ := gtyped_sat (k := k) h hP hacc hl hs.rel (fuel := fuel) hne
    refine h2.mono ?_ ?_ id
    · intro p s' hh
      obtain ⟨m', hh⟩ := gvalue_ok (P := P) (k := k) (a := .typed r) (res := some p) trivial hh (by
        intro m' hg q hq
        simp only [Option.some.injEq] at hq
        subst hq
        exact ⟨n, sc, h1, hg⟩)
      exact ⟨m', hs.step (a := .typed r) hl hh⟩
    · rintro pk s' ⟨h3, h4⟩
      exact ⟨.inl h3, m, hs.step (a := .typed r) hl (gvalue_panic hs.rel trivial h4)⟩
  | user r =>
    refine (guser_sat (k := k) h hl.1 hl.2.1 hl.2.2 hs.rel).mono ?_ ?_ id
    · rintro p s' ⟨h1, hh⟩
      obtain ⟨m', hh⟩ := gvalue_ok (P := P) (k := k) (a := .user r) (res := some p) trivial hh (by
        intro m' hg q hq
        simp only [Option.some.injEq] at hq
        subst hq
        exact ⟨h1, hg⟩)
      exact ⟨m', hs.step (a := .user r) hl hh⟩
    · rintro pk s' (⟨h3, h4⟩ | ⟨h3, ⟨st, h4⟩, p, hh⟩)
      · exact ⟨.inl h3, m, hs.step (a := .user r) hl (gvalue_panic hs.rel trivial h4)⟩
      · obtain ⟨m', hh⟩ := gvalue_ok (P := P) (k := k) (a := .user r) (res := none) trivial hh (fun m' _ q hq => by cases hq)
        exact ⟨.inr (.inl ⟨h3, r, st, rfl, h4⟩), m', hs.step (a := .user r) hl hh⟩
  | sto o =>
    refine (gsto_sat (P := P) (k := k) h hs.rel hl.1 hl.2).mono ?_ ?_ id
    · intro p s' hh
      exact ⟨m, hs.step (a := .sto o) hl hh⟩
    · rintro pk s' ⟨h1, hh⟩
      refine ⟨?_, m, hs.step (a := .sto o) hl hh⟩
      rcases h1 with h1 | ⟨h1, L, n, rfl, h2⟩
      · exact .inl h1
      · exact .inr (.inr ⟨h1, L, n, rfl, h2⟩)
  | write p L len d =>
    have hl' := hl
    obtain ⟨h1, h2, h3, h4, h5, h6, _⟩ := hl'
    obtain ⟨s', m', e, hh⟩ := gwrite_ok (P := P) (k := k) (d := d) h hs.rel h1 h2 h3 h4 h5 h6
    simp only [GAct.run]
    rw [e, sat_ok]
    exact ⟨m', hs.step (a := .write p L len d) hl hh⟩

theorem GSess.inv (h : I.Lawful Inv content) (hP : P.WF I.C.arch) (hacc : P.Accepted I.C) (ht : Inv t) (hd : I.C.valueAlign ∣ I.pos t)
    {es : List GEv} {s : GSer σ} (hs : GSess I k P t es s) : ∃ m, GSessInv I Inv content k P t es s m := by
  induction hs with
  | start => exact ⟨_, .start ht hd⟩
  | @step es s a fuel r s' _ hl hr ih =>
    obtain ⟨m, ih⟩ := ih
    have hne : a.run I k P fuel s ≠ .fuel := by
      intro he; unfold M.caught at hr; rw [he] at hr; cases hr
    have := gact_sat h hP hacc ih hl hne
    unfold M.caught at hr
    cases hq : a.run I k P fuel s with
    | ok p s1 => rw [hq] at hr this; cases hr; exact this
    | panic pk s1 => rw [hq] at hr this; cases hr; exact this.2
    | abort => rw [hq] at hr; cases hr
    | ub => rw [hq] at hr; cases hr
    | fuel => rw [hq] at hr; cases hr

theorem LReach.inv (h : I.Lawful Inv content) (hP : P.WF I.C.arch) (hacc : P.Accepted I.C) (ht : LReach I P t) : Inv t ∧ I.C.valueAlign ∣ I.pos t := by
  induction ht with
  | new => exact ⟨h.storage.new.1, by rw [h.storage.new.2]; exact Nat.dvd_zero _⟩
  | @withCapacity c s _ e =>
    have := h.storage.withCapacity_sat c
    rw [e] at this
    exact ⟨this.1, by rw [this.2.1]; exact Nat.dvd_zero _⟩
  | op _ hl hr ih => have := h.storage.step_sat ih.1 ih.2 hl; rw [hr] at this; exact ⟨this.inv, this.dvd⟩
  | opPanic _ hl hr ih => have := h.storage.step_sat ih.1 ih.2 hl; rw [hr] at this; exact ⟨this.2.inv, this.2.dvd⟩
  | session _ hs ih =>
    obtain ⟨m, hi⟩ := hs.inv h hP hacc ih.1 ih.2
    exact ⟨hi.rel.inv, hi.rel.dvd⟩

/-! A session of values is one of these. -/

theorem gSession_split {n : Nat} {rs : List Root} {es : List GEv} {s : GSer σ} (hs : GSess I k P t es s) (hv : ∀ r ∈ rs, Valid I.C.arch P r) :
    (∀ ps s', gSession I k P n rs s = .ok ps s' → ∃ es', GSess I k P t (es ++ es') s' ∧ es'.map GEv.act = rs.map GAct.typed ∧ es'.map GEv.res = ps.map some) ∧
    ∀ pk s', gSession I k P n rs s = .panic pk s' → ∃ es', GSess I k P t (es ++ es') s' := by
  induction rs generalizing es s with
  | nil =>
    constructor
    · intro ps s' h
      rw [gSession, pure_run] at h
      cases h
      exact ⟨[], by rw [List.append_nil]; exact hs, rfl, rfl⟩
    · intro pk s' h; rw [gSession, pure_run] at h; cases h
  | cons r rs ih =>
    have he : gSession I k P n (r :: rs) = (gSerValue I k P n r >>= fun p => gSession I k P n rs >>= fun ps => pure (p :: ps)) := rfl
    rw [he, bind_def]
    cases h1 : gSerValue I k P n r s with
    | ok p s1 =>
      have hc : M.caught ((GAct.typed r).run I k P n) s = .ok (some p) s1 := by unfold M.caught; simp only [GAct.run, h1]
      obtain ⟨i1, i2⟩ := ih (hs.step (a := .typed r) (hv r (by simp)) hc) (fun x hx => hv x (by simp [hx]))
      simp only [bind_def]
      cases h2 : gSession I k P n rs s1 with
      | ok ps s2 =>
        refine ⟨fun qs s' h => ?_, fun pk s' h => (by cases h)⟩
        cases h
        obtain ⟨es', g1, g2, g3⟩ := i1 ps s2 h2
        exact ⟨_ :: es', by rw [List.append_assoc] at g1; exact g1, by simp [g2], by simp [g3]⟩
      | panic pk s2 =>
        refine ⟨fun qs s' h => (by cases h), fun pk s' h => ?_⟩
        cases h
        obtain ⟨es', g1⟩ := i2 pk s2 h2
        exact ⟨_ :: es', by rw [List.append_assoc] at g1; exact g1⟩
      | _ => exact ⟨fun qs s' h => (by cases h), fun pk s' h => (by cases h)⟩
    | panic pk s1 =>
      have hc : M.caught ((GAct.typed r).run I k P n) s = .ok none s1 := by unfold M.caught; simp only [GAct.run, h1]
      refine ⟨fun qs s' h => (by cases h), fun pk s' h => ?_⟩
      cases h
      exact ⟨_, hs.step (a := .typed r) (hv r (by simp)) hc⟩
    | _ => exact ⟨fun qs s' h => (by cases h), fun pk s' h => (by cases h)⟩

theorem KReach.l (ht : KReach I P t) : LReach I P t := by
  induction ht with
  | new => exact .new
  | withCapacity h1 h2 => exact .withCapacity h1 h2
  | op _ h1 h2 ih => exact .op ih h1 h2
  | opPanic _ h1 h2 ih => exact .opPanic ih h1 h2
  | session _ hv hr ih =>
    obtain ⟨es, h1, _⟩ := (gSession_split .start hv).1 _ _ hr
    exact .session ih h1
  | sessionPanic _ hv hr ih =>
    obtain ⟨es, h1⟩ := (gSession_split .start hv).2 _ _ hr
    exact .session ih h1

end
end SerRaw
