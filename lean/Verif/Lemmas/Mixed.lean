import Verif.Model.Mixed
import Verif.Lemmas.UserPanic
import Verif.Lemmas.Later
/-
One serializer used for typed values, hand-written implementations and direct storage operations.
-/
namespace SerRaw

/-! ### The calls do not depend on the bound -/

section
variable {A : Arch} {P : Prog} {im : Mem}

theorem scriptEach_mono {r1 r2 : TyId → Nat → Option Script} (h : ∀ t a s, r1 t a = some s → r2 t a = some s) {a : Nat} {fs : List Field}
    {sc : Script} (hs : scriptEach r1 a fs = some sc) : scriptEach r2 a fs = some sc := by
  induction fs generalizing sc with
  | nil => exact hs
  | cons f fs ih =>
    simp only [scriptEach, Option.bind_eq_bind, Option.bind_eq_some_iff, Option.pure_def, Option.some.injEq] at hs ⊢
    obtain ⟨x, h1, y, h2, h3⟩ := hs
    exact ⟨x, h _ _ _ h1, y, ih h2, h3⟩

theorem scriptVec_mono {r1 r2 : TyId → Nat → Option Script} (h : ∀ t a s, r1 t a = some s → r2 t a = some s) {a : Nat} {u : TyId}
    {sc : Script} (hs : scriptVec A P im r1 u a = some sc) : scriptVec A P im r2 u a = some sc := by
  unfold scriptVec at hs ⊢
  split at hs
  · rename_i hz; rw [if_pos hz]; exact hs
  · rename_i hz
    rw [if_neg hz]
    simp only [Option.bind_eq_bind, Option.bind_eq_some_iff, Option.pure_def, Option.some.injEq] at hs ⊢
    obtain ⟨x, h1, y, h2, h3⟩ := hs
    exact ⟨x, h1, y, scriptEach_mono h h2, h3⟩

theorem script_succ (n : Nat) : ∀ t a sc, script A P im n t a = some sc → script A P im (n + 1) t a = some sc := by
  induction n with
  | zero => intro t a sc h; simp [script] at h
  | succ n ih =>
    intro t a sc h
    rw [script] at h ⊢
    split at h <;> rename_i hd
    · exact h
    · split at h
      · rename_i hz; rw [if_pos hz]; exact h
      · rename_i hz
        rw [if_neg hz]
        simp only [Option.bind_eq_bind, Option.bind_eq_some_iff, Option.pure_def, Option.some.injEq] at h ⊢
        obtain ⟨x, h1, y, h2, h3⟩ := h
        exact ⟨x, h1, y, ih _ _ _ h2, h3⟩
    · exact scriptVec_mono ih h
    · exact h
    · exact scriptEach_mono ih h
    · exact scriptEach_mono ih h
    · simp only [Option.bind_eq_bind, Option.bind_eq_some_iff] at h ⊢
      obtain ⟨x, h1, y, h2, h3⟩ := h
      exact ⟨x, h1, y, h2, scriptEach_mono ih h3⟩
    · exact scriptVec_mono ih h
    · exact ih _ _ _ h

theorem script_mono {n m : Nat} (hnm : n ≤ m) {t a : Nat} {sc : Script} (h : script A P im n t a = some sc) : script A P im m t a = some sc := by
  induction hnm with
  | refl => exact h
  | step _ ih => exact script_succ _ _ _ _ ih

theorem serValue_fuel {C : Cfg} {k : Kind} {n m : Nat} (h : n ≤ m) {t a : Nat} {s : Ser} (hn : serValue C k P im n t a s ≠ .fuel) :
    serValue C k P im m t a s = serValue C k P im n t a s := by
  induction h with
  | refl => rfl
  | @step m _ ih =>
    rcases serializeValue_fle (L := P.layout t) (a := a) (d := inputAt im a) (serData_fle (C := C) (k := k) (P := P) (im := im) m t a) s with h | h
    · exact absurd (ih.symm.trans h) hn
    · exact h.symm.trans ih

end

section
variable {C : Cfg} {k : Kind} {P : Prog} {t : Sto}

/-- The byte is in the range of a random-access write. -/
def SOp.In (o : SOp) (i : Nat) : Prop := ∃ p L len d, o = .writeSlice p L len d ∧ p ≤ i ∧ i < p + L.size * len

theorem SOp.view (hC : C.OK) {u u' : Sto} {o : SOp} (hI : u.Inv C) (hl : o.Legal C u)
    (hrun : (∃ p, o.run C u = .ok p u') ∨ ∃ k, o.run C u = .panic k u') {i : Nat} (hi : i < u.vec.pos) (hn : ¬ o.In i) :
    u'.view i = u.view i := by
  have hst : StepSpec C o u u' := by
    have := step_sat hC hI hl
    rcases hrun with ⟨p, h⟩ | ⟨k, h⟩ <;> rw [h] at this <;> exact this
  by_cases hw : ∀ p L len d, o ≠ .writeSlice p L len d
  · exact hst.view hw i hi
  · simp only [not_forall, not_not] at hw
    obtain ⟨p, L, len, d, rfl⟩ := hw
    obtain ⟨hL, hfit, hd, hz⟩ := hl
    by_cases h0 : L.size = 0
    · have h1 := writeSlice_zst (len := len) (data := d) hC.facts hI.toWInv h0 (by rw [h0, Nat.zero_mul] at hfit; omega) hL.pow2 hd
      have e : u' = u := by
        rcases hrun with ⟨q, h⟩ | ⟨k, h⟩
        · rw [SOp.run, bind_ok h1] at h; cases h; rfl
        · rw [SOp.run, bind_ok h1] at h; cases h
      rw [e]
    · obtain ⟨t, h1, h2, _, _, h3⟩ := writeSlice_ok hC hI.toWInv d h0 (hz.resolve_left h0).2 hfit hL.1 hd (hz.resolve_left h0).1
      have e : u' = t := by
        rcases hrun with ⟨q, h⟩ | ⟨k, h⟩
        · rw [SOp.run, bind_ok h1] at h; cases h; rfl
        · rw [SOp.run, bind_ok h1] at h; cases h
      have : ¬ (p ≤ i ∧ i < p + L.size * len) := fun h => hn ⟨p, L, len, d, rfl, h⟩
      rw [e, h3, Mem.blit, if_neg this]

/-- The bytes put by a storage operation. -/
theorem SOp.puts (hC : C.OK) {u u' : Sto} {o : SOp} (hI : u.Inv C) (hl : o.Legal C u) {q : Nat} (hrun : o.run C u = .ok q u') :
    (∀ L len d, o = .pushSlice L len d → L.size ≠ 0 → u.vec.pos ≤ q ∧ q + L.size * len ≤ u'.vec.pos ∧ ∀ j < L.size * len, u'.view (q + j) = d j) ∧
    ∀ p L len d, o = .writeSlice p L len d → u'.vec.pos = u.vec.pos ∧ ∀ j < L.size * len, u'.view (p + j) = d j := by
  constructor
  · rintro L len d rfl hz
    obtain ⟨hL, hacc, hsz, hlen⟩ := hl
    have h := pushSlice_sat hC hI d hz hL.pow2 (accepts_iff.1 (hacc hz)) (hlen.resolve_left hz) hsz
    simp only [SOp.run] at hrun
    rw [hrun] at h
    have h : PushSpec C u L len d q u' := h
    refine ⟨by rw [h.pos_eq]; exact le_roundUp _ hL.pow2.pos, by rw [h.end_eq]; exact le_roundUp _ hC.facts.va.pos, fun j hj => ?_⟩
    rw [h.view]; exact blit_at hj
  · rintro p L len d rfl
    obtain ⟨hL, hfit, hd, hz⟩ := hl
    by_cases h0 : L.size = 0
    · have h1 := writeSlice_zst (len := len) (data := d) hC.facts hI.toWInv h0 (by rw [h0, Nat.zero_mul] at hfit; omega) hL.pow2 hd
      rw [SOp.run, bind_ok h1] at hrun
      cases hrun
      exact ⟨rfl, fun j hj => by rw [h0, Nat.zero_mul] at hj; omega⟩
    · obtain ⟨t, h1, h2, _, _, h3⟩ := writeSlice_ok hC hI.toWInv d h0 (hz.resolve_left h0).2 hfit hL.1 hd (hz.resolve_left h0).1
      rw [SOp.run, bind_ok h1] at hrun
      cases hrun
      exact ⟨by rw [h2], fun j hj => by rw [h3]; exact blit_at hj⟩

/-- A call on a value of layout `L` at `a` whose implementation makes the calls `sc`, at position `lo`, left its output in the contents `m`. -/
structure Left (C : Cfg) (k : Kind) (L : Layout) (im : Mem) (a : Nat) (sc : Script) (m : Nat → Mem) (lo hi p : Nat) : Prop where
  at_ : p = rootPos L lo
  end_ : hi = placeEnd C.valueAlign lo (rootShapes L sc)
  cells : ∀ B, ∃ m0, ∀ i, lo ≤ i → i < hi → m B i = (rootIdeal C.arch C.valueAlign (k.mode B) L im a sc (m0, lo)).1 i

/-- What an event left in the contents. -/
def Ev.Left (C : Cfg) (k : Kind) (P : Prog) (m : Nat → Mem) (e : Ev) : Prop :=
  ∀ p, e.res = some p →
    match e.act with
    | .typed r => ∃ n sc, script C.arch P r.im n r.t r.a = some sc ∧ SerRaw.Left C k (P.layout r.t) r.im r.a sc m e.lo e.hi p
    | .user r => (∃ sc, r.body = .returns sc) ∧ SerRaw.Left C k r.L r.im r.a r.body.script m e.lo e.hi p
    | .sto o => ∀ L len d, o = .pushSlice L len d → L.size ≠ 0 → e.lo ≤ p ∧ p + L.size * len ≤ e.hi

/-- Why a `serialize_value` call gave no position. -/
def Ev.Failed (C : Cfg) (P : Prog) (e : Ev) : Prop :=
  e.res = none →
    match e.act with
    | .typed r => ∃ n sc, script C.arch P r.im n r.t r.a = some sc ∧ C.maxCapacity < placeEnd C.valueAlign e.lo (rootShapes (P.layout r.t) sc)
    | .user r => (∃ st, r.body = .panics st) ∨ C.maxCapacity < placeEnd C.valueAlign e.lo (rootShapes r.L r.body.script)
    | .sto _ => True

theorem Ev.Left.congr {m m' : Nat → Mem} {e : Ev} (h : e.Left C k P m) (hm : e.act.IsValue → ∀ B i, e.lo ≤ i → i < e.hi → m' B i = m B i) : e.Left C k P m' := by
  intro p hp
  have := h p hp
  revert this
  cases ha : e.act with
  | typed r =>
    rw [ha] at hm
    rintro ⟨n, sc, h1, h2⟩
    refine ⟨n, sc, h1, h2.at_, h2.end_, fun B => ?_⟩
    obtain ⟨m0, h3⟩ := h2.cells B
    exact ⟨m0, fun i h4 h5 => (hm trivial B i h4 h5).trans (h3 i h4 h5)⟩
  | user r =>
    rw [ha] at hm
    rintro ⟨h1, h2⟩
    refine ⟨h1, h2.at_, h2.end_, fun B => ?_⟩
    obtain ⟨m0, h3⟩ := h2.cells B
    exact ⟨m0, fun i h4 h5 => (hm trivial B i h4 h5).trans (h3 i h4 h5)⟩
  | sto o => exact id

/-- The bytes an event put by itself. -/
def Ev.Puts (e : Ev) (i : Nat) (c : Cell) : Prop :=
  (∃ L len d p j, e.act = .sto (.pushSlice L len d) ∧ L.size ≠ 0 ∧ e.res = some p ∧ j < L.size * len ∧ i = p + j ∧ c = d j) ∨
  ∃ p L len d j, e.act = .sto (.writeSlice p L len d) ∧ j < L.size * len ∧ i = p + j ∧ c = d j

/-- One step: the contents before and after. -/
structure StepPost (C : Cfg) (k : Kind) (P : Prog) (e : Ev) (s : Ser) (m : Nat → Mem) (s' : Ser) (m' : Nat → Mem) : Prop where
  rel : RelAll C k s' m'
  pos : s.sto.vec.pos ≤ s'.sto.vec.pos
  frame : ∀ B, ∀ i < s.sto.vec.pos, ¬ e.Writes i → m' B i = m B i
  ents : ∀ x ∈ s'.ptrs.entries, x ∈ s.ptrs.entries ∨ (e.act.IsValue ∧ s.sto.vec.pos ≤ x.2)
  left : e.Left C k P m'
  failed : e.Failed C P
  puts : ∀ i c, i < s'.sto.vec.pos → e.Puts i c → ∀ B, m' B i = c
  keep : ∀ x ∈ s.ptrs.entries, x ∈ s'.ptrs.entries

theorem CallPost.step {r : UserCall} {s s' : Ser} {m m' : Nat → Mem} {p : Option Nat} (h : CallPost C k r s m p s' m') :
    StepPost C k P ⟨.user r, p, s.sto.vec.pos, s'.sto.vec.pos⟩ s m s' m' := by
  refine ⟨h.rel, (h.kept 0).pos, fun B i hi _ => (h.kept B).frame i hi, fun x hx => ?_, ?_, ?_, ?_, fun x hx => by
    obtain ⟨new, e1, _⟩ := (h.kept 0).ents
    rw [e1]; exact List.mem_append_left _ hx⟩
  · obtain ⟨new, e1, e2⟩ := (h.kept 0).ents
    rw [e1] at hx
    rcases List.mem_append.1 hx with hx | hx
    · exact .inl hx
    · exact .inr ⟨trivial, e2 x hx⟩
  · intro q hq
    simp only at hq
    cases h with
    | done h1 e1 e2 =>
      cases hb : r.body with
      | panics st => rw [hb] at hq; cases hq
      | returns sc =>
        simp only
        have hq' : rootPos r.L s.sto.vec.pos = q := by
          rw [hb, h1.at_] at hq; exact Option.some.inj hq
        refine ⟨⟨sc, hb⟩, hq'.symm, by rw [e1]; exact h1.pos, fun B => ⟨m B, fun i _ _ => by rw [hb]⟩⟩
    | full => cases hq
  · intro hq
    simp only at hq ⊢
    cases h with
    | done h1 e1 e2 =>
      cases hb : r.body with
      | panics st => exact .inl ⟨st, rfl⟩
      | returns sc => rw [hb] at hq; cases hq
    | full h1 => exact .inr h1
  · rintro i c hi (⟨L, len, d, q, j, ha, _⟩ | ⟨q, L, len, d, j, ha, _⟩) <;> cases ha

theorem typed_step (hC : C.OK) (hP : P.WF C.arch) (hacc : P.Accepted C) {r : Root} (hv : Valid C.arch P r) {s : Ser} {m : Nat → Mem}
    (h : RelAll C k s m) {fuel : Nat} (hne : serValue C k P r.im fuel r.t r.a s ≠ .fuel) :
    (M.caught (serValue C k P r.im fuel r.t r.a) s).Sat
      (fun p s' => ∃ m', StepPost C k P ⟨.typed r, p, s.sto.vec.pos, s'.sto.vec.pos⟩ s m s' m') (fun _ _ => False) (¬ C.NeverFails) := by
  have hW := hC.arch.ptr_pos
  obtain ⟨fl, v, n, hd⟩ := hv
  have hd' := decode_mono (k := max n fuel) (by omega) hd
  obtain ⟨sc, hs, _⟩ := serData_eq hW .pureCopy hP hd'
  have h0 := serValue_sat hC hP hacc k hd' hs h
  rw [serValue_fuel (Nat.le_max_right n fuel) hne] at h0
  refine sat_caught (h0.mono ?_ ?_ id)
  · intro p s' h1
    refine ⟨_, h1.rel, (h1.kept 0).pos, fun B i hi _ => (h1.kept B).frame i hi, fun x hx => ?_, ?_, (by intro hq; cases hq), ?_, fun x hx => by
      obtain ⟨new, e1, _⟩ := (h1.kept 0).ents
      rw [e1]; exact List.mem_append_left _ hx⟩
    · obtain ⟨new, e1, e2⟩ := (h1.kept 0).ents
      rw [e1] at hx
      rcases List.mem_append.1 hx with hx | hx
      · exact .inl hx
      · exact .inr ⟨trivial, e2 x hx⟩
    · intro q hq
      simp only [Option.some.injEq] at hq
      subst hq
      exact ⟨_, sc, hs, h1.at_, h1.pos, fun B => ⟨m B, fun i _ _ => rfl⟩⟩
    · rintro i c hi (⟨L, len, d, q, j, ha, _⟩ | ⟨q, L, len, d, j, ha, _⟩) <;> cases ha
  · rintro pk s' ⟨hcp, m', h1, h2⟩
    refine ⟨m', h1, (h2 0).pos, fun B i hi _ => (h2 B).frame i hi, fun x hx => ?_, ?_, fun _ => ⟨_, sc, hs, hcp.2.2⟩, ?_, fun x hx => by
      obtain ⟨new, e1, _⟩ := (h2 0).ents
      rw [e1]; exact List.mem_append_left _ hx⟩
    · obtain ⟨new, e1, e2⟩ := (h2 0).ents
      rw [e1] at hx
      rcases List.mem_append.1 hx with hx | hx
      · exact .inl hx
      · exact .inr ⟨trivial, e2 x hx⟩
    · intro q hq; cases hq
    · rintro i c hi (⟨L, len, d, q, j, ha, _⟩ | ⟨q, L, len, d, j, ha, _⟩) <;> cases ha

open Classical in
/-- A direct storage operation that touches no recorded pointer. -/
theorem sto_step (hC : C.OK) {o : SOp} {s s' : Ser} {m : Nat → Mem} (h : RelAll C k s m) (hl : o.Legal C s.sto) (hcl : o ≠ .clear)
    (hdj : ∀ x ∈ s.ptrs.entries, ∀ j < C.arch.ptrBytes, ¬ o.In (x.2 + j)) {res : Option Nat}
    (hrun : M.caught (Ser.lift (o.run C)) s = .ok res s') :
    ∃ m', StepPost C k P ⟨.sto o, res, s.sto.vec.pos, s'.sto.vec.pos⟩ s m s' m' := by
  have hI := (h.1 0).inv
  have hr : ∃ t', s' = { s with sto := t' } ∧ ((∃ p, o.run C s.sto = .ok p t' ∧ res = some p) ∨ ∃ k, o.run C s.sto = .panic k t' ∧ res = none) := by
    unfold M.caught Ser.lift at hrun
    cases hx : o.run C s.sto <;> rw [hx] at hrun <;> simp only at hrun <;> first | (cases hrun; done) | skip
    · cases hrun; exact ⟨_, rfl, .inl ⟨_, rfl, rfl⟩⟩
    · cases hrun; exact ⟨_, rfl, .inr ⟨_, rfl, rfl⟩⟩
  obtain ⟨t', rfl, hr⟩ := hr
  have hr' : (∃ p, o.run C s.sto = .ok p t') ∨ ∃ k, o.run C s.sto = .panic k t' := by
    rcases hr with ⟨p, h, _⟩ | ⟨p, h, _⟩
    · exact .inl ⟨p, h⟩
    · exact .inr ⟨p, h⟩
  have hst : StepSpec C o s.sto t' := by
    have := step_sat hC hI hl
    rcases hr' with ⟨p, h⟩ | ⟨k, h⟩ <;> rw [h] at this <;> exact this
  have hpos := hst.pos_mono (fun h => hcl h)
  have hview : ∀ i < s.sto.vec.pos, ¬ o.In i → t'.view i = s.sto.view i := fun i hi hn => SOp.view hC hI hl hr' hi hn
  refine ⟨fun B i => if i < s.sto.vec.pos ∧ ¬ o.In i then m B i else t'.view i, ⟨fun B => ?_, h.2⟩, hpos, fun B i hi hn => ?_,
    fun x hx => .inl hx, ?_, fun _ => trivial, ?_, fun _ hx => hx⟩
  · have hB := h.1 B
    have hin : ∀ x ∈ s.ptrs.entries, ∀ i, x.2 ≤ i → i < x.2 + C.arch.ptrBytes → i < s.sto.vec.pos ∧ ¬ o.In i := by
      intro x hx i h1 h2
      refine ⟨by have := (hB.bound x hx).1; omega, ?_⟩
      have := hdj x hx (i - x.2) (by omega)
      rwa [show x.2 + (i - x.2) = i by omega] at this
    refine ⟨hst.inv, fun x hx => ?_, hB.nodup, fun x hx => ?_, fun i hi => ?_⟩
    · obtain ⟨h1, h2⟩ := hB.bound x hx
      exact ⟨Nat.le_trans h1 hpos, h2⟩
    · obtain ⟨w, h1, h2⟩ := hB.word x hx
      refine ⟨w, ?_, ?_⟩
      · rw [← h1]
        exact readWord_congr fun i hi => hview _ (hin x hx _ (Nat.le_add_right _ _) (by omega)).1 (hin x hx _ (Nat.le_add_right _ _) (by omega)).2
      · rw [← h2]
        exact readWord_congr fun i hi => if_pos (hin x hx _ (Nat.le_add_right _ _) (by omega))
    · by_cases hc : i < s.sto.vec.pos ∧ ¬ o.In i
      · simp only [if_pos hc]
        rw [hview i hc.1 hc.2]
        exact hB.rest i hi
      · simp only [if_neg hc]
  · have : ¬ o.In i := by
      rintro ⟨p, L, len, d, rfl, h1⟩
      exact hn ⟨p, L, len, d, rfl, h1⟩
    simp only [if_pos (And.intro hi this)]
  · rintro p hp L len d rfl hz
    simp only at hp
    subst hp
    rcases hr with ⟨q, hr, hq⟩ | ⟨_, _, hq⟩
    · simp only [Option.some.injEq] at hq
      subst hq
      obtain ⟨h1, h2, _⟩ := (SOp.puts hC hI hl hr).1 L len d rfl hz
      exact ⟨h1, h2⟩
    · cases hq
  · rintro i c hi (⟨L, len, d, q, j, ha, hz, hq, hj, rfl, rfl⟩ | ⟨q, L, len, d, j, ha, hj, rfl, rfl⟩) B
    · simp only [Act.sto.injEq] at ha
      subst ha
      simp only at hq
      subst hq
      rcases hr with ⟨p, hr, hp⟩ | ⟨_, _, hp⟩
      · simp only [Option.some.injEq] at hp
        subst hp
        obtain ⟨h1, h2, h3⟩ := (SOp.puts hC hI hl hr).1 L len d rfl hz
        have : ¬ (q + j < s.sto.vec.pos ∧ ¬ SOp.In (.pushSlice L len d) (q + j)) := fun h => by omega
        simp only [if_neg this]
        exact h3 j hj
      · cases hp
    · simp only [Act.sto.injEq] at ha
      subst ha
      have : ¬ (q + j < s.sto.vec.pos ∧ ¬ SOp.In (.writeSlice q L len d) (q + j)) := fun h => h.2 ⟨q, L, len, d, rfl, by omega, by omega⟩
      simp only [if_neg this]
      rcases hr with ⟨p, hr, hp⟩ | ⟨pk, hr, hp⟩
      · exact ((SOp.puts hC hI hl hr).2 q L len d rfl).2 j hj
      · exfalso
        obtain ⟨hL, hfit, hd, hz⟩ := hl
        have h0 : L.size ≠ 0 := fun h0 => by rw [h0, Nat.zero_mul] at hj; omega
        obtain ⟨t, h1, _⟩ := writeSlice_ok hC hI.toWInv d h0 (hz.resolve_left h0).2 hfit hL.1 hd (hz.resolve_left h0).1
        rw [SOp.run, bind_ok h1] at hr
        cases hr

/-! ### The whole session -/

/-- The state of a session: contents `m` that hold what the events left. -/
structure SessInv (C : Cfg) (k : Kind) (P : Prog) (t : Sto) (es : List Ev) (s : Ser) (m : Nat → Mem) : Prop where
  rel : RelAll C k s m
  pos : t.vec.pos ≤ s.sto.vec.pos
  bounds : ∀ e ∈ es, t.vec.pos ≤ e.lo ∧ e.lo ≤ e.hi ∧ e.hi ≤ s.sto.vec.pos
  order : es.Pairwise fun e e' => e.hi ≤ e'.lo
  ents : ∀ x ∈ s.ptrs.entries, ∃ e ∈ es, e.act.IsValue ∧ e.lo ≤ x.2 ∧ x.2 + C.arch.ptrBytes ≤ e.hi
  left : ∀ e ∈ es, e.Left C k P m
  failed : ∀ e ∈ es, e.Failed C P
  puts : ∀ es1 e es2, es = es1 ++ e :: es2 → ∀ i c, i < e.hi → e.Puts i c → (∀ e' ∈ es2, ¬ e'.Writes i) → ∀ B, m B i = c
  before : ∀ i < t.vec.pos, (∀ e ∈ es, ¬ e.Writes i) → ∀ B, m B i = t.view i

theorem SessInv.start (ht : t.Inv C) : SessInv C k P t [] (Ser.fromStorage t) fun _ => t.view := by
  refine ⟨RelAll.init ht, Nat.le_refl _, by simp, .nil, ?_, by simp, by simp, ?_, fun _ _ _ _ => rfl⟩
  · intro x hx
    have : (Ser.fromStorage t).ptrs.entries = [] := entries_new
    rw [this] at hx; cases hx
  · intro es1 e es2 he; simp at he

theorem SessInv.step {es : List Ev} {s s' : Ser} {m m' : Nat → Mem} {a : Act} {res : Option Nat} (h : SessInv C k P t es s m)
    (hl : a.Legal C P es s) (hs : StepPost C k P ⟨a, res, s.sto.vec.pos, s'.sto.vec.pos⟩ s m s' m') :
    SessInv C k P t (es ++ [⟨a, res, s.sto.vec.pos, s'.sto.vec.pos⟩]) s' m' := by
  have hp := hs.pos
  have hw : ∀ e ∈ es, e.act.IsValue → ∀ i, e.lo ≤ i → i < e.hi → ¬ Ev.Writes ⟨a, res, s.sto.vec.pos, s'.sto.vec.pos⟩ i := by
    rintro e he hv i h1 h2 ⟨p, L, len, d, ha, h3, h4⟩
    simp only at ha
    subst ha
    have := hl.2.2 p L len d rfl e he hv
    omega
  refine ⟨hs.rel, Nat.le_trans h.pos hp, ?_, ?_, ?_, ?_, ?_, ?_, ?_⟩
  · intro e he
    rcases List.mem_append.1 he with he | he
    · obtain ⟨h1, h2, h3⟩ := h.bounds e he
      exact ⟨h1, h2, Nat.le_trans h3 hp⟩
    · obtain rfl := List.mem_singleton.1 he
      exact ⟨h.pos, hp, Nat.le_refl _⟩
  · rw [List.pairwise_append]
    refine ⟨h.order, List.pairwise_singleton _ _, ?_⟩
    intro e he e' he'
    obtain rfl := List.mem_singleton.1 he'
    exact (h.bounds e he).2.2
  · intro x hx
    rcases hs.ents x hx with hx | ⟨hv, hx'⟩
    · obtain ⟨e, he, h1⟩ := h.ents x hx
      exact ⟨e, List.mem_append_left _ he, h1⟩
    · exact ⟨_, List.mem_append_right _ (List.mem_singleton.2 rfl), hv, hx', ((hs.rel.1 0).bound x hx).1⟩
  · intro e he
    rcases List.mem_append.1 he with he | he
    · refine (h.left e he).congr fun hv B i h1 h2 => hs.frame B i ?_ (hw e he hv i h1 h2)
      have := (h.bounds e he).2.2
      omega
    · obtain rfl := List.mem_singleton.1 he
      exact hs.left
  · intro e he
    rcases List.mem_append.1 he with he | he
    · exact h.failed e he
    · obtain rfl := List.mem_singleton.1 he
      exact hs.failed
  · intro es1 e es2 he i c hi hput hn B
    rcases List.eq_nil_or_concat es2 with rfl | ⟨es3, e', rfl⟩
    · obtain ⟨rfl, h2⟩ := List.append_inj' he rfl
      simp only [List.cons.injEq, and_true] at h2
      subst h2
      exact hs.puts i c hi hput B
    · rw [List.concat_eq_append, ← List.cons_append, ← List.append_assoc] at he
      obtain ⟨rfl, h2⟩ := List.append_inj' he rfl
      simp only [List.cons.injEq, and_true] at h2
      subst h2
      have h3 := h.bounds e (by simp)
      rw [hs.frame B i (by omega) (hn _ (by simp))]
      exact h.puts es1 e es3 rfl i c hi hput (fun x hx => hn x (by simp [hx])) B
  · intro i hi hn B
    rw [hs.frame B i (by have := h.pos; omega) (hn _ (by simp))]
    exact h.before i hi (fun e he => hn e (by simp [he])) B

/-- What a legal step does. -/
theorem act_step (hC : C.OK) (hP : P.WF C.arch) (hacc : P.Accepted C) {es : List Ev} {s : Ser} {m : Nat → Mem} (h : SessInv C k P t es s m)
    {a : Act} (hl : a.Legal C P es s) {fuel : Nat} (hne : M.caught (a.run C k P fuel) s ≠ .fuel) :
    (M.caught (a.run C k P fuel) s).Sat
      (fun res s' => ∃ m', StepPost C k P ⟨a, res, s.sto.vec.pos, s'.sto.vec.pos⟩ s m s' m') (fun _ _ => False) (¬ C.NeverFails) := by
  cases a with
  | typed r =>
    refine (typed_step hC hP hacc hl h.rel (fuel := fuel) ?_).mono (fun res s' h1 => h1) (fun _ _ h => h) id
    intro he
    apply hne
    unfold M.caught
    simp only [Act.run, he]
  | user r =>
    refine (userCall_sat hC k hl h.rel).mono (fun res s' h1 => ?_) (fun _ _ h => h) id
    obtain ⟨m', h1⟩ := h1
    exact ⟨m', h1.step⟩
  | sto o =>
    have hI := (h.rel.1 0).inv
    have hdj : ∀ x ∈ s.ptrs.entries, ∀ j < C.arch.ptrBytes, ¬ o.In (x.2 + j) := by
      rintro x hx j hj ⟨p, L, len, d, rfl, h1, h2⟩
      obtain ⟨e, he, hv, h3, h4⟩ := h.ents x hx
      have := hl.2.2 p L len d rfl e he hv
      omega
    have hsat : (M.caught (Ser.lift (o.run C)) s).Sat (fun _ _ => True) (fun _ _ => False) (¬ C.NeverFails) := by
      refine sat_caught (sat_lift.2 ((step_sat hC hI hl.1).mono ?_ ?_ id))
      · intro _ _ _; trivial
      · intro _ _ _; trivial
    simp only [Act.run] at hne ⊢
    cases hr : M.caught (Ser.lift (o.run C)) s with
    | ok res s' =>
      exact sto_step (P := P) hC h.rel hl.1 hl.2.1 hdj hr
    | panic pk s' => rw [hr] at hsat; exact hsat
    | abort => rw [hr] at hsat; exact hsat
    | ub => rw [hr] at hsat; exact hsat
    | fuel => rw [hr] at hsat; exact hsat

/-- A legal step leaves a good state. -/
theorem act_sat (hC : C.OK) (hP : P.WF C.arch) (hacc : P.Accepted C) {es : List Ev} {s : Ser} {m : Nat → Mem} (h : SessInv C k P t es s m)
    {a : Act} (hl : a.Legal C P es s) {fuel : Nat} (hne : M.caught (a.run C k P fuel) s ≠ .fuel) :
    (M.caught (a.run C k P fuel) s).Sat
      (fun res s' => ∃ m', SessInv C k P t (es ++ [⟨a, res, s.sto.vec.pos, s'.sto.vec.pos⟩]) s' m') (fun _ _ => False) (¬ C.NeverFails) :=
  (act_step hC hP hacc h hl hne).mono (fun _ _ ⟨m', h1⟩ => ⟨m', h.step hl h1⟩) (fun _ _ h => h) id

theorem Sess.inv (hC : C.OK) (hP : P.WF C.arch) (hacc : P.Accepted C) (ht : t.Inv C) {es : List Ev} {s : Ser} (h : Sess C k P t es s) :
    ∃ m, SessInv C k P t es s m := by
  induction h with
  | start => exact ⟨_, .start ht⟩
  | step _ hl hr ih =>
    obtain ⟨m, ih⟩ := ih
    have := act_sat hC hP hacc ih hl (by rw [hr]; simp)
    rw [hr] at this
    exact this

theorem GReach.inv (hC : C.OK) (hP : P.WF C.arch) (hacc : P.Accepted C) (h : GReach C P t) : t.Inv C := by
  induction h with
  | new => exact Sto.new_inv C
  | withCapacity _ h =>
    have := withCapacity_sat hC ‹_›
    rw [h] at this; exact this.inv
  | op _ hl hr ih => have := step_sat hC ih hl; rw [hr] at this; exact this.inv
  | opPanic _ hl hr ih => have := step_sat hC ih hl; rw [hr] at this; exact this.inv
  | @finished _ k _ _ _ _ hs hf ih =>
    obtain ⟨m, h⟩ := hs.inv hC hP hacc ih
    obtain ⟨s2, e1, _, e3, _⟩ := finalize_ok hC k (h.rel.1 _) h.rel.2
    rw [hf] at e1
    cases e1
    exact e3
  | dropped _ hs ih =>
    obtain ⟨m, h⟩ := hs.inv hC hP hacc ih
    exact (h.rel.1 0).inv

/-- What is left after `finalize`: contents that hold what the events left. -/
def Ended (C : Cfg) (k : Kind) (P : Prog) (t : Sto) (es : List Ev) (s s' : Ser) : Prop :=
  ∃ m, SessInv C k P t es s m ∧ s'.sto.Inv C ∧ s'.sto.vec = s.sto.vec ∧
    (∀ i < s'.sto.vec.pos, s'.sto.bytes i = m s'.sto.vec.ptr i ∧ s'.sto.buffer (s'.sto.vec.ptr + i) = m s'.sto.vec.ptr i)

theorem SessInv.ended (hC : C.OK) {es : List Ev} {s s' : Ser} {m : Nat → Mem} (h1 : SessInv C k P t es s m)
    (hf : finalize C k s = .ok () s') : Ended C k P t es s s' := by
  obtain ⟨s2, e1, e2, e3, e4, _⟩ := finalize_ok hC k (h1.rel.1 s.sto.vec.ptr) h1.rel.2
  rw [hf] at e1
  cases e1
  refine ⟨m, h1, e3, e2, fun i hi => ?_⟩
  have := e3.pos_le
  have e : s'.sto.w.load (s'.sto.vec.ptr + i) = m s'.sto.vec.ptr i := by
    rw [load_eq_view e3.toWInv (by omega), e4, e2]
  unfold Sto.bytes Sto.buffer
  rw [if_pos hi, if_pos (by omega)]
  exact ⟨e, e⟩

/-- After `finalize`. -/
theorem Sess.final (hC : C.OK) (hP : P.WF C.arch) (hacc : P.Accepted C) (ht : t.Inv C) {es : List Ev} {s s' : Ser} (h : Sess C k P t es s)
    (hf : finalize C k s = .ok () s') :
    ∃ m, SessInv C k P t es s m ∧ s'.sto.Inv C ∧ s'.sto.vec = s.sto.vec ∧
      (∀ i < s'.sto.vec.pos, s'.sto.bytes i = m s'.sto.vec.ptr i ∧ s'.sto.buffer (s'.sto.vec.ptr + i) = m s'.sto.vec.ptr i) := by
  obtain ⟨m, h1⟩ := h.inv hC hP hacc ht
  exact h1.ended hC hf

end
end SerRaw
