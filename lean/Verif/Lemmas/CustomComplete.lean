import Verif.Spec.CustomComplete
import Verif.Lemmas.CustomSerializer
import Verif.Lemmas.Finalize
/-
Derived serializers of kind `complete` over any conforming contiguous storage produce the reference output (Spec/Ideal.lean), up to
relocation of recorded pointers; `finalize` relocates them.
-/
namespace SerRaw

namespace ContigImpl
variable {σ : Type} {I : ContigImpl σ} {Inv : σ → Prop} {content : σ → Mem}

/-- The reference mode for final buffer address `B`. -/
abbrev cmode (B : Nat) : Mode := Kind.complete.mode B

/-- The storage's contents extend the reference contents `m` for final buffer address `B`: recorded pointers hold the same target relative to the
address at which they were written, every other byte of `m` is stored. -/
structure CRel (I : ContigImpl σ) (Inv : σ → Prop) (content : σ → Mem) (B : Nat) (s : CSer σ) (m : Mem) : Prop where
  inv : Inv s.sto
  dvd : I.C.valueAlign ∣ I.pos s.sto
  bound : ∀ e ∈ s.ptrs.entries, e.2 + I.C.arch.ptrBytes ≤ I.pos s.sto ∧ I.C.arch.ptrBytes ∣ e.2 ∧ I.C.arch.ptrBytes ≤ I.C.maxValueAlign
  nodup : (s.ptrs.entries.map (·.2)).Nodup
  word : ∀ e ∈ s.ptrs.entries, ∃ w, readWord I.C.arch (content s.sto) e.2 = some w ∧
    readWord I.C.arch m e.2 = some (wrappingAdd I.C.arch w (wrappingSub I.C.arch B e.1))
  rest : ∀ i b, (∀ e ∈ s.ptrs.entries, i < e.2 ∨ e.2 + I.C.arch.ptrBytes ≤ i) → m i = some b → content s.sto i = some b
  fresh : ∀ i, I.pos s.sto ≤ i → m i = none

/-- What is stored below `lo` stays, the position does not go back, and pointers are recorded at `lo` or later only. -/
structure CKept (I : ContigImpl σ) (Inv : σ → Prop) (content : σ → Mem) (lo : Nat) (s s' : CSer σ) : Prop where
  inv : Inv s'.sto
  dvd : I.C.valueAlign ∣ I.pos s'.sto
  pos : I.pos s.sto ≤ I.pos s'.sto
  below : ∀ i < lo, content s'.sto i = content s.sto i
  ents : ∃ new, s'.ptrs.entries = s.ptrs.entries ++ new ∧ ∀ e ∈ new, lo ≤ e.2

theorem CKept.trans {lo : Nat} {s s1 s2 : CSer σ} (h1 : CKept I Inv content lo s s1) (h2 : CKept I Inv content lo s1 s2) :
    CKept I Inv content lo s s2 := by
  obtain ⟨n1, a1, b1⟩ := h1.ents
  obtain ⟨n2, a2, b2⟩ := h2.ents
  refine ⟨h2.inv, h2.dvd, Nat.le_trans h1.pos h2.pos, fun i hi => (h2.below i hi).trans (h1.below i hi),
    n1 ++ n2, by rw [a2, a1, List.append_assoc], fun e he => ?_⟩
  rcases List.mem_append.1 he with he | he
  · exact b1 e he
  · exact b2 e he

theorem CKept.lower {lo lo' : Nat} {s s' : CSer σ} (h : CKept I Inv content lo s s') (hl : lo' ≤ lo) : CKept I Inv content lo' s s' := by
  obtain ⟨n, a, b⟩ := h.ents
  exact ⟨h.inv, h.dvd, h.pos, fun i hi => h.below i (by omega), n, a, fun e he => Nat.le_trans hl (b e he)⟩

theorem CKept.congr {lo : Nat} {s s1 s2 : CSer σ} (h : CKept I Inv content lo s s1) (h1 : s2.sto = s1.sto) (h2 : s2.ptrs = s1.ptrs) :
    CKept I Inv content lo s s2 :=
  ⟨h1 ▸ h.inv, by rw [h1]; exact h.dvd, by rw [h1]; exact h.pos, by rw [h1]; exact h.below, by rw [h2]; exact h.ents⟩

theorem CRel.congr {B : Nat} {s s' : CSer σ} {m : Mem} (h : CRel I Inv content B s m) (h1 : s'.sto = s.sto) (h2 : s'.ptrs = s.ptrs) :
    CRel I Inv content B s' m :=
  ⟨h1 ▸ h.inv, by rw [h1]; exact h.dvd, by rw [h1, h2]; exact h.bound, by rw [h2]; exact h.nodup, by rw [h1, h2]; exact h.word,
    by rw [h1, h2]; exact h.rest, by rw [h1]; exact h.fresh⟩

theorem CKept.refl {lo : Nat} {s : CSer σ} (h : Inv s.sto) (hd : I.C.valueAlign ∣ I.pos s.sto) : CKept I Inv content lo s s :=
  ⟨h, hd, Nat.le_refl _, fun _ _ => rfl, [], by simp, by simp⟩

theorem sat_clift {α} {x : M σ α} {s : CSer σ} {Q : α → CSer σ → Prop} {R : PanicKind → CSer σ → Prop} {Ab : Prop} :
    (CSer.lift x s).Sat Q R Ab ↔
      (x s.sto).Sat (fun a t => Q a { s with sto := t }) (fun k t => R k { s with sto := t }) Ab := by
  unfold CSer.lift; cases x s.sto <;> simp

theorem clift_ok {α} {x : M σ α} {s : CSer σ} {a : α} {t : σ} (h : x s.sto = .ok a t) :
    CSer.lift x s = .ok a { s with sto := t } := by unfold CSer.lift; rw [h]

/-- How a run that ran out of room leaves the serializer. -/
def CStop (I : ContigImpl σ) (Inv : σ → Prop) (content : σ → Mem) (lo : Nat) (s : CSer σ) (pk : PanicKind) (s' : CSer σ) : Prop :=
  pk = .capacity ∧ CKept I Inv content lo s s'

/-- … and if the storage's `reserve` is exact, the reference output would have ended (at `ub`) beyond `MAX_CAPACITY`. -/
def CFull (I : ContigImpl σ) (Inv : σ → Prop) (content : σ → Mem) (ub lo : Nat) (s : CSer σ) (pk : PanicKind) (s' : CSer σ) : Prop :=
  CStop I Inv content lo s pk s' ∧ (I.Exact Inv → I.C.maxCapacity < ub)

/-- … and what it holds: contents `m'` that are as `m` below `lo`. -/
def CHalt (I : ContigImpl σ) (Inv : σ → Prop) (content : σ → Mem) (ub B : Nat) (m : Mem) (lo : Nat) (s : CSer σ) (pk : PanicKind) (s' : CSer σ) : Prop :=
  pk = .capacity ∧ CKept I Inv content lo s s' ∧ (I.Exact Inv → I.C.maxCapacity < ub) ∧ ∃ m', CRel I Inv content B s' m' ∧ ∀ i < lo, m' i = m i

theorem CHalt.from {ub ub' B lo lo' : Nat} {m m1 : Mem} {s s1 s2 : CSer σ} {pk : PanicKind} (h1 : CKept I Inv content lo s s1) (hm : ∀ i < lo, m1 i = m i)
    (h2 : CHalt I Inv content ub B m1 lo' s1 pk s2) (hl : lo ≤ lo') (hu : ub ≤ ub') : CHalt I Inv content ub' B m lo s pk s2 := by
  obtain ⟨a, b, hx, m', c, d⟩ := h2
  exact ⟨a, h1.trans (b.lower hl), fun h => Nat.lt_of_lt_of_le (hx h) hu, m', c, fun i hi => (d i (by omega)).trans (hm i hi)⟩

theorem CHalt.wide {ub ub' B lo : Nat} {m : Mem} {s s' : CSer σ} {pk : PanicKind} (h : CHalt I Inv content ub B m lo s pk s') (hu : ub ≤ ub') :
    CHalt I Inv content ub' B m lo s pk s' :=
  ⟨h.1, h.2.1, fun hx => Nat.lt_of_lt_of_le (h.2.2.1 hx) hu, h.2.2.2⟩

/-- The storage grew. -/
theorem CRel.grow {B : Nat} {s : CSer σ} {m : Mem} (hr : CRel I Inv content B s m) {t : σ} (hI : Inv t) (hd : I.C.valueAlign ∣ I.pos t)
    (hp : I.pos s.sto ≤ I.pos t) (hb : ∀ i < I.pos s.sto, content t i = content s.sto i) : CRel I Inv content B { s with sto := t } m := by
  refine ⟨hI, hd, fun e he => ?_, hr.nodup, fun e he => ?_, fun i b hi hb' => ?_, fun i hi => hr.fresh i (by simp only at hi; omega)⟩
  · obtain ⟨b1, b2, b3⟩ := hr.bound e he
    exact ⟨by simp only; omega, b2, b3⟩
  · obtain ⟨b1, _, _⟩ := hr.bound e he
    obtain ⟨w, w1, w2⟩ := hr.word e he
    exact ⟨w, by rw [← w1]; exact readWord_congr fun i hi => hb _ (by omega), w2⟩
  · have hlt : i < I.pos s.sto := by
      apply Nat.lt_of_not_le; intro hle
      rw [hr.fresh i hle] at hb'; cases hb'
    simp only
    rw [hb i hlt]
    exact hr.rest i b hi hb'

/-- A push. -/
theorem Conforms.cpush (h : I.Conforms Inv content) {B : Nat} {s : CSer σ} {m : Mem} (hr : CRel I Inv content B s m) {L : Layout} {len src : Nat}
    (ho : PushOK I.C L len src) (hL : L.OK) (hlen : 0 < len ∨ 0 < I.pos s.sto) (data : Nat → Cell) {lo : Nat} (hlo : lo ≤ I.pos s.sto) :
    (CSer.lift (I.pushSlice L len data) s).Sat
      (fun p s' => p = roundUp (I.pos s.sto) L.align ∧ s'.map = s.map ∧ s'.ptrs = s.ptrs ∧
        I.pos s'.sto = roundUp (p + L.size * len) I.C.valueAlign ∧
        CRel I Inv content B s' (m.blit p (L.size * len) data) ∧ CKept I Inv content lo s s')
      (CHalt I Inv content (roundUp (roundUp (I.pos s.sto) L.align + L.size * len) I.C.valueAlign) B m lo s) (¬ I.NeverAborts Inv) := by
  have hS := h.random.storage
  have F := hS.facts
  rw [sat_clift]
  refine (h.random.pushSlice_exact (data := data) hr.inv hr.dvd hL ho.size_ne ho.align_le ho.size_le ?_).mono ?_ ?_ id
  · rcases hlen with hh | hh
    · exact Or.inl hh
    · have := hS.pos_le _ hr.inv; exact Or.inr (Or.inl (by omega))
  · rintro p t ⟨i1, hp, hend, hcap, hdata, hbelow⟩
    have hge := le_roundUp (I.pos s.sto) ho.pow2.pos
    have hge2 := le_roundUp (p + L.size * len) F.va.pos
    have hdvd : I.C.valueAlign ∣ I.pos t := by rw [hend]; exact dvd_roundUp _ _
    refine ⟨hp, rfl, rfl, hend, ⟨i1, hdvd, ?_, hr.nodup, ?_, ?_, ?_⟩, ⟨i1, hdvd, by simp only; omega, fun i hi => hbelow i (by omega), [], by simp, by simp⟩⟩
    · intro e he
      obtain ⟨b1, b2, b3⟩ := hr.bound e he
      exact ⟨by simp only; omega, b2, b3⟩
    · intro e he
      obtain ⟨b1, _, _⟩ := hr.bound e he
      obtain ⟨w, w1, w2⟩ := hr.word e he
      refine ⟨w, ?_, ?_⟩
      · rw [← w1]; exact readWord_congr fun i hi => hbelow _ (by omega)
      · rw [readWord_blit_disj (by omega)]; exact w2
    · intro i b hi hb
      simp only
      by_cases hin : p ≤ i ∧ i < p + L.size * len
      · have := hdata (i - p) (by omega)
        rw [show p + (i - p) = i by omega] at this
        rw [this]
        rw [show i = p + (i - p) by omega, blit_at (by omega)] at hb
        exact hb
      · rw [blit_out (by omega)] at hb
        have hlt : i < I.pos s.sto := by
          apply Nat.lt_of_not_le; intro hle
          rw [hr.fresh i hle] at hb; cases hb
        rw [hbelow i hlt]
        exact hr.rest i b hi hb
    · intro i hi
      simp only at hi
      rw [blit_out (by omega)]
      exact hr.fresh i (by omega)
  · rintro k t ⟨hk, i1, hd1, hp1, hb1, hx1⟩
    exact ⟨hk, ⟨i1, hd1, hp1, fun i hi => hb1 i (by omega), [], by simp, by simp⟩,
      fun hx => Nat.lt_of_lt_of_le (hx1 hx) (le_roundUp _ F.va.pos), m, hr.grow i1 hd1 hp1 hb1, fun _ _ => rfl⟩

/-- Rewriting cells of both away from recorded pointers. -/
theorem CRel.write {B : Nat} {s : CSer σ} {m : Mem} (hr : CRel I Inv content B s m) {x n : Nat} {data : Nat → Cell} {t : σ} (hI : Inv t)
    (hp : I.pos t = I.pos s.sto) (hx : x + n ≤ I.pos s.sto) (hdata : ∀ i < n, content t (x + i) = data i)
    (hother : ∀ i < I.pos s.sto, i < x ∨ x + n ≤ i → content t i = content s.sto i)
    (hd : ∀ e ∈ s.ptrs.entries, DisjRange e.2 I.C.arch.ptrBytes x n) : CRel I Inv content B { s with sto := t } (m.blit x n data) := by
  refine ⟨hI, by simp only [hp]; exact hr.dvd, by simp only [hp]; exact hr.bound, hr.nodup, ?_, ?_, ?_⟩
  · intro e he
    obtain ⟨b1, _, _⟩ := hr.bound e he
    obtain ⟨w, w1, w2⟩ := hr.word e he
    have hdj := hd e he
    unfold DisjRange at hdj
    refine ⟨w, ?_, ?_⟩
    · rw [← w1]; exact readWord_congr fun i hi => hother _ (by omega) (by omega)
    · rw [readWord_blit_disj (by omega)]; exact w2
  · intro i b hi hb
    simp only
    by_cases hin : x ≤ i ∧ i < x + n
    · have := hdata (i - x) (by omega)
      rw [show x + (i - x) = i by omega] at this
      rw [this]
      rw [show i = x + (i - x) by omega, blit_at (by omega)] at hb
      exact hb
    · rw [blit_out (by omega)] at hb
      have hlt : i < I.pos s.sto := by
        apply Nat.lt_of_not_le; intro hle
        rw [hr.fresh i hle] at hb; cases hb
      rw [hother i hlt (by omega)]
      exact hr.rest i b hi hb
  · intro i hi
    simp only [hp] at hi
    rw [blit_out (by omega)]
    exact hr.fresh i hi

/-- Writing a pointer. -/
theorem Conforms.coverwritePtr (h : I.Conforms Inv content) {B : Nat} {s : CSer σ} {m : Mem} (hr : CRel I Inv content B s m) {x target lo : Nat}
    (hx : x + I.C.arch.ptrBytes ≤ I.pos s.sto) (hxd : I.C.arch.ptrBytes ∣ x) (hpm : I.C.arch.ptrBytes ≤ I.C.maxValueAlign)
    (ht : target ≤ I.pos s.sto) (hlo : lo ≤ x) (hd : ∀ e ∈ s.ptrs.entries, DisjRange e.2 I.C.arch.ptrBytes x I.C.arch.ptrBytes) :
    ∃ s', CSer.doOverwritePtr I x target s = .ok () s' ∧ s'.map = s.map ∧ I.pos s'.sto = I.pos s.sto ∧
      CRel I Inv content B s' (m.blit x I.C.arch.ptrBytes (wordCells I.C.arch (B + target))) ∧ CKept I Inv content lo s s' ∧
      ∀ e ∈ s'.ptrs.entries, e ∈ s.ptrs.entries ∨ e.2 = x := by
  have hS := h.random.storage
  have hpl := hS.pos_le _ hr.inv
  have hpp := hS.arch.ptr_pos
  have hfit := h.fits _ hr.inv
  obtain ⟨t, e, i1, p1, c1, hdata, hother⟩ := h.random.writeSlice s.sto x ⟨I.C.arch.ptrBytes, I.C.arch.ptrBytes⟩ 1
    (wordCells I.C.arch (I.asPtr s.sto + target)) hr.inv ⟨hS.arch.ptr_pow2, Nat.dvd_refl _⟩ (by simp only; omega) hpm Nat.one_pos
    (by simp only; omega) hxd
  simp only [Nat.mul_one] at hdata hother
  refine ⟨{ s with sto := t, ptrs := recordPtr s.ptrs (I.asPtr s.sto) x }, ?_, rfl, p1, ?_, ?_, ?_⟩
  · unfold CSer.doOverwritePtr
    rw [bind_ok (show CSer.getCapacity I.toStorageImpl s = .ok (I.capacity s.sto) s from rfl), bind_ok (debugAssertM_ok _ ?_),
      bind_ok (debugAssertM_ok _ ?_), bind_ok (debugAssert_true _ (decide_eq_true (by omega)) s), bind_ok (show M.get s = .ok s s from rfl),
      bind_ok (uadd_ok I.C.arch (by omega) s), bind_ok (clift_ok (t := t) (by unfold RandomImpl.write; exact e))]
    · rfl
    · intro _; rw [isAlignedTo_ok hS.arch.ptr_pow2, decide_eq_true hxd]
    · intro _
      rw [bind_ok (usub_ok _ (by omega) s)]; simp only [pure_run]; rw [decide_eq_true]; omega
  · refine ⟨i1, by simp only [p1]; exact hr.dvd, ?_, ?_, ?_, ?_, ?_⟩
    · intro e he
      simp only [entries_record, List.mem_append, List.mem_singleton] at he
      simp only [p1]
      rcases he with he | rfl
      · exact hr.bound e he
      · exact ⟨hx, hxd, hpm⟩
    · simp only [entries_record, List.map_append, List.map_cons, List.map_nil]
      rw [List.nodup_append]
      refine ⟨hr.nodup, by simp, ?_⟩
      intro a ha b hb
      simp only [List.mem_singleton] at hb
      subst hb
      obtain ⟨e, he, rfl⟩ := List.mem_map.1 ha
      have := hd e he
      unfold DisjRange at this
      intro heq
      omega
    · intro e he
      simp only [entries_record, List.mem_append, List.mem_singleton] at he
      rcases he with he | rfl
      · obtain ⟨b1, _, _⟩ := hr.bound e he
        obtain ⟨w, hw1, hw2⟩ := hr.word e he
        have hdj := hd e he
        unfold DisjRange at hdj
        refine ⟨w, ?_, ?_⟩
        · rw [← hw1]; exact readWord_congr fun i hi => hother _ (by omega) (by omega)
        · rw [readWord_blit_disj (by omega)]; exact hw2
      · refine ⟨(I.asPtr s.sto + target) % I.C.arch.usizeMod, ?_, ?_⟩
        · rw [← readWord_blit_same (A := I.C.arch) (m := m) (a := x)]
          exact readWord_congr fun i hi => by rw [hdata i hi, blit_at hi]
        · rw [readWord_blit_same, wrap_shift I.C.arch (by omega)]
    · intro i b hi hb
      simp only [entries_record, List.mem_append, List.mem_singleton] at hi
      have h2 := hi _ (Or.inr rfl)
      simp only at h2
      rw [blit_out h2] at hb
      have hlt : i < I.pos s.sto := by
        apply Nat.lt_of_not_le; intro hle
        rw [hr.fresh i hle] at hb; cases hb
      simp only
      rw [hother i hlt h2]
      exact hr.rest i b (fun e he => hi e (Or.inl he)) hb
    · intro i hi
      simp only [p1] at hi
      rw [blit_out (by omega)]
      exact hr.fresh i hi
  · refine ⟨i1, by simp only [p1]; exact hr.dvd, by simp only [p1]; exact Nat.le_refl _, fun i hi => hother i (by omega) (by omega), [(I.asPtr s.sto, x)], entries_record _ _ _, ?_⟩
    intro e he
    rw [List.mem_singleton] at he
    subst he; exact hlo
  · intro e he
    simp only [entries_record, List.mem_append, List.mem_singleton] at he
    rcases he with he | rfl
    · exact Or.inl he
    · exact Or.inr rfl

/-- A correction. -/
theorem Conforms.coverwrite (h : I.Conforms Inv content) {B : Nat} {s : CSer σ} {m : Mem} (hr : CRel I Inv content B s m) {ia op a lo : Nat} {L : Layout}
    (data : Nat → Cell) (hz : L.size ≠ 0) (hL : L.OK) (hmap : s.map = ⟨ia, op⟩) (hia : ia ≤ a) (hx : outPos ia op a + L.size ≤ I.pos s.sto)
    (hxd : L.align ∣ outPos ia op a) (hpm : L.align ≤ I.C.maxValueAlign) (hlo : lo ≤ outPos ia op a)
    (hd : ∀ e ∈ s.ptrs.entries, DisjRange e.2 I.C.arch.ptrBytes (outPos ia op a) L.size) :
    ∃ s', CSer.overwrite I a L data s = .ok () s' ∧ s'.map = s.map ∧ s'.ptrs = s.ptrs ∧ I.pos s'.sto = I.pos s.sto ∧
      CRel I Inv content B s' (m.blit (outPos ia op a) L.size data) ∧ CKept I Inv content lo s s' := by
  have hS := h.random.storage
  have hpl := hS.pos_le _ hr.inv
  have := hS.cap_le _ hr.inv; have := hS.facts.max_lt
  obtain ⟨t, e, i1, p1, c1, hdata, hother⟩ := h.random.writeSlice s.sto (outPos ia op a) L 1 data hr.inv hL hz hpm Nat.one_pos
    (by simp only [Nat.mul_one]; omega) hxd
  simp only [Nat.mul_one] at hdata hother
  refine ⟨{ s with sto := t }, ?_, rfl, rfl, p1, hr.write i1 p1 hx hdata hother hd,
    ⟨i1, by simp only [p1]; exact hr.dvd, by simp only [p1]; exact Nat.le_refl _, fun i hi => hother i (by omega) (by omega), [], by simp, by simp⟩⟩
  unfold CSer.overwrite
  rw [bind_ok (show CSer.getMap s = .ok ⟨ia, op⟩ s from by rw [← hmap]; rfl),
    bind_ok (posForAddr_ok I.C.arch hia (by unfold outPos at hx; omega) s)]
  exact clift_ok (by unfold RandomImpl.write; exact e)

/-- A push followed by writing the pointer to it. -/
theorem Conforms.cpushPtr (h : I.Conforms Inv content) {B : Nat} {s : CSer σ} {m : Mem} (hr : CRel I Inv content B s m) {c : Ctx} {op : Nat}
    {L : Layout} {len src ptr : Nat} (ho : PushOK I.C L len src) (hL : L.OK) (ht : TouchOK I.C c ptr I.C.arch.ptrBytes)
    (hin : op + c.sz ≤ I.pos s.sto) (hpp : 0 < I.pos s.sto) (hal : c.al ∣ op) (hal0 : 0 < c.al) (hale : c.al ≤ I.C.maxValueAlign)
    (hd : ∀ e ∈ s.ptrs.entries, DisjRange e.2 I.C.arch.ptrBytes (outPos c.ia op ptr) I.C.arch.ptrBytes)
    (data : Nat → Cell) {α : Type} (f : Nat → M (CSer σ) α) {Q : α → CSer σ → Prop} {ub : Nat}
    (hub : roundUp (roundUp (I.pos s.sto) L.align + L.size * len) I.C.valueAlign ≤ ub)
    (hf : ∀ s1 : CSer σ, s1.map = s.map → I.pos s1.sto = roundUp (roundUp (I.pos s.sto) L.align + L.size * len) I.C.valueAlign →
      CRel I Inv content B s1 ((cmode B).putPtr I.C.arch (m.blit (roundUp (I.pos s.sto) L.align) (L.size * len) data) (outPos c.ia op ptr)
        (roundUp (I.pos s.sto) L.align)) →
      CKept I Inv content op s s1 → (∀ e ∈ s1.ptrs.entries, e ∈ s.ptrs.entries ∨ e.2 = outPos c.ia op ptr) →
      (f (roundUp (I.pos s.sto) L.align) s1).Sat Q (CHalt I Inv content ub B m op s) (¬ I.NeverAborts Inv)) :
    ((CSer.lift (I.pushSlice L len data) >>= fun pos => PosMapping.posForAddr I.C.arch ⟨c.ia, op⟩ ptr >>= fun pp =>
      CSer.doOverwritePtr I pp pos >>= fun _ => f pos) s).Sat Q (CHalt I Inv content ub B m op s) (¬ I.NeverAborts Inv) := by
  have hS := h.random.storage
  have F := hS.facts
  have hlo := ht.lo; have hhi := ht.hi
  have hge := le_roundUp (I.pos s.sto) ho.pow2.pos
  rw [sat_bind]
  refine (h.cpush hr ho hL (Or.inr hpp) data (lo := op) (by omega)).mono ?_ (fun _ _ hh => hh.wide hub) id
  rintro p s1 ⟨rfl, hm1, hs1, hp1, hr1, hk1⟩
  have hge2 := le_roundUp (roundUp (I.pos s.sto) L.align + L.size * len) F.va.pos
  have hpl := hS.pos_le _ hr.inv; have := hS.cap_le _ hr.inv; have := F.max_lt
  rw [bind_ok (posForAddr_ok I.C.arch hlo (by omega) s1)]
  obtain ⟨s2, e2, hm2, hp2, hr2, hk2, he2⟩ := h.coverwritePtr (lo := op) hr1 (x := outPos c.ia op ptr) (target := roundUp (I.pos s.sto) L.align)
    (by unfold outPos; omega) (Nat.dvd_add (Nat.dvd_trans ht.al hal) ht.off) (Nat.le_trans (Nat.le_of_dvd hal0 ht.al) hale)
    (by omega) (outPos_ge _ _ _) (by rw [hs1]; exact hd)
  rw [bind_ok e2]
  exact hf s2 (hm2.trans hm1) (hp2.trans hp1) hr2 (hk1.trans hk2) (by rw [← hs1]; exact he2)

/-- Running a well-formed script gives the reference output, up to relocation. -/
theorem Conforms.runC (h : I.Conforms Inv content) {B : Nat} {im : Mem} (sc : Script) {c : Ctx} {op : Nat} {s : CSer σ} {m : Mem}
    (hr : CRel I Inv content B s m) (hwf : sc.WF I.C c) (hty : sc.RealTypes) (hov : sc.RealOverwrites) (hmap : s.map = ⟨c.ia, op⟩)
    (hin : op + c.sz ≤ I.pos s.sto) (hpp : 0 < I.pos s.sto) (hal : c.al ∣ op) (hal0 : 0 < c.al) (hale : c.al ≤ I.C.maxValueAlign)
    (hd : ∀ e ∈ s.ptrs.entries, ∀ t ∈ sc.touch I.C.arch, DisjRange e.2 I.C.arch.ptrBytes (outPos c.ia op t.1) t.2) :
    (sc.runC I im s).Sat
      (fun _ s' => CRel I Inv content B s' (sc.ideal I.C.arch I.C.valueAlign (cmode B) im c.ia op (m, I.pos s.sto)).1 ∧
        I.pos s'.sto = (sc.ideal I.C.arch I.C.valueAlign (cmode B) im c.ia op (m, I.pos s.sto)).2 ∧ s'.map = s.map ∧
        CKept I Inv content op s s')
      (CHalt I Inv content (sc.ideal I.C.arch I.C.valueAlign (cmode B) im c.ia op (m, I.pos s.sto)).2 B m op s) (¬ I.NeverAborts Inv) := by
  have F := h.random.storage.facts
  have hva := F.va.pos
  induction sc generalizing c op s m with
  | done => exact ⟨hr, rfl, rfl, .refl hr.inv hr.dvd⟩
  | pushRaw L len src rest ih =>
    obtain ⟨ho, hw⟩ := hwf
    obtain ⟨hL, hty⟩ := hty
    simp only [Script.runC, CSer.pushRawSlice, Script.ideal]
    rw [sat_bind]
    refine (h.cpush hr ho hL (Or.inr hpp) _ (lo := op) (by omega)).mono ?_ (fun _ _ hh => hh.wide (ideal_mono hva rest hw _ _ (_, _))) id
    rintro p s1 ⟨rfl, hm1, hs1, hp1, hr1, hk1⟩
    have hk1p := hk1.pos
    have hge := le_roundUp (I.pos s.sto) ho.pow2.pos
    refine (ih hr1 hw hty hov (hm1.trans hmap) (by omega) (by omega) hal hal0 hale (by rw [hs1]; exact hd)).mono ?_
      (fun _ _ hh => CHalt.from hk1 (fun i hi => blit_out (by omega)) hh (Nat.le_refl _) (by rw [hp1])) id
    rintro _ s2 ⟨a1, a2, a3, a4⟩
    rw [hp1] at a1 a2
    exact ⟨a1, a2, a3.trans hm1, hk1.trans a4⟩
  | overwrite a L data rest ih =>
    obtain ⟨ht, hw⟩ := hwf
    obtain ⟨hL, hov⟩ := hov
    simp only [Script.runC, Script.ideal]
    have hlo := ht.lo; have hhi := ht.hi
    obtain ⟨s1, e1, hm1, hs1, hp1, hr1, hk1⟩ := h.coverwrite (lo := op) hr data ht.size_ne hL hmap hlo (by unfold outPos; omega)
      (Nat.dvd_add (Nat.dvd_trans ht.al hal) ht.off) (Nat.le_trans (Nat.le_of_dvd hal0 ht.al) hale) (outPos_ge _ _ _)
      (fun e he => hd e he (a, L.size) (by simp [Script.touch]))
    rw [bind_ok e1]
    refine (ih hr1 hw hty hov (hm1.trans hmap) (by omega) (by omega) hal hal0 hale
      (fun e he t ht => hd e (hs1 ▸ he) t (by simp [Script.touch, ht]))).mono ?_
      (fun _ _ hh => CHalt.from hk1 (fun i hi => blit_out (by have := outPos_ge c.ia op a; omega)) hh (Nat.le_refl _) (by rw [hp1]; exact Nat.le_refl _)) id
    rintro _ s2 ⟨a1, a2, a3, a4⟩
    rw [hp1] at a1 a2
    exact ⟨a1, a2, a3.trans hm1, hk1.trans a4⟩
  | push L len src ptr rest ih =>
    obtain ⟨ho, ht, hdj, hw⟩ := hwf
    obtain ⟨hL, hty⟩ := hty
    have hlo := ht.lo
    simp only [Script.runC, CSer.pushSlice, CSer.pushRawSlice, Script.ideal, bind_assoc_M, pure_bind_M]
    have hcore := h.cpushPtr hr ho hL ht hin hpp hal hal0 hale (fun e he => hd e he (ptr, I.C.arch.ptrBytes) (by simp [Script.touch]))
      (fun i => im (src + i)) (fun _ => rest.runC I im)
      (Q := fun _ s' => CRel I Inv content B s' (rest.ideal I.C.arch I.C.valueAlign (cmode B) im c.ia op
          ((cmode B).putPtr I.C.arch (m.blit (roundUp (I.pos s.sto) L.align) (L.size * len) fun i => im (src + i)) (outPos c.ia op ptr)
            (roundUp (I.pos s.sto) L.align), roundUp (roundUp (I.pos s.sto) L.align + L.size * len) I.C.valueAlign)).1 ∧
        I.pos s'.sto = (rest.ideal I.C.arch I.C.valueAlign (cmode B) im c.ia op
          ((cmode B).putPtr I.C.arch (m.blit (roundUp (I.pos s.sto) L.align) (L.size * len) fun i => im (src + i)) (outPos c.ia op ptr)
            (roundUp (I.pos s.sto) L.align), roundUp (roundUp (I.pos s.sto) L.align + L.size * len) I.C.valueAlign)).2 ∧
        s'.map = s.map ∧ CKept I Inv content op s s') (ideal_mono (A := I.C.arch) (md := cmode B) (im := im) hva rest hw c.ia op
          ((cmode B).putPtr I.C.arch (m.blit (roundUp (I.pos s.sto) L.align) (L.size * len) fun i => im (src + i)) (outPos c.ia op ptr)
            (roundUp (I.pos s.sto) L.align), roundUp (roundUp (I.pos s.sto) L.align + L.size * len) I.C.valueAlign)) ?_
    · rw [sat_bind] at hcore ⊢
      rw [sat_clift] at hcore ⊢
      refine hcore.mono (fun p t hh => ?_) (fun _ _ hh => hh) id
      rw [bind_ok (show CSer.getMap { s with sto := t } = .ok ⟨c.ia, op⟩ { s with sto := t } from by rw [← hmap]; rfl)]
      exact hh
    · intro s1 hm1 hp1 hr1 hk1 he1
      have hk1p := hk1.pos
      refine (ih hr1 hw hty hov (hm1.trans hmap) (by omega) (by omega) hal hal0 hale (fun e he t ht' => ?_)).mono ?_
        (fun _ _ hh => CHalt.from hk1 (fun i hi => by
          have := outPos_ge c.ia op ptr
          have := le_roundUp (I.pos s.sto) ho.pow2.pos
          rw [putPtr_out (by omega), blit_out (by omega)]) hh (Nat.le_refl _) (by rw [hp1])) id
      · rcases he1 e he with h1 | h1
        · exact hd e h1 t (by simp [Script.touch, ht'])
        · rw [h1]; exact outPos_disj hlo (hw.touchOK t ht').lo (hdj t ht')
      · rintro _ s2 ⟨a1, a2, a3, a4⟩
        rw [hp1] at a1 a2
        exact ⟨a1, a2, a3.trans hm1, hk1.trans a4⟩
  | pushProcess L len src ptr inner rest ih1 ih2 =>
    obtain ⟨ho, ht, hdj, hwi, hw⟩ := hwf
    obtain ⟨hL, hti, hty⟩ := hty
    obtain ⟨hovi, hov⟩ := hov
    have hlo := ht.lo; have hhi := ht.hi
    have hge := le_roundUp (I.pos s.sto) ho.pow2.pos
    have hge2 := le_roundUp (roundUp (I.pos s.sto) L.align + L.size * len) hva
    simp only [Script.runC, CSer.pushAndProcessSlice, Script.ideal, bind_assoc_M, pure_bind_M]
    rw [bind_ok (show CSer.getMap s = .ok s.map s from rfl), hmap]
    refine h.cpushPtr hr ho hL ht hin hpp hal hal0 hale (fun e he => hd e he (ptr, I.C.arch.ptrBytes) (by simp [Script.touch]))
      (fun i => im (src + i)) _ (Nat.le_trans (ideal_mono hva inner hwi _ _ (_, _)) (ideal_mono hva rest hw _ _ _)) ?_
    intro s1 hm1 hp1 hr1 hk1 he1
    rw [bind_ok (show CSer.setMap ⟨src, roundUp (I.pos s.sto) L.align⟩ s1 = .ok () { s1 with map := ⟨src, roundUp (I.pos s.sto) L.align⟩ } from rfl), sat_bind]
    have hr1' := hr1.congr (s' := { s1 with map := ⟨src, roundUp (I.pos s.sto) L.align⟩ }) rfl rfl
    have hk1' := hk1.congr (s2 := { s1 with map := ⟨src, roundUp (I.pos s.sto) L.align⟩ }) rfl rfl
    have hfr1 : ∀ i < op, (cmode B).putPtr I.C.arch (m.blit (roundUp (I.pos s.sto) L.align) (L.size * len) fun i => im (src + i))
        (outPos c.ia op ptr) (roundUp (I.pos s.sto) L.align) i = m i := by
      intro i hi
      have := outPos_ge c.ia op ptr
      rw [putPtr_out (by omega), blit_out (by omega)]
    have hbnd : ∀ e ∈ s1.ptrs.entries, e.2 + I.C.arch.ptrBytes ≤ I.pos s.sto := by
      intro e he
      rcases he1 e he with h1 | h1
      · exact (hr.bound e h1).1
      · rw [h1]; unfold outPos; omega
    refine (ih1 (c := ⟨src, L.size * len, L.align⟩) (op := roundUp (I.pos s.sto) L.align) hr1' hwi hti hovi rfl (by simp only; omega) (by simp only; omega)
      (dvd_roundUp _ _) ho.pow2.pos ho.align_le ?_).mono ?_ (fun _ _ hh => CHalt.from hk1' hfr1 hh (by omega)
        (by simp only [hp1]; exact ideal_mono hva rest hw _ _ _)) id
    · intro e he t' ht'
      have h1 := hbnd e he
      unfold DisjRange outPos; simp only; omega
    rintro _ s2 ⟨a1, a2, a3, a4⟩
    simp only [hp1] at a1 a2
    rw [bind_ok (show CSer.setMap ⟨c.ia, op⟩ s2 = .ok () { s2 with map := ⟨c.ia, op⟩ } from rfl)]
    have hr2 := a1.congr (s' := { s2 with map := ⟨c.ia, op⟩ }) rfl rfl
    have hk2 : CKept I Inv content op s { s2 with map := ⟨c.ia, op⟩ } := (hk1'.trans (a4.lower (by omega))).congr rfl rfl
    have hk2p := hk2.pos
    simp only at hk2p
    refine (ih2 hr2 hw hty hov rfl (by simp only; omega) (by simp only; omega) hal hal0 hale ?_).mono ?_
      (fun _ _ hh => CHalt.from hk2 (fun i hi => by
        rw [ideal_below hva inner hwi _ _ _ (by simp only; omega) (by omega)]
        exact hfr1 i hi) hh (Nat.le_refl _) (by simp only [a2]; exact Nat.le_refl _)) id
    · intro e he t' ht'
      obtain ⟨new, n1, n2⟩ := a4.ents
      simp only at he n1
      rw [n1, List.mem_append] at he
      rcases he with he | he
      · rcases he1 e he with h1 | h1
        · exact hd e h1 t' (by simp [Script.touch, ht'])
        · rw [h1]; exact outPos_disj hlo (hw.touchOK t' ht').lo (hdj t' ht')
      · have h1 := n2 e he
        have h2 := hw.touchOK t' ht'
        have h3 := h2.lo; have h4 := h2.hi
        unfold DisjRange outPos; omega
    · rintro _ s3 ⟨b1, b2, b3, b4⟩
      simp only [a2] at b1 b2
      exact ⟨b1, b2, b3, hk2.trans b4⟩

/-! ### `finalize` -/

/-- Contents `v` extend `m` except that the words at the entries `es` are still relative to the address they were written at. -/
structure CPend (A : Arch) (B : Nat) (v m : Mem) (es : List (Nat × Nat)) : Prop where
  word : ∀ e ∈ es, ∃ w, readWord A v e.2 = some w ∧ readWord A m e.2 = some (wrappingAdd A w (wrappingSub A B e.1))
  rest : ∀ i b, (∀ e ∈ es, i < e.2 ∨ e.2 + A.ptrBytes ≤ i) → m i = some b → v i = some b

/-- What correcting the entries `es` leaves as it is. -/
structure CSame (I : ContigImpl σ) (Inv : σ → Prop) (content : σ → Mem) (es : List (Nat × Nat)) (t t' : σ) : Prop where
  inv : Inv t'
  pos : I.pos t' = I.pos t
  ptr : I.asPtr t' = I.asPtr t
  other : ∀ i < I.pos t, (∀ e ∈ es, i < e.2 ∨ e.2 + I.C.arch.ptrBytes ≤ i) → content t' i = content t i

theorem CSame.trans {es fs : List (Nat × Nat)} {t t1 t2 : σ} (h1 : CSame I Inv content es t t1) (h2 : CSame I Inv content fs t1 t2) :
    CSame I Inv content (es ++ fs) t t2 :=
  ⟨h2.inv, h2.pos.trans h1.pos, h2.ptr.trans h1.ptr, fun i hi he =>
    (h2.other i (by rw [h1.pos]; exact hi) fun e hx => he e (by simp [hx])).trans (h1.other i hi fun e hx => he e (by simp [hx]))⟩

theorem CSame.refl {es : List (Nat × Nat)} {t : σ} (h : Inv t) : CSame I Inv content es t t := ⟨h, rfl, rfl, fun _ _ _ => rfl⟩

/-- An entry written at the final address needs no correction. -/
theorem CPend.skip {A : Arch} {B : Nat} {v m : Mem} {e : Nat × Nat} {es : List (Nat × Nat)} (h : CPend A B v m (e :: es))
    (he : e.1 = B) : CPend A B v m es := by
  refine ⟨fun e' he' => h.word e' (by simp [he']), fun i b hi hb => ?_⟩
  by_cases hin : e.2 ≤ i ∧ i < e.2 + A.ptrBytes
  · obtain ⟨w, h1, h2⟩ := h.word e (by simp)
    have hw := readWord_lt h1
    have hz : wrappingAdd A w (wrappingSub A B e.1) = w := by
      unfold wrappingAdd wrappingSub
      rw [he, show B + A.usizeMod - B = A.usizeMod by omega, Nat.mod_self, Nat.add_zero, Nat.mod_eq_of_lt hw]
    rw [hz] at h2
    have c1 := (readWord_some_iff.1 h1).2 (i - e.2) (by omega)
    have c2 := (readWord_some_iff.1 h2).2 (i - e.2) (by omega)
    rw [show e.2 + (i - e.2) = i by omega] at c1 c2
    rw [c1, ← c2, hb]
  · refine h.rest i b (fun e' he' => ?_) hb
    rcases List.mem_cons.1 he' with rfl | he'
    · omega
    · exact hi e' he'

/-- One pointer corrected. -/
theorem Conforms.correctPtr (h : I.Conforms Inv content) {t : σ} (hI : Inv t) {m : Mem} (hm : ∀ i, I.pos t ≤ i → m i = none) {e : Nat × Nat} {es : List (Nat × Nat)}
    (hp : CPend I.C.arch (I.asPtr t) (content t) m (e :: es)) (he : EntOK I.C (I.pos t) (e :: es)) :
    ∃ t', CSer.correctPtr I (I.asPtr t) (wrappingSub I.C.arch (I.asPtr t) e.1) e.2 t = .ok () t' ∧ CSame I Inv content [e] t t' ∧
      CPend I.C.arch (I.asPtr t) (content t') m es := by
  have hS := h.random.storage
  have hpp := hS.arch.ptr_pos
  have hpl := hS.pos_le _ hI
  obtain ⟨hb, hdv, hpm⟩ := he.bound e (by simp)
  obtain ⟨w, hw1, hw2⟩ := hp.word e (by simp)
  obtain ⟨t', h1, i1, p1, _, q1, hdata, hother⟩ := h.rawStore t e.2 (wrappingAdd I.C.arch w (wrappingSub I.C.arch (I.asPtr t) e.1)) hI hb hdv hpm
  refine ⟨t', ?_, ⟨i1, p1, q1, fun i hi ho => hother i hi (ho e (by simp))⟩, ⟨fun e' he' => ?_, fun i b hi hbm => ?_⟩⟩
  · unfold CSer.correctPtr
    rw [bind_ok (h.rawAdd t e.2 hI (by omega)), bind_ok (h.rawLoad t e.2 w hI hb hdv hpm hw1)]
    exact h1
  · obtain ⟨w', g1, g2⟩ := hp.word e' (by simp [he'])
    have hbe := (he.bound e' (by simp [he'])).1
    have hdj := he.disj e' he'
    refine ⟨w', ?_, g2⟩
    rw [← g1]
    exact readWord_congr fun i hi => hother _ (by omega) (by omega)
  · by_cases hin : e.2 ≤ i ∧ i < e.2 + I.C.arch.ptrBytes
    · have c1 := hdata (i - e.2) (by omega)
      have c2 := (readWord_some_iff.1 hw2).2 (i - e.2) (by omega)
      rw [show e.2 + (i - e.2) = i by omega] at c1 c2
      rw [c1, ← hbm, c2]
    · have hlt : i < I.pos t := by
        apply Nat.lt_of_not_le; intro hle
        rw [hm i hle] at hbm; cases hbm
      rw [hother i hlt (by omega)]
      refine hp.rest i b (fun e' he' => ?_) hbm
      rcases List.mem_cons.1 he' with rfl | he'
      · omega
      · exact hi e' he'

/-- The loop over one group. -/
theorem Conforms.correctLoop (h : I.Conforms Inv content) {a : Nat} {m : Mem} (ps : List Nat) {es : List (Nat × Nat)} {t : σ} (hI : Inv t)
    (hm : ∀ i, I.pos t ≤ i → m i = none) (hp : CPend I.C.arch (I.asPtr t) (content t) m (ps.map (fun x => (a, x)) ++ es))
    (he : EntOK I.C (I.pos t) (ps.map (fun x => (a, x)) ++ es)) :
    ∃ t', CSer.correctLoop I (I.asPtr t) (wrappingSub I.C.arch (I.asPtr t) a) ps t = .ok () t' ∧
      CSame I Inv content (ps.map fun x => (a, x)) t t' ∧ CPend I.C.arch (I.asPtr t) (content t') m es ∧ EntOK I.C (I.pos t) es := by
  induction ps generalizing t with
  | nil => exact ⟨t, rfl, .refl hI, hp, he⟩
  | cons p ps ih =>
    obtain ⟨t1, h1, h2, h3⟩ := h.correctPtr hI hm (e := (a, p)) hp he
    obtain ⟨t2, g1, g2, g3, g4⟩ := ih h2.inv (by rw [h2.pos]; exact hm) (by rw [h2.ptr]; exact h3) (by rw [h2.pos]; exact he.tail)
    rw [h2.ptr] at g1 g3
    rw [h2.pos] at g4
    refine ⟨t2, ?_, h2.trans g2, g3, g4⟩
    unfold CSer.correctLoop
    rw [bind_ok h1]; exact g1

/-- A group written at the final address. -/
theorem cskip_group {A : Arch} {B : Nat} {v m : Mem} (ps : List Nat) {es : List (Nat × Nat)}
    (hp : CPend A B v m (ps.map (fun x => (B, x)) ++ es)) : CPend A B v m es := by
  induction ps with
  | nil => exact hp
  | cons p ps ih => exact ih (hp.skip rfl)

theorem entOK_tail {C : Cfg} {pos : Nat} (es : List (Nat × Nat)) {fs : List (Nat × Nat)} (h : EntOK C pos (es ++ fs)) : EntOK C pos fs := by
  induction es with
  | nil => exact h
  | cons e es ih => exact ih h.tail

theorem Conforms.group (h : I.Conforms Inv content) {m : Mem} (g : PtrGroup) {es : List (Nat × Nat)} {t : σ} (hI : Inv t)
    (hm : ∀ i, I.pos t ≤ i → m i = none)
    (hp : CPend I.C.arch (I.asPtr t) (content t) m (g.positions.map (fun x => (g.addr, x)) ++ es))
    (he : EntOK I.C (I.pos t) (g.positions.map (fun x => (g.addr, x)) ++ es)) :
    ∃ t', (if g.addr ≠ I.asPtr t then CSer.correctPtrs I g (I.asPtr t) else pure ()) t = .ok () t' ∧
      CSame I Inv content (g.positions.map fun x => (g.addr, x)) t t' ∧ CPend I.C.arch (I.asPtr t) (content t') m es ∧ EntOK I.C (I.pos t) es := by
  by_cases hg : g.addr = I.asPtr t
  · rw [hg] at hp
    rw [if_neg (by simp [hg])]
    exact ⟨t, rfl, .refl hI, cskip_group _ hp, entOK_tail _ he⟩
  · rw [if_pos hg]
    exact h.correctLoop _ hI hm hp he

theorem Conforms.correctPast (h : I.Conforms Inv content) {m : Mem} (gs : List PtrGroup) {es : List (Nat × Nat)} {t : σ} (hI : Inv t)
    (hm : ∀ i, I.pos t ≤ i → m i = none)
    (hp : CPend I.C.arch (I.asPtr t) (content t) m (gs.flatMap (fun g => g.positions.map fun x => (g.addr, x)) ++ es))
    (he : EntOK I.C (I.pos t) (gs.flatMap (fun g => g.positions.map fun x => (g.addr, x)) ++ es)) :
    ∃ t', CSer.correctPast I (I.asPtr t) gs t = .ok () t' ∧
      CSame I Inv content (gs.flatMap fun g => g.positions.map fun x => (g.addr, x)) t t' ∧
      CPend I.C.arch (I.asPtr t) (content t') m es := by
  induction gs generalizing t with
  | nil => exact ⟨t, rfl, .refl hI, hp⟩
  | cons g gs ih =>
    rw [List.flatMap_cons, List.append_assoc] at hp he
    obtain ⟨t1, h1, h2, h3, h4⟩ := h.group g hI hm hp he
    obtain ⟨t2, g1, g2, g3⟩ := ih h2.inv (by rw [h2.pos]; exact hm) (by rw [h2.ptr]; exact h3) (by rw [h2.pos]; exact h4)
    rw [h2.ptr] at g1 g3
    refine ⟨t2, ?_, by rw [List.flatMap_cons]; exact h2.trans g2, g3⟩
    unfold CSer.correctPast
    rw [bind_ok h1]; exact g1

/-- `finalize` turns the contents into the reference contents for the buffer's final address. -/
theorem Conforms.cfinalize_at (h : I.Conforms Inv content) {s : CSer σ} {m : Mem} (hr : CRel I Inv content (I.asPtr s.sto) s m) :
    ∃ s', CSer.finalize I s = .ok () s' ∧ Inv s'.sto ∧ I.pos s'.sto = I.pos s.sto ∧ I.asPtr s'.sto = I.asPtr s.sto ∧ m.Le (content s'.sto) ∧
      ∀ i < I.pos s.sto, (∀ e ∈ s.ptrs.entries, i < e.2 ∨ e.2 + I.C.arch.ptrBytes ≤ i) → content s'.sto i = content s.sto i := by
  have hents' : s.ptrs.entries = (s.ptrs.past.flatMap fun (g : PtrGroup) => g.positions.map fun x => (g.addr, x)) ++
      s.ptrs.current.positions.map fun x => (s.ptrs.current.addr, x) := by
    unfold Ptrs.entries; rw [List.flatMap_append]; simp
  have hperm : (s.ptrs.entries.map (·.2)).Perm ((s.ptrs.current.positions.map (fun x => (s.ptrs.current.addr, x)) ++
      ((s.ptrs.past.flatMap fun (g : PtrGroup) => g.positions.map fun x => (g.addr, x)) ++ ([] : List (Nat × Nat)))).map (·.2)) := by
    rw [hents', List.append_nil]; exact (List.perm_append_comm).map _
  have hmem : ∀ e, e ∈ s.ptrs.entries ↔ e ∈ (s.ptrs.current.positions.map (fun x => (s.ptrs.current.addr, x)) ++
      ((s.ptrs.past.flatMap fun (g : PtrGroup) => g.positions.map fun x => (g.addr, x)) ++ [])) := by
    intro e; rw [hents', List.append_nil, List.mem_append, List.mem_append, or_comm]
  have hp : CPend I.C.arch (I.asPtr s.sto) (content s.sto) m _ := ⟨fun e he => hr.word e ((hmem e).2 he),
    fun i b hi hb => hr.rest i b (fun e he => hi e ((hmem e).1 he)) hb⟩
  have he : EntOK I.C (I.pos s.sto) _ := ⟨fun e he => hr.bound e ((hmem e).2 he), hperm.nodup_iff.1 hr.nodup⟩
  obtain ⟨t1, h1, h2, h3, h4⟩ := h.group s.ptrs.current hr.inv hr.fresh hp he
  obtain ⟨t2, g1, g2, g3⟩ := h.correctPast s.ptrs.past h2.inv (by rw [h2.pos]; exact hr.fresh) (by rw [h2.ptr]; exact h3) (by rw [h2.pos]; exact h4)
  rw [h2.ptr] at g1 g3
  have hall := h2.trans g2
  refine ⟨{ s with sto := t2 }, ?_, hall.inv, hall.pos, hall.ptr, fun i b hb => g3.rest i b (by simp) hb, fun i hi hents => hall.other i (by omega) fun e hx => ?_⟩
  · unfold CSer.finalize
    rw [bind_ok (show M.get s = .ok s s from rfl)]
    have hfirst : (if s.ptrs.current.addr ≠ I.asPtr s.sto ∧ s.ptrs.current.isEmpty = false then
        CSer.lift (CSer.correctPtrs I s.ptrs.current (I.asPtr s.sto)) else pure ()) s = .ok () { s with sto := t1 } := by
      by_cases ha : s.ptrs.current.addr = I.asPtr s.sto
      · rw [if_neg (by simp [ha])]
        rw [if_neg (by simp [ha])] at h1
        injection h1 with _ h1'; rw [← h1']; rfl
      · rw [if_pos ha] at h1
        by_cases hem : s.ptrs.current.isEmpty = false
        · rw [if_pos ⟨ha, hem⟩]; exact clift_ok h1
        · rw [if_neg (by simp [hem])]
          have hnil : s.ptrs.current.positions = [] := by
            have : s.ptrs.current.isEmpty = true := by simpa using hem
            unfold PtrGroup.isEmpty at this; simpa using this
          unfold CSer.correctPtrs at h1
          rw [hnil] at h1
          injection h1 with _ h1'; rw [← h1']; rfl
    exact (bind_ok hfirst).trans (clift_ok g1)
  · have hx' : e ∈ s.ptrs.entries := by
      rw [hmem]; simpa using hx
    exact hents e hx'

theorem Conforms.cfinalize (h : I.Conforms Inv content) {s : CSer σ} {m : Mem} (hr : CRel I Inv content (I.asPtr s.sto) s m) {lo : Nat}
    (hlo : lo ≤ I.pos s.sto) (hents : ∀ e ∈ s.ptrs.entries, lo ≤ e.2) :
    ∃ s', CSer.finalize I s = .ok () s' ∧ Inv s'.sto ∧ I.pos s'.sto = I.pos s.sto ∧ I.asPtr s'.sto = I.asPtr s.sto ∧ m.Le (content s'.sto) ∧
      ∀ i < lo, content s'.sto i = content s.sto i := by
  obtain ⟨s', h1, h2, h3, h4, h5, h6⟩ := h.cfinalize_at hr
  exact ⟨s', h1, h2, h3, h4, h5, fun i hi => h6 i (by omega) fun e he => .inl (by have := hents e he; omega)⟩

/-! ### Values -/

/-- The value is real (cf. `GValueOK`), and so are its corrections. -/
structure CValueOK (C : Cfg) (v : UserRoot) : Prop extends RandomImpl.GValueOK C v where
  over : v.sc.RealOverwrites

/-- How a call that ran out of room leaves the serializer, whatever the final address. -/
def CHalts (I : ContigImpl σ) (Inv : σ → Prop) (content : σ → Mem) (ub : Nat) (m : Nat → Mem) (s : CSer σ) (pk : PanicKind) (s' : CSer σ) : Prop :=
  pk = .capacity ∧ CKept I Inv content (I.pos s.sto) s s' ∧ (I.Exact Inv → I.C.maxCapacity < ub) ∧
    ∃ m' : Nat → Mem, (∀ B, CRel I Inv content B s' (m' B)) ∧ ∀ B, ∀ i < I.pos s.sto, m' B i = m B i

/-- `serialize_value`. -/
theorem Conforms.cvalue (h : I.Conforms Inv content) {v : UserRoot} (hv : CValueOK I.C v) {s : CSer σ} {m : Nat → Mem}
    (hr : ∀ B, CRel I Inv content B s (m B)) :
    (CSer.serializeValue I v.L v.a (fun i => v.im (v.a + i)) (v.sc.runC I v.im) s).Sat
      (fun p s' => p = rootPos v.L (I.pos s.sto) ∧
        (∀ B, CRel I Inv content B s' (rootIdeal I.C.arch I.C.valueAlign (cmode B) v.L v.im v.a v.sc (m B, I.pos s.sto)).1) ∧
        (∀ B, I.pos s'.sto = (rootIdeal I.C.arch I.C.valueAlign (cmode B) v.L v.im v.a v.sc (m B, I.pos s.sto)).2) ∧
        CKept I Inv content (I.pos s.sto) s s')
      (CHalts I Inv content (rootIdeal I.C.arch I.C.valueAlign (cmode 0) v.L v.im v.a v.sc (m 0, I.pos s.sto)).2 m s) (¬ I.NeverAborts Inv) := by
  have F := h.random.storage.facts
  have key : ∀ B, (CSer.serializeValue I v.L v.a (fun i => v.im (v.a + i)) (v.sc.runC I v.im) s).Sat
      (fun p s' => p = rootPos v.L (I.pos s.sto) ∧
        CRel I Inv content B s' (rootIdeal I.C.arch I.C.valueAlign (cmode B) v.L v.im v.a v.sc (m B, I.pos s.sto)).1 ∧
        I.pos s'.sto = (rootIdeal I.C.arch I.C.valueAlign (cmode B) v.L v.im v.a v.sc (m B, I.pos s.sto)).2 ∧
        CKept I Inv content (I.pos s.sto) s s')
      (CHalt I Inv content (rootIdeal I.C.arch I.C.valueAlign (cmode B) v.L v.im v.a v.sc (m B, I.pos s.sto)).2 B (m B) (I.pos s.sto) s) (¬ I.NeverAborts Inv) := by
    intro B
    have hr := hr B
    simp only [CSer.serializeValue, CSer.pushRawSlice, Slice.fromRef]
    by_cases hz : v.L.size = 0
    · have hpush : CSer.lift (I.pushSlice v.L 1 fun i => v.im (v.a + i)) s = .ok 0 s := by
        unfold CSer.lift StorageImpl.pushSlice; rw [if_pos hz]; rfl
      rw [bind_ok hpush, hv.zst hz]
      simp only [rootPos, rootIdeal, if_pos hz]
      exact ⟨rfl, hr.congr rfl rfl, rfl, (CKept.refl hr.inv hr.dvd).congr rfl rfl⟩
    · have ho := hv.push hz
      have hge := le_roundUp (I.pos s.sto) ho.pow2.pos
      simp only [rootPos, rootIdeal, if_neg hz]
      rw [sat_bind]
      refine (h.cpush hr ho hv.layout (Or.inl Nat.one_pos) _ (lo := I.pos s.sto) (Nat.le_refl _)).mono ?_
        (fun _ _ hh => hh.wide (by rw [Nat.mul_one]; exact ideal_mono F.va.pos v.sc (hv.wf hz) _ _ (_, _))) id
      rintro p s1 ⟨rfl, hm1, hs1, hp1, hr1, hk1⟩
      rw [Nat.mul_one] at hr1 hp1
      have hge2 := le_roundUp (roundUp (I.pos s.sto) v.L.align + v.L.size) F.va.pos
      rw [bind_ok (show CSer.setMap ⟨v.a, roundUp (I.pos s.sto) v.L.align⟩ s1 = .ok () { s1 with map := ⟨v.a, roundUp (I.pos s.sto) v.L.align⟩ } from rfl), sat_bind]
      have hr2 := hr1.congr (s' := { s1 with map := ⟨v.a, roundUp (I.pos s.sto) v.L.align⟩ }) rfl rfl
      have hk2 := hk1.congr (s2 := { s1 with map := ⟨v.a, roundUp (I.pos s.sto) v.L.align⟩ }) rfl rfl
      refine (h.runC v.sc (c := ⟨v.a, v.L.size, v.L.align⟩) (op := roundUp (I.pos s.sto) v.L.align) hr2 (hv.wf hz) hv.types hv.over rfl
        (by simp only; omega) (by simp only; have := Nat.pos_of_ne_zero hz; omega) (dvd_roundUp _ _) ho.pow2.pos ho.align_le ?_).mono ?_
        (fun _ _ hh => CHalt.from hk2 (fun i hi => blit_out (by omega)) hh hge (by simp only [hp1]; exact Nat.le_refl _)) id
      · intro e he t' ht'
        simp only [hs1] at he
        have := (hr.bound e he).1
        unfold DisjRange outPos; simp only; omega
      · rintro _ s3 ⟨a1, a2, _, a4⟩
        simp only [hp1] at a1 a2
        rw [pure_run, sat_ok]
        exact ⟨rfl, a1, a2, hk2.trans (a4.lower hge)⟩
  have k0 := key 0
  cases hx : CSer.serializeValue I v.L v.a (fun i => v.im (v.a + i)) (v.sc.runC I v.im) s with
  | ok p s' =>
    rw [hx] at k0
    refine ⟨k0.1, fun B => ?_, fun B => ?_, k0.2.2.2⟩
    · have := key B; rw [hx] at this; exact this.2.1
    · have := key B; rw [hx] at this; exact this.2.2.1
  | panic pk s' =>
    rw [hx] at k0
    have hall : ∀ B, ∃ m', CRel I Inv content B s' m' ∧ ∀ i < I.pos s.sto, m' i = m B i := fun B => by
      have := key B; rw [hx] at this; exact this.2.2.2
    exact ⟨k0.1, k0.2.1, k0.2.2.1, fun B => Classical.choose (hall B), fun B => (Classical.choose_spec (hall B)).1,
      fun B => (Classical.choose_spec (hall B)).2⟩
  | _ => rw [hx] at k0; exact k0

theorem Conforms.cvalues (h : I.Conforms Inv content) (vs : List UserRoot) (hv : ∀ v ∈ vs, CValueOK I.C v) {s : CSer σ} {m : Nat → Mem}
    (hr : ∀ B, CRel I Inv content B s (m B)) :
    (cValues I vs s).Sat
      (fun ps s' => (∀ B, ps = gPos I.C.arch I.C.valueAlign (cmode B) vs (m B, I.pos s.sto)) ∧
        (∀ B, CRel I Inv content B s' (userIdeal I.C.arch I.C.valueAlign (cmode B) vs (m B, I.pos s.sto)).1) ∧
        (∀ B, I.pos s'.sto = (userIdeal I.C.arch I.C.valueAlign (cmode B) vs (m B, I.pos s.sto)).2) ∧
        CKept I Inv content (I.pos s.sto) s s')
      (CFull I Inv content (userIdeal I.C.arch I.C.valueAlign (cmode 0) vs (m 0, I.pos s.sto)).2 (I.pos s.sto) s) (¬ I.NeverAborts Inv) := by
  induction vs generalizing s m with
  | nil => exact ⟨fun _ => rfl, hr, fun _ => rfl, .refl (hr 0).inv (hr 0).dvd⟩
  | cons v vs ih =>
    simp only [cValues]
    rw [sat_bind]
    refine (h.cvalue (hv v (by simp)) hr).mono ?_ (fun _ _ hh => ⟨⟨hh.1, hh.2.1⟩, fun hx => Nat.lt_of_lt_of_le (hh.2.2.1 hx)
      (RandomImpl.userIdeal_ge h.random.storage.facts.va.pos vs (fun x hx => (hv x (by simp [hx])).toGValueOK) _)⟩) id
    rintro p s1 ⟨hp, hr1, hp1, hk1⟩
    rw [sat_bind]
    have e : ∀ B, (rootIdeal I.C.arch I.C.valueAlign (cmode B) v.L v.im v.a v.sc (m B, I.pos s.sto)) =
      ((rootIdeal I.C.arch I.C.valueAlign (cmode B) v.L v.im v.a v.sc (m B, I.pos s.sto)).1, I.pos s1.sto) := fun B => Prod.ext rfl (hp1 B).symm
    refine (ih (fun x hx => hv x (by simp [hx])) hr1).mono ?_ (fun _ _ hh => ⟨⟨hh.1.1, hk1.trans (hh.1.2.lower hk1.pos)⟩, fun hx => by
      have := hh.2 hx; simp only [userIdeal]; rw [e]; exact this⟩) id
    rintro ps s2 ⟨hps, hr2, hp2, hk2⟩
    rw [pure_run, sat_ok]
    refine ⟨fun B => ?_, fun B => ?_, fun B => ?_, hk1.trans (hk2.lower hk1.pos)⟩
    · simp only [gPos]; rw [e, hp, hps B]
    · simp only [userIdeal]; rw [e]; exact hr2 B
    · simp only [userIdeal]; rw [e]; exact hp2 B

/-- The outcome of a session: the reference output for the final address, at which it stays. -/
structure COut (I : ContigImpl σ) (Inv : σ → Prop) (content : σ → Mem) (vs : List UserRoot) (t : σ) (ps : List Nat) (s' : CSer σ) : Prop where
  ps : ps = gPos I.C.arch I.C.valueAlign (cmode (I.asPtr s'.sto)) vs (fun _ => none, I.pos t)
  le : (userIdeal I.C.arch I.C.valueAlign (cmode (I.asPtr s'.sto)) vs (fun _ => none, I.pos t)).1.Le (content s'.sto)
  pos : I.pos s'.sto = (userIdeal I.C.arch I.C.valueAlign (cmode (I.asPtr s'.sto)) vs (fun _ => none, I.pos t)).2
  fresh : ∀ i, I.pos s'.sto ≤ i → (userIdeal I.C.arch I.C.valueAlign (cmode (I.asPtr s'.sto)) vs (fun _ => none, I.pos t)).1 i = none
  inv : Inv s'.sto
  dvd : I.C.valueAlign ∣ I.pos s'.sto
  mono : I.pos t ≤ I.pos s'.sto
  below : ∀ i < I.pos t, content s'.sto i = content t i

theorem Conforms.csession (h : I.Conforms Inv content) (vs : List UserRoot) (hv : ∀ v ∈ vs, CValueOK I.C v) {t : σ} (ht : Inv t)
    (hd : I.C.valueAlign ∣ I.pos t) :
    (cUserSession I vs (CSer.fromStorage t)).Sat (COut I Inv content vs t)
      (CFull I Inv content (userIdeal I.C.arch I.C.valueAlign (cmode 0) vs (fun _ => none, I.pos t)).2 (I.pos t) (CSer.fromStorage t)) (¬ I.NeverAborts Inv) := by
  have hr : ∀ B, CRel I Inv content B (CSer.fromStorage t) fun _ => none := fun B =>
    ⟨ht, hd, by simp [CSer.fromStorage, entries_new], by simp [CSer.fromStorage, entries_new], by simp [CSer.fromStorage, entries_new],
      fun i b _ hb => (by cases hb), fun _ _ => rfl⟩
  unfold cUserSession
  rw [sat_bind]
  refine (h.cvalues vs hv hr).mono ?_ (fun _ _ hh => hh) id
  rintro ps s1 ⟨hps, hr1, hp1, hk1⟩
  obtain ⟨new, n1, n2⟩ := hk1.ents
  have n1 : s1.ptrs.entries = new := by rw [n1]; simp [CSer.fromStorage, entries_new]
  obtain ⟨s2, e2, i2, p2, q2, l2, b2⟩ := h.cfinalize (hr1 (I.asPtr s1.sto)) (lo := I.pos t) hk1.pos (by rw [n1]; exact n2)
  rw [bind_ok e2, pure_run, sat_ok]
  refine ⟨hps _, by rw [q2]; exact l2, by rw [p2]; exact hp1 _, ?_, i2, by rw [p2]; exact hk1.dvd, by rw [p2]; exact hk1.pos, fun i hi => (b2 i hi).trans (hk1.below i hi)⟩
  rw [p2]
  exact (hr1 _).fresh

end ContigImpl

/-! ### The crate's own implementations -/

theorem RealOverwrites.app {x y : Script} (hx : x.RealOverwrites) (hy : y.RealOverwrites) : (x.app y).RealOverwrites := by
  induction x with
  | done => exact hy
  | pushProcess L len src ptr inner rest _ ih => exact ⟨hx.1, ih hx.2⟩
  | push L len src ptr rest ih => exact ih hx
  | pushRaw L len src rest ih => exact ih hx
  | overwrite a L data rest ih => exact ⟨hx.1, ih hx.2⟩

theorem scriptEach_over {rc : TyId → Nat → Option Script} {a : Nat} {fs : List Field} {sc : Script}
    (h : ∀ t a s, rc t a = some s → s.RealOverwrites) (hs : scriptEach rc a fs = some sc) : sc.RealOverwrites := by
  induction fs generalizing sc with
  | nil => simp only [scriptEach, Option.some.injEq] at hs; rw [← hs]; trivial
  | cons f fs ih =>
    simp only [scriptEach, Option.bind_eq_bind, Option.bind_eq_some_iff, Option.pure_def, Option.some.injEq] at hs
    obtain ⟨x, h1, y, h2, h3⟩ := hs
    rw [← h3]; exact RealOverwrites.app (h _ _ _ h1) (ih h2)

theorem headScript_over {A : Arch} (hW : Pow2 A.ptrBytes) {o : Order} {dangle a : Nat} {h : Header} {body : Script} (hb : body.RealOverwrites) :
    (headScript A o dangle a h body).RealOverwrites := by
  have hk : ∀ n, (⟨n * A.ptrBytes, A.ptrBytes⟩ : Layout).OK := fun n => ⟨hW, Nat.dvd_mul_left _ _⟩
  unfold headScript fixEmpty
  split
  · split
    · cases o <;> simp [Script.words, Script.RealOverwrites, hk] <;> simpa using hk 1
    · trivial
  · split
    · exact ⟨hk _, hb⟩
    · exact hb

theorem scriptVec_over {A : Arch} (hW : Pow2 A.ptrBytes) {P : Prog} {im : Mem} {rc : TyId → Nat → Option Script} {u a : Nat} {sc : Script}
    (h : ∀ t a s, rc t a = some s → s.RealOverwrites) (hs : scriptVec A P im rc u a = some sc) : sc.RealOverwrites := by
  unfold scriptVec at hs
  split at hs
  · simp only [Option.some.injEq] at hs; rw [← hs]; trivial
  · simp only [Option.bind_eq_bind, Option.bind_eq_some_iff, Option.pure_def, Option.some.injEq] at hs
    obtain ⟨x, h1, y, h2, h3⟩ := hs
    rw [← h3]; exact headScript_over hW ⟨scriptEach_over h h2, trivial⟩

theorem script_over {A : Arch} (hW : Pow2 A.ptrBytes) {P : Prog} {im : Mem} (n : Nat) :
    ∀ t a sc, script A P im n t a = some sc → sc.RealOverwrites := by
  induction n with
  | zero => intro t a sc h; simp [script] at h
  | succ n ih =>
    intro t a sc h
    rw [script] at h
    split at h <;> rename_i hd
    · simp only [Option.some.injEq] at h; rw [← h]; trivial
    · split at h
      · simp only [Option.some.injEq] at h; rw [← h]; trivial
      · simp only [Option.bind_eq_bind, Option.bind_eq_some_iff, Option.pure_def, Option.some.injEq] at h
        obtain ⟨x, h1, y, h2, h3⟩ := h
        rw [← h3]; exact ⟨ih _ _ _ h2, trivial⟩
    · exact scriptVec_over hW ih h
    · simp only [Option.bind_eq_bind, Option.bind_eq_some_iff, Option.pure_def, Option.some.injEq] at h
      obtain ⟨x, h1, h3⟩ := h
      rw [← h3]
      exact headScript_over hW trivial
    · exact scriptEach_over ih h
    · exact scriptEach_over ih h
    · simp only [Option.bind_eq_bind, Option.bind_eq_some_iff] at h
      obtain ⟨x, h1, y, h2, h3⟩ := h
      exact scriptEach_over ih h3
    · exact scriptVec_over hW ih h
    · exact ih _ _ _ h

section
variable {σ : Type} {I : ContigImpl σ} {Inv : σ → Prop} {content : σ → Mem} {P : Prog} {fl : Flags}

theorem Job.OK.cval (hA : I.C.arch.Valid) (hP : P.WF I.C.arch) (hacc : P.Accepted I.C) {n : Nat} {j : Job} (h : j.OK I.C P fl n) :
    ContigImpl.CValueOK I.C (j.gval P) :=
  ⟨Job.OK.gval (I := I.toRandomImpl) hA.ptr_pos hP hacc h, script_over hA.ptr_pow2 n _ _ _ h.2⟩

theorem runC_app {im : Mem} (x y : Script) : (x.app y).runC I im = (x.runC I im >>= fun _ => y.runC I im) := by
  induction x with
  | done => rfl
  | pushProcess L len src ptr inner rest _ ih => simp only [Script.app, Script.runC, ih, bind_assoc_M]
  | push L len src ptr rest ih => simp only [Script.app, Script.runC, ih, bind_assoc_M]
  | pushRaw L len src rest ih => simp only [Script.app, Script.runC, ih, bind_assoc_M]
  | overwrite a L data rest ih => simp only [Script.app, Script.runC, ih, bind_assoc_M]

theorem cEach_eq {im : Mem} {rs : TyId → Nat → M (CSer σ) Unit} {rd : TyId → Nat → Option Val} {rc : TyId → Nat → Option Script}
    (h : ∀ t a v, rd t a = some v → ∃ sc, rc t a = some sc ∧ rs t a = sc.runC I im) (a : Nat) (fs : List Field) {vs : List Val}
    (hd : decodeEach rd a fs = some vs) : ∃ sc, scriptEach rc a fs = some sc ∧ cEach rs a fs = sc.runC I im := by
  induction fs generalizing vs with
  | nil => exact ⟨.done, rfl, rfl⟩
  | cons f fs ih =>
    simp only [decodeEach, Option.bind_eq_bind, Option.bind_eq_some_iff, Option.pure_def, Option.some.injEq] at hd
    obtain ⟨v, h1, ws, h2, _⟩ := hd
    obtain ⟨s1, e1, e2⟩ := h _ _ _ h1
    obtain ⟨s2, e3, e4⟩ := ih h2
    refine ⟨s1.app s2, ?_, ?_⟩
    · simp [scriptEach, e1, e3]
    · rw [cEach, e2, e4, runC_app]

theorem uadd_eq {A : Arch} {a off : Nat} (h : a + off < A.usizeMod) : (uadd A a off : M (CSer σ) Nat) = pure (a + off) := by
  funext s; rw [uadd_ok _ h]; rfl

theorem cFixEmpty_eq {im : Mem} (o : Order) {dangle a : Nat} (hW : 0 < I.C.arch.ptrBytes) (ha : a + 3 * I.C.arch.ptrBytes < I.C.arch.usizeMod) :
    cFixEmpty I ⟨o.ptrIx * I.C.arch.ptrBytes, o.capIx * I.C.arch.ptrBytes, o.lenIx * I.C.arch.ptrBytes⟩ dangle a =
      (fixEmpty I.C.arch o dangle a).runC I im := by
  have h0 : I.C.arch.ptrBytes ≠ 0 := by omega
  have h2 : I.C.arch.ptrBytes ≠ 2 * I.C.arch.ptrBytes := by omega
  have h2' : 2 * I.C.arch.ptrBytes ≠ I.C.arch.ptrBytes := by omega
  cases o <;>
    simp [cFixEmpty, fixEmpty, Script.words, Script.runC, Order.ptrIx, Order.capIx, h0, Ne.symm h0, h2, h2',
      Nat.mul_comm I.C.arch.ptrBytes 2, bind_pure_unit, twoWords_eq, oneWord_eq,
      uadd_eq (σ := σ) (show a + I.C.arch.ptrBytes < I.C.arch.usizeMod by omega),
      uadd_eq (σ := σ) (show a + 2 * I.C.arch.ptrBytes < I.C.arch.usizeMod by omega),
      uadd_eq (σ := σ) (show a + 0 < I.C.arch.usizeMod by omega)] <;> rfl

theorem cHead_eq {im : Mem} (o : Order) {dangle a : Nat} (hW : 0 < I.C.arch.ptrBytes) (ha : a + 3 * I.C.arch.ptrBytes < I.C.arch.usizeMod)
    (hd : dangle ≠ 0) {h : Header} {body : Script} {x : Nat → M (CSer σ) Unit} (hh : readHeader I.C.arch im o a = some h)
    (hbody : h.len ≠ 0 → x (a + o.ptrIx * I.C.arch.ptrBytes) = body.runC I im) :
    (do
      let len ← readIn I.C.arch im (a + o.lenIx * I.C.arch.ptrBytes)
      let cap ← readIn I.C.arch im (a + o.capIx * I.C.arch.ptrBytes)
      let _ ← readIn I.C.arch im (a + o.ptrIx * I.C.arch.ptrBytes)
      let off ← constEval (vecOffsets I.C.arch.ptrBytes o dangle)
      if len = 0 then
        (if cap ≠ 0 then cFixEmpty I off dangle a else pure ())
      else do
        cFixCap I off cap len a
        let ptrAddr ← uadd I.C.arch a off.ptr
        x ptrAddr : M (CSer σ) Unit) = (headScript I.C.arch o dangle a h body).runC I im := by
  simp only [readHeader, Option.bind_eq_bind, Option.bind_eq_some_iff, Option.pure_def, Option.some.injEq] at hh
  obtain ⟨ptr, h1, cap, h2, len, h3, rfl⟩ := hh
  simp only [readIn, h1, h2, h3, pure_bind_M, vecOffsets_eq _ _ hd, constEval]
  have hp3 : o.ptrIx * I.C.arch.ptrBytes ≤ 2 * I.C.arch.ptrBytes := by cases o <;> simp [Order.ptrIx] <;> omega
  have hc3 : o.capIx * I.C.arch.ptrBytes ≤ 2 * I.C.arch.ptrBytes := by cases o <;> simp [Order.capIx] <;> omega
  unfold cFixCap
  rw [uadd_eq (show a + o.ptrIx * I.C.arch.ptrBytes < _ by omega), uadd_eq (show a + o.capIx * I.C.arch.ptrBytes < _ by omega)]
  simp only [pure_bind_M]
  unfold headScript
  by_cases hl : len = 0
  · simp only [hl, if_true]
    by_cases hc : cap = 0
    · simp only [hc]; rfl
    · simp only [hc, ne_eq, not_false_eq_true, if_true]
      exact cFixEmpty_eq o hW ha
  · simp only [hl, if_false]
    rw [hbody hl]
    by_cases hc : cap = len
    · simp only [hc, ne_eq, not_true_eq_false, if_false]
      rfl
    · simp only [hc, ne_eq, not_false_eq_true, if_true, Script.words, Script.runC, List.length_singleton, Nat.one_mul, oneWord_eq]

theorem cVec_eq (hW : 0 < I.C.arch.ptrBytes) (hP : P.WF I.C.arch) {im : Mem}
    {rs : TyId → Nat → M (CSer σ) Unit} {rd : TyId → Nat → Option Val} {rc : TyId → Nat → Option Script}
    (h : ∀ t a v, rd t a = some v → ∃ sc, rc t a = some sc ∧ rs t a = sc.runC I im) {u : TyId} {a : Nat} {v : Val}
    (ha : a + 3 * I.C.arch.ptrBytes < I.C.arch.usizeMod) (hd : decodeVec I.C.arch P fl im rd u a = some v) :
    ∃ sc, scriptVec I.C.arch P im rc u a = some sc ∧ cVec I P im rs u a = sc.runC I im := by
  unfold scriptVec cVec
  by_cases hz : (P.layout u).size = 0
  · exact ⟨.done, by rw [if_pos hz], by simp only [if_pos hz]; rfl⟩
  · simp only [decodeVec, Option.bind_eq_bind, Option.bind_eq_some_iff, Option.pure_def, Option.some.injEq,
      Option.ite_none_right_eq_some] at hd
    obtain ⟨hh, h1, hval, vs, h2, _⟩ := hd
    obtain ⟨inner, e1, e2⟩ := cEach_eq h hh.ptr (elems P u hh.len) h2
    have hal : (P.layout u).align ≠ 0 := by
      obtain ⟨⟨e, he⟩, _⟩ := hP u
      rw [he]; exact Nat.ne_of_gt (Nat.two_pow_pos e)
    refine ⟨_, by rw [if_neg hz]; simp only [h1, e1, Option.bind_eq_bind, Option.bind_some]; rfl, ?_⟩
    simp only [if_neg hz]
    have h1' := h1
    simp only [readHeader, Option.bind_eq_bind, Option.bind_eq_some_iff, Option.pure_def, Option.some.injEq] at h1'
    obtain ⟨ptr, r1, cap, r2, len, r3, rfl⟩ := h1'
    rw [← cHead_eq (P.vecOrder u) hW ha hal h1 (x := fun ptrAddr => do
      let _ ← CSer.pushAndProcessSlice I ⟨P.layout u, len, ptr, inputAt im ptr⟩ ptrAddr (cEach rs ptr (elems P u len))
      pure ())]
    · simp only [readIn, r1, r2, r3, pure_bind_M]
    · intro _
      simp only [Script.runC, e2]
      rfl

theorem cString_eq (hW : 0 < I.C.arch.ptrBytes) {im : Mem} {a : Nat} {v : Val} (ha : a + 3 * I.C.arch.ptrBytes < I.C.arch.usizeMod)
    (hd : decodeStr I.C.arch P fl im a = some v) :
    ∃ h, readHeader I.C.arch im P.stringOrder a = some h ∧
      cString I P im a = (headScript I.C.arch P.stringOrder 1 a h
        (.push ⟨1, 1⟩ h.len h.ptr (a + P.stringOrder.ptrIx * I.C.arch.ptrBytes) .done)).runC I im := by
  simp only [decodeStr, Option.bind_eq_bind, Option.bind_eq_some_iff, Option.pure_def, Option.some.injEq,
    Option.ite_none_right_eq_some] at hd
  obtain ⟨hh, h1, _⟩ := hd
  refine ⟨hh, h1, ?_⟩
  have h1' := h1
  simp only [readHeader, Option.bind_eq_bind, Option.bind_eq_some_iff, Option.pure_def, Option.some.injEq] at h1'
  obtain ⟨ptr, r1, cap, r2, len, r3, rfl⟩ := h1'
  rw [← cHead_eq P.stringOrder hW ha (by omega) h1 (x := fun ptrAddr => do
    let _ ← CSer.pushSlice I ⟨⟨1, 1⟩, len, ptr, inputAt im ptr⟩ ptrAddr
    pure ())]
  · unfold cString
    simp only [readIn, r1, r2, r3, pure_bind_M]
  · intro _
    simp only [Script.runC]
    rfl

theorem cData_eq (hW : 0 < I.C.arch.ptrBytes) (hP : P.WF I.C.arch) {im : Mem} {n t a : Nat} {v : Val}
    (hd : decode I.C.arch P fl im n t a = some v) :
    ∃ sc, script I.C.arch P im n t a = some sc ∧ cData I P im n t a = sc.runC I im := by
  induction n generalizing t a v with
  | zero => simp [decode] at hd
  | succ n ih =>
    have hw := hP t
    unfold TyWF at hw
    obtain ⟨_, _, _, hw⟩ := hw
    rw [script, cData]
    rw [decode] at hd
    split at hd
    · rename_i hg
      cases hdef : P.defn t <;> simp only [hdef] at hd hw ⊢
      case prim => exact ⟨_, rfl, rfl⟩
      case box u =>
        simp only [Option.bind_eq_bind, Option.bind_eq_some_iff, Option.pure_def, Option.some.injEq,
          Option.ite_none_right_eq_some] at hd
        obtain ⟨p, h1, h2, v', h3, _⟩ := hd
        unfold cBox
        by_cases hz : (P.layout u).size = 0
        · exact ⟨.done, by rw [if_pos hz], by rw [if_pos hz]; rfl⟩
        · obtain ⟨inner, e1, e2⟩ := ih h3
          refine ⟨_, by rw [if_neg hz]; simp only [h1, e1, Option.bind_eq_bind, Option.bind_some]; rfl, ?_⟩
          rw [if_neg hz]
          simp only [readIn, h1, pure_bind_M, e2, Slice.fromRef, Script.runC]
          rfl
      case vec u => exact cVec_eq hW hP (fun t a v => ih) (by have := hg.2; rw [hw] at this; exact this) hd
      case string =>
        obtain ⟨h, h1, h2⟩ := cString_eq hW (by have := hg.2; rw [hw] at this; exact this) hd
        exact ⟨_, by rw [h1]; rfl, h2⟩
      case array u cnt =>
        simp only [Option.bind_eq_bind, Option.bind_eq_some_iff] at hd
        obtain ⟨vs, h1, _⟩ := hd
        exact cEach_eq (fun t a v => ih) a _ h1
      case struct fs =>
        simp only [Option.bind_eq_bind, Option.bind_eq_some_iff] at hd
        obtain ⟨vs, h1, _⟩ := hd
        exact cEach_eq (fun t a v => ih) a _ h1
      case enum tag vs =>
        simp only [Option.bind_eq_bind, Option.bind_eq_some_iff] at hd
        obtain ⟨i, h1, fs, h2, xs, h3, _⟩ := hd
        obtain ⟨sc, e1, e2⟩ := cEach_eq (fun t a v => ih) a _ h3
        refine ⟨sc, by simp [h1, h2, e1], ?_⟩
        unfold cEnum
        simp only [h1, h2, e2]
      case bigUint u => exact cVec_eq hW hP (fun t a v => ih) (by have := hg.2; rw [hw.1] at this; exact this) hd
      case bigInt u =>
        simp only [Option.bind_eq_bind, Option.bind_eq_some_iff] at hd
        obtain ⟨_, _, v', h2, _⟩ := hd
        obtain ⟨sc, e1, e2⟩ := ih h2
        refine ⟨sc, e1, ?_⟩
        obtain ⟨_, ⟨d, hu⟩, _⟩ := hw
        unfold cBigInt
        simp only [hu]
        funext s
        rw [bind_ok (bigintDataOffset_ok hW P d s), e2]
    · cases hd

theorem cRoots_eq (hW : 0 < I.C.arch.ptrBytes) (hP : P.WF I.C.arch) {n : Nat} (js : List Job) (hj : ∀ j ∈ js, j.OK I.C P fl n) :
    cRoots I P n (js.map (·.r)) = cValues I (js.map (Job.gval P)) := by
  induction js with
  | nil => rfl
  | cons j js ih =>
    obtain ⟨h1, h2⟩ := hj j (by simp)
    obtain ⟨sc, e1, e2⟩ := cData_eq (I := I) hW hP h1
    rw [h2] at e1
    obtain rfl := Option.some.inj e1
    simp only [List.map_cons, cRoots, cValues, e2, ih (fun x hx => hj x (by simp [hx]))]
    rfl

/-! The recursion bound does not matter. -/

theorem FLe.cpush {sl : Slice} {p : Nat} {x y : M (CSer σ) Unit} (h : FLe x y) :
    FLe (CSer.pushAndProcessSlice I sl p x) (CSer.pushAndProcessSlice I sl p y) :=
  (FLe.refl _).bind fun _ => (FLe.refl _).bind fun _ => (FLe.refl _).bind fun _ => (FLe.refl _).bind fun _ =>
    (FLe.refl _).bind fun _ => h.bind fun _ => FLe.refl _

theorem FLe.cEach {r r' : TyId → Nat → M (CSer σ) Unit} (h : ∀ t a, FLe (r t a) (r' t a)) (a : Nat) (fs : List Field) :
    FLe (SerRaw.cEach r a fs) (SerRaw.cEach r' a fs) := by
  induction fs with
  | nil => exact FLe.refl _
  | cons f fs ih => exact (h _ _).bind fun _ => ih

theorem FLe.cVec {im : Mem} {r r' : TyId → Nat → M (CSer σ) Unit} (h : ∀ t a, FLe (r t a) (r' t a)) (t a : Nat) :
    FLe (SerRaw.cVec I P im r t a) (SerRaw.cVec I P im r' t a) := by
  unfold SerRaw.cVec
  refine FLe.ite (FLe.refl _) ?_
  refine (FLe.refl _).bind fun _ => (FLe.refl _).bind fun _ => (FLe.refl _).bind fun _ => (FLe.refl _).bind fun _ => ?_
  refine FLe.ite (FLe.refl _) ?_
  exact (FLe.refl _).bind fun _ => (FLe.refl _).bind fun _ => (FLe.cpush (FLe.cEach h _ _)).bind fun _ => FLe.refl _

theorem cData_fle {im : Mem} (n : Nat) (t a : Nat) : FLe (cData I P im n t a) (cData I P im (n + 1) t a) := by
  induction n generalizing t a with
  | zero => intro s; exact .inl rfl
  | succ n ih =>
    rw [cData, cData]
    cases P.defn t with
    | prim => exact FLe.refl _
    | box u =>
      refine FLe.ite (FLe.refl _) ?_
      exact (FLe.refl _).bind fun _ => (FLe.cpush (ih _ _)).bind fun _ => FLe.refl _
    | vec u => exact FLe.cVec ih _ _
    | string => exact FLe.refl _
    | array u k => exact FLe.cEach ih _ _
    | struct fs => exact FLe.cEach ih _ _
    | enum tag vs =>
      simp only [cEnum]
      split
      · exact FLe.refl _
      · split
        · exact FLe.refl _
        · exact FLe.cEach ih _ _
    | bigUint u => exact FLe.cVec ih _ _
    | bigInt u =>
      simp only [cBigInt]
      split
      · exact (FLe.refl _).bind fun _ => ih _ _
      · exact FLe.refl _

theorem cRoots_fle (n : Nat) (rs : List Root) : FLe (cRoots I P n rs) (cRoots I P (n + 1) rs) := by
  induction rs with
  | nil => exact FLe.refl _
  | cons r rs ih =>
    have h := cData_fle (I := I) (P := P) (im := r.im) n r.t r.a
    exact FLe.bind ((FLe.refl _).bind fun _ => (FLe.refl _).bind fun _ => h.bind fun _ => FLe.refl _) fun _ => ih.bind fun _ => FLe.refl _

theorem cSession_fle (n : Nat) (rs : List Root) : FLe (cSession I P n rs) (cSession I P (n + 1) rs) :=
  (cRoots_fle n rs).bind fun _ => FLe.refl _

theorem cSession_fuel {n m : Nat} (h : n ≤ m) (rs : List Root) (s : CSer σ) (hn : cSession I P n rs s ≠ .fuel) :
    cSession I P m rs s = cSession I P n rs s := by
  induction h with
  | refl => rfl
  | step _ ih =>
    rcases cSession_fle (I := I) (P := P) _ rs s with h | h
    · rw [ih] at h; exact absurd h hn
    · rw [← h, ih]

/-- Contents that extend the reference output of a list of jobs. -/
structure CJobs (I : ContigImpl σ) (Inv : σ → Prop) (content : σ → Mem) (P : Prog) (js : List Job) (t : σ) (ps : List Nat) (s' : CSer σ) : Prop where
  ps : ps = (jobsAt P I.C.valueAlign (I.pos t) js).map (jobPos P)
  le : (jobsIdeal I.C.arch I.C.valueAlign (ContigImpl.cmode (I.asPtr s'.sto)) P js (fun _ => none, I.pos t)).1.Le (content s'.sto)
  pos : I.pos s'.sto = placeEnd I.C.valueAlign (I.pos t) (jobsShapes P js)
  fresh : ∀ i, I.pos s'.sto ≤ i → (jobsIdeal I.C.arch I.C.valueAlign (ContigImpl.cmode (I.asPtr s'.sto)) P js (fun _ => none, I.pos t)).1 i = none
  inv : Inv s'.sto
  dvd : I.C.valueAlign ∣ I.pos s'.sto
  mono : I.pos t ≤ I.pos s'.sto
  below : ∀ i < I.pos t, content s'.sto i = content t i

/-- A session of a derived serializer of kind `complete`. -/
theorem ContigImpl.Conforms.roots (h : I.Conforms Inv content) (hP : P.WF I.C.arch) (hacc : P.Accepted I.C) {t : σ} (ht : Inv t)
    (hd : I.C.valueAlign ∣ I.pos t) {rs : List (Root × Val)} (hv : Inputs I.C.arch P fl rs) :
    ∃ N, ∀ n, N ≤ n → ∃ js : List Job, js.map (fun j => (j.r, j.v)) = rs ∧ (∀ j ∈ js, j.OK I.C P fl n) ∧
      (cSession I P n (rs.map (·.1)) (CSer.fromStorage t)).Sat (fun ps s' => CJobs I Inv content P js t ps s')
        (ContigImpl.CFull I Inv content (placeEnd I.C.valueAlign (I.pos t) (jobsShapes P js)) (I.pos t) (CSer.fromStorage t)) (¬ I.NeverAborts Inv) := by
  have hA := h.random.storage.arch.ptr_pos
  obtain ⟨N, hN⟩ := exists_jobs (C := I.C) hA hP hv
  refine ⟨N, fun n hn => ?_⟩
  obtain ⟨js, h1, h2⟩ := hN n hn
  refine ⟨js, h1, h2, ?_⟩
  have e : rs.map (·.1) = js.map (·.r) := by rw [← h1, List.map_map]; rfl
  have hg : ∀ v ∈ js.map (Job.gval P), ContigImpl.CValueOK I.C v := by
    intro v hv
    obtain ⟨j, hj, rfl⟩ := List.mem_map.1 hv
    exact (h2 j hj).cval h.random.storage.arch hP hacc
  have hs : cSession I P n (rs.map (·.1)) = cUserSession I (js.map (Job.gval P)) := by
    unfold cSession cUserSession
    rw [e, cRoots_eq hA hP js h2]
  rw [hs]
  refine (h.csession _ hg ht hd).mono ?_ (fun _ _ hh => ⟨hh.1, fun hx => by have := hh.2 hx; rw [gIdeal_jobs, jobsIdeal_end] at this; exact this⟩) id
  intro ps s' a
  have a1 := a.ps; have a2 := a.le; have a3 := a.pos; have a4 := a.fresh
  rw [gPos_jobs] at a1
  rw [gIdeal_jobs] at a2 a3 a4
  exact ⟨a1, a2, by rw [a3, jobsIdeal_end], a4, a.inv, a.dvd, a.mono, a.below⟩

/-- The outcome of any session that did not run out of fuel. -/
theorem ContigImpl.Conforms.rootsOut (h : I.Conforms Inv content) (hP : P.WF I.C.arch) (hacc : P.Accepted I.C) {t : σ} (ht : Inv t)
    (hd : I.C.valueAlign ∣ I.pos t) {rs : List (Root × Val)} (hv : Inputs I.C.arch P fl rs) {fuel : Nat}
    (hne : cSession I P fuel (rs.map (·.1)) (CSer.fromStorage t) ≠ .fuel) :
    ∃ n, ∃ js : List Job, js.map (fun j => (j.r, j.v)) = rs ∧ (∀ j ∈ js, j.OK I.C P fl n) ∧
      (cSession I P fuel (rs.map (·.1)) (CSer.fromStorage t)).Sat (fun ps s' => CJobs I Inv content P js t ps s')
        (ContigImpl.CFull I Inv content (placeEnd I.C.valueAlign (I.pos t) (jobsShapes P js)) (I.pos t) (CSer.fromStorage t)) (¬ I.NeverAborts Inv) := by
  obtain ⟨N, hN⟩ := h.roots hP hacc ht hd hv
  obtain ⟨js, h1, h2, h3⟩ := hN (max N fuel) (Nat.le_max_left _ _)
  rw [cSession_fuel (Nat.le_max_right N fuel) _ _ hne] at h3
  exact ⟨_, js, h1, h2, h3⟩

end
end SerRaw
