import Verif.Lemmas.TypedScript
import Verif.Lemmas.Refine
/-
Scripts of typed values are well-formed: they only rewrite words inside the value, never twice; and the reference output
changes nothing else.
-/
namespace SerRaw

/-! ### Sequencing -/

theorem touch_app {A : Arch} (x y : Script) : (x.app y).touch A = x.touch A ++ y.touch A := by
  induction x with
  | done => rfl
  | pushProcess L len src ptr inner rest _ ih => simp only [Script.app, Script.touch, ih, List.cons_append]
  | push L len src ptr rest ih => simp only [Script.app, Script.touch, ih, List.cons_append]
  | pushRaw L len src rest ih => simp only [Script.app, Script.touch, ih]
  | overwrite a L data rest ih => simp only [Script.app, Script.touch, ih, List.cons_append]

theorem wf_app {C : Cfg} {c : Ctx} {x y : Script} (hx : x.WF C c) (hy : y.WF C c)
    (hd : ∀ t ∈ x.touch C.arch, ∀ t' ∈ y.touch C.arch, DisjRange t.1 t.2 t'.1 t'.2) : (x.app y).WF C c := by
  induction x with
  | done => exact hy
  | pushProcess L len src ptr inner rest _ ih =>
    obtain ⟨h1, h2, h3, h4, h5⟩ := hx
    refine ⟨h1, h2, ?_, h4, ih h5 fun t ht => hd t (by simp [Script.touch, ht])⟩
    intro t ht; rw [touch_app, List.mem_append] at ht
    rcases ht with ht | ht
    · exact h3 t ht
    · exact hd (ptr, C.arch.ptrBytes) (by simp [Script.touch]) t ht
  | push L len src ptr rest ih =>
    obtain ⟨h1, h2, h3, h5⟩ := hx
    refine ⟨h1, h2, ?_, ih h5 fun t ht => hd t (by simp [Script.touch, ht])⟩
    intro t ht; rw [touch_app, List.mem_append] at ht
    rcases ht with ht | ht
    · exact h3 t ht
    · exact hd (ptr, C.arch.ptrBytes) (by simp [Script.touch]) t ht
  | pushRaw L len src rest ih =>
    obtain ⟨h1, h5⟩ := hx
    exact ⟨h1, ih h5 hd⟩
  | overwrite a L data rest ih =>
    exact ⟨hx.1, ih hx.2 fun t ht => hd t (by simp [Script.touch, ht])⟩

theorem ideal_app {A : Arch} {va : Nat} {md : Mode} {im : Mem} (x y : Script) (ia op : Nat) (st : Mem × Nat) :
    (x.app y).ideal A va md im ia op st = y.ideal A va md im ia op (x.ideal A va md im ia op st) := by
  induction x generalizing ia op st with
  | done => rfl
  | pushProcess L len src ptr inner rest _ ih => simp only [Script.app, Script.ideal, ih]
  | push L len src ptr rest ih => simp only [Script.app, Script.ideal, ih]
  | pushRaw L len src rest ih => simp only [Script.app, Script.ideal, ih]
  | overwrite a L data rest ih => simp only [Script.app, Script.ideal, ih]

/-! ### Frame -/

/-- Below the end, the reference output only changes inside the words a script rewrites. -/
theorem ideal_frame {C : Cfg} {va : Nat} (hva : 0 < va) {md : Mode} {im : Mem} (sc : Script) {c : Ctx} (h : sc.WF C c)
    (ia op : Nat) (st : Mem × Nat) {i : Nat} (hi : i < st.2)
    (hd : ∀ t ∈ sc.touch C.arch, i < outPos ia op t.1 ∨ outPos ia op t.1 + t.2 ≤ i) :
    (sc.ideal C.arch va md im ia op st).1 i = st.1 i := by
  induction sc generalizing ia op st c with
  | done => rfl
  | pushProcess L len src ptr inner rest ih1 ih2 =>
    obtain ⟨ho, _, _, h1, h2⟩ := h
    have e1 := le_roundUp st.2 ho.pow2.pos
    have e2 := le_roundUp (roundUp st.2 L.align + L.size * len) hva
    simp only [Script.ideal]
    rw [ih2 h2 _ _ _ ?_ fun t ht => hd t (by simp [Script.touch, ht])]
    · rw [ih1 h1 _ _ _ (by simp only; omega) ?_]
      · simp only
        rw [putPtr_out (hd (ptr, C.arch.ptrBytes) (by simp [Script.touch])), blit_out (by omega)]
      · intro t _; left
        have := outPos_ge src (roundUp st.2 L.align) t.1; omega
    · refine Nat.lt_of_lt_of_le ?_ (ideal_mono hva inner h1 _ _ _)
      simp only; omega
  | push L len src ptr rest ih =>
    obtain ⟨ho, _, _, h2⟩ := h
    have e1 := le_roundUp st.2 ho.pow2.pos
    have e2 := le_roundUp (roundUp st.2 L.align + L.size * len) hva
    simp only [Script.ideal]
    rw [ih h2 _ _ _ (by simp only; omega) fun t ht => hd t (by simp [Script.touch, ht])]
    simp only
    rw [putPtr_out (hd (ptr, C.arch.ptrBytes) (by simp [Script.touch])), blit_out (by omega)]
  | pushRaw L len src rest ih =>
    obtain ⟨ho, h2⟩ := h
    have e1 := le_roundUp st.2 ho.pow2.pos
    have e2 := le_roundUp (roundUp st.2 L.align + L.size * len) hva
    simp only [Script.ideal]
    rw [ih h2 _ _ _ (by simp only; omega) fun t ht => hd t (by simp [Script.touch, ht])]
    simp only
    rw [blit_out (by omega)]
  | overwrite a L data rest ih =>
    simp only [Script.ideal]
    rw [ih h.2 _ _ _ (by simp only; omega) fun t ht => hd t (by simp [Script.touch, ht])]
    simp only
    exact putValue_out (hd (a, L.size) (by simp [Script.touch]))

/-! ### Typed scripts are well-formed -/

/-- A value of layout `L` at `a` inside allocation `c`. -/
structure Placed (c : Ctx) (L : Layout) (a : Nat) : Prop where
  lo : c.ia ≤ a
  hi : a + L.size ≤ c.ia + c.sz
  al : L.align ∣ c.al
  ia : c.al ∣ c.ia

/-- Rewritten words lie inside the value. -/
def TouchIn (A : Arch) (sc : Script) (a n : Nat) : Prop := ∀ t ∈ sc.touch A, a ≤ t.1 ∧ t.1 + t.2 ≤ a + n

/-- Types whose values occupy memory fit the storage's maximum alignment (checked at compile time by `align_for`,
storage/mod.rs:382). -/
def Prog.Accepted (P : Prog) (C : Cfg) : Prop := ∀ t, (P.layout t).size ≠ 0 → C.accepts (P.layout t) = true

section
variable {C : Cfg} {P : Prog} {im : Mem} {fl : Flags}

theorem touchIn_done (A : Arch) (a n : Nat) : TouchIn A .done a n := by intro t ht; simp [Script.touch] at ht

theorem touchOK_of {c : Ctx} {L : Layout} {a x n : Nat} (hp : Placed c L a) (ha : L.align ∣ a)
    (hW : C.arch.ptrBytes ∣ L.align) (hx : C.arch.ptrBytes ∣ x) (hn : x + n ≤ L.size) : TouchOK C c (a + x) n := by
  have h1 := hp.lo; have h2 := hp.hi
  refine ⟨by omega, by omega, Nat.dvd_trans hW hp.al, ?_⟩
  exact Nat.dvd_sub (Nat.dvd_add (Nat.dvd_trans hW ha) hx) (Nat.dvd_trans hW (Nat.dvd_trans hp.al hp.ia))

/-- Header words: distinct words of the three. -/
theorem headScript_wf {c : Ctx} {o : Order} {dangle a : Nat} {h : Header} {body : Script}
    (hW : Pow2 C.arch.ptrBytes)
    (hp : Placed c ⟨3 * C.arch.ptrBytes, C.arch.ptrBytes⟩ a) (ha : C.arch.ptrBytes ∣ a)
    (hb : h.len ≠ 0 → body.WF C c ∧ body.touch C.arch = [(a + o.ptrIx * C.arch.ptrBytes, C.arch.ptrBytes)]) :
    (headScript C.arch o dangle a h body).WF C c ∧
      TouchIn C.arch (headScript C.arch o dangle a h body) a (3 * C.arch.ptrBytes) := by
  have hW0 := hW.pos
  have T : ∀ x n, C.arch.ptrBytes ∣ x → x + n * C.arch.ptrBytes ≤ 3 * C.arch.ptrBytes → n ≠ 0 →
      OverOK c (a + x) ⟨n * C.arch.ptrBytes, C.arch.ptrBytes⟩ := fun x n h1 h2 hn => by
    have h := touchOK_of (C := C) hp ha (Nat.dvd_refl _) h1 h2
    exact ⟨Nat.mul_ne_zero hn (by omega), hW, h.lo, h.hi, h.al, h.off⟩
  have T0 : ∀ n, n ≠ 0 → n ≤ 3 → OverOK c a ⟨n * C.arch.ptrBytes, C.arch.ptrBytes⟩ := fun n hn h3 =>
    T 0 n (Nat.dvd_zero _) (by have := Nat.mul_le_mul_right C.arch.ptrBytes h3; omega) hn
  unfold headScript
  split
  · split
    · unfold fixEmpty
      cases o <;> simp only [Script.words, Script.WF, Script.touch, TouchIn, List.mem_cons, List.not_mem_nil, or_false, forall_eq,
        forall_eq_or_imp, List.length_cons, List.length_nil, Nat.zero_add, DisjRange, Nat.zero_mul, Nat.add_zero,
        and_true, false_implies, implies_true, ne_eq, not_false_eq_true, List.cons_ne_nil, true_and]
      · exact ⟨T0 _ (by omega) (by omega), by omega⟩
      · exact ⟨⟨T _ _ (Nat.dvd_mul_left _ _) (by omega) (by omega), T0 _ (by omega) (by omega)⟩, by omega, by omega⟩
      · exact ⟨T0 _ (by omega) (by omega), by omega⟩
      · exact ⟨⟨T0 _ (by omega) (by omega), T _ _ (Nat.dvd_mul_left _ _) (by omega) (by omega)⟩, by omega, by omega⟩
      · exact ⟨T _ _ (Nat.dvd_refl _) (by omega) (by omega), by omega⟩
      · exact ⟨T _ _ (Nat.dvd_refl _) (by omega) (by omega), by omega⟩
    · exact ⟨trivial, touchIn_done _ _ _⟩
  · rename_i hl
    obtain ⟨b1, b2⟩ := hb hl
    have hp3 : o.ptrIx * C.arch.ptrBytes ≤ 2 * C.arch.ptrBytes := by cases o <;> simp [Order.ptrIx] <;> omega
    have hc3 : o.capIx * C.arch.ptrBytes ≤ 2 * C.arch.ptrBytes := by cases o <;> simp [Order.capIx] <;> omega
    have hdj : o.capIx * C.arch.ptrBytes + C.arch.ptrBytes ≤ o.ptrIx * C.arch.ptrBytes ∨
        o.ptrIx * C.arch.ptrBytes + C.arch.ptrBytes ≤ o.capIx * C.arch.ptrBytes := by
      cases o <;> simp [Order.ptrIx, Order.capIx] <;> omega
    split
    · have hT := T (o.capIx * C.arch.ptrBytes) 1 (Nat.dvd_mul_left _ _) (by omega) (by omega)
      simp only [Script.words, Script.WF, TouchIn, Script.touch, b2, List.mem_cons, List.not_mem_nil, or_false, forall_eq_or_imp, forall_eq,
        List.length_singleton, Nat.one_mul, DisjRange]
      exact ⟨⟨by simpa using hT, b1⟩, by omega, by omega⟩
    · refine ⟨b1, ?_⟩
      intro t ht; rw [b2] at ht; simp only [List.mem_singleton] at ht
      subst ht; simp only; omega

/-- The claim for one type. -/
def WFClaim (C : Cfg) (P : Prog) (rd : TyId → Nat → Option Val) (rc : TyId → Nat → Option Script) : Prop :=
  ∀ t a v sc c, rd t a = some v → rc t a = some sc → Placed c (P.layout t) a →
    sc.WF C c ∧ TouchIn C.arch sc a (P.layout t).size

theorem scriptEach_wf {rd : TyId → Nat → Option Val} {rc : TyId → Nat → Option Script} (hrec : WFClaim C P rd rc)
    {c : Ctx} {L : Layout} {a : Nat} (hp : Placed c L a) {fs : List Field} (hf : FieldsWF P L fs) {vs : List Val} {sc : Script}
    (hd : decodeEach rd a fs = some vs) (hs : scriptEach rc a fs = some sc) :
    sc.WF C c ∧ ∀ t ∈ sc.touch C.arch, ∃ f ∈ fs, a + f.1 ≤ t.1 ∧ t.1 + t.2 ≤ a + f.1 + (P.layout f.2).size := by
  induction fs generalizing vs sc with
  | nil => simp only [scriptEach, Option.some.injEq] at hs; subst hs; exact ⟨trivial, by simp [Script.touch]⟩
  | cons f fs ih =>
    simp only [decodeEach, Option.bind_eq_bind, Option.bind_eq_some_iff, Option.pure_def, Option.some.injEq] at hd
    simp only [scriptEach, Option.bind_eq_bind, Option.bind_eq_some_iff, Option.pure_def, Option.some.injEq] at hs
    obtain ⟨v, d1, ws, d2, _⟩ := hd
    obtain ⟨s1, e1, s2, e2, rfl⟩ := hs
    have hlo := hp.lo; have hhi := hp.hi
    have hin := hf.inBounds f (by simp)
    obtain ⟨w1, t1⟩ := hrec _ _ _ _ c d1 e1 ⟨by omega, by omega, Nat.dvd_trans (hf.alignLe f (by simp)) hp.al, hp.ia⟩
    obtain ⟨w2, t2⟩ := ih ⟨fun g hg => hf.inBounds g (by simp [hg]), fun g hg => hf.aligned g (by simp [hg]),
      fun g hg => hf.alignLe g (by simp [hg]), (List.pairwise_cons.1 hf.disjoint).2⟩ d2 e2
    refine ⟨wf_app w1 w2 ?_, ?_⟩
    · intro t ht t' ht'
      obtain ⟨g, hg, g1, g2⟩ := t2 t' ht'
      obtain ⟨f1, f2⟩ := t1 t ht
      have := (List.pairwise_cons.1 hf.disjoint).1 g hg
      unfold DisjRange at *; omega
    · intro t ht
      rw [touch_app, List.mem_append] at ht
      rcases ht with ht | ht
      · exact ⟨f, by simp, t1 t ht⟩
      · obtain ⟨g, hg, g1⟩ := t2 t ht; exact ⟨g, by simp [hg], g1⟩

theorem touchIn_of_fields {L : Layout} {a : Nat} {fs : List Field} (hf : FieldsWF P L fs) {sc : Script}
    (h : ∀ t ∈ sc.touch C.arch, ∃ f ∈ fs, a + f.1 ≤ t.1 ∧ t.1 + t.2 ≤ a + f.1 + (P.layout f.2).size) :
    TouchIn C.arch sc a L.size := by
  intro t ht
  obtain ⟨f, hf', h1, h2⟩ := h t ht
  have := hf.inBounds f hf'
  omega

theorem elems_wf {A : Arch} (hP : P.WF A) (u k : Nat) : FieldsWF P ⟨k * (P.layout u).size, (P.layout u).align⟩ (elems P u k) := by
  obtain ⟨_, hdv, _⟩ := hP u
  have hmul : ∀ i j, i < j → i * (P.layout u).size + (P.layout u).size ≤ j * (P.layout u).size := by
    intro i j h
    have := Nat.mul_le_mul_right (P.layout u).size (show i + 1 ≤ j from h)
    rw [Nat.add_mul, Nat.one_mul] at this; exact this
  refine ⟨?_, ?_, ?_, ?_⟩
  · intro f hf; obtain ⟨i, hi, rfl⟩ := mem_elems.1 hf; exact hmul i k hi
  · intro f hf; obtain ⟨i, hi, rfl⟩ := mem_elems.1 hf; exact Nat.dvd_trans hdv (Nat.dvd_mul_left _ _)
  · intro f hf; obtain ⟨i, hi, rfl⟩ := mem_elems.1 hf; exact Nat.dvd_refl _
  · unfold elems
    rw [List.pairwise_map]
    refine (List.pairwise_lt_range (n := k)).imp ?_
    intro i j hij; left; exact hmul i j hij

theorem pushOK_vec (hP : P.WF C.arch) (hacc : P.Accepted C) {u : TyId} (hz : (P.layout u).size ≠ 0) {h : Header}
    (hv : h.Valid C.arch fl (P.layout u)) (hl : h.len ≠ 0) : PushOK C (P.layout u) h.len h.ptr := by
  obtain ⟨_, _, hv⟩ := hv
  obtain ⟨v1, v2, v3, _⟩ := hv hz
  have := Nat.mul_le_mul_right (P.layout u).size v1
  have hc := Nat.mul_comm (P.layout u).size h.len
  refine ⟨hz, (hP u).1, ?_, by omega⟩
  have := hacc u hz
  unfold Cfg.accepts at this; simpa using this

theorem scriptVec_wf (hW : Pow2 C.arch.ptrBytes) (hP : P.WF C.arch) (hacc : P.Accepted C)
    {rd : TyId → Nat → Option Val} {rc : TyId → Nat → Option Script} (hrec : WFClaim C P rd rc)
    {c : Ctx} {u : TyId} {a : Nat} {v : Val} {sc : Script} (hp : Placed c ⟨3 * C.arch.ptrBytes, C.arch.ptrBytes⟩ a)
    (ha : C.arch.ptrBytes ∣ a)
    (hd : decodeVec C.arch P fl im rd u a = some v) (hs : scriptVec C.arch P im rc u a = some sc) :
    sc.WF C c ∧ TouchIn C.arch sc a (3 * C.arch.ptrBytes) := by
  unfold scriptVec at hs
  split at hs
  · simp only [Option.some.injEq] at hs; subst hs; exact ⟨trivial, touchIn_done _ _ _⟩
  · rename_i hz
    simp only [decodeVec, Option.bind_eq_bind, Option.bind_eq_some_iff, Option.pure_def, Option.some.injEq,
      Option.ite_none_right_eq_some] at hd
    simp only [Option.bind_eq_bind, Option.bind_eq_some_iff, Option.pure_def, Option.some.injEq] at hs
    obtain ⟨h, h1, hval, vs, h2, _⟩ := hd
    obtain ⟨h', h1', inner, e1, rfl⟩ := hs
    rw [h1] at h1'; obtain rfl := Option.some.inj h1'
    have hW0 := hW.pos
    refine headScript_wf hW hp ha fun hl => ?_
    have ho := pushOK_vec hP hacc hz hval hl
    have hp3 : (P.vecOrder u).ptrIx * C.arch.ptrBytes ≤ 2 * C.arch.ptrBytes := by
      cases P.vecOrder u <;> simp [Order.ptrIx] <;> omega
    refine ⟨⟨ho, touchOK_of hp ha (Nat.dvd_refl _) (Nat.dvd_mul_left _ _) (by simp only; omega), by simp [Script.touch], ?_, trivial⟩,
      by simp [Script.touch]⟩
    refine (scriptEach_wf (L := ⟨h.len * (P.layout u).size, (P.layout u).align⟩) hrec
      ⟨Nat.le_refl _, by simp only; rw [Nat.mul_comm], Nat.dvd_refl _, ?_⟩ (elems_wf hP u h.len) h2 e1).1
    exact Nat.dvd_of_mod_eq_zero hval.2.1

theorem script_wf (hW : 0 < C.arch.ptrBytes) (hP : P.WF C.arch) (hacc : P.Accepted C) (n : Nat) :
    WFClaim C P (decode C.arch P fl im n) (script C.arch P im n) := by
  induction n with
  | zero => intro t a v sc c hd; simp [decode] at hd
  | succ n ih =>
    intro t a v sc c hd hs hp
    have hw := hP t
    unfold TyWF at hw
    obtain ⟨_, _, _, hw⟩ := hw
    have hg := decode_guard hd
    rw [script] at hs
    rw [decode] at hd
    split at hd
    · cases hdef : P.defn t <;> simp only [hdef] at hd hw hs
      case prim => simp only [Option.some.injEq] at hs; subst hs; exact ⟨trivial, touchIn_done _ _ _⟩
      case box u =>
        split at hs
        · simp only [Option.some.injEq] at hs; subst hs; exact ⟨trivial, touchIn_done _ _ _⟩
        · rename_i hz
          simp only [Option.bind_eq_bind, Option.bind_eq_some_iff, Option.pure_def, Option.some.injEq,
            Option.ite_none_right_eq_some] at hd hs
          obtain ⟨p, h1, h2, v', h3, _⟩ := hd
          obtain ⟨p', h1', inner, e1, rfl⟩ := hs
          rw [h1] at h1'; obtain rfl := Option.some.inj h1'
          rw [hw] at hp hg ⊢
          obtain ⟨g1, g2⟩ := decode_guard h3
          obtain ⟨u1, _, u2, _⟩ := hP u
          have hacc' := hacc u hz
          unfold Cfg.accepts at hacc'
          have ho : PushOK C (P.layout u) 1 p := ⟨hz, u1, by simpa using hacc', by omega⟩
          refine ⟨⟨ho, ?_, by simp [Script.touch], ?_, trivial⟩, ?_⟩
          · exact touchOK_of (x := 0) hp hg.1 (Nat.dvd_refl _) (Nat.dvd_zero _) (by simp only; omega)
          · exact (ih _ _ _ _ _ h3 e1 ⟨Nat.le_refl _, by simp, Nat.dvd_refl _, g1⟩).1
          · intro t ht; simp only [Script.touch, List.mem_cons, List.not_mem_nil, or_false] at ht; subst ht; simp
      case vec u =>
        rw [hw] at hp hg ⊢
        exact scriptVec_wf (by have := (hP t).1; rwa [hw] at this) hP hacc ih hp hg.1 hd hs
      case string =>
        rw [hw] at hp hg ⊢
        simp only [decodeStr, Option.bind_eq_bind, Option.bind_eq_some_iff, Option.pure_def, Option.some.injEq,
          Option.ite_none_right_eq_some] at hd hs
        obtain ⟨h, h1, hval, bs, h2, _⟩ := hd
        obtain ⟨h', h1', rfl⟩ := hs
        rw [h1] at h1'; obtain rfl := Option.some.inj h1'
        refine headScript_wf (by have := (hP t).1; rwa [hw] at this) hp hg.1 fun hl => ?_
        obtain ⟨_, _, hv⟩ := hval
        obtain ⟨v1, v2, v3, _⟩ := hv (by simp)
        simp only [Nat.mul_one] at v2 v3
        have hp3 : P.stringOrder.ptrIx * C.arch.ptrBytes ≤ 2 * C.arch.ptrBytes := by
          cases P.stringOrder <;> simp [Order.ptrIx] <;> omega
        have hacc' := hacc t (by rw [hw]; simp only; omega)
        unfold Cfg.accepts at hacc'; rw [hw] at hacc'; simp only [decide_eq_true_eq] at hacc'
        refine ⟨⟨⟨by simp, ⟨0, rfl⟩, by simp only; omega, by simp only; omega⟩,
          touchOK_of hp hg.1 (Nat.dvd_refl _) (Nat.dvd_mul_left _ _) (by simp only; omega), by simp [Script.touch], trivial⟩,
          by simp [Script.touch]⟩
      case array u k =>
        simp only [Option.bind_eq_bind, Option.bind_eq_some_iff] at hd
        obtain ⟨vs, h1, _⟩ := hd
        have hL : P.layout t = ⟨k * (P.layout u).size, (P.layout u).align⟩ := by
          have : P.layout t = ⟨(P.layout t).size, (P.layout t).align⟩ := rfl
          rw [this, hw.1, hw.2]
        rw [hL] at hp ⊢
        obtain ⟨w1, w2⟩ := scriptEach_wf ih hp (elems_wf hP u k) h1 hs
        exact ⟨w1, touchIn_of_fields (elems_wf hP u k) w2⟩
      case struct fs =>
        simp only [Option.bind_eq_bind, Option.bind_eq_some_iff] at hd
        obtain ⟨vs, h1, _⟩ := hd
        obtain ⟨w1, w2⟩ := scriptEach_wf ih hp hw h1 hs
        exact ⟨w1, touchIn_of_fields hw w2⟩
      case enum tag vs =>
        simp only [Option.bind_eq_bind, Option.bind_eq_some_iff] at hd hs
        obtain ⟨i, h1, fs, h2, xs, h3, _⟩ := hd
        obtain ⟨i', h1', fs', h2', hs⟩ := hs
        rw [h1] at h1'; obtain rfl := Option.some.inj h1'
        rw [h2] at h2'; obtain rfl := Option.some.inj h2'
        have hf := hw.1 fs (List.mem_of_getElem? h2)
        obtain ⟨w1, w2⟩ := scriptEach_wf ih hp hf h3 hs
        exact ⟨w1, touchIn_of_fields hf w2⟩
      case bigUint u =>
        rw [hw.1] at hp hg ⊢
        exact scriptVec_wf (by have := (hP t).1; rwa [hw.1] at this) hP hacc ih hp hg.1 hd hs
      case bigInt u =>
        simp only [Option.bind_eq_bind, Option.bind_eq_some_iff] at hd
        obtain ⟨_, _, v', h2, _⟩ := hd
        obtain ⟨hL, _, hu⟩ := hw
        have hoff : P.bigIntDataOff C.arch ≤ C.arch.ptrBytes := by unfold Prog.bigIntDataOff; split <;> omega
        have hlo := hp.lo; have hhi := hp.hi; have hal := hp.al
        rw [hL] at hhi hal
        simp only at hhi hal
        obtain ⟨w1, w2⟩ := ih _ _ _ _ c h2 hs (by rw [hu]; exact ⟨by omega, by simp only; omega, hal, hp.ia⟩)
        refine ⟨w1, fun x hx => ?_⟩
        obtain ⟨y1, y2⟩ := w2 x hx
        rw [hu] at y2; rw [hL]; simp only at *; omega
    · cases hd

end
end SerRaw
