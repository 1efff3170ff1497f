import Verif.Spec.HandNested
/-
Types with hand-written implementations nested in the others and the other way round: the calls made are those of scripts, these
follow the rules, and the reference output is read back.
-/
namespace SerRaw

/-! ### The calls made, as scripts -/

/-- One level of `script` (Lemmas/TypedScript.lean). -/
def scriptStep (A : Arch) (P : Prog) (im : Mem) (rec : TyId → Nat → Option Script) (t : TyId) (a : Nat) : Option Script :=
  match P.defn t with
  | .prim => some .done
  | .box u =>
    if (P.layout u).size = 0 then some .done
    else do
      let p ← readWord A im a
      let inner ← rec u p
      pure (.pushProcess (P.layout u) 1 p a inner .done)
  | .vec u => scriptVec A P im rec u a
  | .string => do
    let h ← readHeader A im P.stringOrder a
    pure (headScript A P.stringOrder 1 a h
      (.push ⟨1, 1⟩ h.len h.ptr (a + P.stringOrder.ptrIx * A.ptrBytes) .done))
  | .array u k => scriptEach rec a (elems P u k)
  | .struct fs => scriptEach rec a fs
  | .enum tag vs => do
    let i ← activeVariant A im a tag
    let fs ← vs[i]?
    scriptEach rec a fs
  | .bigUint u => scriptVec A P im rec u a
  | .bigInt u => rec u (a + P.bigIntDataOff A)

/-- The calls made by `serialize_data` for the value of type `t` at `a`. -/
def hScript (A : Arch) (P : Prog) (X : TyId → Option HandImpl) (im : Mem) : Nat → TyId → Nat → Option Script
  | 0, _, _ => none
  | n + 1, t, a =>
    match X t with
    | none => scriptStep A P im (hScript A P X im n) t a
    | some I => (I im a).bind (HCalls.script (hScript A P X im n))

theorem hSerStep_eq {C : Cfg} (hW : 0 < C.arch.ptrBytes) (k : Kind) {P : Prog} (hP : P.WF C.arch) {im : Mem} {fl : Flags}
    {rs : TyId → Nat → M Ser Unit} {rd : TyId → Nat → Option Val} {rc : TyId → Nat → Option Script}
    (ih : ∀ {t a v}, rd t a = some v → ∃ sc, rc t a = some sc ∧ rs t a = sc.run C k im)
    {t a : Nat} {v : Val} (hg : a + (P.layout t).size < C.arch.usizeMod) (hd : decodeStep C.arch P fl im rd t a = some v) :
    ∃ sc, scriptStep C.arch P im rc t a = some sc ∧ serStep C k P im rs t a = sc.run C k im := by
  have hw := hP t
  unfold TyWF at hw
  obtain ⟨_, _, _, hw⟩ := hw
  rw [scriptStep, serStep]
  rw [decodeStep] at hd
  cases hdef : P.defn t <;> simp only [hdef] at hd hw ⊢
  case prim => exact ⟨_, rfl, rfl⟩
  case box u =>
    simp only [Option.bind_eq_bind, Option.bind_eq_some_iff, Option.pure_def, Option.some.injEq,
      Option.ite_none_right_eq_some] at hd
    obtain ⟨p, h1, h2, v', h3, _⟩ := hd
    unfold serBox
    by_cases hz : (P.layout u).size = 0
    · exact ⟨.done, by rw [if_pos hz], by rw [if_pos hz]; rfl⟩
    · obtain ⟨inner, e1, e2⟩ := ih h3
      refine ⟨_, by rw [if_neg hz]; simp only [h1, e1, Option.bind_eq_bind, Option.bind_some]; rfl, ?_⟩
      rw [if_neg hz]
      simp only [readIn, h1, pure_bind_M, e2, pushAndProcess, Slice.fromRef, Script.run]
      rfl
  case vec u =>
    exact serVec_eq hW hP (fun t a v => ih) (by rw [hw] at hg; exact hg) hd
  case string =>
    obtain ⟨h, h1, h2⟩ := serString_eq (k := k) hW (by rw [hw] at hg; exact hg) hd
    exact ⟨_, by rw [h1]; rfl, h2⟩
  case array u cnt =>
    simp only [Option.bind_eq_bind, Option.bind_eq_some_iff] at hd
    obtain ⟨vs, h1, _⟩ := hd
    exact serEach_eq (fun t a v => ih) a _ h1
  case struct fs =>
    simp only [Option.bind_eq_bind, Option.bind_eq_some_iff] at hd
    obtain ⟨vs, h1, _⟩ := hd
    exact serEach_eq (fun t a v => ih) a _ h1
  case enum tag vs =>
    simp only [Option.bind_eq_bind, Option.bind_eq_some_iff] at hd
    obtain ⟨i, h1, fs, h2, xs, h3, _⟩ := hd
    obtain ⟨sc, e1, e2⟩ := serEach_eq (fun t a v => ih) a _ h3
    refine ⟨sc, by simp [h1, h2, e1], ?_⟩
    unfold serEnum
    simp only [h1, h2, e2]
  case bigUint u =>
    exact serVec_eq hW hP (fun t a v => ih) (by rw [hw.1] at hg; exact hg) hd
  case bigInt u =>
    simp only [Option.bind_eq_bind, Option.bind_eq_some_iff] at hd
    obtain ⟨_, _, v', h2, _⟩ := hd
    obtain ⟨sc, e1, e2⟩ := ih h2
    refine ⟨sc, e1, ?_⟩
    obtain ⟨_, ⟨d, hu⟩, _⟩ := hw
    unfold serBigInt
    simp only [hu]
    funext s
    rw [bind_ok (bigintDataOffset_ok hW P d s), e2]

/-- HCalls that follow the rules are those of a script. -/
theorem HCalls.run_eq {C : Cfg} {k : Kind} {P : Prog} {im : Mem} {rs : TyId → Nat → M Ser Unit} {ok : TyId → Nat → Prop}
    {rc : TyId → Nat → Option Script} (ih : ∀ {t a}, ok t a → ∃ sc, rc t a = some sc ∧ rs t a = sc.run C k im)
    {cs : HCalls} {c : Ctx} (h : cs.WF C P ok c) : ∃ sc, cs.script rc = some sc ∧ cs.run C k im rs = sc.run C k im := by
  induction cs generalizing c with
  | done => exact ⟨.done, rfl, rfl⟩
  | data t a rest ih2 =>
    obtain ⟨s1, e1, e2⟩ := ih h.1
    obtain ⟨s2, e3, e4⟩ := ih2 h.2.2.2
    exact ⟨s1.app s2, by simp [HCalls.script, e1, e3], by simp only [HCalls.run, e2, e4, run_app]⟩
  | pushProcess L len src ptr inner rest ih1 ih2 =>
    obtain ⟨s1, e1, e2⟩ := ih1 h.2.2.2.1
    obtain ⟨s2, e3, e4⟩ := ih2 h.2.2.2.2
    exact ⟨.pushProcess L len src ptr s1 s2, by simp [HCalls.script, e1, e3], by simp only [HCalls.run, e2, e4, Script.run]⟩
  | push L len src ptr rest ih2 =>
    obtain ⟨s2, e3, e4⟩ := ih2 h.2.2.2
    exact ⟨.push L len src ptr s2, by simp [HCalls.script, e3], by simp only [HCalls.run, e4, Script.run]⟩
  | pushRaw L len src rest ih2 =>
    obtain ⟨s2, e3, e4⟩ := ih2 h.2
    exact ⟨.pushRaw L len src s2, by simp [HCalls.script, e3], by simp only [HCalls.run, e4, Script.run]⟩
  | overwrite a L data rest ih2 =>
    obtain ⟨s2, e3, e4⟩ := ih2 h.2
    exact ⟨.overwrite a L data s2, by simp [HCalls.script, e3], by simp only [HCalls.run, e4, Script.run]⟩

section
variable {C : Cfg} {P : Prog} {im : Mem} {fl : Flags} {X : TyId → Option HandImpl} {V V' : TyId → HandView}

theorem decodeH_guard (A : Arch) (P : Prog) (X : TyId → Option HandImpl) (V : TyId → HandView) (fl : Flags) (m : Mem) (n : Nat) :
    Guarded A P (decodeH A P X V fl m n) := by
  intro t a v h
  cases n with
  | zero => simp [decodeH] at h
  | succ n =>
    rw [decodeH] at h
    split at h
    · rename_i hg; exact ⟨Nat.dvd_of_mod_eq_zero hg.1, hg.2⟩
    · cases h

theorem hSerData_eq (hW : 0 < C.arch.ptrBytes) (k : Kind) (hP : P.WF C.arch) (hX : AllHandOK C P X V V')
    {n t a : Nat} {v : Val} (hd : decodeH C.arch P X V fl im n t a = some v) :
    ∃ sc, hScript C.arch P X im n t a = some sc ∧ hSerData C k P X im n t a = sc.run C k im := by
  induction n generalizing t a v with
  | zero => simp [decodeH] at hd
  | succ n ih =>
    have hg := decodeH_guard _ _ _ _ _ _ _ _ _ _ hd
    rw [decodeH, if_pos ⟨Nat.dvd_iff_mod_eq_zero.1 hg.1, hg.2⟩] at hd
    rw [hScript, hSerData]
    cases hx : X t with
    | none =>
      simp only [hx] at hd ⊢
      exact hSerStep_eq hW k hP ih hg.2 hd
    | some I =>
      simp only [hx] at hd ⊢
      obtain ⟨cs, h1, h2⟩ := (hX t I hx).rules (decodeH_guard _ _ _ _ _ _ _) hg.1 hg.2 hd
      rw [h1, Option.bind_some]
      exact HCalls.run_eq (fun ⟨w, hw⟩ => ih hw) h2

/-! ### The rules are followed -/

theorem Script.WF.embed {sc : Script} {L : Layout} {a : Nat} (h : sc.WF C ⟨a, L.size, L.align⟩) {c : Ctx} (hp : Placed c L a)
    (ha : L.align ∣ a) : sc.WF C c := by
  have hlo := hp.lo; have hhi := hp.hi
  have hia : L.align ∣ a - c.ia := Nat.dvd_sub ha (Nat.dvd_trans hp.al hp.ia)
  have T : ∀ {x n}, TouchOK C ⟨a, L.size, L.align⟩ x n → TouchOK C c x n := by
    intro x n ⟨h1, h2, h3, h4⟩
    simp only at h1 h2 h3 h4
    refine ⟨by omega, by omega, Nat.dvd_trans h3 hp.al, ?_⟩
    rw [show x - c.ia = (x - a) + (a - c.ia) by omega]
    exact Nat.dvd_add h4 (Nat.dvd_trans h3 hia)
  have O : ∀ {x L'}, OverOK ⟨a, L.size, L.align⟩ x L' → OverOK c x L' := by
    intro x L' ⟨h0, h0', h1, h2, h3, h4⟩
    simp only at h1 h2 h3 h4
    refine ⟨h0, h0', by omega, by omega, Nat.dvd_trans h3 hp.al, ?_⟩
    rw [show x - c.ia = (x - a) + (a - c.ia) by omega]
    exact Nat.dvd_add h4 (Nat.dvd_trans h3 hia)
  induction sc with
  | done => trivial
  | pushProcess L len src ptr inner rest _ ih => exact ⟨h.1, T h.2.1, h.2.2.1, h.2.2.2.1, ih h.2.2.2.2⟩
  | push L len src ptr rest ih => exact ⟨h.1, T h.2.1, h.2.2.1, ih h.2.2.2⟩
  | pushRaw L len src rest ih => exact ⟨h.1, ih h.2⟩
  | overwrite a L data rest ih => exact ⟨O h.1, ih h.2⟩

/-- Every range rewritten by well-formed calls is inside the allocation. -/
theorem Script.WF.touchIn {sc : Script} {c : Ctx} (h : sc.WF C c) : TouchIn C.arch sc c.ia c.sz := by
  induction sc with
  | done => exact touchIn_done _ _ _
  | pushProcess L len src ptr inner rest _ ih =>
    intro t ht
    rcases List.mem_cons.1 ht with rfl | ht
    · exact ⟨h.2.1.lo, h.2.1.hi⟩
    · exact ih h.2.2.2.2 t ht
  | push L len src ptr rest ih =>
    intro t ht
    rcases List.mem_cons.1 ht with rfl | ht
    · exact ⟨h.2.1.lo, h.2.1.hi⟩
    · exact ih h.2.2.2 t ht
  | pushRaw L len src rest ih => exact ih h.2
  | overwrite a L data rest ih =>
    intro t ht
    rcases List.mem_cons.1 ht with rfl | ht
    · exact ⟨h.1.lo, h.1.hi⟩
    · exact ih h.2 t ht

theorem HCalls.script_wf {rd : TyId → Nat → Option Val} {rc : TyId → Nat → Option Script} (hwf : WFClaim C P rd rc)
    {cs : HCalls} {c : Ctx} (h : cs.WF C P (fun u b => ∃ w, rd u b = some w) c) {sc : Script} (hs : cs.script rc = some sc) :
    sc.WF C c ∧ ∀ r ∈ sc.touch C.arch, ∃ q ∈ cs.touch C.arch P, q.1 ≤ r.1 ∧ r.1 + r.2 ≤ q.1 + q.2 := by
  have D : ∀ {x n : Nat} {q r : Nat × Nat}, q.1 ≤ r.1 ∧ r.1 + r.2 ≤ q.1 + q.2 → DisjRange x n q.1 q.2 → DisjRange x n r.1 r.2 := by
    intro x n q r h1 h2; unfold DisjRange at *; omega
  induction cs generalizing c sc with
  | done => simp only [HCalls.script, Option.some.injEq] at hs; subst hs; exact ⟨trivial, by simp [Script.touch]⟩
  | data t a rest ih =>
    simp only [HCalls.script, Option.bind_eq_bind, Option.bind_eq_some_iff, Option.pure_def, Option.some.injEq] at hs
    obtain ⟨s1, e1, s2, e2, rfl⟩ := hs
    obtain ⟨⟨w, hw⟩, h2, h3, h4⟩ := h
    obtain ⟨w1, t1⟩ := hwf _ _ _ _ c hw e1 h2
    obtain ⟨w2, t2⟩ := ih h4 e2
    refine ⟨wf_app w1 w2 ?_, ?_⟩
    · intro r hr r' hr'
      obtain ⟨q, hq, hq'⟩ := t2 r' hr'
      have := D hq' (h3 q hq)
      have := t1 r hr
      unfold DisjRange at *; omega
    · intro r hr
      rw [touch_app, List.mem_append] at hr
      rcases hr with hr | hr
      · exact ⟨_, List.mem_cons_self, t1 r hr⟩
      · obtain ⟨q, hq, hq'⟩ := t2 r hr
        exact ⟨q, List.mem_cons_of_mem _ hq, hq'⟩
  | pushProcess L len src ptr inner rest ih1 ih2 =>
    simp only [HCalls.script, Option.bind_eq_bind, Option.bind_eq_some_iff, Option.pure_def, Option.some.injEq] at hs
    obtain ⟨s1, e1, s2, e2, rfl⟩ := hs
    obtain ⟨h1, h2, h3, h4, h5⟩ := h
    obtain ⟨w1, _⟩ := ih1 h4 e1
    obtain ⟨w2, t2⟩ := ih2 h5 e2
    refine ⟨⟨h1, h2, ?_, w1, w2⟩, ?_⟩
    · intro r hr; obtain ⟨q, hq, hq'⟩ := t2 r hr; exact D hq' (h3 q hq)
    · intro r hr
      rcases List.mem_cons.1 hr with rfl | hr
      · exact ⟨_, List.mem_cons_self, Nat.le_refl _, Nat.le_refl _⟩
      · obtain ⟨q, hq, hq'⟩ := t2 r hr; exact ⟨q, List.mem_cons_of_mem _ hq, hq'⟩
  | push L len src ptr rest ih2 =>
    simp only [HCalls.script, Option.bind_eq_bind, Option.bind_eq_some_iff, Option.pure_def, Option.some.injEq] at hs
    obtain ⟨s2, e2, rfl⟩ := hs
    obtain ⟨h1, h2, h3, h5⟩ := h
    obtain ⟨w2, t2⟩ := ih2 h5 e2
    refine ⟨⟨h1, h2, ?_, w2⟩, ?_⟩
    · intro r hr; obtain ⟨q, hq, hq'⟩ := t2 r hr; exact D hq' (h3 q hq)
    · intro r hr
      rcases List.mem_cons.1 hr with rfl | hr
      · exact ⟨_, List.mem_cons_self, Nat.le_refl _, Nat.le_refl _⟩
      · obtain ⟨q, hq, hq'⟩ := t2 r hr; exact ⟨q, List.mem_cons_of_mem _ hq, hq'⟩
  | pushRaw L len src rest ih2 =>
    simp only [HCalls.script, Option.bind_eq_bind, Option.bind_eq_some_iff, Option.pure_def, Option.some.injEq] at hs
    obtain ⟨s2, e2, rfl⟩ := hs
    obtain ⟨w2, t2⟩ := ih2 h.2 e2
    exact ⟨⟨h.1, w2⟩, t2⟩
  | overwrite a L data rest ih2 =>
    simp only [HCalls.script, Option.bind_eq_bind, Option.bind_eq_some_iff, Option.pure_def, Option.some.injEq] at hs
    obtain ⟨s2, e2, rfl⟩ := hs
    obtain ⟨w2, t2⟩ := ih2 h.2 e2
    refine ⟨⟨h.1, w2⟩, ?_⟩
    intro r hr
    rcases List.mem_cons.1 hr with rfl | hr
    · exact ⟨_, List.mem_cons_self, Nat.le_refl _, Nat.le_refl _⟩
    · obtain ⟨q, hq, hq'⟩ := t2 r hr; exact ⟨q, List.mem_cons_of_mem _ hq, hq'⟩

theorem step_wf (hW : 0 < C.arch.ptrBytes) (hP : P.WF C.arch) (hacc : P.Accepted C)
    {rd : TyId → Nat → Option Val} {rc : TyId → Nat → Option Script} (hgd : Guarded C.arch P rd) (ih : WFClaim C P rd rc)
    {t a : Nat} {v : Val} {sc : Script} {c : Ctx} (hg : (P.layout t).align ∣ a ∧ a + (P.layout t).size < C.arch.usizeMod)
    (hd : decodeStep C.arch P fl im rd t a = some v) (hs : scriptStep C.arch P im rc t a = some sc) (hp : Placed c (P.layout t) a) :
    sc.WF C c ∧ TouchIn C.arch sc a (P.layout t).size := by
  have hw := hP t
  unfold TyWF at hw
  obtain ⟨_, _, _, hw⟩ := hw
  rw [scriptStep] at hs
  rw [decodeStep] at hd
  cases hdef : P.defn t <;> simp only [hdef] at hd hw hs
  case prim => simp only [Option.some.injEq] at hs; subst hs; exact ⟨trivial, touchIn_done _ _ _⟩
  case box u =>
    split at hs
    · simp only [Option.some.injEq] at hs; subst hs; exact ⟨trivial, touchIn_done _ _ _⟩
    · rename_i hz
      simp only [Option.bind_eq_bind, Option.bind_eq_some_iff, Option.pure_def, Option.some.injEq,
        Option.ite_none_right_eq_some] at hd hs
      obtain ⟨p, h1, h2, v', h3, _⟩ := hd
      obtain ⟨p', h1', inner, e1, rfl⟩ := hs
      rw [h1] at h1'; obtain rfl := Option.some.inj h1'
      rw [hw] at hp hg ⊢
      obtain ⟨g1, g2⟩ := hgd _ _ _ h3
      obtain ⟨u1, _, u2, _⟩ := hP u
      have hacc' := hacc u hz
      unfold Cfg.accepts at hacc'
      have ho : PushOK C (P.layout u) 1 p := ⟨hz, u1, by simpa using hacc', by omega⟩
      refine ⟨⟨ho, ?_, by simp [Script.touch], ?_, trivial⟩, ?_⟩
      · exact touchOK_of (x := 0) hp hg.1 (Nat.dvd_refl _) (Nat.dvd_zero _) (by simp only; omega)
      · exact (ih _ _ _ _ _ h3 e1 ⟨Nat.le_refl _, by simp, Nat.dvd_refl _, g1⟩).1
      · intro t ht; simp only [Script.touch, List.mem_cons, List.not_mem_nil, or_false] at ht; subst ht; simp
  case vec u =>
    rw [hw] at hp hg ⊢
    exact scriptVec_wf (by have := (hP t).1; rwa [hw] at this) hP hacc ih hp hg.1 hd hs
  case string =>
    rw [hw] at hp hg ⊢
    simp only [decodeStr, Option.bind_eq_bind, Option.bind_eq_some_iff, Option.pure_def, Option.some.injEq,
      Option.ite_none_right_eq_some] at hd hs
    obtain ⟨h, h1, hval, bs, h2, _⟩ := hd
    obtain ⟨h', h1', rfl⟩ := hs
    rw [h1] at h1'; obtain rfl := Option.some.inj h1'
    refine headScript_wf (by have := (hP t).1; rwa [hw] at this) hp hg.1 fun hl => ?_
    obtain ⟨_, _, hv⟩ := hval
    obtain ⟨v1, v2, v3, _⟩ := hv (by simp)
    simp only [Nat.mul_one] at v2 v3
    have hp3 : P.stringOrder.ptrIx * C.arch.ptrBytes ≤ 2 * C.arch.ptrBytes := by
      cases P.stringOrder <;> simp [Order.ptrIx] <;> omega
    have hacc' := hacc t (by rw [hw]; simp only; omega)
    unfold Cfg.accepts at hacc'; rw [hw] at hacc'; simp only [decide_eq_true_eq] at hacc'
    refine ⟨⟨⟨by simp, ⟨0, rfl⟩, by simp only; omega, by simp only; omega⟩,
      touchOK_of hp hg.1 (Nat.dvd_refl _) (Nat.dvd_mul_left _ _) (by simp only; omega), by simp [Script.touch], trivial⟩,
      by simp [Script.touch]⟩
  case array u k =>
    simp only [Option.bind_eq_bind, Option.bind_eq_some_iff] at hd
    obtain ⟨vs, h1, _⟩ := hd
    have hL : P.layout t = ⟨k * (P.layout u).size, (P.layout u).align⟩ := by
      have : P.layout t = ⟨(P.layout t).size, (P.layout t).align⟩ := rfl
      rw [this, hw.1, hw.2]
    rw [hL] at hp ⊢
    obtain ⟨w1, w2⟩ := scriptEach_wf ih hp (elems_wf hP u k) h1 hs
    exact ⟨w1, touchIn_of_fields (elems_wf hP u k) w2⟩
  case struct fs =>
    simp only [Option.bind_eq_bind, Option.bind_eq_some_iff] at hd
    obtain ⟨vs, h1, _⟩ := hd
    obtain ⟨w1, w2⟩ := scriptEach_wf ih hp hw h1 hs
    exact ⟨w1, touchIn_of_fields hw w2⟩
  case enum tag vs =>
    simp only [Option.bind_eq_bind, Option.bind_eq_some_iff] at hd hs
    obtain ⟨i, h1, fs, h2, xs, h3, _⟩ := hd
    obtain ⟨i', h1', fs', h2', hs⟩ := hs
    rw [h1] at h1'; obtain rfl := Option.some.inj h1'
    rw [h2] at h2'; obtain rfl := Option.some.inj h2'
    have hf := hw.1 fs (List.mem_of_getElem? h2)
    obtain ⟨w1, w2⟩ := scriptEach_wf ih hp hf h3 hs
    exact ⟨w1, touchIn_of_fields hf w2⟩
  case bigUint u =>
    rw [hw.1] at hp hg ⊢
    exact scriptVec_wf (by have := (hP t).1; rwa [hw.1] at this) hP hacc ih hp hg.1 hd hs
  case bigInt u =>
    simp only [Option.bind_eq_bind, Option.bind_eq_some_iff] at hd
    obtain ⟨_, _, v', h2, _⟩ := hd
    obtain ⟨hL, _, hu⟩ := hw
    have hoff : P.bigIntDataOff C.arch ≤ C.arch.ptrBytes := by unfold Prog.bigIntDataOff; split <;> omega
    have hlo := hp.lo; have hhi := hp.hi; have hal := hp.al
    rw [hL] at hhi hal
    simp only at hhi hal
    obtain ⟨w1, w2⟩ := ih _ _ _ _ c h2 hs (by rw [hu]; exact ⟨by omega, by simp only; omega, hal, hp.ia⟩)
    refine ⟨w1, fun x hx => ?_⟩
    obtain ⟨y1, y2⟩ := w2 x hx
    rw [hu] at y2; rw [hL]; simp only at *; omega


theorem hScript_wf (hW : 0 < C.arch.ptrBytes) (hP : P.WF C.arch) (hacc : P.Accepted C) (hX : AllHandOK C P X V V') (n : Nat) :
    WFClaim C P (decodeH C.arch P X V fl im n) (hScript C.arch P X im n) := by
  induction n with
  | zero => intro t a v sc c hd; simp [decodeH] at hd
  | succ n ih =>
    intro t a v sc c hd hs hp
    have hg := decodeH_guard _ _ _ _ _ _ _ _ _ _ hd
    rw [decodeH, if_pos ⟨Nat.dvd_iff_mod_eq_zero.1 hg.1, hg.2⟩] at hd
    rw [hScript] at hs
    cases hx : X t with
    | none =>
      simp only [hx] at hd hs
      exact step_wf hW hP hacc (decodeH_guard _ _ _ _ _ _ _) ih hg hd hs hp
    | some I =>
      simp only [hx] at hd hs
      obtain ⟨cs, h1, h2⟩ := (hX t I hx).rules (decodeH_guard _ _ _ _ _ _ _) hg.1 hg.2 hd
      rw [h1, Option.bind_some] at hs
      have w := (HCalls.script_wf ih h2 hs).1
      exact ⟨w.embed hp hg.1, w.touchIn⟩

end
end SerRaw
