import Verif.Lemmas.Agree
import Verif.Spec.Edits
/-
Everything outside the edited words is copied verbatim, whatever the mode.
-/
namespace SerRaw

/-- The byte ranges of the current allocation that a mode rewrites. -/
def Script.edits (A : Arch) (md : Mode) : Script → List (Nat × Nat)
  | .done => []
  | .pushProcess _ _ _ ptr _ rest => (if md.ptrBase.isSome then [(ptr, A.ptrBytes)] else []) ++ rest.edits A md
  | .push _ _ _ ptr rest => (if md.ptrBase.isSome then [(ptr, A.ptrBytes)] else []) ++ rest.edits A md
  | .pushRaw _ _ _ rest => rest.edits A md
  | .overwrite a L _ rest => (if md.fixup then [(a, L.size)] else []) ++ rest.edits A md

/-- Those, and the ones in the allocations it pushes. -/
def Script.allEdits (A : Arch) (md : Mode) : Script → List (Nat × Nat)
  | .done => []
  | .pushProcess _ _ _ ptr inner rest =>
    (if md.ptrBase.isSome then [(ptr, A.ptrBytes)] else []) ++ (inner.allEdits A md ++ rest.allEdits A md)
  | .push _ _ _ ptr rest => (if md.ptrBase.isSome then [(ptr, A.ptrBytes)] else []) ++ rest.allEdits A md
  | .pushRaw _ _ _ rest => rest.allEdits A md
  | .overwrite a L _ rest => (if md.fixup then [(a, L.size)] else []) ++ rest.allEdits A md

theorem edits_sub {A : Arch} {md : Mode} (sc : Script) : ∀ t ∈ sc.edits A md, t ∈ sc.allEdits A md ∧ t ∈ sc.touch A := by
  induction sc with
  | done => intro t h; cases h
  | pushProcess L len src ptr inner rest _ ih =>
    intro t h
    simp only [Script.edits, List.mem_append] at h
    simp only [Script.allEdits, List.mem_append, Script.touch, List.mem_cons]
    rcases h with h | h
    · refine ⟨Or.inl h, ?_⟩
      split at h
      · simp only [List.mem_cons, List.not_mem_nil, or_false] at h; exact Or.inl h
      · cases h
    · exact ⟨Or.inr (Or.inr (ih t h).1), Or.inr (ih t h).2⟩
  | push L len src ptr rest ih =>
    intro t h
    simp only [Script.edits, List.mem_append] at h
    simp only [Script.allEdits, List.mem_append, Script.touch, List.mem_cons]
    rcases h with h | h
    · refine ⟨Or.inl h, ?_⟩
      split at h
      · simp only [List.mem_cons, List.not_mem_nil, or_false] at h; exact Or.inl h
      · cases h
    · exact ⟨Or.inr (ih t h).1, Or.inr (ih t h).2⟩
  | pushRaw L len src rest ih => exact ih
  | overwrite a L data rest ih =>
    intro t h
    simp only [Script.edits, List.mem_append] at h
    simp only [Script.allEdits, List.mem_append, Script.touch, List.mem_cons]
    rcases h with h | h
    · refine ⟨Or.inl h, ?_⟩
      split at h
      · simp only [List.mem_cons, List.not_mem_nil, or_false] at h; exact Or.inl h
      · cases h
    · exact ⟨Or.inr (ih t h).1, Or.inr (ih t h).2⟩

/-- `i` is outside all the ranges. -/
def Outside (ts : List (Nat × Nat)) (i : Nat) : Prop := ∀ t ∈ ts, i < t.1 ∨ t.1 + t.2 ≤ i

theorem putPtr_out' {A : Arch} {md : Mode} {m : Mem} {x target i : Nat}
    (h : md.ptrBase.isSome → i < x ∨ x + A.ptrBytes ≤ i) : md.putPtr A m x target i = m i := by
  cases e : md.ptrBase with
  | none => unfold Mode.putPtr; rw [e]
  | some B => exact putPtr_out (h (by rw [e]; rfl))

theorem putValue_out' {md : Mode} {m : Mem} {x n i : Nat} {data : Nat → Cell}
    (h : md.fixup → i < x ∨ x + n ≤ i) : md.putValue m x n data i = m i := by
  by_cases e : md.fixup
  · exact putValue_out (h e)
  · unfold Mode.putValue; rw [if_neg e]

section
variable {C : Cfg} {va : Nat} {md : Mode} {im : Mem}

/-- As `ideal_frame`, for the ranges the mode edits. -/
theorem ideal_frame_md (hva : 0 < va) (sc : Script) {c : Ctx} (h : sc.WF C c)
    (ia op : Nat) (st : Mem × Nat) {i : Nat} (hi : i < st.2)
    (hd : ∀ t ∈ sc.edits C.arch md, i < outPos ia op t.1 ∨ outPos ia op t.1 + t.2 ≤ i) :
    (sc.ideal C.arch va md im ia op st).1 i = st.1 i := by
  induction sc generalizing ia op st c with
  | done => rfl
  | pushProcess L len src ptr inner rest ih1 ih2 =>
    obtain ⟨ho, _, _, h1, h2⟩ := h
    have e1 := le_roundUp st.2 ho.pow2.pos
    have e2 := le_roundUp (roundUp st.2 L.align + L.size * len) hva
    simp only [Script.ideal]
    rw [ih2 h2 _ _ _ ?_ fun t ht => hd t (by simp [Script.edits, ht])]
    · rw [ih1 h1 _ _ _ (by simp only; omega) ?_]
      · simp only
        rw [putPtr_out' fun hb => hd (ptr, C.arch.ptrBytes) (by simp [Script.edits, hb]), blit_out (by omega)]
      · intro t _; left
        have := outPos_ge src (roundUp st.2 L.align) t.1; omega
    · refine Nat.lt_of_lt_of_le ?_ (ideal_mono hva inner h1 _ _ _)
      simp only; omega
  | push L len src ptr rest ih =>
    obtain ⟨ho, _, _, h2⟩ := h
    have e1 := le_roundUp st.2 ho.pow2.pos
    have e2 := le_roundUp (roundUp st.2 L.align + L.size * len) hva
    simp only [Script.ideal]
    rw [ih h2 _ _ _ (by simp only; omega) fun t ht => hd t (by simp [Script.edits, ht])]
    simp only
    rw [putPtr_out' fun hb => hd (ptr, C.arch.ptrBytes) (by simp [Script.edits, hb]), blit_out (by omega)]
  | pushRaw L len src rest ih =>
    obtain ⟨ho, h2⟩ := h
    have e1 := le_roundUp st.2 ho.pow2.pos
    have e2 := le_roundUp (roundUp st.2 L.align + L.size * len) hva
    simp only [Script.ideal]
    rw [ih h2 _ _ _ (by simp only; omega) fun t ht => hd t (by simp [Script.edits, ht])]
    simp only
    rw [blit_out (by omega)]
  | overwrite a L data rest ih =>
    simp only [Script.ideal]
    rw [ih h.2 _ _ _ (by simp only; omega) fun t ht => hd t (by simp [Script.edits, ht])]
    simp only
    exact putValue_out' fun hb => hd (a, L.size) (by simp [Script.edits, hb])

/-- The copy of a byte outside the edited ranges of the current allocation is outside their images. -/
theorem outPos_outside {sc : Script} {c : Ctx} (h : sc.WF C c) {op j : Nat} (ho : Outside (sc.allEdits C.arch md) (c.ia + j)) :
    ∀ t ∈ sc.edits C.arch md, op + j < outPos c.ia op t.1 ∨ outPos c.ia op t.1 + t.2 ≤ op + j := by
  intro t ht
  have h1 := ho t (edits_sub sc t ht).1
  have h2 := (h.touchOK t (edits_sub sc t ht).2).lo
  unfold outPos; omega

/-- Every pushed block is copied byte for byte to its place, except for edited bytes. -/
theorem ideal_copies (hva : 0 < va) (sc : Script) {c : Ctx} (h : sc.WF C c) (op : Nat) (st : Mem × Nat) (hop : op + c.sz ≤ st.2) :
    ∀ z ∈ sc.pushes.zip (place va st.2 sc.shapes), ∀ i < z.1.1.bytes, Outside (sc.allEdits C.arch md) (z.1.2 + i) →
      (sc.ideal C.arch va md im c.ia op st).1 (z.2 + i) = im (z.1.2 + i) := by
  -- what comes later in the current allocation does not reach the blocks
  have later : ∀ (rest : Script) {c : Ctx}, rest.WF C c → ∀ (op : Nat) (st : Mem × Nat) (x : Nat), op + c.sz ≤ x → x < st.2 →
      (rest.ideal C.arch va md im c.ia op st).1 x = st.1 x := by
    intro rest c hr op st x h1 h2
    refine ideal_frame_md hva rest hr _ _ _ h2 fun t ht => Or.inr ?_
    have hk := hr.touchOK t (edits_sub rest t ht).2
    have := hk.lo; have := hk.hi
    unfold outPos; omega
  induction sc generalizing op st c with
  | done => simp [Script.pushes]
  | pushProcess L len src ptr inner rest ih1 ih2 =>
    obtain ⟨ho, ht, _, h1, h2⟩ := h
    have e1 := le_roundUp st.2 ho.pow2.pos
    have e2 := le_roundUp (roundUp st.2 L.align + L.size * len) hva
    have hin : outPos c.ia op ptr + C.arch.ptrBytes ≤ op + c.sz := by
      have := ht.lo; have := ht.hi; unfold outPos; omega
    have hend := ideal_end (A := C.arch) (va := va) (md := md) (im := im) inner src (roundUp st.2 L.align)
      (md.putPtr C.arch (st.1.blit (roundUp st.2 L.align) (L.size * len) fun i => im (src + i)) (outPos c.ia op ptr) (roundUp st.2 L.align),
        roundUp (roundUp st.2 L.align + L.size * len) va)
    have hmono := ideal_mono (A := C.arch) (md := md) (im := im) hva inner h1 src (roundUp st.2 L.align)
      (md.putPtr C.arch (st.1.blit (roundUp st.2 L.align) (L.size * len) fun i => im (src + i)) (outPos c.ia op ptr) (roundUp st.2 L.align),
        roundUp (roundUp st.2 L.align + L.size * len) va)
    simp only at hend hmono
    intro z hz
    simp only [Script.shapes, Script.pushes, List.map_cons, List.map_append, place, place_append, List.zip_cons_cons, List.mem_cons,
      Shape.bytes] at hz
    rw [List.zip_append (by simp [place_length]), List.mem_append] at hz
    simp only [Script.ideal]
    intro i hi hout
    have hout1 : Outside (inner.allEdits C.arch md) (z.1.2 + i) := fun t ht => hout t (by simp [Script.allEdits, ht])
    have hout2 : Outside (rest.allEdits C.arch md) (z.1.2 + i) := fun t ht => hout t (by simp [Script.allEdits, ht])
    rcases hz with rfl | hz | hz
    · simp only [Shape.bytes] at hi ⊢
      rw [later rest h2 _ _ _ (by omega) (by omega), ideal_frame_md hva inner h1 _ _ _ (by simp only; omega)
        (outPos_outside (c := ⟨src, L.size * len, L.align⟩) h1 hout1)]
      simp only
      rw [putPtr_out (Or.inr (by omega)), blit_at hi]
    · have hb := place_bounds hva (pushes_align inner h1) _ _ (mem_zip_shapes hz)
      rw [← ih1 (c := ⟨src, L.size * len, L.align⟩) h1 (roundUp st.2 L.align) (_, roundUp (roundUp st.2 L.align + L.size * len) va) (by simp only; omega) z hz i hi hout1]
      exact later rest h2 _ _ _ (by simp only at hb; omega) (by rw [hend]; simp only at hb; omega)
    · refine ih2 h2 op _ (by omega) z ?_ i hi hout2
      rw [hend]; exact hz
  | push L len src ptr rest ih =>
    obtain ⟨ho, ht, _, h2⟩ := h
    have e1 := le_roundUp st.2 ho.pow2.pos
    have e2 := le_roundUp (roundUp st.2 L.align + L.size * len) hva
    have hin : outPos c.ia op ptr + C.arch.ptrBytes ≤ op + c.sz := by
      have := ht.lo; have := ht.hi; unfold outPos; omega
    intro z hz
    simp only [Script.shapes, Script.pushes, List.map_cons, place, List.zip_cons_cons, List.mem_cons, Shape.bytes] at hz
    simp only [Script.ideal]
    intro i hi hout
    rcases hz with rfl | hz
    · simp only [Shape.bytes] at hi ⊢
      refine (later rest h2 _ _ _ ?_ ?_).trans ?_
      · omega
      · simp only; omega
      simp only
      rw [putPtr_out (Or.inr (by omega)), blit_at hi]
    · exact ih h2 op (_, roundUp (roundUp st.2 L.align + L.size * len) va) (by simp only; omega) z hz i hi fun t ht => hout t (by simp [Script.allEdits, ht])
  | pushRaw L len src rest ih =>
    obtain ⟨ho, h2⟩ := h
    have e1 := le_roundUp st.2 ho.pow2.pos
    have e2 := le_roundUp (roundUp st.2 L.align + L.size * len) hva
    intro z hz
    simp only [Script.shapes, Script.pushes, List.map_cons, place, List.zip_cons_cons, List.mem_cons, Shape.bytes] at hz
    simp only [Script.ideal]
    intro i hi hout
    rcases hz with rfl | hz
    · simp only [Shape.bytes] at hi ⊢
      refine (later rest h2 _ _ _ ?_ ?_).trans ?_
      · omega
      · simp only; omega
      simp only
      rw [blit_at hi]
    · exact ih h2 op (_, roundUp (roundUp st.2 L.align + L.size * len) va) (by simp only; omega) z hz i hi hout
  | overwrite a L data rest ih =>
    intro z hz i hi hout
    simp only [Script.ideal]
    exact ih h.2 op (md.putValue st.1 (outPos c.ia op a) L.size data, st.2) hop z hz i hi fun t ht => hout t (by simp [Script.allEdits, ht])

end

/-! ### The edited ranges of a typed value -/

theorem allEdits_app {A : Arch} {md : Mode} (x y : Script) : (x.app y).allEdits A md = x.allEdits A md ++ y.allEdits A md := by
  induction x with
  | done => rfl
  | pushProcess L len src ptr inner rest _ ih => simp only [Script.app, Script.allEdits, ih, List.append_assoc]
  | push L len src ptr rest ih => simp only [Script.app, Script.allEdits, ih, List.append_assoc]
  | pushRaw L len src rest ih => simp only [Script.app, Script.allEdits, ih]
  | overwrite a L data rest ih => simp only [Script.app, Script.allEdits, ih, List.append_assoc]

/-- All bytes of the ranges `ts` are in the words `ws`. -/
def Covered (A : Arch) (ts : List (Nat × Nat)) (ws : List Nat) : Prop := ∀ t ∈ ts, ∀ x, t.1 ≤ x → x < t.1 + t.2 → InWords A ws x

theorem Covered.nil {A : Arch} {ws : List Nat} : Covered A [] ws := fun _ h => by cases h

theorem Covered.append {A : Arch} {ts us : List (Nat × Nat)} {ws xs : List Nat} (h1 : Covered A ts ws) (h2 : Covered A us xs) :
    Covered A (ts ++ us) (ws ++ xs) := by
  intro t ht x hx hx'
  rcases List.mem_append.1 ht with h | h
  · obtain ⟨w, hw, h⟩ := h1 t h x hx hx'; exact ⟨w, List.mem_append_left _ hw, h⟩
  · obtain ⟨w, hw, h⟩ := h2 t h x hx hx'; exact ⟨w, List.mem_append_right _ hw, h⟩

theorem Covered.single {A : Arch} {a : Nat} {b : Bool} : Covered A (if b = true then [(a, A.ptrBytes)] else []) (if b = true then [a] else []) := by
  cases b
  · exact Covered.nil
  · intro t ht x hx hx'
    simp only [if_true, List.mem_cons, List.not_mem_nil, or_false] at ht
    subst ht
    exact ⟨a, by simp, hx, hx'⟩

theorem Covered.outside {A : Arch} {ts : List (Nat × Nat)} {ws : List Nat} (h : Covered A ts ws) {x : Nat} (hx : ¬ InWords A ws x) :
    Outside ts x := by
  intro t ht
  by_cases h1 : x < t.1
  · exact Or.inl h1
  · right
    by_contra h2
    exact hx (h t ht x (by omega) (by omega))

/-- What a mode edits. -/
def Mode.edits (md : Mode) : EditKind := ⟨md.ptrBase.isSome, md.fixup⟩

section
variable {A : Arch} {P : Prog} {im : Mem} {md : Mode}

theorem fixEmpty_covered {o : Order} {dangle a : Nat} (hf : md.fixup = true) :
    Covered A ((fixEmpty A o dangle a).allEdits A md) [a + o.capIx * A.ptrBytes, a + o.ptrIx * A.ptrBytes] := by
  intro t ht x hx hx'
  unfold InWords
  cases o <;> simp only [fixEmpty, Script.words, Script.allEdits, hf, if_true, List.append_nil, List.mem_cons, List.not_mem_nil, or_false,
      List.length_cons, List.length_nil, List.cons_append, List.nil_append, Nat.zero_add, Nat.one_mul] at ht
  all_goals simp only [Order.capIx, Order.ptrIx, List.mem_cons, List.not_mem_nil, or_false, exists_eq_or_imp, exists_eq_left]
  all_goals first | subst ht | (rcases ht with rfl | rfl)
  all_goals simp only at hx hx'
  all_goals omega

theorem headScript_covered {o : Order} {dangle a : Nat} {h : Header} {inner : Script} {ws : List Nat}
    (hi : Covered A (inner.allEdits A md) ws) {body : Script}
    (hb : body.allEdits A md = (if md.ptrBase.isSome then [(a + o.ptrIx * A.ptrBytes, A.ptrBytes)] else []) ++ inner.allEdits A md) :
    Covered A ((headScript A o dangle a h body).allEdits A md) (editHeader A md.edits o a h ++ ws) := by
  unfold headScript editHeader Mode.edits
  by_cases hl : h.len = 0
  · simp only [if_pos hl]
    by_cases hc : h.cap ≠ 0
    · simp only [if_pos hc]
      by_cases hf : md.fixup = true
      · rw [if_pos ⟨hf, hc⟩]
        have := (fixEmpty_covered (A := A) (o := o) (dangle := dangle) (a := a) hf).append (Covered.nil (A := A) (ws := ws))
        rwa [List.append_nil] at this
      · rw [Bool.not_eq_true] at hf
        have : (fixEmpty A o dangle a).allEdits A md = [] := by
          unfold fixEmpty; cases o <;> simp [Script.words, Script.allEdits, hf]
        rw [this]; exact Covered.nil
    · simp only [if_neg hc]; exact Covered.nil
  · simp only [if_neg hl]
    have hbody : Covered A (body.allEdits A md) ((if md.ptrBase.isSome = true then [a + o.ptrIx * A.ptrBytes] else []) ++ ws) := by
      rw [hb]; exact Covered.single.append hi
    by_cases hc : h.cap ≠ h.len
    · simp only [if_pos hc, Script.words, Script.allEdits, List.length_cons, List.length_nil, Nat.zero_add, Nat.one_mul]
      have h1 : Covered A (if md.fixup = true then [(a + o.capIx * A.ptrBytes, A.ptrBytes)] else [])
          (if md.fixup = true then [a + o.capIx * A.ptrBytes] else []) := Covered.single
      intro t ht x hx hx'
      obtain ⟨w, hw, h⟩ := h1.append hbody t ht x hx hx'
      refine ⟨w, ?_, h⟩
      simp only [hc, ne_eq, not_false_eq_true, and_true, List.mem_append] at hw ⊢
      tauto
    · simp only [if_neg hc]
      simp only [hc, and_false, if_false, List.append_nil]
      exact hbody

theorem scriptEach_covered {rw' : TyId → Nat → Option (List Nat)} {rc : TyId → Nat → Option Script}
    (hrec : ∀ t a sc, rc t a = some sc → ∃ ws, rw' t a = some ws ∧ Covered A (sc.allEdits A md) ws)
    {a : Nat} {fs : List Field} {sc : Script} (hs : scriptEach rc a fs = some sc) :
    ∃ ws, editEach rw' a fs = some ws ∧ Covered A (sc.allEdits A md) ws := by
  induction fs generalizing sc with
  | nil => simp only [scriptEach, Option.some.injEq] at hs; subst hs; exact ⟨[], rfl, Covered.nil⟩
  | cons f fs ih =>
    simp only [scriptEach, Option.bind_eq_bind, Option.bind_eq_some_iff, Option.pure_def, Option.some.injEq] at hs
    obtain ⟨s1, e1, s2, e2, rfl⟩ := hs
    obtain ⟨x, x1, x2⟩ := hrec _ _ _ e1
    obtain ⟨y, y1, y2⟩ := ih e2
    exact ⟨x ++ y, by simp [editEach, x1, y1], by rw [allEdits_app]; exact x2.append y2⟩

theorem scriptVec_covered {rw' : TyId → Nat → Option (List Nat)} {rc : TyId → Nat → Option Script}
    (hrec : ∀ t a sc, rc t a = some sc → ∃ ws, rw' t a = some ws ∧ Covered A (sc.allEdits A md) ws)
    {u a : Nat} {sc : Script} (hs : scriptVec A P im rc u a = some sc) :
    ∃ ws, editVec A P im md.edits rw' u a = some ws ∧ Covered A (sc.allEdits A md) ws := by
  unfold scriptVec at hs
  unfold editVec
  split at hs
  · rename_i hz
    simp only [Option.some.injEq] at hs; subst hs
    exact ⟨[], by rw [if_pos hz], Covered.nil⟩
  · rename_i hz
    rw [if_neg hz]
    simp only [Option.bind_eq_bind, Option.bind_eq_some_iff, Option.pure_def, Option.some.injEq] at hs
    obtain ⟨h, h1, inner, e1, rfl⟩ := hs
    obtain ⟨x, x1, x2⟩ := scriptEach_covered hrec e1
    refine ⟨_, by simp only [h1, Option.bind_eq_bind, Option.bind_some, x1]; rfl, ?_⟩
    exact headScript_covered x2 (by simp [Script.allEdits])

theorem script_covered (n : Nat) : ∀ t a sc, script A P im n t a = some sc →
    ∃ ws, edited A P im md.edits n t a = some ws ∧ Covered A (sc.allEdits A md) ws := by
  induction n with
  | zero => intro t a sc h; simp [script] at h
  | succ n ih =>
    intro t a sc hs
    rw [script] at hs
    rw [edited]
    cases hdef : P.defn t <;> simp only [hdef] at hs ⊢
    case prim => simp only [Option.some.injEq] at hs; subst hs; exact ⟨[], rfl, Covered.nil⟩
    case box u =>
      split at hs
      · rename_i hz
        simp only [Option.some.injEq] at hs; subst hs
        exact ⟨[], by rw [if_pos hz], Covered.nil⟩
      · rename_i hz
        simp only [Option.bind_eq_bind, Option.bind_eq_some_iff, Option.pure_def, Option.some.injEq] at hs
        obtain ⟨p, h1, inner, e1, rfl⟩ := hs
        obtain ⟨x, x1, x2⟩ := ih _ _ _ e1
        refine ⟨_, by rw [if_neg hz]; simp only [h1, x1, Option.bind_eq_bind, Option.bind_some]; rfl, ?_⟩
        simp only [Script.allEdits, List.append_nil]
        exact Covered.single.append x2
    case vec u => exact scriptVec_covered ih hs
    case string =>
      simp only [Option.bind_eq_bind, Option.bind_eq_some_iff, Option.pure_def, Option.some.injEq] at hs
      obtain ⟨h, h1, rfl⟩ := hs
      refine ⟨_, by simp only [h1, Option.bind_eq_bind, Option.bind_some]; rfl, ?_⟩
      have := headScript_covered (A := A) (md := md) (o := P.stringOrder) (dangle := 1) (a := a) (h := h) (inner := .done) (ws := [])
        Covered.nil (body := .push ⟨1, 1⟩ h.len h.ptr (a + P.stringOrder.ptrIx * A.ptrBytes) .done) (by simp [Script.allEdits])
      rwa [List.append_nil] at this
    case array u k => exact scriptEach_covered ih hs
    case struct fs => exact scriptEach_covered ih hs
    case enum tag vs =>
      simp only [Option.bind_eq_bind, Option.bind_eq_some_iff] at hs
      obtain ⟨i, h1, fs, h2, hs⟩ := hs
      obtain ⟨x, x1, x2⟩ := scriptEach_covered ih hs
      exact ⟨x, by simp [h1, h2, x1], x2⟩
    case bigUint u => exact scriptVec_covered ih hs
    case bigInt u => exact ih _ _ _ hs

end

section
variable {C : Cfg} {P : Prog} {fl : Flags}

/-- Every block (value and owned allocations) of every job is copied to its place, except for edited words. -/
theorem jobs_copies {md : Mode} {va : Nat} (hva : 0 < va) (hW : 0 < C.arch.ptrBytes) (hP : P.WF C.arch) (hacc : P.Accepted C)
    {n : Nat} {js : List Job} (hj : ∀ j ∈ js, j.OK C P fl n) {m : Mem} {p : Nat} :
    ∀ x ∈ jobsAt P va p js, ∀ ws, Covered C.arch (x.1.sc.allEdits C.arch md) ws →
      (∀ i < (P.layout x.1.r.t).size, ¬ InWords C.arch ws (x.1.r.a + i) →
        (jobsIdeal C.arch va md P js (m, p)).1 (jobPos P x + i) = x.1.r.im (x.1.r.a + i)) ∧
      ∀ z ∈ x.1.sc.pushes.zip (place va (bodyAt P va x) x.1.sc.shapes), ∀ i < z.1.1.bytes, ¬ InWords C.arch ws (z.1.2 + i) →
        (jobsIdeal C.arch va md P js (m, p)).1 (z.2 + i) = x.1.r.im (z.1.2 + i) := by
  intro x hx ws hws
  obtain ⟨hm, hle, hend⟩ := jobsAt_mem_le hva hW hP hacc hj x hx
  obtain ⟨m0, hcells⟩ := jobs_at_cells (md := md) (m := m) hva hW hP hacc hj x hx
  obtain ⟨hd, hs⟩ := hj _ hm
  by_cases hz : (P.layout x.1.r.t).size = 0
  · refine ⟨fun i hi => by omega, ?_⟩
    rw [script_zst hW hP hz hs]; simp [Script.pushes]
  · have hap : 0 < (P.layout x.1.r.t).align := by
      obtain ⟨e, he⟩ := (hP x.1.r.t).1
      simp only [he]; exact Nat.two_pow_pos _
    have hwf := (script_wf hW hP hacc n _ _ _ _ _ hd hs (placed_root (decode_guard hd).1)).1
    have hpos : jobPos P x = roundUp x.2 (P.layout x.1.r.t).align := by simp [jobPos, rootPos, hz]
    have hbody : bodyAt P va x = roundUp (roundUp x.2 (P.layout x.1.r.t).align + (P.layout x.1.r.t).size) va := by
      simp [bodyAt, hz, hpos]
    rw [hpos, hbody]
    have h1 := le_roundUp x.2 hap
    have h2 := le_roundUp (roundUp x.2 (P.layout x.1.r.t).align + (P.layout x.1.r.t).size) hva
    have h3 := le_placeEnd hva (pushes_align x.1.sc hwf)
      (roundUp (roundUp x.2 (P.layout x.1.r.t).align + (P.layout x.1.r.t).size) va)
    have h4 : placeEnd va x.2 (x.1.shapes P) = placeEnd va (roundUp (roundUp x.2 (P.layout x.1.r.t).align + (P.layout x.1.r.t).size) va) x.1.sc.shapes := by
      simp [Job.shapes, rootShapes, hz, placeEnd, Shape.bytes]
    simp only [rootIdeal, if_neg hz] at hcells
    constructor
    · intro i hi hnw
      rw [hcells _ (by omega), ideal_frame_md hva _ hwf _ _ _ (by simp only; omega)]
      · simp only; exact blit_at hi
      · exact outPos_outside hwf (hws.outside hnw)
    · intro z hz' i hi hnw
      have hb := (place_bounds hva (pushes_align x.1.sc hwf) _ _ (mem_zip_shapes hz')).2.2
      rw [hcells _ (by simp only at hb; omega)]
      exact ideal_copies hva x.1.sc hwf _ (_, roundUp (roundUp x.2 (P.layout x.1.r.t).align + (P.layout x.1.r.t).size) va)
        (by simp only; exact h2) z hz' i hi (hws.outside hnw)

end

/-! ### More fuel does not change the answer -/

section
variable {A : Arch} {P : Prog} {m : Mem} {e : EditKind}

theorem editEach_mono {r1 r2 : TyId → Nat → Option (List Nat)} (h : ∀ t a v, r1 t a = some v → r2 t a = some v)
    (a : Nat) (fs : List Field) {vs : List Nat} (hd : editEach r1 a fs = some vs) : editEach r2 a fs = some vs := by
  induction fs generalizing vs with
  | nil => exact hd
  | cons f fs ih =>
    simp only [editEach, Option.bind_eq_bind, Option.bind_eq_some_iff, Option.pure_def, Option.some.injEq] at hd ⊢
    obtain ⟨v, h1, ws, h2, h3⟩ := hd
    exact ⟨v, h _ _ _ h1, ws, ih h2, h3⟩

theorem editVec_mono {r1 r2 : TyId → Nat → Option (List Nat)} (h : ∀ t a v, r1 t a = some v → r2 t a = some v)
    {u : TyId} {a : Nat} {v : List Nat} (hd : editVec A P m e r1 u a = some v) : editVec A P m e r2 u a = some v := by
  unfold editVec at hd ⊢
  split at hd
  · rename_i hz; rw [if_pos hz]; exact hd
  · rename_i hz; rw [if_neg hz]
    simp only [Option.bind_eq_bind, Option.bind_eq_some_iff, Option.pure_def] at hd ⊢
    obtain ⟨hh, h1, x, h3, h4⟩ := hd
    exact ⟨hh, h1, x, editEach_mono h _ _ h3, h4⟩

theorem edited_succ {n : Nat} {t a : Nat} {v : List Nat} (h : edited A P m e n t a = some v) :
    edited A P m e (n + 1) t a = some v := by
  induction n generalizing t a v with
  | zero => simp [edited] at h
  | succ n ih =>
    have ih' : ∀ t a v, edited A P m e n t a = some v → edited A P m e (n + 1) t a = some v := fun t a v => ih
    rw [edited] at h
    rw [edited]
    cases hdef : P.defn t <;> simp only [hdef] at h ⊢
    case prim => exact h
    case box u =>
      split at h
      · rename_i hz; rw [if_pos hz]; exact h
      · rename_i hz; rw [if_neg hz]
        simp only [Option.bind_eq_bind, Option.bind_eq_some_iff, Option.pure_def] at h ⊢
        obtain ⟨p, h1, x, h2, h3⟩ := h
        exact ⟨p, h1, x, ih h2, h3⟩
    case vec u => exact editVec_mono ih' h
    case string => exact h
    case array u k => exact editEach_mono ih' _ _ h
    case struct fs => exact editEach_mono ih' _ _ h
    case enum tag vs =>
      simp only [Option.bind_eq_bind, Option.bind_eq_some_iff] at h ⊢
      obtain ⟨i, h1, fs, h2, h3⟩ := h
      exact ⟨i, h1, fs, h2, editEach_mono ih' _ _ h3⟩
    case bigUint u => exact editVec_mono ih' h
    case bigInt u => exact ih h

theorem edited_mono {n k : Nat} (hk : n ≤ k) {t a : Nat} {v : List Nat} (h : edited A P m e n t a = some v) :
    edited A P m e k t a = some v := by
  induction hk with
  | refl => exact h
  | step _ ih => exact edited_succ ih

theorem edited_unique {n k : Nat} {t a : Nat} {v w : List Nat} (h : edited A P m e n t a = some v) (h' : edited A P m e k t a = some w) :
    v = w := by
  have h1 := edited_mono (Nat.le_max_left n k) h
  have h2 := edited_mono (Nat.le_max_right n k) h'
  rw [h1] at h2; exact Option.some.inj h2

end
end SerRaw
