import Verif.Lemmas.Run
/-
Two runs compared: the reference output does not depend on what the memory held before, and depends on the mode only in
pointer words and overwritten words.
-/
namespace SerRaw

/-! ### Positions inside blocks -/

theorem inBlock_nil {va p i : Nat} : ¬ InBlock va p [] i := by
  rintro ⟨z, hz, _⟩; simp at hz

theorem inBlock_cons {va p i : Nat} {x : Shape} {xs : List Shape} : InBlock va p (x :: xs) i ↔
    (roundUp p x.L.align ≤ i ∧ i < roundUp p x.L.align + x.bytes) ∨ InBlock va (roundUp (roundUp p x.L.align + x.bytes) va) xs i := by
  unfold InBlock
  simp only [place, List.zip_cons_cons, List.mem_cons]
  constructor
  · rintro ⟨z, rfl | hz, h⟩
    · exact Or.inl h
    · exact Or.inr ⟨z, hz, h⟩
  · rintro (h | ⟨z, hz, h⟩)
    · exact ⟨_, Or.inl rfl, h⟩
    · exact ⟨z, Or.inr hz, h⟩

theorem inBlock_append {va p i : Nat} {xs ys : List Shape} : InBlock va p (xs ++ ys) i ↔ InBlock va p xs i ∨ InBlock va (placeEnd va p xs) ys i := by
  induction xs generalizing p with
  | nil => simp [inBlock_nil, placeEnd]
  | cons x xs ih =>
    rw [List.cons_append, inBlock_cons, inBlock_cons, ih, placeEnd, or_assoc]

/-- Position `i` is outside every word in the list of pointer words. -/
def OutsideSlots (A : Arch) (ss : List (Nat × Nat)) (i : Nat) : Prop := ∀ s ∈ ss, i < s.1 ∨ s.1 + A.ptrBytes ≤ i

theorem putPtr_agree {A : Arch} {md1 md2 : Mode} {m1 m2 : Mem} {x t i : Nat} (h : m1 i = m2 i)
    (hb : md1.ptrBase = md2.ptrBase ∨ (i < x ∨ x + A.ptrBytes ≤ i)) : md1.putPtr A m1 x t i = md2.putPtr A m2 x t i := by
  rcases hb with hb | hb
  · unfold Mode.putPtr
    rw [hb]
    cases md2.ptrBase with
    | none => exact h
    | some B => unfold Mem.blit; simp only; split <;> [rfl; exact h]
  · rw [putPtr_out hb, putPtr_out hb, h]

theorem blit_agree {m1 m2 : Mem} {a n i : Nat} {f : Nat → Cell} (h : m1 i = m2 i ∨ (a ≤ i ∧ i < a + n)) : m1.blit a n f i = m2.blit a n f i := by
  unfold Mem.blit
  split
  · rfl
  · rename_i hn; exact h.resolve_right hn

theorem putValue_agree {md1 md2 : Mode} {m1 m2 : Mem} {x n i : Nat} {data : Nat → Cell} (hf : md1.fixup = md2.fixup) (h : m1 i = m2 i) :
    md1.putValue m1 x n data i = md2.putValue m2 x n data i := by
  unfold Mode.putValue
  rw [hf]
  split
  · exact blit_agree (Or.inl h)
  · exact h

theorem OutsideSlots.cons {A : Arch} {x : Nat × Nat} {ss : List (Nat × Nat)} {i : Nat} (h : OutsideSlots A (x :: ss) i) :
    (i < x.1 ∨ x.1 + A.ptrBytes ≤ i) ∧ OutsideSlots A ss i :=
  ⟨h x (by simp), fun s hs => h s (by simp [hs])⟩

theorem OutsideSlots.append {A : Arch} {ss tt : List (Nat × Nat)} {i : Nat} (h : OutsideSlots A (ss ++ tt) i) :
    OutsideSlots A ss i ∧ OutsideSlots A tt i :=
  ⟨fun s hs => h s (by simp [hs]), fun s hs => h s (by simp [hs])⟩

/-- Pointwise: where the initial contents agree or a block is written, and either the modes write the same pointers or the
position is in no pointer word, the outputs agree. -/
theorem ideal_agree {A : Arch} {va : Nat} {md1 md2 : Mode} {im : Mem} (hf : md1.fixup = md2.fixup) (sc : Script) (ia op p : Nat) {m1 m2 : Mem} {i : Nat}
    (hm : m1 i = m2 i ∨ InBlock va p sc.shapes i)
    (hb : md1.ptrBase = md2.ptrBase ∨ OutsideSlots A (sc.slotsAt va ia op p) i) :
    (sc.ideal A va md1 im ia op (m1, p)).1 i = (sc.ideal A va md2 im ia op (m2, p)).1 i := by
  induction sc generalizing ia op p m1 m2 with
  | done => exact hm.resolve_right inBlock_nil
  | pushProcess L len src ptr inner rest ih1 ih2 =>
    have hsh : (Script.pushProcess L len src ptr inner rest).shapes = ⟨L, len⟩ :: (inner.shapes ++ rest.shapes) := by
      simp [Script.shapes, Script.pushes]
    rw [hsh, inBlock_cons, inBlock_append] at hm
    simp only [Shape.bytes] at hm
    simp only [Script.slotsAt] at hb
    have hb0 : md1.ptrBase = md2.ptrBase ∨ (i < outPos ia op ptr ∨ outPos ia op ptr + A.ptrBytes ≤ i) := hb.imp_right fun h => h.cons.1
    have hb1 : md1.ptrBase = md2.ptrBase ∨ OutsideSlots A (inner.slotsAt va src (roundUp p L.align) (roundUp (roundUp p L.align + L.size * len) va)) i :=
      hb.imp_right fun h => h.cons.2.append.1
    have hb2 := hb.imp_right fun h => h.cons.2.append.2
    simp only [Script.ideal]
    have e1 := ideal_end (A := A) (va := va) (md := md1) (im := im) inner src (roundUp p L.align)
      (md1.putPtr A (m1.blit (roundUp p L.align) (L.size * len) fun i => im (src + i)) (outPos ia op ptr) (roundUp p L.align), roundUp (roundUp p L.align + L.size * len) va)
    have e2 := ideal_end (A := A) (va := va) (md := md2) (im := im) inner src (roundUp p L.align)
      (md2.putPtr A (m2.blit (roundUp p L.align) (L.size * len) fun i => im (src + i)) (outPos ia op ptr) (roundUp p L.align), roundUp (roundUp p L.align + L.size * len) va)
    rw [← Prod.mk.eta (p := inner.ideal A va md1 im _ _ _), ← Prod.mk.eta (p := inner.ideal A va md2 im _ _ _), e1, e2]
    refine ih2 _ _ _ ?_ hb2
    have key : (md1.putPtr A (m1.blit (roundUp p L.align) (L.size * len) fun i => im (src + i)) (outPos ia op ptr) (roundUp p L.align) i =
        md2.putPtr A (m2.blit (roundUp p L.align) (L.size * len) fun i => im (src + i)) (outPos ia op ptr) (roundUp p L.align) i ∨
        InBlock va (roundUp (roundUp p L.align + L.size * len) va) inner.shapes i) ∨
        InBlock va (placeEnd va (roundUp (roundUp p L.align + L.size * len) va) inner.shapes) rest.shapes i := by
      rcases hm with h | h | h | h
      · exact Or.inl (Or.inl (putPtr_agree (blit_agree (Or.inl h)) hb0))
      · exact Or.inl (Or.inl (putPtr_agree (blit_agree (Or.inr h)) hb0))
      · exact Or.inl (Or.inr h)
      · exact Or.inr h
    exact key.imp_left fun h => ih1 _ _ _ h hb1
  | push L len src ptr rest ih =>
    have hsh : (Script.push L len src ptr rest).shapes = ⟨L, len⟩ :: rest.shapes := by simp [Script.shapes, Script.pushes]
    rw [hsh, inBlock_cons] at hm
    simp only [Shape.bytes] at hm
    simp only [Script.slotsAt] at hb
    have hb0 : md1.ptrBase = md2.ptrBase ∨ (i < outPos ia op ptr ∨ outPos ia op ptr + A.ptrBytes ≤ i) := hb.imp_right fun h => h.cons.1
    simp only [Script.ideal]
    refine ih _ _ _ ?_ (hb.imp_right fun h => h.cons.2)
    rcases hm with h | h | h
    · exact Or.inl (putPtr_agree (blit_agree (Or.inl h)) hb0)
    · exact Or.inl (putPtr_agree (blit_agree (Or.inr h)) hb0)
    · exact Or.inr h
  | pushRaw L len src rest ih =>
    have hsh : (Script.pushRaw L len src rest).shapes = ⟨L, len⟩ :: rest.shapes := by simp [Script.shapes, Script.pushes]
    rw [hsh, inBlock_cons] at hm
    simp only [Shape.bytes] at hm
    simp only [Script.ideal]
    refine ih _ _ _ ?_ hb
    rcases hm with h | h | h
    · exact Or.inl (blit_agree (Or.inl h))
    · exact Or.inl (blit_agree (Or.inr h))
    · exact Or.inr h
  | overwrite a L data rest ih =>
    simp only [Script.ideal]
    exact ih _ _ _ (hm.imp_left fun h => putValue_agree hf h) hb

/-! ### Pointer words -/

/-- Where pointer words are: in the current allocation (a word the script touches), or in blocks it appends. -/
theorem slotsAt_where {C : Cfg} {va : Nat} (hva : 0 < va) (sc : Script) {c : Ctx} (h : sc.WF C c) (op p : Nat) (hop : op + c.sz ≤ p) :
    ∀ s ∈ sc.slotsAt va c.ia op p, ((∃ x, (x, C.arch.ptrBytes) ∈ sc.touch C.arch ∧ s.1 = outPos c.ia op x) ∨ p ≤ s.1) ∧
      s.1 + C.arch.ptrBytes ≤ placeEnd va p sc.shapes ∧ s.2 ≤ placeEnd va p sc.shapes ∧
      ((∀ x ∈ sc.shapes, 0 < x.bytes) → s.2 < placeEnd va p sc.shapes) := by
  induction sc generalizing c op p with
  | done => intro s hs; cases hs
  | pushProcess L len src ptr inner rest ih1 ih2 =>
    have hw := h
    obtain ⟨ho, ht, _, h1, h2⟩ := h
    have e1 := le_roundUp p ho.pow2.pos
    have e2 := le_roundUp (roundUp p L.align + L.size * len) hva
    have e3 := le_placeEnd hva (pushes_align inner h1) (roundUp (roundUp p L.align + L.size * len) va)
    have e4 := le_placeEnd hva (pushes_align rest h2) (placeEnd va (roundUp (roundUp p L.align + L.size * len) va) inner.shapes)
    have hsh : placeEnd va p (Script.pushProcess L len src ptr inner rest).shapes =
        placeEnd va (placeEnd va (roundUp (roundUp p L.align + L.size * len) va) inner.shapes) rest.shapes := by
      simp [Script.shapes, Script.pushes, placeEnd, placeEnd_append, Shape.bytes]
    have hin : outPos c.ia op ptr + C.arch.ptrBytes ≤ op + c.sz := by
      have := ht.lo; have := ht.hi; unfold outPos; omega
    rw [hsh]
    intro s hs
    simp only [Script.slotsAt, List.mem_cons, List.mem_append] at hs
    rcases hs with rfl | hs | hs
    · refine ⟨Or.inl ⟨ptr, by simp [Script.touch], rfl⟩, by simp only; omega, by simp only; omega, fun hx => ?_⟩
      have := hx ⟨L, len⟩ (by simp [Script.shapes, Script.pushes])
      simp only [Shape.bytes] at this ⊢; omega
    · obtain ⟨k1, k2, k3, k4⟩ := ih1 h1 (roundUp p L.align) _ (by simp only; omega) s hs
      refine ⟨Or.inr ?_, by omega, by omega, fun hx => ?_⟩
      on_goal 2 =>
        have := k4 fun x hx' => hx x (by
          simp only [Script.shapes, Script.pushes, List.map_cons, List.map_append, List.mem_cons, List.mem_append] at hx' ⊢
          exact Or.inr (Or.inl hx'))
        omega
      rcases k1 with ⟨x, _, hx⟩ | k1
      · have := outPos_ge src (roundUp p L.align) x
        rw [hx]; simp only; omega
      · omega
    · obtain ⟨k1, k2, k3⟩ := ih2 h2 op _ (by omega) s hs
      refine ⟨?_, k2, k3.1, fun hx => k3.2 fun x hx' => hx x (by
        simp only [Script.shapes, Script.pushes, List.map_cons, List.map_append, List.mem_cons, List.mem_append] at hx' ⊢; simp [hx'])⟩
      rcases k1 with ⟨x, hx, hx'⟩ | k1
      · exact Or.inl ⟨x, by simp [Script.touch, hx], hx'⟩
      · exact Or.inr (by omega)
  | push L len src ptr rest ih =>
    obtain ⟨ho, ht, _, h2⟩ := h
    have e1 := le_roundUp p ho.pow2.pos
    have e2 := le_roundUp (roundUp p L.align + L.size * len) hva
    have e4 := le_placeEnd hva (pushes_align rest h2) (roundUp (roundUp p L.align + L.size * len) va)
    have hsh : placeEnd va p (Script.push L len src ptr rest).shapes =
        placeEnd va (roundUp (roundUp p L.align + L.size * len) va) rest.shapes := by
      simp [Script.shapes, Script.pushes, placeEnd, Shape.bytes]
    have hin : outPos c.ia op ptr + C.arch.ptrBytes ≤ op + c.sz := by
      have := ht.lo; have := ht.hi; unfold outPos; omega
    rw [hsh]
    intro s hs
    simp only [Script.slotsAt, List.mem_cons] at hs
    rcases hs with rfl | hs
    · refine ⟨Or.inl ⟨ptr, by simp [Script.touch], rfl⟩, by simp only; omega, by simp only; omega, fun hx => ?_⟩
      have := hx ⟨L, len⟩ (by simp [Script.shapes, Script.pushes])
      simp only [Shape.bytes] at this ⊢; omega
    · obtain ⟨k1, k2, k3⟩ := ih h2 op _ (by omega) s hs
      refine ⟨?_, k2, k3.1, fun hx => k3.2 fun x hx' => hx x (by
        simp only [Script.shapes, Script.pushes, List.map_cons, List.map_append, List.mem_cons, List.mem_append] at hx' ⊢; simp [hx'])⟩
      rcases k1 with ⟨x, hx, hx'⟩ | k1
      · exact Or.inl ⟨x, by simp [Script.touch, hx], hx'⟩
      · exact Or.inr (by omega)
  | pushRaw L len src rest ih =>
    obtain ⟨ho, h2⟩ := h
    have e1 := le_roundUp p ho.pow2.pos
    have e2 := le_roundUp (roundUp p L.align + L.size * len) hva
    have hsh : placeEnd va p (Script.pushRaw L len src rest).shapes =
        placeEnd va (roundUp (roundUp p L.align + L.size * len) va) rest.shapes := by
      simp [Script.shapes, Script.pushes, placeEnd, Shape.bytes]
    rw [hsh]
    intro s hs
    obtain ⟨k1, k2, k3⟩ := ih h2 op _ (by omega) s hs
    refine ⟨?_, k2, k3.1, fun hx => k3.2 fun x hx' => hx x (by
      simp only [Script.shapes, Script.pushes, List.map_cons, List.mem_cons] at hx' ⊢; simp [hx'])⟩
    rcases k1 with ⟨x, hx, hx'⟩ | k1
    · exact Or.inl ⟨x, by simpa [Script.touch] using hx, hx'⟩
    · exact Or.inr (by omega)
  | overwrite a L data rest ih =>
    obtain ⟨_, h2⟩ := h
    intro s hs
    obtain ⟨k1, k2, k3⟩ := ih h2 op p hop s hs
    refine ⟨?_, k2, k3⟩
    rcases k1 with ⟨x, hx, hx'⟩ | k1
    · exact Or.inl ⟨x, by simp [Script.touch, hx], hx'⟩
    · exact Or.inr k1

/-- In the output every pointer word holds base plus the position it points to. -/
theorem ideal_slots {C : Cfg} {va : Nat} (hva : 0 < va) {md : Mode} {B : Nat} (hB : md.ptrBase = some B) {im : Mem} (sc : Script) {c : Ctx} (h : sc.WF C c)
    (op p : Nat) (m : Mem) (hop : op + c.sz ≤ p) :
    ∀ s ∈ sc.slotsAt va c.ia op p, ∀ j < C.arch.ptrBytes,
      (sc.ideal C.arch va md im c.ia op (m, p)).1 (s.1 + j) = wordCells C.arch (B + s.2) j := by
  -- a later part of the script changes nothing outside the words it touches in the current allocation
  have later : ∀ (rest : Script), rest.WF C c → ∀ (m : Mem) (p x : Nat), op + c.sz ≤ p → x + C.arch.ptrBytes ≤ p →
      (∀ t ∈ rest.touch C.arch, DisjRange x C.arch.ptrBytes (outPos c.ia op t.1) t.2) → ∀ j < C.arch.ptrBytes,
      (rest.ideal C.arch va md im c.ia op (m, p)).1 (x + j) = m (x + j) := by
    intro rest hr m p x _ hx hd j hj
    exact ideal_frame hva rest hr c.ia op (m, p) (by simp only; omega) fun t ht => by
      have := hd t ht; unfold DisjRange at this; omega
  induction sc generalizing c op p m with
  | done => intro s hs; cases hs
  | pushProcess L len src ptr inner rest ih1 ih2 =>
    obtain ⟨ho, ht, hdj, h1, h2⟩ := h
    have hok := h2.touchOK
    have e1 := le_roundUp p ho.pow2.pos
    have e2 := le_roundUp (roundUp p L.align + L.size * len) hva
    have e3 := le_placeEnd hva (pushes_align inner h1) (roundUp (roundUp p L.align + L.size * len) va)
    have hin : outPos c.ia op ptr + C.arch.ptrBytes ≤ op + c.sz := by
      have := ht.lo; have := ht.hi; unfold outPos; omega
    intro s hs j hj
    simp only [Script.slotsAt, List.mem_cons, List.mem_append] at hs
    simp only [Script.ideal]
    rw [← Prod.mk.eta (p := inner.ideal C.arch va md im _ _ _), ideal_end]
    simp only
    rcases hs with rfl | hs | hs
    · rw [later rest h2 _ _ _ (by omega) (by simp only; omega) (by
        intro t htt
        have hd := hdj t htt
        have := ht.lo; have := (hok t htt).lo
        simp only [DisjRange, outPos] at *
        omega) j hj]
      rw [ideal_frame hva inner h1 _ _ _ (by simp only; omega) (by
        intro t _; left
        have := outPos_ge src (roundUp p L.align) t.1; simp only; omega)]
      simp only [Mode.putPtr, hB]
      exact blit_at hj
    · obtain ⟨k1, k2, _⟩ := slotsAt_where hva inner h1 (roundUp p L.align) _ (by simp only; omega) s hs
      have hge : roundUp p L.align ≤ s.1 := by
        rcases k1 with ⟨x, _, hx⟩ | k1
        · rw [hx]; exact outPos_ge _ _ _
        · omega
      rw [later rest h2 _ _ _ (by omega) k2 (by
        intro t htt
        have := (hok t htt).lo; have := (hok t htt).hi
        simp only [DisjRange, outPos] at *
        omega) j hj]
      exact ih1 h1 _ _ _ (by simp only; omega) (fun rest hr m p x h1 h2 h3 j hj =>
        ideal_frame hva rest hr _ _ (m, p) (by simp only; omega) fun t ht => by
          have := h3 t ht; unfold DisjRange at this; omega) s hs j hj
    · exact ih2 h2 op _ _ (by omega) later s hs j hj
  | push L len src ptr rest ih =>
    obtain ⟨ho, ht, hdj, h2⟩ := h
    have hok := h2.touchOK
    have e1 := le_roundUp p ho.pow2.pos
    have e2 := le_roundUp (roundUp p L.align + L.size * len) hva
    have hin : outPos c.ia op ptr + C.arch.ptrBytes ≤ op + c.sz := by
      have := ht.lo; have := ht.hi; unfold outPos; omega
    intro s hs j hj
    simp only [Script.slotsAt, List.mem_cons] at hs
    simp only [Script.ideal]
    rcases hs with rfl | hs
    · rw [later rest h2 _ _ _ (by omega) (by simp only; omega) (by
        intro t htt
        have hd := hdj t htt
        have := ht.lo; have := (hok t htt).lo
        simp only [DisjRange, outPos] at *
        omega) j hj]
      simp only [Mode.putPtr, hB]
      exact blit_at hj
    · exact ih h2 op _ _ (by omega) later s hs j hj
  | pushRaw L len src rest ih =>
    obtain ⟨ho, h2⟩ := h
    have e1 := le_roundUp p ho.pow2.pos
    have e2 := le_roundUp (roundUp p L.align + L.size * len) hva
    intro s hs j hj
    exact ih h2 op _ _ (by omega) later s hs j hj
  | overwrite a L data rest ih =>
    obtain ⟨_, h2⟩ := h
    intro s hs j hj
    exact ih h2 op _ _ hop later s hs j hj

/-! ### Several values -/

section
variable {C : Cfg} {P : Prog} {fl : Flags}

/-- Pointer words of one serialized value. -/
def rootSlots (P : Prog) (va : Nat) (x : Job × Nat) : List (Nat × Nat) :=
  if (P.layout x.1.r.t).size = 0 then [] else x.1.sc.slotsAt va x.1.r.a (jobPos P x) (bodyAt P va x)

/-- Pointer words of all of them. -/
def jobsSlots (P : Prog) (va p : Nat) (js : List Job) : List (Nat × Nat) := (jobsAt P va p js).flatMap (rootSlots P va)

theorem rootIdeal_agree {A : Arch} {va : Nat} {md1 md2 : Mode} (hf : md1.fixup = md2.fixup) (j : Job) (p : Nat) {m1 m2 : Mem} {i : Nat}
    (hm : m1 i = m2 i ∨ InBlock va p (j.shapes P) i)
    (hb : md1.ptrBase = md2.ptrBase ∨ OutsideSlots A (rootSlots P va (j, p)) i) :
    (rootIdeal A va md1 (P.layout j.r.t) j.r.im j.r.a j.sc (m1, p)).1 i = (rootIdeal A va md2 (P.layout j.r.t) j.r.im j.r.a j.sc (m2, p)).1 i := by
  unfold rootIdeal
  unfold Job.shapes rootShapes at hm
  by_cases hz : (P.layout j.r.t).size = 0
  · rw [if_pos hz] at hm
    rw [if_pos hz, if_pos hz]; exact hm.resolve_right inBlock_nil
  · simp only [rootSlots, bodyAt, jobPos, rootPos, if_neg hz] at hb
    rw [if_neg hz, inBlock_cons] at hm
    simp only [Shape.bytes, Nat.mul_one] at hm
    rw [if_neg hz, if_neg hz]
    refine ideal_agree hf j.sc _ _ _ ?_ hb
    rcases hm with h | h | h
    · exact Or.inl (blit_agree (Or.inl h))
    · exact Or.inl (blit_agree (Or.inr h))
    · exact Or.inr h

theorem jobsIdeal_agree {A : Arch} {va : Nat} {md1 md2 : Mode} (hf : md1.fixup = md2.fixup) (js : List Job) (p : Nat) {m1 m2 : Mem} {i : Nat}
    (hm : m1 i = m2 i ∨ InBlock va p (jobsShapes P js) i)
    (hb : md1.ptrBase = md2.ptrBase ∨ OutsideSlots A (jobsSlots P va p js) i) :
    (jobsIdeal A va md1 P js (m1, p)).1 i = (jobsIdeal A va md2 P js (m2, p)).1 i := by
  induction js generalizing p m1 m2 with
  | nil => exact hm.resolve_right inBlock_nil
  | cons j js ih =>
    have hsh : jobsShapes P (j :: js) = j.shapes P ++ jobsShapes P js := by simp [jobsShapes]
    rw [hsh, inBlock_append] at hm
    have hsl : jobsSlots P va p (j :: js) = rootSlots P va (j, p) ++ jobsSlots P va (placeEnd va p (j.shapes P)) js := by
      simp [jobsSlots, jobsAt]
    rw [hsl] at hb
    simp only [jobsIdeal]
    rw [← Prod.mk.eta (p := rootIdeal A va md1 _ _ _ _ _), ← Prod.mk.eta (p := rootIdeal A va md2 _ _ _ _ _), rootIdeal_end, rootIdeal_end]
    refine ih _ ?_ (hb.imp_right fun h => h.append.2)
    rw [← or_assoc] at hm
    exact hm.imp_left fun h => rootIdeal_agree hf j p h (hb.imp_right fun h => h.append.1)

theorem rootSlots_where {va : Nat} (hva : 0 < va) (hW : 0 < C.arch.ptrBytes) (hP : P.WF C.arch) (hacc : P.Accepted C)
    {n : Nat} {x : Job × Nat} (hj : x.1.OK C P fl n) :
    ∀ s ∈ rootSlots P va x, s.1 + C.arch.ptrBytes ≤ placeEnd va x.2 (x.1.shapes P) ∧ s.2 < placeEnd va x.2 (x.1.shapes P) := by
  intro s hs
  unfold rootSlots at hs
  split at hs
  · cases hs
  · rename_i hz
    have hwf := (script_wf hW hP hacc n _ _ _ _ _ hj.1 hj.2 (placed_root (decode_guard hj.1).1)).1
    have h1 := le_roundUp (jobPos P x + (P.layout x.1.r.t).size) hva
    have := slotsAt_where hva x.1.sc hwf (jobPos P x) (bodyAt P va x) (by simp only [bodyAt, if_neg hz]; exact h1) s hs
    have e : placeEnd va (bodyAt P va x) x.1.sc.shapes = placeEnd va x.2 (x.1.shapes P) := by
      simp [bodyAt, Job.shapes, rootShapes, hz, placeEnd, Shape.bytes, jobPos, rootPos]
    rw [e] at this
    exact ⟨this.2.1, e ▸ this.2.2.2 (script_pos _ _ _ hj.2)⟩

theorem jobs_slots {md : Mode} {va B : Nat} (hva : 0 < va) (hW : 0 < C.arch.ptrBytes) (hP : P.WF C.arch) (hacc : P.Accepted C)
    (hB : md.ptrBase = some B) {n : Nat} {js : List Job} (hj : ∀ j ∈ js, j.OK C P fl n) {m : Mem} {p : Nat} :
    ∀ s ∈ jobsSlots P va p js, (s.1 + C.arch.ptrBytes ≤ placeEnd va p (jobsShapes P js) ∧ s.2 < placeEnd va p (jobsShapes P js)) ∧
      ∀ j < C.arch.ptrBytes, (jobsIdeal C.arch va md P js (m, p)).1 (s.1 + j) = wordCells C.arch (B + s.2) j := by
  intro s hs
  obtain ⟨x, hx, hs⟩ := List.mem_flatMap.1 hs
  obtain ⟨hxm, hle, hend⟩ := jobsAt_mem_le hva hW hP hacc hj x hx
  have hwh := rootSlots_where hva hW hP hacc (hj _ hxm) s hs
  refine ⟨⟨by omega, by omega⟩, ?_⟩
  intro j hj'
  obtain ⟨m0, hcells⟩ := jobs_at_cells (md := md) (m := m) hva hW hP hacc hj x hx
  rw [hcells _ (by omega)]
  unfold rootSlots at hs
  split at hs
  · cases hs
  · rename_i hz
    have hwf := (script_wf hW hP hacc n _ _ _ _ _ (hj _ hxm).1 (hj _ hxm).2 (placed_root (decode_guard (hj _ hxm).1).1)).1
    have h1 := le_roundUp (jobPos P x + (P.layout x.1.r.t).size) hva
    have := ideal_slots (im := x.1.r.im) hva hB x.1.sc hwf (jobPos P x) (bodyAt P va x)
      (m0.blit (jobPos P x) (P.layout x.1.r.t).size fun i => x.1.r.im (x.1.r.a + i)) (by simp only [bodyAt, if_neg hz]; exact h1) s hs j hj'
    rw [← this]
    simp only [rootIdeal, if_neg hz, bodyAt, jobPos, rootPos]

/-- The calls a value makes are determined by the value. -/
theorem jobs_unique {n : Nat} {js js' : List Job} (hm : js.map (fun j => (j.r, j.v)) = js'.map (fun j => (j.r, j.v)))
    {C' : Cfg} (hA : C.arch = C'.arch) (h : ∀ j ∈ js, j.OK C P fl n) (h' : ∀ j ∈ js', j.OK C' P fl n) : js = js' := by
  induction js generalizing js' with
  | nil => cases js' with
    | nil => rfl
    | cons j' js' => simp at hm
  | cons j js ih =>
    cases js' with
    | nil => simp at hm
    | cons j' js' =>
      simp only [List.map_cons, List.cons.injEq, Prod.mk.injEq] at hm
      obtain ⟨⟨e1, e2⟩, hm⟩ := hm
      rw [ih hm (fun x hx => h x (by simp [hx])) (fun x hx => h' x (by simp [hx]))]
      have k1 := (h j (by simp)).2
      have k2 := (h' j' (by simp)).2
      rw [e1, hA, k2] at k1
      obtain ⟨r, v, sc⟩ := j
      obtain ⟨r', v', sc'⟩ := j'
      simp only at e1 e2 k1
      subst e1 e2
      rw [Option.some.inj k1]

/-- Two sessions on the same values, at the same position of their storages, have the same reference output. -/
theorem session_post_two {C1 C2 : Cfg} (hC1 : C1.OK) (hC2 : C2.OK) (hA : C1.arch = C2.arch) (hP : P.WF C1.arch)
    (hacc1 : P.Accepted C1) (hacc2 : P.Accepted C2) {k1 k2 : Kind} {t1 t2 : Sto} (ht1 : t1.Inv C1) (ht2 : t2.Inv C2)
    {rs : List (Root × Val)} (hv : Inputs C1.arch P fl rs) {f1 f2 : Nat} {ps1 ps2 : List Nat} {s1 s2 : Ser}
    (h1 : session C1 k1 P f1 (rs.map (·.1)) (Ser.fromStorage t1) = .ok ps1 s1)
    (h2 : session C2 k2 P f2 (rs.map (·.1)) (Ser.fromStorage t2) = .ok ps2 s2) :
    ∃ n, ∃ js : List Job, js.map (fun j => (j.r, j.v)) = rs ∧ (∀ j ∈ js, j.OK C1 P fl n) ∧
      SessionPost C1 k1 P js (Ser.fromStorage t1) (fun _ => t1.view) ps1 s1 ∧
      SessionPost C2 k2 P js (Ser.fromStorage t2) (fun _ => t2.view) ps2 s2 := by
  obtain ⟨N1, hN1⟩ := session_cases hC1 hP hacc1 k1 ht1 hv
  obtain ⟨N2, hN2⟩ := session_cases hC2 (hA ▸ hP) hacc2 k2 ht2 (fl := fl) (rs := rs) (hA ▸ hv)
  obtain ⟨js, m1, o1, p1⟩ := hN1 (max (max N1 N2) (max f1 f2)) (by omega)
  obtain ⟨js', m2, o2, p2⟩ := hN2 (max (max N1 N2) (max f1 f2)) (by omega)
  have e := jobs_unique (m1.trans m2.symm) hA o1 o2
  subst e
  rw [session_fuel (show f1 ≤ _ by omega) _ _ (by rw [h1]; simp), h1] at p1
  rw [session_fuel (show f2 ≤ _ by omega) _ _ (by rw [h2]; simp), h2] at p2
  exact ⟨_, js, m1, o1, p1, p2⟩

end
end SerRaw
