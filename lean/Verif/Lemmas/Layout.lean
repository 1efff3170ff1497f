import Verif.Spec.Layout
import Verif.Lemmas.TypedWF
/-
The blocks a script pushes are the allocations the value owns; the reference output ends where `placeEnd` says.
-/
namespace SerRaw

/-- Blocks pushed by a script, with their input addresses, in order. -/
def Script.pushes : Script → List (Shape × Nat)
  | .done => []
  | .pushProcess L len src _ inner rest => (⟨L, len⟩, src) :: (inner.pushes ++ rest.pushes)
  | .push L len src _ rest => (⟨L, len⟩, src) :: rest.pushes
  | .pushRaw L len src rest => (⟨L, len⟩, src) :: rest.pushes
  | .overwrite _ _ _ rest => rest.pushes

/-- Their shapes. -/
def Script.shapes (sc : Script) : List Shape := sc.pushes.map (·.1)

theorem pushes_app (x y : Script) : (x.app y).pushes = x.pushes ++ y.pushes := by
  induction x with
  | done => rfl
  | pushProcess L len src ptr inner rest _ ih => simp [Script.app, Script.pushes, ih]
  | push L len src ptr rest ih => simp [Script.app, Script.pushes, ih]
  | pushRaw L len src rest ih => simp [Script.app, Script.pushes, ih]
  | overwrite a L data rest ih => simp [Script.app, Script.pushes, ih]

theorem placeEnd_append (va p : Nat) (xs ys : List Shape) : placeEnd va p (xs ++ ys) = placeEnd va (placeEnd va p xs) ys := by
  induction xs generalizing p with
  | nil => rfl
  | cons x xs ih => exact ih _

theorem place_append (va p : Nat) (xs ys : List Shape) :
    place va p (xs ++ ys) = place va p xs ++ place va (placeEnd va p xs) ys := by
  induction xs generalizing p with
  | nil => rfl
  | cons x xs ih => simp only [List.cons_append, place, placeEnd, ih]

theorem place_length (va p : Nat) (xs : List Shape) : (place va p xs).length = xs.length := by
  induction xs generalizing p with
  | nil => rfl
  | cons x xs ih => simp only [place, List.length_cons, ih]

theorem le_placeEnd {va : Nat} (hva : 0 < va) {xs : List Shape} (hal : ∀ x ∈ xs, 0 < x.L.align) (p : Nat) : p ≤ placeEnd va p xs := by
  induction xs generalizing p with
  | nil => exact Nat.le_refl _
  | cons x xs ih =>
    have h1 := le_roundUp p (hal x (by simp))
    have h2 := le_roundUp (roundUp p x.L.align + x.bytes) hva
    exact Nat.le_trans (by omega) (ih (fun y hy => hal y (by simp [hy])) _)

/-- Blocks are placed at or after the start, aligned, and end at or before the end. -/
theorem place_bounds {va : Nat} (hva : 0 < va) {xs : List Shape} (hal : ∀ x ∈ xs, 0 < x.L.align) (p : Nat) :
    ∀ z ∈ xs.zip (place va p xs), p ≤ z.2 ∧ z.1.L.align ∣ z.2 ∧ z.2 + z.1.bytes ≤ placeEnd va p xs := by
  induction xs generalizing p with
  | nil => simp
  | cons x xs ih =>
    have h1 := le_roundUp p (hal x (by simp))
    have h2 := le_roundUp (roundUp p x.L.align + x.bytes) hva
    have hal' : ∀ y ∈ xs, 0 < y.L.align := fun y hy => hal y (by simp [hy])
    intro z hz
    simp only [place, List.zip_cons_cons, List.mem_cons] at hz
    rcases hz with rfl | hz
    · refine ⟨h1, dvd_roundUp _ _, ?_⟩
      have := le_placeEnd hva hal' (roundUp (roundUp p x.L.align + x.bytes) va)
      simp only [placeEnd]; omega
    · obtain ⟨a, b, c⟩ := ih hal' _ z hz
      exact ⟨by omega, b, c⟩

/-- Blocks follow one another without overlap. -/
theorem place_pairwise {va : Nat} (hva : 0 < va) {xs : List Shape} (hal : ∀ x ∈ xs, 0 < x.L.align) (p : Nat) :
    (xs.zip (place va p xs)).Pairwise fun x y => x.2 + x.1.bytes ≤ y.2 := by
  induction xs generalizing p with
  | nil => simp
  | cons x xs ih =>
    have h2 := le_roundUp (roundUp p x.L.align + x.bytes) hva
    have hal' : ∀ y ∈ xs, 0 < y.L.align := fun y hy => hal y (by simp [hy])
    simp only [place, List.zip_cons_cons, List.pairwise_cons]
    refine ⟨fun z hz => ?_, ih hal' _⟩
    have := (place_bounds hva hal' _ z hz).1
    omega

theorem pushes_align {C : Cfg} (sc : Script) {c : Ctx} (h : sc.WF C c) : ∀ x ∈ sc.shapes, 0 < x.L.align := by
  induction sc generalizing c with
  | done => simp [Script.shapes, Script.pushes]
  | pushProcess L len src ptr inner rest ih1 ih2 =>
    obtain ⟨ho, _, _, h1, h2⟩ := h
    intro x hx
    simp only [Script.shapes, Script.pushes, List.map_cons, List.map_append, List.mem_cons, List.mem_append] at hx
    rcases hx with rfl | hx | hx
    · exact ho.pow2.pos
    · exact ih1 h1 x hx
    · exact ih2 h2 x hx
  | push L len src ptr rest ih =>
    intro x hx
    simp only [Script.shapes, Script.pushes, List.map_cons, List.mem_cons] at hx
    rcases hx with rfl | hx
    · exact h.1.pow2.pos
    · exact ih h.2.2.2 x hx
  | pushRaw L len src rest ih =>
    intro x hx
    simp only [Script.shapes, Script.pushes, List.map_cons, List.mem_cons] at hx
    rcases hx with rfl | hx
    · exact h.1.pow2.pos
    · exact ih h.2 x hx
  | overwrite a L data rest ih => exact ih h.2

theorem mem_zip_shapes {sc : Script} {ps : List Nat} {z : (Shape × Nat) × Nat} (h : z ∈ sc.pushes.zip ps) :
    (z.1.1, z.2) ∈ sc.shapes.zip ps := by
  unfold Script.shapes
  rw [List.zip_map_left]
  exact List.mem_map.2 ⟨z, h, rfl⟩

theorem ideal_end {A : Arch} {va : Nat} {md : Mode} {im : Mem} (sc : Script) (ia op : Nat) (st : Mem × Nat) :
    (sc.ideal A va md im ia op st).2 = placeEnd va st.2 sc.shapes := by
  induction sc generalizing ia op st with
  | done => rfl
  | pushProcess L len src ptr inner rest ih1 ih2 =>
    simp only [Script.shapes] at *
    simp only [Script.ideal, Script.pushes, List.map_cons, List.map_append, placeEnd, ih2, ih1, placeEnd_append, Shape.bytes]
  | push L len src ptr rest ih =>
    simp only [Script.shapes] at *
    simp only [Script.ideal, Script.pushes, List.map_cons, placeEnd, ih, Shape.bytes]
  | pushRaw L len src rest ih =>
    simp only [Script.shapes] at *
    simp only [Script.ideal, Script.pushes, List.map_cons, placeEnd, ih, Shape.bytes]
  | overwrite a L data rest ih =>
    simp only [Script.shapes] at *
    simp only [Script.ideal, Script.pushes, ih]

/-! ### Owned allocations -/

def Own.key (o : Own) : Shape × Nat := (o.shape, o.ptr)

theorem headScript_pushes {A : Arch} {o : Order} {dangle a : Nat} {h : Header} {body : Script} :
    (headScript A o dangle a h body).pushes = if h.len = 0 then [] else body.pushes := by
  unfold headScript
  split
  · split
    · unfold fixEmpty; cases o <;> rfl
    · rfl
  · split <;> rfl

section
variable {A : Arch} {P : Prog} {im : Mem} {fl : Flags}

theorem scriptEach_own {ro : TyId → Nat → Option (List Own)} {rc : TyId → Nat → Option Script}
    (hrec : ∀ t a sc, rc t a = some sc → ∃ as, ro t a = some as ∧ as.map Own.key = sc.pushes)
    {a : Nat} {fs : List Field} {sc : Script} (hs : scriptEach rc a fs = some sc) :
    ∃ as, ownEach ro a fs = some as ∧ as.map Own.key = sc.pushes := by
  induction fs generalizing sc with
  | nil => simp only [scriptEach, Option.some.injEq] at hs; subst hs; exact ⟨[], rfl, rfl⟩
  | cons f fs ih =>
    simp only [scriptEach, Option.bind_eq_bind, Option.bind_eq_some_iff, Option.pure_def, Option.some.injEq] at hs
    obtain ⟨s1, e1, s2, e2, rfl⟩ := hs
    obtain ⟨x, x1, x2⟩ := hrec _ _ _ e1
    obtain ⟨y, y1, y2⟩ := ih e2
    exact ⟨x ++ y, by simp [ownEach, x1, y1], by rw [List.map_append, x2, y2, pushes_app]⟩

theorem scriptVec_own {ro : TyId → Nat → Option (List Own)} {rc : TyId → Nat → Option Script}
    (hrec : ∀ t a sc, rc t a = some sc → ∃ as, ro t a = some as ∧ as.map Own.key = sc.pushes)
    {u a : Nat} {sc : Script} (hs : scriptVec A P im rc u a = some sc) :
    ∃ as, ownVec A P im ro u a = some as ∧ as.map Own.key = sc.pushes := by
  unfold scriptVec at hs
  unfold ownVec
  split at hs
  · rename_i hz
    simp only [Option.some.injEq] at hs; subst hs
    exact ⟨[], by rw [if_pos hz], rfl⟩
  · rename_i hz
    rw [if_neg hz]
    simp only [Option.bind_eq_bind, Option.bind_eq_some_iff, Option.pure_def, Option.some.injEq] at hs
    obtain ⟨h, h1, inner, e1, rfl⟩ := hs
    obtain ⟨x, x1, x2⟩ := scriptEach_own hrec e1
    rw [headScript_pushes]
    by_cases hl : h.len = 0
    · exact ⟨[], by simp [h1, hl], by simp [hl]⟩
    · refine ⟨_, by simp only [h1, Option.bind_eq_bind, Option.bind_some, if_neg hl, x1]; rfl, ?_⟩
      rw [if_neg hl]
      simp only [List.map_cons, x2, Script.pushes, List.append_nil]; rfl

theorem script_own (n : Nat) : ∀ t a sc, script A P im n t a = some sc →
    ∃ as, owned A P im n t a = some as ∧ as.map Own.key = sc.pushes := by
  induction n with
  | zero => intro t a sc h; simp [script] at h
  | succ n ih =>
    intro t a sc hs
    rw [script] at hs
    rw [owned]
    cases hdef : P.defn t <;> simp only [hdef] at hs ⊢
    case prim => simp only [Option.some.injEq] at hs; subst hs; exact ⟨[], rfl, rfl⟩
    case box u =>
      split at hs
      · rename_i hz
        simp only [Option.some.injEq] at hs; subst hs
        exact ⟨[], by rw [if_pos hz], rfl⟩
      · rename_i hz
        simp only [Option.bind_eq_bind, Option.bind_eq_some_iff, Option.pure_def, Option.some.injEq] at hs
        obtain ⟨p, h1, inner, e1, rfl⟩ := hs
        obtain ⟨x, x1, x2⟩ := ih _ _ _ e1
        refine ⟨_, by rw [if_neg hz]; simp only [h1, x1, Option.bind_eq_bind, Option.bind_some]; rfl, ?_⟩
        simp only [List.map_cons, x2, Script.pushes, List.append_nil]; rfl
    case vec u => exact scriptVec_own ih hs
    case string =>
      simp only [Option.bind_eq_bind, Option.bind_eq_some_iff, Option.pure_def, Option.some.injEq] at hs
      obtain ⟨h, h1, rfl⟩ := hs
      rw [headScript_pushes]
      by_cases hl : h.len = 0
      · exact ⟨[], by simp [h1, hl], by simp [hl]⟩
      · refine ⟨_, by simp only [h1, Option.bind_eq_bind, Option.bind_some, if_neg hl]; rfl, ?_⟩
        rw [if_neg hl]; rfl
    case array u k => exact scriptEach_own ih hs
    case struct fs => exact scriptEach_own ih hs
    case enum tag vs =>
      simp only [Option.bind_eq_bind, Option.bind_eq_some_iff] at hs
      obtain ⟨i, h1, fs, h2, hs⟩ := hs
      obtain ⟨x, x1, x2⟩ := scriptEach_own ih hs
      exact ⟨x, by simp [h1, h2, x1], x2⟩
    case bigUint u => exact scriptVec_own ih hs
    case bigInt u => exact ih _ _ _ hs

end

/-- The pointer words a script makes a pointer-writing serializer fill in: position of the word and position it points to,
when the current allocation was copied from `ia` to `op` and the output ends at `p`. -/
def Script.slotsAt (va : Nat) : Script → (ia op p : Nat) → List (Nat × Nat)
  | .done, _, _, _ => []
  | .pushProcess L len src ptr inner rest, ia, op, p =>
    let pos := roundUp p L.align
    let p1 := roundUp (pos + L.size * len) va
    (outPos ia op ptr, pos) :: (inner.slotsAt va src pos p1 ++ rest.slotsAt va ia op (placeEnd va p1 inner.shapes))
  | .push L len _ ptr rest, ia, op, p =>
    let pos := roundUp p L.align
    (outPos ia op ptr, pos) :: rest.slotsAt va ia op (roundUp (pos + L.size * len) va)
  | .pushRaw L len _ rest, ia, op, p => rest.slotsAt va ia op (roundUp (roundUp p L.align + L.size * len) va)
  | .overwrite _ _ _ rest, ia, op, p => rest.slotsAt va ia op p

theorem slotsAt_app {va : Nat} (x y : Script) (ia op p : Nat) :
    (x.app y).slotsAt va ia op p = x.slotsAt va ia op p ++ y.slotsAt va ia op (placeEnd va p x.shapes) := by
  induction x generalizing p with
  | done => rfl
  | pushProcess L len src ptr inner rest _ ih =>
    simp only [Script.app, Script.slotsAt, ih, Script.shapes, Script.pushes, List.map_cons, List.map_append, placeEnd, placeEnd_append, Shape.bytes,
      List.cons_append, List.append_assoc]
  | push L len src ptr rest ih =>
    simp only [Script.app, Script.slotsAt, ih, Script.shapes, Script.pushes, List.map_cons, placeEnd, Shape.bytes, List.cons_append]
  | pushRaw L len src rest ih =>
    simp only [Script.app, Script.slotsAt, ih, Script.shapes, Script.pushes, List.map_cons, placeEnd, Shape.bytes]
  | overwrite a L data rest ih => simp only [Script.app, Script.slotsAt, ih, Script.shapes, Script.pushes]

theorem headScript_slotsAt {A : Arch} {va : Nat} {o : Order} {dangle a : Nat} {h : Header} {body : Script} {ia op p : Nat} :
    (headScript A o dangle a h body).slotsAt va ia op p = if h.len = 0 then [] else body.slotsAt va ia op p := by
  unfold headScript
  split
  · split
    · unfold fixEmpty; cases o <;> rfl
    · rfl
  · split <;> rfl

/-- What the output owns: the same shapes, each at its place, every pointer slot where the serializer wrote it and before
the block it points to. -/
structure OwnOut (A : Arch) (va D ia op p : Nat) (sc : Script) (as : List Own) : Prop where
  shapes : as.map Own.shape = sc.shapes
  ptrs : as.map (·.ptr) = (place va p sc.shapes).map (D + ·)
  fwd : ∀ x ∈ as, x.slot + A.ptrBytes ≤ x.ptr
  slots : as.map (·.slot) = (sc.slotsAt va ia op p).map (D + ·.1)

theorem OwnOut.nil (A : Arch) (va D ia op p : Nat) : OwnOut A va D ia op p .done [] := ⟨rfl, rfl, by simp, rfl⟩

theorem OwnOut.append {A : Arch} {va D ia op p p1 : Nat} {s1 s2 : Script} {x y : List Own} (h1 : OwnOut A va D ia op p s1 x)
    (hp : p1 = placeEnd va p s1.shapes) (h2 : OwnOut A va D ia op p1 s2 y) : OwnOut A va D ia op p (s1.app s2) (x ++ y) := by
  subst hp
  refine ⟨?_, ?_, ?_, ?_⟩
  · simp only [Script.shapes, pushes_app, List.map_append]; rw [h1.shapes, h2.shapes]; rfl
  · simp only [Script.shapes, pushes_app, List.map_append, place_append]; rw [h1.ptrs, h2.ptrs]; rfl
  · intro z hz
    rcases List.mem_append.1 hz with h | h
    · exact h1.fwd z h
    · exact h2.fwd z h
  · rw [slotsAt_app, List.map_append, List.map_append, h1.slots, h2.slots]

theorem OwnOut.cons {A : Arch} {va D ia op src p slot s0 len : Nat} {L : Layout} {sc inner : Script} {x : List Own}
    (hsh : sc.shapes = ⟨L, len⟩ :: inner.shapes)
    (hin : OwnOut A va D src (roundUp p L.align) (roundUp (roundUp p L.align + L.size * len) va) inner x)
    (hslot : slot + A.ptrBytes ≤ D + roundUp p L.align)
    (hsl : sc.slotsAt va ia op p = (s0, roundUp p L.align) ::
      inner.slotsAt va src (roundUp p L.align) (roundUp (roundUp p L.align + L.size * len) va))
    (hs0 : slot = D + s0) : OwnOut A va D ia op p sc (⟨slot, L, len, D + roundUp p L.align⟩ :: x) := by
  refine ⟨?_, ?_, ?_, ?_⟩
  · rw [hsh, List.map_cons, hin.shapes]; rfl
  · rw [hsh, List.map_cons, hin.ptrs]; rfl
  · intro z hz
    rcases List.mem_cons.1 hz with rfl | h
    · exact hslot
    · exact hin.fwd z h
  · rw [hsl, List.map_cons, List.map_cons, hin.slots, hs0]

theorem OwnOut.empty {A : Arch} {va D ia op p : Nat} {sc : Script} (h : sc.pushes = []) (hs : sc.slotsAt va ia op p = []) :
    OwnOut A va D ia op p sc [] := by
  have : sc.shapes = [] := by simp [Script.shapes, h]
  exact ⟨by rw [this]; rfl, by rw [this]; rfl, by simp, by rw [hs]; rfl⟩

/-! ### The crate's impls never push an empty block -/

theorem shapes_app (x y : Script) : (x.app y).shapes = x.shapes ++ y.shapes := by
  simp [Script.shapes, pushes_app]

theorem scriptEach_pos {rec : TyId → Nat → Option Script} (hrec : ∀ t a sc, rec t a = some sc → ∀ x ∈ sc.shapes, 0 < x.bytes) {a : Nat}
    {fs : List Field} {sc : Script} (h : scriptEach rec a fs = some sc) : ∀ x ∈ sc.shapes, 0 < x.bytes := by
  induction fs generalizing sc with
  | nil => cases h; simp [Script.shapes, Script.pushes]
  | cons f fs ih =>
    simp only [scriptEach, Option.bind_eq_bind, Option.bind_eq_some_iff, Option.pure_def, Option.some.injEq] at h
    obtain ⟨s, h1, r, h2, rfl⟩ := h
    intro x hx
    rw [shapes_app, List.mem_append] at hx
    exact hx.elim (hrec _ _ _ h1 x) (ih h2 x)

theorem headScript_pos {A : Arch} {o : Order} {d a : Nat} {h : Header} {body : Script} (hb : h.len ≠ 0 → ∀ x ∈ body.shapes, 0 < x.bytes) :
    ∀ x ∈ (headScript A o d a h body).shapes, 0 < x.bytes := by
  unfold headScript
  split
  · split
    · intro x hx
      unfold fixEmpty at hx
      split at hx <;> simp [Script.shapes, Script.pushes, Script.words] at hx
    · intro x hx; simp [Script.shapes, Script.pushes] at hx
  · rename_i hl
    split
    · exact hb hl
    · exact hb hl

theorem scriptVec_pos {A : Arch} {P : Prog} {im : Mem} {rec : TyId → Nat → Option Script}
    (hrec : ∀ t a sc, rec t a = some sc → ∀ x ∈ sc.shapes, 0 < x.bytes) {u : TyId} {a : Nat} {sc : Script} (h : scriptVec A P im rec u a = some sc) :
    ∀ x ∈ sc.shapes, 0 < x.bytes := by
  unfold scriptVec at h
  split at h
  · cases h; simp [Script.shapes, Script.pushes]
  · rename_i hz
    simp only [Option.bind_eq_bind, Option.bind_eq_some_iff, Option.pure_def, Option.some.injEq] at h
    obtain ⟨h, h1, inner, h2, rfl⟩ := h
    refine headScript_pos fun hl x hx => ?_
    simp only [Script.shapes, Script.pushes, List.append_nil, List.map_cons, List.mem_cons] at hx
    rcases hx with rfl | hx
    · exact Nat.mul_pos (Nat.pos_of_ne_zero hz) (Nat.pos_of_ne_zero hl)
    · exact scriptEach_pos hrec h2 x hx

theorem script_pos {A : Arch} {P : Prog} {im : Mem} {n : Nat} : ∀ (t a : Nat) (sc : Script), script A P im n t a = some sc →
    ∀ x ∈ sc.shapes, 0 < x.bytes := by
  induction n with
  | zero => intro t a sc h; simp [script] at h
  | succ n ih =>
    intro t a sc h
    rw [script] at h
    split at h
    · cases h; simp [Script.shapes, Script.pushes]
    · split at h
      · cases h; simp [Script.shapes, Script.pushes]
      · rename_i hz
        simp only [Option.bind_eq_bind, Option.bind_eq_some_iff, Option.pure_def, Option.some.injEq] at h
        obtain ⟨p, h1, inner, h2, rfl⟩ := h
        intro x hx
        simp only [Script.shapes, Script.pushes, List.append_nil, List.map_cons, List.mem_cons] at hx
        rcases hx with rfl | hx
        · exact Nat.mul_pos (Nat.pos_of_ne_zero hz) Nat.one_pos
        · exact ih _ _ _ h2 x hx
    · exact scriptVec_pos ih h
    · simp only [Option.bind_eq_bind, Option.bind_eq_some_iff, Option.pure_def, Option.some.injEq] at h
      obtain ⟨h, h1, rfl⟩ := h
      refine headScript_pos fun hl x hx => ?_
      simp only [Script.shapes, Script.pushes, List.map_cons, List.map_nil, List.mem_cons, List.not_mem_nil, or_false] at hx
      subst hx
      exact Nat.mul_pos (by simp) (Nat.pos_of_ne_zero hl)
    · exact scriptEach_pos ih h
    · exact scriptEach_pos ih h
    · simp only [Option.bind_eq_bind, Option.bind_eq_some_iff] at h
      obtain ⟨i, h1, fs, h2, h3⟩ := h
      exact scriptEach_pos ih h3
    · exact scriptVec_pos ih h
    · exact ih _ _ _ h

end SerRaw
