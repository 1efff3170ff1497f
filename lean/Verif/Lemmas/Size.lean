import Verif.Lemmas.Run
import Verif.Lemmas.Agree
import Verif.Spec.Size
/-
The allocations a value owns in memory are those of the abstract value it denotes.
-/
namespace SerRaw

section
variable {A : Arch} {P : Prog} {m : Mem} {fl : Flags}

theorem elems_types (u k : Nat) : (elems P u k).map Prod.snd = List.replicate k u := by
  unfold elems
  rw [List.map_map, show (Prod.snd ∘ fun i => (i * (P.layout u).size, u)) = (fun _ : Nat => u) from rfl, List.map_const', List.length_range]

theorem decodeEach_length {rd : TyId → Nat → Option Val} {a : Nat} {fs : List Field} {vs : List Val}
    (h : decodeEach rd a fs = some vs) : vs.length = fs.length := by
  induction fs generalizing vs with
  | nil => simp only [decodeEach, Option.some.injEq] at h; subst h; rfl
  | cons f fs ih =>
    simp only [decodeEach, Option.bind_eq_bind, Option.bind_eq_some_iff, Option.pure_def, Option.some.injEq] at h
    obtain ⟨v, _, ws, h2, rfl⟩ := h
    simp [ih h2]

theorem each_allocs {rd : TyId → Nat → Option Val} {ro : TyId → Nat → Option (List Own)}
    (hrec : ∀ t a v as, rd t a = some v → ro t a = some as → as.map Own.shape = v.allocs P t)
    {a : Nat} {fs : List Field} {vs : List Val} {as : List Own} (h : decodeEach rd a fs = some vs) (ho : ownEach ro a fs = some as) :
    as.map Own.shape = allocsEach P vs (fs.map Prod.snd) := by
  induction fs generalizing vs as with
  | nil =>
    simp only [decodeEach, ownEach, Option.some.injEq] at h ho
    subst h ho; simp [allocsEach]
  | cons f fs ih =>
    simp only [decodeEach, ownEach, Option.bind_eq_bind, Option.bind_eq_some_iff, Option.pure_def, Option.some.injEq] at h ho
    obtain ⟨v, h1, ws, h2, rfl⟩ := h
    obtain ⟨x, x1, y, y1, rfl⟩ := ho
    rw [List.map_append, hrec _ _ _ _ h1 x1, ih h2 y1, List.map_cons, allocsEach]

theorem elems_length (u k : Nat) : (elems P u k).length = k := by simp [elems]

theorem vec_allocs {rd : TyId → Nat → Option Val} {ro : TyId → Nat → Option (List Own)}
    (hrec : ∀ t a v as, rd t a = some v → ro t a = some as → as.map Own.shape = v.allocs P t)
    {t u a : Nat} {v : Val} {as : List Own} (hdef : P.defn t = .vec u ∨ P.defn t = .bigUint u)
    (h : decodeVec A P fl m rd u a = some v) (ho : ownVec A P m ro u a = some as) :
    as.map Own.shape = v.allocs P t := by
  unfold decodeVec at h
  unfold ownVec at ho
  simp only [Option.bind_eq_bind, Option.bind_eq_some_iff, Option.pure_def, Option.ite_none_right_eq_some, Option.some.injEq] at h
  obtain ⟨hd, h1, _, vs, h2, rfl⟩ := h
  have hl := decodeEach_length h2
  rw [elems_length] at hl
  have key : Val.allocs P (.vec vs) t = if (P.layout u).size = 0 ∨ vs.length = 0 then []
      else ⟨P.layout u, vs.length⟩ :: allocsEach P vs (List.replicate vs.length u) := by
    rw [Val.allocs]
    rcases hdef with e | e <;> simp only [e]
  rw [key]
  split at ho
  · rename_i hz
    simp only [Option.some.injEq] at ho; subst ho
    rw [if_pos (Or.inl hz)]; rfl
  · rename_i hz
    simp only [h1, Option.bind_eq_bind, Option.bind_some] at ho
    split at ho
    · rename_i h0
      simp only [Option.pure_def, Option.some.injEq] at ho; subst ho
      rw [if_pos (Or.inr (by omega))]; rfl
    · rename_i h0
      simp only [Option.bind_eq_some_iff, Option.pure_def, Option.some.injEq] at ho
      obtain ⟨x, x1, rfl⟩ := ho
      rw [if_neg (by omega), List.map_cons, each_allocs hrec h2 x1, elems_types, hl]
      rfl

theorem readBytes_length {m : Mem} {a k : Nat} {bs : List UInt8} (h : readBytes m a k = some bs) : bs.length = k := by
  induction k generalizing a bs with
  | zero => simp only [readBytes, Option.some.injEq] at h; subst h; rfl
  | succ k ih =>
    rw [readBytes] at h
    split at h
    · rename_i b bs' _ h2
      simp only [Option.some.injEq] at h; subst h
      simp [ih h2]
    · cases h

theorem owned_allocs (n : Nat) : ∀ t a v as, decode A P fl m n t a = some v → owned A P m n t a = some as →
    as.map Own.shape = v.allocs P t := by
  induction n with
  | zero => intro t a v as h; simp [decode] at h
  | succ n ih =>
    intro t a v as h ho
    rw [decode] at h
    rw [owned] at ho
    rw [Option.ite_none_right_eq_some] at h
    replace h := h.2
    cases hdef : P.defn t <;> simp only [hdef] at h ho
    case prim =>
      simp only [Option.map_eq_some_iff, Option.some.injEq] at h ho
      obtain ⟨bs, _, rfl⟩ := h
      subst ho; simp [Val.allocs]
    case box u =>
      simp only [Option.bind_eq_bind, Option.bind_eq_some_iff, Option.pure_def, Option.ite_none_right_eq_some, Option.some.injEq] at h
      obtain ⟨p, h1, _, w, h2, rfl⟩ := h
      rw [Val.allocs]
      simp only [hdef]
      split at ho
      · rename_i hz
        simp only [Option.some.injEq] at ho; subst ho
        rw [if_pos hz]; rfl
      · rename_i hz
        simp only [h1, Option.bind_eq_bind, Option.bind_some, Option.bind_eq_some_iff, Option.pure_def, Option.some.injEq] at ho
        obtain ⟨x, x1, rfl⟩ := ho
        rw [if_neg hz, List.map_cons, ih _ _ _ _ h2 x1]
        rfl
    case vec u => exact vec_allocs ih (Or.inl hdef) h ho
    case string =>
      unfold decodeStr at h
      simp only [Option.bind_eq_bind, Option.bind_eq_some_iff, Option.pure_def, Option.ite_none_right_eq_some, Option.some.injEq] at h
      obtain ⟨hd, h1, _, bs, h2, rfl⟩ := h
      have hl := readBytes_length h2
      rw [Val.allocs]
      simp only [h1, Option.bind_eq_bind, Option.bind_some] at ho
      split at ho
      · simp only [Option.pure_def, Option.some.injEq] at ho; subst ho
        rw [if_pos (by omega)]; rfl
      · simp only [Option.pure_def, Option.some.injEq] at ho; subst ho
        rw [if_neg (by omega), hl]; rfl
    case array u k =>
      simp only [Option.bind_eq_bind, Option.bind_eq_some_iff, Option.pure_def, Option.some.injEq] at h
      obtain ⟨vs, h1, rfl⟩ := h
      rw [Val.allocs]; simp only [hdef]
      rw [each_allocs ih h1 ho, elems_types]
    case struct fs =>
      simp only [Option.bind_eq_bind, Option.bind_eq_some_iff, Option.pure_def, Option.some.injEq] at h
      obtain ⟨vs, h1, rfl⟩ := h
      rw [Val.allocs]; simp only [hdef]
      rw [each_allocs ih h1 ho]
    case enum tag vars =>
      simp only [Option.bind_eq_bind, Option.bind_eq_some_iff, Option.pure_def, Option.some.injEq] at h
      obtain ⟨i, h1, fs, h2, vs, h3, rfl⟩ := h
      simp only [h1, h2, Option.bind_eq_bind, Option.bind_some] at ho
      rw [Val.allocs]; simp only [hdef]
      rw [each_allocs ih h3 ho, List.getD_eq_getElem?_getD, h2]; rfl
    case bigUint u => exact vec_allocs ih (Or.inr hdef) h ho
    case bigInt u =>
      simp only [Option.bind_eq_bind, Option.bind_eq_some_iff, Option.pure_def, Option.some.injEq] at h
      obtain ⟨sg, _, w, h2, rfl⟩ := h
      rw [Val.allocs]; simp only [hdef]
      exact ih _ _ _ _ h2 ho

end

/-! ### Pointer words -/

section
variable {A : Arch} {P : Prog} {m : Mem} {fl : Flags} {va : Nat}

theorem script_allocs {n t a : Nat} {v : Val} {sc : Script} (h : decode A P fl m n t a = some v) (hs : script A P m n t a = some sc) :
    sc.shapes = v.allocs P t := by
  obtain ⟨as, h1, h2⟩ := script_own n _ _ _ hs
  rw [← owned_allocs n _ _ _ _ h h1, Script.shapes, ← h2, List.map_map]; rfl

theorem each_pointers {n : Nat}
    (hrec : ∀ t a v sc, decode A P fl m n t a = some v → script A P m n t a = some sc → ∀ ia op p, ia ≤ a →
      sc.slotsAt va ia op p = v.pointers A P va t (outPos ia op a) p)
    {a : Nat} {fs : List Field} {vs : List Val} {sc : Script} (h : decodeEach (decode A P fl m n) a fs = some vs)
    (hs : scriptEach (script A P m n) a fs = some sc) (ia op p : Nat) (hia : ia ≤ a) :
    sc.slotsAt va ia op p = pointersEach A P va vs fs (outPos ia op a) p := by
  induction fs generalizing vs sc p with
  | nil =>
    simp only [decodeEach, scriptEach, Option.some.injEq] at h hs
    subst h hs; simp [pointersEach, Script.slotsAt]
  | cons f fs ih =>
    simp only [decodeEach, scriptEach, Option.bind_eq_bind, Option.bind_eq_some_iff, Option.pure_def, Option.some.injEq] at h hs
    obtain ⟨v, h1, ws, h2, rfl⟩ := h
    obtain ⟨x, x1, y, y1, rfl⟩ := hs
    rw [slotsAt_app, hrec _ _ _ _ h1 x1 ia op p (by omega), ih h2 y1, pointersEach, script_allocs h1 x1, outPos_add hia]

theorem vec_pointers {n : Nat}
    (hrec : ∀ t a v sc, decode A P fl m n t a = some v → script A P m n t a = some sc → ∀ ia op p, ia ≤ a →
      sc.slotsAt va ia op p = v.pointers A P va t (outPos ia op a) p)
    {t u a : Nat} {v : Val} {sc : Script} (hdef : P.defn t = .vec u ∨ P.defn t = .bigUint u)
    (h : decodeVec A P fl m (decode A P fl m n) u a = some v) (hs : scriptVec A P m (script A P m n) u a = some sc)
    (ia op p : Nat) (hia : ia ≤ a) :
    sc.slotsAt va ia op p = v.pointers A P va t (outPos ia op a) p := by
  unfold decodeVec at h
  unfold scriptVec at hs
  simp only [Option.bind_eq_bind, Option.bind_eq_some_iff, Option.pure_def, Option.ite_none_right_eq_some, Option.some.injEq] at h
  obtain ⟨hd, h1, _, vs, h2, rfl⟩ := h
  have hl := decodeEach_length h2
  rw [elems_length] at hl
  have key : Val.pointers A P va (.vec vs) t (outPos ia op a) p = if (P.layout u).size = 0 ∨ vs.length = 0 then []
      else (outPos ia op a + (P.vecOrder u).ptrIx * A.ptrBytes, roundUp p (P.layout u).align) ::
          pointersEach A P va vs (elems P u vs.length) (roundUp p (P.layout u).align) (roundUp (roundUp p (P.layout u).align + (P.layout u).size * vs.length) va) := by
    rw [Val.pointers]
    rcases hdef with e | e <;> simp only [e]
  rw [key]
  split at hs
  · rename_i hz
    simp only [Option.some.injEq] at hs; subst hs
    rw [if_pos (Or.inl hz)]; rfl
  · rename_i hz
    simp only [h1, Option.bind_eq_bind, Option.bind_some, Option.bind_eq_some_iff, Option.pure_def, Option.some.injEq] at hs
    obtain ⟨inner, e1, rfl⟩ := hs
    rw [headScript_slotsAt]
    by_cases h0 : hd.len = 0
    · rw [if_pos h0, if_pos (Or.inr (by omega))]
    · rw [if_neg h0, if_neg (by omega)]
      simp only [Script.slotsAt, List.append_nil]
      rw [each_pointers hrec h2 e1 _ _ _ (Nat.le_refl _), outPos_self, outPos_add hia, hl]

/-- The pointer words a serializer fills in are those of the abstract value. -/
theorem script_pointers (n : Nat) : ∀ t a v sc, decode A P fl m n t a = some v → script A P m n t a = some sc → ∀ ia op p, ia ≤ a →
    sc.slotsAt va ia op p = v.pointers A P va t (outPos ia op a) p := by
  induction n with
  | zero => intro t a v sc h; simp [decode] at h
  | succ n ih =>
    intro t a v sc h hs ia op p hia
    rw [decode] at h
    rw [script] at hs
    rw [Option.ite_none_right_eq_some] at h
    replace h := h.2
    cases hdef : P.defn t <;> simp only [hdef] at h hs
    case prim =>
      simp only [Option.map_eq_some_iff, Option.some.injEq] at h hs
      obtain ⟨bs, _, rfl⟩ := h
      subst hs; simp [Val.pointers, Script.slotsAt]
    case box u =>
      simp only [Option.bind_eq_bind, Option.bind_eq_some_iff, Option.pure_def, Option.ite_none_right_eq_some, Option.some.injEq] at h
      obtain ⟨q, h1, _, w, h2, rfl⟩ := h
      rw [Val.pointers]
      simp only [hdef]
      split at hs
      · rename_i hz
        simp only [Option.some.injEq] at hs; subst hs
        rw [if_pos hz]; rfl
      · rename_i hz
        simp only [h1, Option.bind_eq_bind, Option.bind_some, Option.bind_eq_some_iff, Option.pure_def, Option.some.injEq] at hs
        obtain ⟨x, x1, rfl⟩ := hs
        rw [if_neg hz]
        simp only [Script.slotsAt, List.append_nil, Nat.mul_one]
        rw [ih _ _ _ _ h2 x1 _ _ _ (Nat.le_refl _), outPos_self]
    case vec u => exact vec_pointers ih (Or.inl hdef) h hs _ _ _ hia
    case string =>
      unfold decodeStr at h
      simp only [Option.bind_eq_bind, Option.bind_eq_some_iff, Option.pure_def, Option.ite_none_right_eq_some, Option.some.injEq] at h
      obtain ⟨hd, h1, _, bs, h2, rfl⟩ := h
      have hl := readBytes_length h2
      rw [Val.pointers]
      simp only [h1, Option.bind_eq_bind, Option.bind_some, Option.pure_def, Option.some.injEq] at hs
      subst hs
      rw [headScript_slotsAt]
      by_cases h0 : hd.len = 0
      · rw [if_pos h0, if_pos (by omega)]
      · rw [if_neg h0, if_neg (by omega)]
        simp only [Script.slotsAt]
        rw [outPos_add hia, roundUp_eq_of_dvd (by decide) (Nat.one_dvd _)]
    case array u k =>
      simp only [Option.bind_eq_bind, Option.bind_eq_some_iff, Option.pure_def, Option.some.injEq] at h
      obtain ⟨vs, h1, rfl⟩ := h
      rw [Val.pointers]; simp only [hdef]
      exact each_pointers ih h1 hs _ _ _ hia
    case struct fs =>
      simp only [Option.bind_eq_bind, Option.bind_eq_some_iff, Option.pure_def, Option.some.injEq] at h
      obtain ⟨vs, h1, rfl⟩ := h
      rw [Val.pointers]; simp only [hdef]
      exact each_pointers ih h1 hs _ _ _ hia
    case enum tag vars =>
      simp only [Option.bind_eq_bind, Option.bind_eq_some_iff, Option.pure_def, Option.some.injEq] at h
      obtain ⟨i, h1, fs, h2, vs, h3, rfl⟩ := h
      simp only [h1, h2, Option.bind_eq_bind, Option.bind_some] at hs
      rw [Val.pointers]; simp only [hdef]
      rw [List.getD_eq_getElem?_getD, h2]
      exact each_pointers ih h3 hs _ _ _ hia
    case bigUint u => exact vec_pointers ih (Or.inr hdef) h hs _ _ _ hia
    case bigInt u =>
      simp only [Option.bind_eq_bind, Option.bind_eq_some_iff, Option.pure_def, Option.some.injEq] at h
      obtain ⟨sg, _, w, h2, rfl⟩ := h
      rw [Val.pointers]; simp only [hdef]
      rw [ih _ _ _ _ h2 hs _ _ _ (by omega), outPos_add hia]

end

section
variable {C : Cfg} {P : Prog} {fl : Flags}

theorem Job.OK.valBlocks {n : Nat} (hW : 0 < C.arch.ptrBytes) (hP : P.WF C.arch) {j : Job} (h : j.OK C P fl n) :
    j.shapes P = j.v.blocks P j.r.t := by
  obtain ⟨as, h1, _, h3⟩ := h.blocks hW hP
  rw [← h3, blocksOf, Val.blocks, owned_allocs n _ _ _ _ h.1 h1]

theorem jobs_valEnd {n : Nat} (hW : 0 < C.arch.ptrBytes) (hP : P.WF C.arch) {js : List Job} (hj : ∀ j ∈ js, j.OK C P fl n) :
    jobsShapes P js = (js.map fun j => (j.r.t, j.v)).flatMap fun x => x.2.blocks P x.1 := by
  induction js with
  | nil => rfl
  | cons j js ih =>
    have := ih fun x hx => hj x (by simp [hx])
    simp only [jobsShapes] at this
    simp only [jobsShapes, List.flatMap_cons, List.map_cons, this, (hj j (by simp)).valBlocks hW hP]

theorem jobs_valPos {n : Nat} (hW : 0 < C.arch.ptrBytes) (hP : P.WF C.arch) {js : List Job} (hj : ∀ j ∈ js, j.OK C P fl n) (va p : Nat) :
    (jobsAt P va p js).map (jobPos P) = valuePositions P va p (js.map fun j => (j.r.t, j.v)) := by
  induction js generalizing p with
  | nil => rfl
  | cons j js ih =>
    simp only [jobsAt, List.map_cons, valuePositions, jobPos, rootPos]
    rw [ih (fun x hx => hj x (by simp [hx])), (hj j (by simp)).valBlocks hW hP]

/-- Pointer words of one serialized value. -/
theorem rootSlots_val {n va : Nat} {x : Job × Nat} (h : x.1.OK C P fl n) :
    rootSlots P va x = x.1.v.pointersAt C.arch P va x.1.r.t (jobPos P x) := by
  unfold rootSlots Val.pointersAt
  split
  · rfl
  · rename_i hz
    rw [script_pointers n _ _ _ _ h.1 h.2 _ _ _ (Nat.le_refl _), outPos_self]
    simp only [bodyAt, if_neg hz]

end
end SerRaw
