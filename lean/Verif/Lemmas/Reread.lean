import Verif.Lemmas.Size
import Verif.Lemmas.Edits
/-
Values without spare capacity: the only edited words are the pointers to owned allocations. Blocks of several values.
-/
namespace SerRaw

section
variable {A : Arch} {P : Prog} {m : Mem} {fl : Flags} {e : EditKind}

/-- Every edited word is a pointer to an owned allocation. -/
def PtrEdits (e : EditKind) (ws : List Nat) (as : List Own) : Prop := ∀ w ∈ ws, e.ptrs = true ∧ ∃ x ∈ as, x.slot = w

theorem PtrEdits.append {ws xs : List Nat} {as bs : List Own} (h1 : PtrEdits e ws as) (h2 : PtrEdits e xs bs) :
    PtrEdits e (ws ++ xs) (as ++ bs) := by
  intro w hw
  rcases List.mem_append.1 hw with h | h
  · obtain ⟨a, x, hx, b⟩ := h1 w h; exact ⟨a, x, List.mem_append_left _ hx, b⟩
  · obtain ⟨a, x, hx, b⟩ := h2 w h; exact ⟨a, x, List.mem_append_right _ hx, b⟩

theorem PtrEdits.single {s : Nat} {o : Own} (h : o.slot = s) : PtrEdits e (if e.ptrs = true then [s] else []) [o] := by
  intro w hw
  split at hw
  · rename_i hp; simp only [List.mem_singleton] at hw; subst hw; exact ⟨hp, o, by simp, h⟩
  · cases hw

theorem PtrEdits.nil {as : List Own} : PtrEdits e [] as := fun _ h => by cases h

theorem each_tight {rd : TyId → Nat → Option Val} {ro : TyId → Nat → Option (List Own)} {re : TyId → Nat → Option (List Nat)}
    (hrec : ∀ t a v as ws, rd t a = some v → ro t a = some as → re t a = some ws → PtrEdits e ws as)
    {a : Nat} {fs : List Field} {vs : List Val} {as : List Own} {ws : List Nat} (h : decodeEach rd a fs = some vs)
    (ho : ownEach ro a fs = some as) (hw : editEach re a fs = some ws) : PtrEdits e ws as := by
  induction fs generalizing vs as ws with
  | nil => simp only [editEach, Option.some.injEq] at hw; subst hw; exact .nil
  | cons f fs ih =>
    simp only [decodeEach, ownEach, editEach, Option.bind_eq_bind, Option.bind_eq_some_iff, Option.pure_def, Option.some.injEq] at h ho hw
    obtain ⟨v, h1, us, h2, rfl⟩ := h
    obtain ⟨x, x1, y, y1, rfl⟩ := ho
    obtain ⟨x', x1', y', y1', rfl⟩ := hw
    exact (hrec _ _ _ _ _ h1 x1 x1').append (ih h2 y1 y1')

theorem header_tight {o : Order} {a : Nat} {h : Header} (hc : h.cap = h.len) (h0 : h.len ≠ 0) :
    editHeader A e o a h = if e.ptrs = true then [a + o.ptrIx * A.ptrBytes] else [] := by
  unfold editHeader
  rw [if_neg h0, if_neg (c := e.caps = true ∧ h.cap ≠ h.len) (fun hh => hh.2 hc), List.append_nil]

theorem header_tight_zero {o : Order} {a : Nat} {h : Header} (hc : h.cap = h.len) (h0 : h.len = 0) : editHeader A e o a h = [] := by
  unfold editHeader
  rw [if_pos h0, if_neg (fun hh => hh.2 (by omega))]

theorem vec_tight (ht : fl.tight = true) {rd : TyId → Nat → Option Val} {ro : TyId → Nat → Option (List Own)} {re : TyId → Nat → Option (List Nat)}
    (hrec : ∀ t a v as ws, rd t a = some v → ro t a = some as → re t a = some ws → PtrEdits e ws as)
    {u a : Nat} {v : Val} {as : List Own} {ws : List Nat} (h : decodeVec A P fl m rd u a = some v)
    (ho : ownVec A P m ro u a = some as) (hw : editVec A P m e re u a = some ws) : PtrEdits e ws as := by
  unfold decodeVec at h
  unfold ownVec at ho
  unfold editVec at hw
  simp only [Option.bind_eq_bind, Option.bind_eq_some_iff, Option.pure_def, Option.ite_none_right_eq_some, Option.some.injEq] at h
  obtain ⟨hd, h1, hv, vs, h2, rfl⟩ := h
  by_cases hz : (P.layout u).size = 0
  · rw [if_pos hz] at hw; simp only [Option.some.injEq] at hw; subst hw; exact .nil
  rw [if_neg hz] at ho hw
  have hc : hd.cap = hd.len := (hv.2.2 hz).2.2.2.2 ht
  simp only [h1, Option.bind_eq_bind, Option.bind_some, Option.bind_eq_some_iff, Option.pure_def, Option.some.injEq] at ho hw
  obtain ⟨x, x1, rfl⟩ := hw
  by_cases h0 : hd.len = 0
  · rw [header_tight_zero hc h0]
    have : x = [] := by
      rw [h0] at x1; simpa [elems, editEach, eq_comm] using x1
    subst this; exact .nil
  · rw [if_neg h0] at ho
    simp only [Option.bind_eq_some_iff, Option.some.injEq] at ho
    obtain ⟨y, y1, rfl⟩ := ho
    rw [header_tight hc h0]
    exact (PtrEdits.single (o := ⟨a + (P.vecOrder u).ptrIx * A.ptrBytes, P.layout u, hd.len, hd.ptr⟩) rfl).append (each_tight hrec h2 y1 x1)

/-- A value without spare capacity: only pointers to owned allocations are edited. -/
theorem edited_tight (ht : fl.tight = true) (n : Nat) : ∀ t a v as ws, decode A P fl m n t a = some v → owned A P m n t a = some as →
    edited A P m e n t a = some ws → PtrEdits e ws as := by
  induction n with
  | zero => intro t a v as ws h; simp [decode] at h
  | succ n ih =>
    intro t a v as ws h ho hw
    rw [decode] at h
    rw [owned] at ho
    rw [edited] at hw
    rw [Option.ite_none_right_eq_some] at h
    replace h := h.2
    cases hdef : P.defn t <;> simp only [hdef] at h ho hw
    case prim => simp only [Option.some.injEq] at hw; subst hw; exact .nil
    case box u =>
      simp only [Option.bind_eq_bind, Option.bind_eq_some_iff, Option.pure_def, Option.ite_none_right_eq_some, Option.some.injEq] at h
      obtain ⟨p, h1, _, w, h2, rfl⟩ := h
      by_cases hz : (P.layout u).size = 0
      · rw [if_pos hz] at hw; simp only [Option.some.injEq] at hw; subst hw; exact .nil
      rw [if_neg hz] at ho hw
      simp only [h1, Option.bind_eq_bind, Option.bind_some, Option.bind_eq_some_iff, Option.pure_def, Option.some.injEq] at ho hw
      obtain ⟨x, x1, rfl⟩ := ho
      obtain ⟨y, y1, rfl⟩ := hw
      exact (PtrEdits.single (o := ⟨a, P.layout u, 1, p⟩) rfl).append (ih _ _ _ _ _ h2 x1 y1)
    case vec u => exact vec_tight ht ih h ho hw
    case string =>
      unfold decodeStr at h
      simp only [Option.bind_eq_bind, Option.bind_eq_some_iff, Option.pure_def, Option.ite_none_right_eq_some, Option.some.injEq] at h
      obtain ⟨hd, h1, hv, bs, h2, rfl⟩ := h
      have hc : hd.cap = hd.len := (hv.2.2 (by decide)).2.2.2.2 ht
      simp only [h1, Option.bind_eq_bind, Option.bind_some, Option.pure_def, Option.some.injEq] at ho hw
      subst hw
      by_cases h0 : hd.len = 0
      · rw [header_tight_zero hc h0]; exact .nil
      · rw [if_neg h0] at ho
        simp only [Option.some.injEq] at ho; subst ho
        rw [header_tight hc h0]; exact PtrEdits.single rfl
    case array u k =>
      simp only [Option.bind_eq_bind, Option.bind_eq_some_iff, Option.pure_def, Option.some.injEq] at h
      obtain ⟨vs, h1, rfl⟩ := h
      exact each_tight ih h1 ho hw
    case struct fs =>
      simp only [Option.bind_eq_bind, Option.bind_eq_some_iff, Option.pure_def, Option.some.injEq] at h
      obtain ⟨vs, h1, rfl⟩ := h
      exact each_tight ih h1 ho hw
    case enum tag vars =>
      simp only [Option.bind_eq_bind, Option.bind_eq_some_iff, Option.pure_def, Option.some.injEq] at h
      obtain ⟨i, h1, fs, h2, vs, h3, rfl⟩ := h
      simp only [h1, h2, Option.bind_eq_bind, Option.bind_some] at ho hw
      exact each_tight ih h3 ho hw
    case bigUint u => exact vec_tight ht ih h ho hw
    case bigInt u =>
      simp only [Option.bind_eq_bind, Option.bind_eq_some_iff, Option.pure_def, Option.some.injEq] at h
      obtain ⟨sg, _, w, h2, rfl⟩ := h
      exact ih _ _ _ _ _ h2 ho hw

end

/-- A position inside the blocks of several values belongs to one of them: to the value itself or to an allocation it owns. -/
theorem inBlock_values {P : Prog} {va i : Nat} (xs : List (TyId × Val)) (hz : ∀ x ∈ xs, (P.layout x.1).size = 0 → x.2.allocs P x.1 = [])
    (q : Nat) (h : InBlock va q (xs.flatMap fun x => x.2.blocks P x.1) i) :
    ∃ (k : Nat) (t : TyId) (v : Val) (p : Nat), xs[k]? = some (t, v) ∧ (valuePositions P va q xs)[k]? = some p ∧ (P.layout t).size ≠ 0 ∧
      ((p ≤ i ∧ i < p + (P.layout t).size) ∨ InBlock va (roundUp (p + (P.layout t).size) va) (v.allocs P t) i) := by
  induction xs generalizing q with
  | nil => exact absurd h inBlock_nil
  | cons x xs ih =>
    obtain ⟨t, v⟩ := x
    rw [List.flatMap_cons, inBlock_append] at h
    rcases h with h | h
    · by_cases h0 : (P.layout t).size = 0
      · rw [Val.blocks, if_pos h0, hz (t, v) (by simp) h0] at h
        exact absurd h inBlock_nil
      · rw [Val.blocks, if_neg h0, List.cons_append, List.nil_append, inBlock_cons] at h
        refine ⟨0, t, v, _, rfl, rfl, h0, ?_⟩
        rw [if_neg h0]
        simpa [Shape.bytes] using h
    · obtain ⟨k, t', v', p, h1, h2, h3⟩ := ih (fun y hy => hz y (by simp [hy])) _ h
      exact ⟨k + 1, t', v', p, h1, h2, h3⟩

end SerRaw
