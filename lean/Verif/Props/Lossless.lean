import Verif.Props.AgreeEx
/-
C58: serialization is lossless: different values give different outputs.
-/
namespace SerRaw

section
variable {A : Arch} {P : Prog} {va : Nat} {m : Mem}

theorem seqEach_mono {r1 r2 : TyId → Nat → Nat → Option (Val × Nat)} (h : ∀ t a p x, r1 t a p = some x → r2 t a p = some x)
    (a : Nat) (fs : List Field) {p : Nat} {x : List Val × Nat} (hd : seqEach r1 a p fs = some x) : seqEach r2 a p fs = some x := by
  induction fs generalizing p x with
  | nil => exact hd
  | cons f fs ih =>
    simp only [seqEach, Option.bind_eq_bind, Option.bind_eq_some_iff, Option.pure_def, Option.some.injEq] at hd ⊢
    obtain ⟨v, h1, ws, h2, h3⟩ := hd
    exact ⟨v, h _ _ _ _ h1, ws, ih h2, h3⟩

theorem seqVec_mono {r1 r2 : TyId → Nat → Nat → Option (Val × Nat)} (h : ∀ t a p x, r1 t a p = some x → r2 t a p = some x)
    {u : TyId} {a p : Nat} {x : Val × Nat} (hd : seqVec A P va m r1 u a p = some x) : seqVec A P va m r2 u a p = some x := by
  simp only [seqVec, Option.bind_eq_bind, Option.bind_eq_some_iff] at hd ⊢
  obtain ⟨len, h1, h2⟩ := hd
  refine ⟨len, h1, ?_⟩
  split at h2 <;> rename_i hc
  · rw [if_pos hc]
    simp only [Option.bind_eq_some_iff] at h2 ⊢
    obtain ⟨y, h3, h4⟩ := h2
    exact ⟨y, seqEach_mono h _ _ h3, h4⟩
  · rw [if_neg hc]
    simp only [Option.bind_eq_some_iff] at h2 ⊢
    obtain ⟨y, h3, h4⟩ := h2
    exact ⟨y, seqEach_mono h _ _ h3, h4⟩

theorem decodeSeq_succ {n : Nat} {t a p : Nat} {x : Val × Nat} (h : decodeSeq A P va m n t a p = some x) :
    decodeSeq A P va m (n + 1) t a p = some x := by
  induction n generalizing t a p x with
  | zero => simp [decodeSeq] at h
  | succ n ih =>
    have ih' : ∀ t a p x, decodeSeq A P va m n t a p = some x → decodeSeq A P va m (n + 1) t a p = some x := fun t a p x => ih
    rw [decodeSeq] at h
    rw [decodeSeq]
    split at h <;> rename_i hdef
    · exact h
    · split at h <;> rename_i hz
      · rw [if_pos hz]
        simp only [Option.bind_eq_bind, Option.bind_eq_some_iff] at h ⊢
        obtain ⟨y, h3, h4⟩ := h
        exact ⟨y, ih h3, h4⟩
      · rw [if_neg hz]
        simp only [Option.bind_eq_bind, Option.bind_eq_some_iff] at h ⊢
        obtain ⟨y, h3, h4⟩ := h
        exact ⟨y, ih h3, h4⟩
    · exact seqVec_mono ih' h
    · exact h
    · simp only [Option.bind_eq_bind, Option.bind_eq_some_iff] at h ⊢
      obtain ⟨y, h3, h4⟩ := h
      exact ⟨y, seqEach_mono ih' _ _ h3, h4⟩
    · simp only [Option.bind_eq_bind, Option.bind_eq_some_iff] at h ⊢
      obtain ⟨y, h3, h4⟩ := h
      exact ⟨y, seqEach_mono ih' _ _ h3, h4⟩
    · simp only [Option.bind_eq_bind, Option.bind_eq_some_iff] at h ⊢
      obtain ⟨i, h1, fs, h2, y, h3, h4⟩ := h
      exact ⟨i, h1, fs, h2, y, seqEach_mono ih' _ _ h3, h4⟩
    · exact seqVec_mono ih' h
    · simp only [Option.bind_eq_bind, Option.bind_eq_some_iff] at h ⊢
      obtain ⟨s, h1, y, h3, h4⟩ := h
      exact ⟨s, h1, y, ih h3, h4⟩

theorem decodeSeq_mono {n k : Nat} (hk : n ≤ k) {t a p : Nat} {x : Val × Nat} (h : decodeSeq A P va m n t a p = some x) :
    decodeSeq A P va m k t a p = some x := by
  induction hk with
  | refl => exact h
  | step _ ih => exact decodeSeq_succ ih

theorem seqRoots_mono {n k : Nat} (hk : n ≤ k) {ts : List TyId} {p : Nat} {x : List Val × Nat} (h : seqRoots A P va m n ts p = some x) :
    seqRoots A P va m k ts p = some x := by
  induction ts generalizing p x with
  | nil => exact h
  | cons t ts ih =>
    simp only [seqRoots, Option.bind_eq_bind, Option.bind_eq_some_iff] at h ⊢
    obtain ⟨y, h1, z, h2, h3⟩ := h
    refine ⟨y, ?_, z, ih h2, h3⟩
    unfold seqRoot at h1 ⊢
    split at h1 <;> rename_i hz
    · rw [if_pos hz]; exact decodeSeq_mono hk h1
    · rw [if_neg hz]; exact decodeSeq_mono hk h1

/-- A zero-sized type has one value. -/
theorem zst_one_value (hW : 0 < A.ptrBytes) (hP : P.WF A) {fl fl' : Flags} {m m' : Mem} {t a a' : Nat} {v v' : Val} (hz : (P.layout t).size = 0)
    (h : Denotes A P fl m t a v) (h' : Denotes A P fl' m' t a' v') : v = v' := by
  obtain ⟨n, hn⟩ := h
  obtain ⟨k, hk⟩ := h'
  have h1 := seq_zst (va := 1) (dm := m) (b := 0) (p := 0) hW hP hz (decode_mono (Nat.le_max_left n k) hn)
  have h2 := seq_zst (va := 1) (dm := m) (b := 0) (p := 0) hW hP hz (decode_mono (Nat.le_max_right n k) hk)
  rw [h1] at h2
  cases h2; rfl

end

/-- C58. Two sessions with serializers of the same kind on values of the same types. If they return the same positions and the bytes
of both outputs are the same (for `CompleteSerializer`: at the same address), then the values are the same. -/
theorem C58_lossless {P : Prog} {C1 C2 : Cfg} (hC1 : C1.OK) (hC2 : C2.OK) (hA : C1.arch = C2.arch) (hva : C1.valueAlign = C2.valueAlign)
    (hP : P.WF C1.arch) (hacc1 : P.Accepted C1) (hacc2 : P.Accepted C2) {fl1 fl2 : Flags} {k : Kind} {t1 t2 : Sto}
    (h1 : Reach C1 P t1) (h2 : Reach C2 P t2) (hpos : t1.vec.pos = t2.vec.pos)
    {rs1 rs2 : List (Root × Val)} (hv1 : Inputs C1.arch P fl1 rs1) (hv2 : Inputs C2.arch P fl2 rs2)
    (htypes : rs1.map (fun x => x.1.t) = rs2.map (fun x => x.1.t)) {f1 f2 : Nat} {ps : List Nat} {s1 s2 : Ser}
    (r1 : session C1 k P f1 (rs1.map (·.1)) (Ser.fromStorage t1) = .ok ps s1)
    (r2 : session C2 k P f2 (rs2.map (·.1)) (Ser.fromStorage t2) = .ok ps s2)
    (hbytes : s1.sto.bytes = s2.sto.bytes) (hbase : k = .complete → s1.sto.vec.ptr = s2.sto.vec.ptr) :
    rs1.map (·.2) = rs2.map (·.2) := by
  have inOrder : (k = .pureCopy ∨ k = .posTracking) → rs1.map (·.2) = rs2.map (·.2) := by
    intro hk
    obtain ⟨n1, e1⟩ := C29_in_order hC1 hP hacc1 h1 hk hv1 r1
    obtain ⟨n2, e2⟩ := C29_in_order hC2 (hA ▸ hP) hacc2 h2 hk hv2 r2
    have e1 := seqRoots_mono (Nat.le_max_left n1 n2) e1
    have e2 := seqRoots_mono (Nat.le_max_right n1 n2) e2
    rw [← hA, ← hva, ← hbytes, ← hpos, ← htypes, e1] at e2
    have := congrArg Prod.fst (Option.some.inj e2)
    exact this
  have each : (∀ (i : Nat) (a b : Root) (v w : Val) (p : Nat), rs1[i]? = some (a, v) → rs2[i]? = some (b, w) → ps[i]? = some p → a.t = b.t →
      (P.layout a.t).size ≠ 0 → v = w) → ps.length = rs1.length → rs1.map (·.2) = rs2.map (·.2) := by
    intro h hl
    have hlen : rs1.length = rs2.length := by have := congrArg List.length htypes; simpa using this
    refine List.ext_getElem? fun i => ?_
    rw [List.getElem?_map, List.getElem?_map]
    have ht := congrArg (fun l : List TyId => l[i]?) htypes
    simp only [List.getElem?_map] at ht
    by_cases hi : i < rs1.length
    · have g1 : rs1[i]? = some rs1[i] := List.getElem?_eq_getElem hi
      have g2 : rs2[i]? = some (rs2[i]'(by omega)) := List.getElem?_eq_getElem (by omega)
      have g3 : ps[i]? = some (ps[i]'(by omega)) := List.getElem?_eq_getElem (by omega)
      rw [g1, g2] at ht ⊢
      have ht : (rs1[i]).1.t = (rs2[i]'(by omega)).1.t := Option.some.inj ht
      refine congrArg some ?_
      by_cases hz : (P.layout (rs1[i]).1.t).size = 0
      · have d1 := hv1 _ (List.getElem_mem hi)
        have d2 := hv2 _ (List.getElem_mem (show i < rs2.length by omega))
        rw [← ht, ← hA] at d2
        exact zst_one_value hC1.arch.ptr_pos hP hz d1 d2
      · exact h i _ _ _ _ _ g1 g2 g3 ht hz
    · rw [List.getElem?_eq_none (by omega), List.getElem?_eq_none (by omega)]
  cases k with
  | pureCopy => exact inOrder (Or.inl rfl)
  | posTracking => exact inOrder (Or.inr rfl)
  | ptrOffset =>
    have q1 := C27_offset_roundtrip hC1 hP hacc1 h1 hv1 r1
    have q2 := C27_offset_roundtrip hC2 (hA ▸ hP) hacc2 h2 hv2 r2
    refine each (fun i a b v w p g1 g2 g3 ht _ => ?_) q1.1
    have d1 := (q1.2 i _ _ _ g1 g3).weaken (fl' := ⟨false, false⟩) (by simp) (by simp)
    have d2 := (q2.2 i _ _ _ g2 g3).weaken (fl' := ⟨false, false⟩) (by simp) (by simp)
    rw [← hbytes, ← ht, ← hA] at d2
    exact d1.unique d2
  | complete =>
    have q1 := C34_complete hC1 hP hacc1 h1 hv1 r1
    have q2 := C34_complete hC2 (hA ▸ hP) hacc2 h2 hv2 r2
    refine each (fun i a b v w p g1 g2 g3 ht hz => ?_) q1.1
    have d1 := (q1.2 i _ _ _ g1 g3 (Or.inl hz)).weaken (fl' := ⟨false, false⟩) (by simp) (by simp)
    have d2 := (q2.2 i _ _ _ g2 g3 (Or.inl (by rw [← ht]; exact hz))).weaken (fl' := ⟨false, false⟩) (by simp) (by simp)
    have hbuf : s2.sto.buffer = s1.sto.buffer := by
      funext x
      have e := hbase rfl
      by_cases hx : s1.sto.vec.ptr ≤ x
      · obtain ⟨j, rfl⟩ := Nat.exists_eq_add_of_le hx
        have hb := congrFun hbytes j
        unfold Sto.bytes at hb
        unfold Sto.buffer
        rw [← e] at hb ⊢
        simp only [Nat.le_add_right, Nat.add_lt_add_iff_left, true_and]
        exact hb.symm
      · unfold Sto.buffer
        rw [if_neg (by omega), if_neg (by omega)]
    rw [← hbase rfl, ← ht, ← hA, hbuf] at d2
    exact d1.unique d2

/-- The memory of Props/SerEx.lean with another byte in the spare capacity of the string "hello". -/
def exIm2 : Mem := fun a => if a = 4229 then some 33 else exIm a

/-- What is compared in C58. -/
def Ser.output (s : Ser) : Nat × Nat × List Cell := (s.sto.vec.pos, s.sto.vec.ptr, (List.range s.sto.vec.pos).map s.sto.bytes)

theorem Ser.output_bytes {s t : Ser} (h : s.output = t.output) : s.sto.bytes = t.sto.bytes ∧ s.sto.vec.ptr = t.sto.vec.ptr := by
  simp only [Ser.output, Prod.mk.injEq] at h
  obtain ⟨h1, h2, h3⟩ := h
  refine ⟨?_, h2⟩
  funext i
  by_cases hi : i < s.sto.vec.pos
  · rw [← h1] at h3
    exact List.map_inj_left.mp h3 i (List.mem_range.mpr hi)
  · unfold Sto.bytes; rw [if_neg hi, if_neg (by omega)]

theorem Out.obs_some {σ α β} {o : Out σ α} {f : σ → β} {b : β} (h : o.obs f = some b) : ∃ a s, o = .ok a s ∧ f s = b := by
  cases o with
  | ok a s => exact ⟨a, s, rfl, Option.some.inj h⟩
  | _ => cases h

set_option maxRecDepth 100000 in
/-- C58 applies to two inputs in different memories. -/
example (k : Kind) : ∃ s1 s2 : Ser, session cfg64 k exP 6 [⟨exIm, 1, 4096⟩] (Ser.fromStorage Sto.new) = .ok [0] s1 ∧
    session cfg64 k exP 6 [⟨exIm2, 1, 4096⟩] (Ser.fromStorage Sto.new) = .ok [0] s2 ∧ s1.sto.bytes = s2.sto.bytes ∧
    ∀ v w, Denotes x64 exP ⟨true, false⟩ exIm 1 4096 v → Denotes x64 exP ⟨true, false⟩ exIm2 1 4096 w → v = w := by
  have h1 : ((session cfg64 k exP 6 [⟨exIm, 1, 4096⟩] (Ser.fromStorage Sto.new)).result).map Prod.fst = some [0] := by cases k <;> decide +kernel
  have h2 : ((session cfg64 k exP 6 [⟨exIm2, 1, 4096⟩] (Ser.fromStorage Sto.new)).result).map Prod.fst = some [0] := by cases k <;> decide +kernel
  have h3 : (session cfg64 k exP 6 [⟨exIm, 1, 4096⟩] (Ser.fromStorage Sto.new)).obs Ser.output =
      (session cfg64 k exP 6 [⟨exIm2, 1, 4096⟩] (Ser.fromStorage Sto.new)).obs Ser.output := by cases k <;> decide +kernel
  rw [Option.map_eq_some_iff] at h1 h2
  obtain ⟨⟨p1, q1⟩, h1, rfl⟩ := h1
  obtain ⟨⟨p2, q2⟩, h2, e2⟩ := h2
  obtain ⟨s1, r1, _⟩ := Out.result_ok h1
  obtain ⟨s2, r2, _⟩ := Out.result_ok h2
  replace e2 : p2 = [0] := e2
  subst e2
  rw [r1, r2] at h3
  obtain ⟨b1, b2⟩ := Ser.output_bytes (Option.some.inj h3)
  refine ⟨s1, s2, r1, r2, b1, fun v w hv hw => ?_⟩
  have := C58_lossless cfg64_ok cfg64_ok rfl rfl exP_wf exP_accepted exP_accepted .new .new rfl
    (rs1 := [(⟨exIm, 1, 4096⟩, v)]) (rs2 := [(⟨exIm2, 1, 4096⟩, w)]) (one_input hv) (one_input hw) rfl r1 r2 b1 (fun _ => b2)
  simpa using this

end SerRaw
