import Verif.Lemmas.Reread
import Verif.Props.Edits
import Verif.Props.Pointers
/-
C52: serializing what was serialized gives the same output.

After a `CompleteSerializer` session the values can be used in place (`as_ptr() + pos` as a `&T`, C34). Here they are used as the
input of a second session.
-/
namespace SerRaw

/-- The values in the finished storage `s`, at the positions `ps` which serializing `rs` returned, as inputs. -/
def reread (s : Sto) (rs : List (Root × Val)) (ps : List Nat) : List (Root × Val) :=
  List.zipWith (fun x p => (⟨s.buffer, x.1.t, s.asPtr + p⟩, x.2)) rs ps

section
variable {C : Cfg} {P : Prog} {fl : Flags}

theorem reread_get {s : Sto} {rs : List (Root × Val)} {ps : List Nat} {i : Nat} {r : Root} {v : Val} {p : Nat} (hr : rs[i]? = some (r, v))
    (hp : ps[i]? = some p) : (reread s rs ps)[i]? = some (⟨s.buffer, r.t, s.asPtr + p⟩, v) := by
  unfold reread
  rw [List.getElem?_zipWith, hr, hp]

theorem reread_same {s : Sto} {rs : List (Root × Val)} {ps : List Nat} (hl : ps.length = rs.length) :
    (reread s rs ps).map (fun x => (x.1.t, x.2)) = rs.map (fun x => (x.1.t, x.2)) := by
  unfold reread
  induction rs generalizing ps with
  | nil => simp
  | cons x rs ih =>
    cases ps with
    | nil => simp at hl
    | cons p ps => simp only [List.zipWith_cons_cons, List.map_cons, ih (ps := ps) (by simpa using hl)]

/-- C52, validity. The output of a `CompleteSerializer` can be serialized again: the values in it are valid inputs denoting the same
abstract values, without spare capacity. (A zero-sized value is only there if `as_ptr()` is aligned for it, which it is unless
nothing was ever allocated.) -/
theorem C52_valid (hC : C.OK) (hP : P.WF C.arch) (hacc : P.Accepted C) {t0 : Sto} (h0 : Reach C P t0)
    {rs : List (Root × Val)} (hv : Inputs C.arch P fl rs) {fuel : Nat} {ps : List Nat} {s' : Ser}
    (hrun : session C .complete P fuel (rs.map (·.1)) (Ser.fromStorage t0) = .ok ps s')
    (hz : ∀ x ∈ rs, (P.layout x.1.t).size ≠ 0 ∨ (P.layout x.1.t).align ∣ s'.sto.asPtr) :
    ps.length = rs.length ∧ Inputs C.arch P ⟨fl.canon, true⟩ (reread s'.sto rs ps) := by
  obtain ⟨hl, h⟩ := C34_complete hC hP hacc h0 hv hrun
  refine ⟨hl, fun x hx => ?_⟩
  obtain ⟨i, hi, rfl⟩ := List.mem_iff_getElem.1 hx
  have hi1 : i < rs.length := by simp [reread] at hi; omega
  have hi2 : i < ps.length := by omega
  have e := reread_get (s := s'.sto) (rs := rs) (ps := ps) (i := i) (r := rs[i].1) (v := rs[i].2) (p := ps[i]) (List.getElem?_eq_getElem hi1) (List.getElem?_eq_getElem hi2)
  rw [List.getElem?_eq_getElem hi] at e
  simp only [Option.some.injEq] at e
  rw [e]
  exact h i rs[i].1 rs[i].2 ps[i] (List.getElem?_eq_getElem hi1) (List.getElem?_eq_getElem hi2) (hz rs[i] (List.getElem_mem hi1))

/-- Where the allocations of a value in a finished `CompleteSerializer` output are, and the words pointing to them. -/
theorem reread_owned (hC : C.OK) (hP : P.WF C.arch) (hacc : P.Accepted C) {t0 : Sto} (h0 : Reach C P t0)
    {rs : List (Root × Val)} (hv : Inputs C.arch P fl rs) {fuel : Nat} {ps : List Nat} {s' : Ser}
    (hrun : session C .complete P fuel (rs.map (·.1)) (Ser.fromStorage t0) = .ok ps s') :
    ∀ (i : Nat) (r : Root) (v : Val) (p : Nat), rs[i]? = some (r, v) → ps[i]? = some p → (P.layout r.t).size ≠ 0 →
      ∃ n as, decode C.arch P ⟨fl.canon, true⟩ s'.sto.buffer n r.t (s'.sto.asPtr + p) = some v ∧
        owned C.arch P s'.sto.buffer n r.t (s'.sto.asPtr + p) = some as ∧ as.map Own.shape = v.allocs P r.t ∧
        as.map (·.ptr) = (place C.valueAlign (roundUp (p + (P.layout r.t).size) C.valueAlign) (v.allocs P r.t)).map (s'.sto.asPtr + ·) ∧
        as.map (·.slot) = (v.pointersAt C.arch P C.valueAlign r.t p).map (s'.sto.asPtr + ·.1) := by
  have hW := hC.arch.ptr_pos
  obtain ⟨n, js, hm, hj, hp⟩ := session_post hC hP hacc (h0.inv hC hP hacc) hv hrun
  intro i r v p hr hpi hz
  obtain ⟨x, hx, rfl, rfl, rfl⟩ := jobsAt_get hm hp.ps hr hpi
  have hend := ptr_end_lt hC hp.inv
  rw [hp.pos] at hend
  have hxm := (jobsAt_mem_le hC.facts.va.pos hW hP hacc hj x hx).1
  obtain ⟨hd, as, ho, hout⟩ := jobs_read (md := Kind.mode s'.sto.vec.ptr .complete) (D := s'.sto.vec.ptr) (m := t0.view) hC.facts.va.pos hW hP hacc rfl hj hend
    (fun i _ hi => hp.buffer (by rw [hp.pos]; exact hi)) x hx (fun h => absurd h hz)
    (fun h u hu => align_dvd_ptr hC hP hacc hp.inv (hp.nz _ hxm h) hu)
  have hsh : x.1.sc.shapes = x.1.v.allocs P x.1.r.t := script_allocs (hj _ hxm).1 (hj _ hxm).2
  have hbody : bodyAt P C.valueAlign x = roundUp (jobPos P x + (P.layout x.1.r.t).size) C.valueAlign := by simp [bodyAt, hz]
  refine ⟨n, as, hd, ho, by rw [hout.shapes, hsh], by rw [hout.ptrs, hsh, hbody]; rfl, ?_⟩
  rw [← rootSlots_val (hj _ hxm), hout.slots]
  simp [rootSlots, hz, Sto.asPtr]

/-- C52. Serialize values with a `CompleteSerializer`; then serialize the values in its output, with a serializer of any kind, into a
storage (of the same `VALUE_ALIGNMENT`) starting at the same position. The second output has the same size and the same positions,
and every byte of every value and owned allocation is the same, except (if the second serializer writes pointers) the pointer words
to serialized data, which C51 describes. Nothing is left to correct: in particular no `Vec` header is edited. -/
theorem C52_idempotent {C2 : Cfg} (hC : C.OK) (hC2 : C2.OK) (hA : C2.arch = C.arch) (hva : C2.valueAlign = C.valueAlign) (hP : P.WF C.arch)
    (hacc : P.Accepted C) (hacc2 : P.Accepted C2) {t0 t2 : Sto} (h0 : Reach C P t0) (h2 : Reach C2 P t2) (hpos : t2.vec.pos = t0.vec.pos)
    {rs : List (Root × Val)} (hv : Inputs C.arch P fl rs) {fuel : Nat} {ps : List Nat} {s1 : Ser}
    (hrun : session C .complete P fuel (rs.map (·.1)) (Ser.fromStorage t0) = .ok ps s1)
    (hz : ∀ x ∈ rs, (P.layout x.1.t).size ≠ 0 ∨ (P.layout x.1.t).align ∣ s1.sto.asPtr)
    {k : Kind} {fuel2 : Nat} {ps2 : List Nat} {s2 : Ser}
    (hrun2 : session C2 k P fuel2 ((reread s1.sto rs ps).map (·.1)) (Ser.fromStorage t2) = .ok ps2 s2) :
    ps2 = ps ∧ s2.sto.vec.pos = s1.sto.vec.pos ∧
    ∀ b, InBlock C.valueAlign t0.vec.pos (rs.flatMap fun x => x.2.blocks P x.1.t) b →
      s2.sto.bytes b = s1.sto.bytes b ∨
      (k.edits.ptrs = true ∧ ∃ (i : Nat) (r : Root) (v : Val) (p : Nat), rs[i]? = some (r, v) ∧ ps[i]? = some p ∧
        ∃ x ∈ v.pointersAt C.arch P C.valueAlign r.t p, x.1 ≤ b ∧ b < x.1 + C.arch.ptrBytes) := by
  have hW := hC.arch.ptr_pos
  have F := hC.facts
  have hP2 : P.WF C2.arch := by rw [hA]; exact hP
  obtain ⟨hl, hin⟩ := C52_valid hC hP hacc h0 hv hrun hz
  have hin2 : Inputs C2.arch P ⟨fl.canon, true⟩ (reread s1.sto rs ps) := by rw [hA]; exact hin
  obtain ⟨e1, e2⟩ := C49_value_only hC2 hC hva hP2 hP hacc2 hacc h2 h0 hpos hin2 hv (reread_same hl) hrun2 hrun
  refine ⟨e1, e2, fun b hb => ?_⟩
  subst e1
  have hps := (C49_size hC hP hacc h0 hv hrun).1
  have hend := (C49_size hC hP hacc h0 hv hrun).2
  have hzal : ∀ x ∈ rs.map (fun x => (x.1.t, x.2)), (P.layout x.1).size = 0 → x.2.allocs P x.1 = [] := by
    intro y hy h0
    obtain ⟨x, hx, rfl⟩ := List.mem_map.1 hy
    obtain ⟨n, hd⟩ := hv x hx
    obtain ⟨sc, hs, _⟩ := serData_eq (C := C) hW .pureCopy hP hd
    rw [← script_allocs hd hs, script_zst hW hP h0 hs]; rfl
  have hfm : rs.flatMap (fun x => x.2.blocks P x.1.t) = (rs.map (fun x => (x.1.t, x.2))).flatMap (fun x => x.2.blocks P x.1) := by
    rw [List.flatMap_map]
  rw [hfm] at hb
  obtain ⟨i, t, v, p, g1, g2, g3, g4⟩ := inBlock_values _ hzal _ hb
  rw [← hps] at g2
  rw [List.getElem?_map, Option.map_eq_some_iff] at g1
  obtain ⟨⟨r, v'⟩, g1, hg⟩ := g1
  simp only [Prod.mk.injEq] at hg
  obtain ⟨rfl, rfl⟩ := hg
  obtain ⟨n, as, d1, d2, d3, d4, d5⟩ := reread_owned hC hP hacc h0 hv hrun i r v' p g1 g2 g3
  obtain ⟨n', ws, as', w1, w2, w3, w4⟩ := C46_only_edits hC2 hP2 hacc2 h2 hin2 hrun2 i _ v' p (reread_get g1 g2) g2 g3
  rw [hA] at w1 w2 w3 w4
  simp only at w1 w2 w3 w4
  obtain rfl := owned_unique w2 d2
  -- all at the same fuel
  have hN1 := decode_mono (Nat.le_max_left n n') d1
  have hN2 := owned_mono (Nat.le_max_left n n') d2
  have hN3 := edited_mono (Nat.le_max_right n n') w1
  have hed := edited_tight (fl := ⟨fl.canon, true⟩) rfl _ _ _ _ _ _ hN1 hN2 hN3
  -- an edited word is a pointer word
  have hword : InWords C.arch ws (s1.sto.asPtr + b) → k.edits.ptrs = true ∧ ∃ x ∈ v'.pointersAt C.arch P C.valueAlign r.t p, x.1 ≤ b ∧ b < x.1 + C.arch.ptrBytes := by
    rintro ⟨w, hw, h1, h2⟩
    obtain ⟨hp, o, ho, rfl⟩ := hed w hw
    refine ⟨hp, ?_⟩
    have : o.slot ∈ as'.map (·.slot) := List.mem_map.2 ⟨o, ho, rfl⟩
    rw [d5] at this
    obtain ⟨x, hx, hxe⟩ := List.mem_map.1 this
    exact ⟨x, hx, by omega, by omega⟩
  have hbuf : ∀ q < s1.sto.vec.pos, s1.sto.buffer (s1.sto.asPtr + q) = s1.sto.bytes q := by
    intro q hq
    unfold Sto.buffer Sto.bytes
    rw [if_pos ⟨by simp [Sto.asPtr], by simp [Sto.asPtr]; omega⟩, if_pos hq]; rfl
  have hbp : b < s1.sto.vec.pos := by
    obtain ⟨n, js, hm, hj, hp⟩ := session_post hC hP hacc (h0.inv hC hP hacc) hv hrun
    obtain ⟨z, hz1, hz2, hz3⟩ := hb
    have hjs : jobsShapes P js = (rs.map (fun x => (x.1.t, x.2))).flatMap (fun x => x.2.blocks P x.1) := by
      rw [jobs_valEnd hW hP hj, ← hm, List.map_map]; rfl
    rw [← hjs] at hz1
    have := (place_bounds F.va.pos (jobs_align hW hP hacc hj) _ z hz1).2.2
    have hp' : s1.sto.vec.pos = placeEnd C.valueAlign t0.vec.pos (jobsShapes P js) := hp.pos
    omega
  by_cases hnw : InWords C.arch ws (s1.sto.asPtr + b)
  · obtain ⟨h1, h2⟩ := hword hnw
    exact Or.inr ⟨h1, i, r, v', p, g1, g2, h2⟩
  refine Or.inl ?_
  rw [← hbuf b hbp]
  rcases g4 with ⟨g4, g5⟩ | ⟨z, g4, g5, g6⟩
  · have := w3 (b - p) (by omega)
    rw [Nat.add_assoc, show p + (b - p) = b by omega] at this
    exact this hnw
  · obtain ⟨j, hj, rfl⟩ := List.mem_iff_getElem.1 g4
    have hj1 : j < (v'.allocs P r.t).length := by simp at hj; omega
    have hj2 : j < (place C.valueAlign (roundUp (p + (P.layout r.t).size) C.valueAlign) (v'.allocs P r.t)).length := by simp at hj; omega
    have hj3 : j < as'.length := by have := congrArg List.length d3; simp at this; omega
    simp only [List.getElem_zip] at g5 g6
    have hsh : as'[j].shape = (v'.allocs P r.t)[j] := by
      have := congrArg (·[j]?) d3
      simpa [hj3, hj1] using this
    have hpt : as'[j].ptr = s1.sto.asPtr + (place C.valueAlign (roundUp (p + (P.layout r.t).size) C.valueAlign) (v'.allocs P r.t))[j] := by
      have := congrArg (·[j]?) d4
      simpa [hj3, hj2] using this
    rw [hva, d3] at w4
    have := w4 (as'[j], (place C.valueAlign (roundUp (p + (P.layout r.t).size) C.valueAlign) (v'.allocs P r.t))[j])
      (List.mem_iff_getElem.2 ⟨j, by simp; omega, by simp⟩)
      (b - (place C.valueAlign (roundUp (p + (P.layout r.t).size) C.valueAlign) (v'.allocs P r.t))[j]) (by simp only [hsh]; omega)
    simp only [hpt] at this
    rw [Nat.add_assoc, Nat.add_sub_cancel' g5] at this
    exact this hnw

end

/-! ### A concrete case -/

/-- C52 applies to the four example values (a tree with strings and spare capacity, a zero-sized value, a `BigInt`, an enum): serialized
with a `CompleteSerializer` that reallocates as it goes, then from its output with serializers of any kind. -/
example (k : Kind) : ∃ (s1 : Ser) (fuel : Nat) (t2 : Sto) (s2 : Ser),
    session cfg64 .complete exP 6 (exRoots.map Prod.fst) (Ser.fromStorage Sto.new) = .ok [0, 0, 136, 184] s1 ∧
    session cfg64 k exP fuel ((reread s1.sto exRoots [0, 0, 136, 184]).map Prod.fst) (Ser.fromStorage t2) = .ok [0, 0, 136, 184] s2 ∧
    s2.sto.vec.pos = 200 ∧ s2.sto.bytes 32 = s1.sto.bytes 32 := by
  obtain ⟨s1, r1, hp1, hb1⟩ := exRun_new .complete
  have hz : ∀ x ∈ exRoots, (exP.layout x.1.t).size ≠ 0 ∨ (exP.layout x.1.t).align ∣ s1.sto.asPtr := by
    rw [show s1.sto.asPtr = 3 * 2 ^ 20 from hb1]
    decide
  obtain ⟨_, hin⟩ := C52_valid cfg64_ok exP_wf exP_accepted .new exInputs r1 hz
  obtain ⟨t2, h2⟩ : ∃ t2, Sto.withCapacity cfg64 200 Sto.new = .ok () t2 := ⟨_, rfl⟩
  have hs : (reread s1.sto exRoots [0, 0, 136, 184]).map (fun x => (x.1.t, x.2)) = exRoots.map fun x => (x.1.t, x.2) := reread_same rfl
  obtain ⟨N, hN⟩ := C49_presize cfg64_ok cfg64_never exP_wf exP_accepted k hin (c := 200)
    (by rw [hs, show cfg64.valueAlign = 8 from rfl, exSize.2]) (by decide) h2
  obtain ⟨ps, s2, r2, hp2, _⟩ := hN N (Nat.le_refl _)
  have hpos : t2.vec.pos = Sto.new.vec.pos := by cases h2; rfl
  obtain ⟨e1, e2, e3⟩ := C52_idempotent cfg64_ok cfg64_ok rfl rfl exP_wf exP_accepted exP_accepted .new (.withCapacity (by decide) h2) hpos exInputs r1 hz r2
  subst e1
  rw [hs, show cfg64.valueAlign = 8 from rfl, exSize.2] at hp2
  refine ⟨s1, N, t2, s2, r1, r2, hp2, ?_⟩
  rcases e3 32 ⟨(⟨⟨40, 8⟩, 1⟩, 0), by decide, by decide, by decide⟩ with h | ⟨_, i, r, v, p, g1, g2, x, hx, g3⟩
  · exact h
  · exfalso
    have key : ∀ y ∈ List.zip exRoots [0, 0, 136, 184], ∀ x ∈ y.1.2.pointersAt x64 exP 8 y.1.1.t y.2, ¬ (x.1 ≤ 32 ∧ 32 < x.1 + 8) := by decide +kernel
    exact key ((r, v), p) (List.mem_of_getElem? (i := i) (by rw [List.getElem?_zip_eq_some]; exact ⟨g1, g2⟩)) x hx g3

end SerRaw
