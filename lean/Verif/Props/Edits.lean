import Verif.Lemmas.Edits
import Verif.Props.Serialize
import Verif.Props.SerEx
/-
C46: serializing changes only the words it documents.
-/
namespace SerRaw

section
variable {C : Cfg} {P : Prog} {fl : Flags}

theorem Kind.mode_edits (k : Kind) (B : Nat) : (k.mode B).edits = k.edits := by cases k <;> rfl

/-- C46. After a session of any kind, each value and each allocation it owns is in the output byte for byte, except for the
words listed by `edited`: pointers to serialized data (if the serializer writes pointers), and the capacity (and, if empty, the
pointer) of `Vec`s and `String`s with spare capacity (for a `CompleteSerializer`). Padding and all other fields included. -/
theorem C46_only_edits (hC : C.OK) (hP : P.WF C.arch) (hacc : P.Accepted C) {t0 : Sto} (h0 : Reach C P t0) {k : Kind}
    {rs : List (Root × Val)} (hv : Inputs C.arch P fl rs) {fuel : Nat} {ps : List Nat} {s' : Ser}
    (hrun : session C k P fuel (rs.map (·.1)) (Ser.fromStorage t0) = .ok ps s') :
    ∀ (i : Nat) (r : Root) (v : Val) (p : Nat), rs[i]? = some (r, v) → ps[i]? = some p → (P.layout r.t).size ≠ 0 →
      ∃ n ws as, edited C.arch P r.im k.edits n r.t r.a = some ws ∧ owned C.arch P r.im n r.t r.a = some as ∧
        (∀ j < (P.layout r.t).size, ¬ InWords C.arch ws (r.a + j) → s'.sto.bytes (p + j) = r.im (r.a + j)) ∧
        ∀ z ∈ as.zip (place C.valueAlign (roundUp (p + (P.layout r.t).size) C.valueAlign) (as.map Own.shape)),
          ∀ j < z.1.shape.bytes, ¬ InWords C.arch ws (z.1.ptr + j) → s'.sto.bytes (z.2 + j) = r.im (z.1.ptr + j) := by
  have hW := hC.arch.ptr_pos
  have F := hC.facts
  obtain ⟨n, js, hm, hj, hp⟩ := session_post hC hP hacc (h0.inv hC hP hacc) hv hrun
  intro i r v p hr hpi hz
  obtain ⟨x, hx, rfl, rfl, rfl⟩ := jobsAt_get hm hp.ps hr hpi
  obtain ⟨hxm, _, hle⟩ := jobsAt_mem_le F.va.pos hW hP hacc hj x hx
  have hb := fun i hi => hp.bytes (i := i) hi
  rw [hp.pos] at hb
  obtain ⟨ws, hw, hcov⟩ := script_covered (A := C.arch) (P := P) (im := x.1.r.im) (md := k.mode s'.sto.vec.ptr) n _ _ _ (hj _ hxm).2
  rw [Kind.mode_edits] at hw
  obtain ⟨v1, v2⟩ := jobs_copies (md := k.mode s'.sto.vec.ptr) (m := t0.view) F.va.pos hW hP hacc hj x hx ws hcov
  have hroot : jobPos P x + (P.layout x.1.r.t).size ≤ placeEnd C.valueAlign x.2 (x.1.shapes P) := by
    have h1 := le_roundUp (jobPos P x + (P.layout x.1.r.t).size) F.va.pos
    have h2 := le_placeEnd F.va.pos (pushes_align x.1.sc (script_wf hW hP hacc n _ _ _ _ _ (hj _ hxm).1 (hj _ hxm).2 (placed_root (decode_guard (hj _ hxm).1).1)).1)
      (bodyAt P C.valueAlign x)
    rw [bodyAt_end hW hP (hj _ hxm)] at h2
    unfold bodyAt at h2
    rw [if_neg hz] at h2
    omega
  obtain ⟨as, ho, hk, _⟩ := (hj _ hxm).blocks hW hP
  refine ⟨n, ws, as, hw, ho, ?_, ?_⟩
  · intro j hj' hnw
    rw [hb _ (by simp only [Ser.fromStorage] at *; omega)]
    exact v1 j hj' hnw
  · have hsh : as.map Own.shape = x.1.sc.shapes := by unfold Script.shapes; rw [← hk, List.map_map]; rfl
    have hbody : roundUp (jobPos P x + (P.layout x.1.r.t).size) C.valueAlign = bodyAt P C.valueAlign x := by simp [bodyAt, hz]
    rw [hsh, hbody]
    intro z hzm
    have hz1 : (z.1.key, z.2) ∈ x.1.sc.pushes.zip (place C.valueAlign (bodyAt P C.valueAlign x) x.1.sc.shapes) := by
      rw [← hk, List.zip_map_left]; exact List.mem_map.2 ⟨z, hzm, rfl⟩
    have hwf := (script_wf hW hP hacc n _ _ _ _ _ (hj _ hxm).1 (hj _ hxm).2 (placed_root (decode_guard (hj _ hxm).1).1)).1
    have hb2 := (place_bounds F.va.pos (pushes_align x.1.sc hwf) _ _ (mem_zip_shapes hz1)).2.2
    rw [bodyAt_end hW hP (hj _ hxm)] at hb2
    simp only [Own.key] at hb2
    intro j hj' hnw
    rw [hb _ (by simp only [Ser.fromStorage] at *; omega)]
    exact v2 _ hz1 j hj' hnw

end

/-- The edited words of the example node: its `next` pointer and the capacity and pointer of its vector; in the boxed node the
capacity and pointer of the empty vector with spare capacity; the pointer and capacity of the first string. -/
theorem exEdited : edited x64 exP exIm Kind.complete.edits 6 1 4096 = some [4096, 4144, 4152, 4112, 4104, 4176, 4192] := by rfl
theorem exEdited' : edited x64 exP exIm Kind.ptrOffset.edits 6 1 4096 = some [4096, 4112, 4176] := by rfl

/-- C46 applies: the id and the padding of the node after it (bytes 32 to 40) are copied, the padding being uninitialised in
the output as well. -/
example : ∃ s' : Ser, s'.sto.bytes 40 = some 7 ∧ s'.sto.bytes 47 = none := by
  obtain ⟨t, s', h0, _, hr, _⟩ := exRun .complete
  obtain ⟨n, ws, as, hw, _, h, _⟩ := C46_only_edits cfg64_ok exP_wf exP_accepted h0 exInputs hr 0 _ _ _ rfl rfl (by decide)
  have e : ws = [4096, 4144, 4152, 4112, 4104, 4176, 4192] := edited_unique hw exEdited
  subst e
  exact ⟨s', (h 32 (by decide) (by unfold InWords; decide)).trans rfl, (h 39 (by decide) (by unfold InWords; decide)).trans rfl⟩

end SerRaw
