import Verif.Lemmas.Top
import Verif.Lemmas.SeqAny
/-
Reading in order from the reference output of any serializer kind.
-/
namespace SerRaw

variable {C : Cfg} {P : Prog} {fl : Flags}

/-- Every job's value can be read in order, whatever was done to pointers and capacities. -/
theorem jobs_seq_any {md : Mode} {va : Nat} (hva : 0 < va) (hW : 0 < C.arch.ptrBytes) (hP : P.WF C.arch) (hacc : P.Accepted C)
    {n : Nat} {js : List Job} (hj : ∀ j ∈ js, j.OK C P fl n) {m : Mem} {p : Nat} {dm : Mem}
    (hb : md.Fits C.arch (placeEnd va p (jobsShapes P js)))
    (hdm : ∀ i, p ≤ i → i < placeEnd va p (jobsShapes P js) → dm i = (jobsIdeal C.arch va md P js (m, p)).1 i) :
    ∀ x ∈ jobsAt P va p js,
      decodeSeq C.arch P va dm n x.1.r.t (jobPos P x) (bodyAt P va x) = some (x.1.v, placeEnd va x.2 (x.1.shapes P)) := by
  intro x hx
  obtain ⟨hm, hle, hend⟩ := jobsAt_mem_le hva hW hP hacc hj x hx
  obtain ⟨m0, hcells⟩ := jobs_at_cells (md := md) (m := m) hva hW hP hacc hj x hx
  obtain ⟨hd, hs⟩ := hj _ hm
  by_cases hz : (P.layout x.1.r.t).size = 0
  · rw [seq_zst hW hP hz hd]
    simp [bodyAt, Job.shapes, rootShapes, hz, placeEnd]
  · have hap : 0 < (P.layout x.1.r.t).align := by
      obtain ⟨e, he⟩ := (hP x.1.r.t).1
      simp only [he]; exact Nat.two_pow_pos _
    have hpos : jobPos P x = roundUp x.2 (P.layout x.1.r.t).align := by simp [jobPos, rootPos, hz]
    have hbody : bodyAt P va x = roundUp (roundUp x.2 (P.layout x.1.r.t).align + (P.layout x.1.r.t).size) va := by
      simp [bodyAt, hz, hpos]
    rw [hpos, hbody]
    have hpl := placed_root (decode_guard hd).1
    have h1 := le_roundUp x.2 hap
    have h2 := le_roundUp (roundUp x.2 (P.layout x.1.r.t).align + (P.layout x.1.r.t).size) hva
    have h3 := le_placeEnd hva (pushes_align x.1.sc (script_wf hW hP hacc n _ _ _ _ _ hd hs hpl).1)
      (roundUp (roundUp x.2 (P.layout x.1.r.t).align + (P.layout x.1.r.t).size) va)
    have h4 : placeEnd va x.2 (x.1.shapes P) = placeEnd va (roundUp (roundUp x.2 (P.layout x.1.r.t).align + (P.layout x.1.r.t).size) va) x.1.sc.shapes := by
      simp [Job.shapes, rootShapes, hz, placeEnd, Shape.bytes]
    have hcells' := hcells
    simp only [rootIdeal, if_neg hz] at hcells'
    rw [h4]
    have key := (script_any (fl := fl) (im := x.1.r.im) (md := md) hva hW hP hacc n x.1.r.t x.1.r.a x.1.v x.1.sc
      ⟨x.1.r.a, (P.layout x.1.r.t).size, (P.layout x.1.r.t).align⟩ (roundUp x.2 (P.layout x.1.r.t).align)
      (m0.blit (roundUp x.2 (P.layout x.1.r.t).align) (P.layout x.1.r.t).size fun i => x.1.r.im (x.1.r.a + i))
      (roundUp (roundUp x.2 (P.layout x.1.r.t).align + (P.layout x.1.r.t).size) va)
      (Script.ideal C.arch va md x.1.r.im x.1.sc x.1.r.a (roundUp x.2 (P.layout x.1.r.t).align)
        (m0.blit (roundUp x.2 (P.layout x.1.r.t).align) (P.layout x.1.r.t).size fun i => x.1.r.im (x.1.r.a + i), roundUp (roundUp x.2 (P.layout x.1.r.t).align + (P.layout x.1.r.t).size) va)).1
      (placeEnd va (roundUp (roundUp x.2 (P.layout x.1.r.t).align + (P.layout x.1.r.t).size) va) x.1.sc.shapes) hd hs hpl h2
      (fun i hi => by rw [outPos_self]; exact blit_at hi) (Prod.ext rfl (by rw [ideal_end])) (hb.mono (by omega))).2
    rw [outPos_self] at key
    refine key dm ?_
    intro i hi
    rw [hdm i (by omega) (by omega), hcells' i (by omega)]

end SerRaw
