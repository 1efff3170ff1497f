import Verif.Lemmas.Agree
import Verif.Props.Durable
/-
C55. Batching does not matter: serializing values in two sessions on one storage, one after the other, gives the same output as serializing
them in one session.
-/
namespace SerRaw

section
variable {C : Cfg} {P : Prog} {fl : Flags}

theorem jobsIdeal_append {A : Arch} {va : Nat} {md : Mode} (js ks : List Job) (st : Mem × Nat) :
    jobsIdeal A va md P (js ++ ks) st = jobsIdeal A va md P ks (jobsIdeal A va md P js st) := by
  induction js generalizing st with
  | nil => rfl
  | cons j js ih => exact ih _

theorem jobsAt_append {va : Nat} (js ks : List Job) (p : Nat) :
    jobsAt P va p (js ++ ks) = jobsAt P va p js ++ jobsAt P va (placeEnd va p (jobsShapes P js)) ks := by
  induction js generalizing p with
  | nil => rfl
  | cons j js ih =>
    simp only [List.cons_append, jobsAt, ih, jobsShapes, List.flatMap_cons, placeEnd_append]

theorem jobsShapes_append (js ks : List Job) : jobsShapes P (js ++ ks) = jobsShapes P js ++ jobsShapes P ks := List.flatMap_append

/-- The reference output of a session split in two. -/
theorem session_post_append (hC : C.OK) (hP : P.WF C.arch) (hacc : P.Accepted C) {k : Kind} {t0 : Sto} (ht : t0.Inv C)
    {rs1 rs2 : List (Root × Val)} (hv1 : Inputs C.arch P fl rs1) (hv2 : Inputs C.arch P fl rs2) :
    ∃ N, ∀ n, N ≤ n → ∃ js1 js2 : List Job, (∀ j ∈ js1, j.OK C P fl n) ∧ (∀ j ∈ js2, j.OK C P fl n) ∧
      (∀ f ps s, f ≤ n → session C k P f ((rs1 ++ rs2).map (·.1)) (Ser.fromStorage t0) = .ok ps s →
        SessionPost C k P (js1 ++ js2) (Ser.fromStorage t0) (fun _ => t0.view) ps s) ∧
      (session C k P n ((rs1 ++ rs2).map (·.1)) (Ser.fromStorage t0)).Sat (fun _ _ => True)
        (fun _ _ => C.maxCapacity < placeEnd C.valueAlign t0.vec.pos (jobsShapes P (js1 ++ js2))) (¬ C.NeverFails) ∧
      ∀ t : Sto, t.Inv C →
        (∀ f ps s, f ≤ n → session C k P f (rs1.map (·.1)) (Ser.fromStorage t) = .ok ps s →
          SessionPost C k P js1 (Ser.fromStorage t) (fun _ => t.view) ps s) ∧
        (∀ f ps s, f ≤ n → session C k P f (rs2.map (·.1)) (Ser.fromStorage t) = .ok ps s →
          SessionPost C k P js2 (Ser.fromStorage t) (fun _ => t.view) ps s) ∧
        (session C k P n (rs1.map (·.1)) (Ser.fromStorage t)).Sat (fun _ _ => True)
          (fun _ _ => C.maxCapacity < placeEnd C.valueAlign t.vec.pos (jobsShapes P js1)) (¬ C.NeverFails) ∧
        (session C k P n (rs2.map (·.1)) (Ser.fromStorage t)).Sat (fun _ _ => True)
          (fun _ _ => C.maxCapacity < placeEnd C.valueAlign t.vec.pos (jobsShapes P js2)) (¬ C.NeverFails) := by
  obtain ⟨N1, hN1⟩ := exists_jobs hC.arch.ptr_pos hP hv1
  obtain ⟨N2, hN2⟩ := exists_jobs hC.arch.ptr_pos hP hv2
  refine ⟨max N1 N2, fun n hn => ?_⟩
  obtain ⟨js1, m1, o1⟩ := hN1 n (by omega)
  obtain ⟨js2, m2, o2⟩ := hN2 n (by omega)
  have o12 : ∀ j ∈ js1 ++ js2, j.OK C P fl n := by
    intro j hj; rcases List.mem_append.1 hj with h | h
    · exact o1 j h
    · exact o2 j h
  have gen : ∀ (js : List Job) (rs : List (Root × Val)), js.map (fun j => (j.r, j.v)) = rs → (∀ j ∈ js, j.OK C P fl n) → ∀ t : Sto, t.Inv C →
      (∀ f ps s, f ≤ n → session C k P f (rs.map (·.1)) (Ser.fromStorage t) = .ok ps s →
        SessionPost C k P js (Ser.fromStorage t) (fun _ => t.view) ps s) ∧
      (session C k P n (rs.map (·.1)) (Ser.fromStorage t)).Sat (fun _ _ => True)
        (fun _ _ => C.maxCapacity < placeEnd C.valueAlign t.vec.pos (jobsShapes P js)) (¬ C.NeverFails) := by
    intro js rs hm ho t hI
    have e : rs.map (·.1) = js.map (·.r) := by rw [← hm, List.map_map]; rfl
    have hs := session_sat hC hP hacc k js ho (RelAll.init hI)
    rw [e]
    refine ⟨fun f ps s hf hr => ?_, hs.mono (fun _ _ _ => trivial) (fun _ _ h => h.panic.2.2) id⟩
    rw [session_fuel hf _ _ (by rw [hr]; simp), hr] at hs
    exact hs
  refine ⟨js1, js2, o1, o2, (gen (js1 ++ js2) (rs1 ++ rs2) (by rw [List.map_append, m1, m2]) o12 t0 ht).1,
    (gen (js1 ++ js2) (rs1 ++ rs2) (by rw [List.map_append, m1, m2]) o12 t0 ht).2, fun t hI => ?_⟩
  exact ⟨(gen js1 rs1 m1 o1 t hI).1, (gen js2 rs2 m2 o2 t hI).1, (gen js1 rs1 m1 o1 t hI).2, (gen js2 rs2 m2 o2 t hI).2⟩

/-- C55. One session of `rs1 ++ rs2`, or a session of `rs1` and then one of `rs2` on the storage it left: the same positions, the same
`pos()` and the same bytes. With a `CompleteSerializer`, whose outputs hold absolute addresses, provided the buffer is at the same address
at the ends of the three sessions. -/
theorem C55_batching (hC : C.OK) (hP : P.WF C.arch) (hacc : P.Accepted C) {t0 : Sto} (h0 : Reach C P t0) {k : Kind}
    {rs1 rs2 : List (Root × Val)} (hv1 : Inputs C.arch P fl rs1) (hv2 : Inputs C.arch P fl rs2)
    {f f1 f2 : Nat} {ps ps1 ps2 : List Nat} {s s1 s2 : Ser}
    (h : session C k P f ((rs1 ++ rs2).map (·.1)) (Ser.fromStorage t0) = .ok ps s)
    (h1 : session C k P f1 (rs1.map (·.1)) (Ser.fromStorage t0) = .ok ps1 s1)
    (h2 : session C k P f2 (rs2.map (·.1)) (Ser.fromStorage s1.sto) = .ok ps2 s2)
    (hk : k ≠ .complete ∨ (s1.sto.vec.ptr = s.sto.vec.ptr ∧ s2.sto.vec.ptr = s.sto.vec.ptr)) :
    ps = ps1 ++ ps2 ∧ s.sto.vec.pos = s2.sto.vec.pos ∧ ∀ i, s.sto.bytes i = s2.sto.bytes i := by
  have hI := h0.inv hC hP hacc
  obtain ⟨N, hN⟩ := session_post_append (k := k) hC hP hacc hI hv1 hv2
  obtain ⟨js1, js2, o1, o2, hp, _, hrest⟩ := hN (max N (max f (max f1 f2))) (by omega)
  have p := hp f ps s (by omega) h
  have p1 := (hrest t0 hI).1 f1 ps1 s1 (by omega) h1
  have p2 := (hrest s1.sto p1.inv).2.1 f2 ps2 s2 (by omega) h2
  have e1 : s1.sto.vec.pos = placeEnd C.valueAlign t0.vec.pos (jobsShapes P js1) := p1.pos
  have e2 : s2.sto.vec.pos = placeEnd C.valueAlign s1.sto.vec.pos (jobsShapes P js2) := p2.pos
  have e : s.sto.vec.pos = placeEnd C.valueAlign t0.vec.pos (jobsShapes P (js1 ++ js2)) := p.pos
  have hpos : s.sto.vec.pos = s2.sto.vec.pos := by rw [e, e2, e1, jobsShapes_append, placeEnd_append]
  refine ⟨?_, hpos, fun i => ?_⟩
  · have q : ps = (jobsAt P C.valueAlign t0.vec.pos (js1 ++ js2)).map (jobPos P) := p.ps
    have q1 : ps1 = (jobsAt P C.valueAlign t0.vec.pos js1).map (jobPos P) := p1.ps
    have q2 : ps2 = (jobsAt P C.valueAlign s1.sto.vec.pos js2).map (jobPos P) := p2.ps
    rw [q, q1, q2, jobsAt_append, List.map_append, e1]
  · have hm : k.mode s1.sto.vec.ptr = k.mode s.sto.vec.ptr ∧ k.mode s2.sto.vec.ptr = k.mode s.sto.vec.ptr := by
      cases k with
      | complete => obtain ⟨a, b⟩ := hk.resolve_left (by simp); rw [a, b]; exact ⟨rfl, rfl⟩
      | _ => exact ⟨rfl, rfl⟩
    have hview : s.sto.view = s2.sto.view := by
      rw [p.view, p2.view]
      simp only [Ser.fromStorage]
      rw [p1.view, hm.1, hm.2, jobsIdeal_append]
      simp only [Ser.fromStorage]
      rw [e1, ← jobsIdeal_end js1 (A := C.arch) (md := k.mode s.sto.vec.ptr) (st := (t0.view, t0.vec.pos))]
    by_cases hi : i < s.sto.vec.pos
    · have a1 := p.inv.pos_le; have a2 := p2.inv.pos_le
      rw [Sto.bytes, Sto.bytes, if_pos hi, if_pos (by omega), load_eq_view p.inv.toWInv (by omega), load_eq_view p2.inv.toWInv (by omega), hview]
    · rw [Sto.bytes, Sto.bytes, if_neg hi, if_neg (by omega)]

/-- C55, success. If the allocator does not fail, the one session returns (for some fuel, i.e. terminates normally) if and only if the two
sessions do. -/
theorem C55_success (hC : C.OK) (hnf : C.NeverFails) (hP : P.WF C.arch) (hacc : P.Accepted C) {t0 : Sto} (h0 : Reach C P t0) (k : Kind)
    {rs1 rs2 : List (Root × Val)} (hv1 : Inputs C.arch P fl rs1) (hv2 : Inputs C.arch P fl rs2) :
    (∃ f ps s, session C k P f ((rs1 ++ rs2).map (·.1)) (Ser.fromStorage t0) = .ok ps s) ↔
    ∃ f1 ps1 s1 f2 ps2 s2, session C k P f1 (rs1.map (·.1)) (Ser.fromStorage t0) = .ok ps1 s1 ∧
      session C k P f2 (rs2.map (·.1)) (Ser.fromStorage s1.sto) = .ok ps2 s2 := by
  have hI := h0.inv hC hP hacc
  obtain ⟨N, hN⟩ := session_post_append (k := k) hC hP hacc hI hv1 hv2
  have key : ∀ {α : Type} {o : Out Ser α} {b : Prop}, o.Sat (fun _ _ => True) (fun _ _ => b) (¬ C.NeverFails) → ¬ b → ∃ a s, o = .ok a s := by
    intro α o b ho hb
    cases o with
    | ok a s => exact ⟨a, s, rfl⟩
    | panic pk s => exact absurd ho hb
    | abort => exact absurd hnf ho
    | ub => exact ho.elim
    | fuel => exact ho.elim
  constructor
  · rintro ⟨f, ps, s, h⟩
    obtain ⟨js1, js2, o1, o2, hp, _, hrest⟩ := hN (max N f) (by omega)
    have p := hp f ps s (by omega) h
    have e : s.sto.vec.pos = placeEnd C.valueAlign t0.vec.pos (jobsShapes P (js1 ++ js2)) := p.pos
    rw [jobsShapes_append, placeEnd_append] at e
    have hcap := p.inv.pos_le; have hcap2 := p.inv.cap_le
    have hmono := le_placeEnd hC.facts.va.pos (jobs_align hC.arch.ptr_pos hP hacc o2) (placeEnd C.valueAlign t0.vec.pos (jobsShapes P js1))
    obtain ⟨ps1, s1, h1⟩ := key (hrest t0 hI).2.2.1 (by omega)
    have p1 := (hrest t0 hI).1 _ ps1 s1 (Nat.le_refl _) h1
    have e1 : s1.sto.vec.pos = placeEnd C.valueAlign t0.vec.pos (jobsShapes P js1) := p1.pos
    obtain ⟨ps2, s2, h2⟩ := key (hrest s1.sto p1.inv).2.2.2 (by rw [e1]; omega)
    exact ⟨_, ps1, s1, _, ps2, s2, h1, h2⟩
  · rintro ⟨f1, ps1, s1, f2, ps2, s2, h1, h2⟩
    obtain ⟨js1, js2, o1, o2, _, hs, hrest⟩ := hN (max N (max f1 f2)) (by omega)
    have p1 := (hrest t0 hI).1 f1 ps1 s1 (by omega) h1
    have p2 := (hrest s1.sto p1.inv).2.1 f2 ps2 s2 (by omega) h2
    have e1 : s1.sto.vec.pos = placeEnd C.valueAlign t0.vec.pos (jobsShapes P js1) := p1.pos
    have e2 : s2.sto.vec.pos = placeEnd C.valueAlign s1.sto.vec.pos (jobsShapes P js2) := p2.pos
    have hcap := p2.inv.pos_le; have hcap2 := p2.inv.cap_le
    obtain ⟨ps, s, h⟩ := key hs (by rw [jobsShapes_append, placeEnd_append, ← e1, ← e2]; omega)
    exact ⟨_, ps, s, h⟩

end

/-! ### A concrete case -/

/-- C55 applies to every kind of serializer (also `Complete`: the buffer is where the first session left it). -/
example (k : Kind) : ∃ s s1 s2, session cfg64 k exP 6 (exRoots.map Prod.fst) (Ser.fromStorage Sto.new) = .ok [0, 0, 136, 184] s ∧
    session cfg64 k exP 6 ((exRoots.take 1).map Prod.fst) (Ser.fromStorage Sto.new) = .ok [0] s1 ∧
    session cfg64 k exP 6 ((exRoots.drop 1).map Prod.fst) (Ser.fromStorage s1.sto) = .ok [0, 136, 184] s2 ∧
    (k ≠ .complete ∨ (s1.sto.vec.ptr = s.sto.vec.ptr ∧ s2.sto.vec.ptr = s.sto.vec.ptr)) ∧ ∀ i, s.sto.bytes i = s2.sto.bytes i := by
  have h : (session cfg64 k exP 6 (exRoots.map Prod.fst) (Ser.fromStorage Sto.new)).result = some ([0, 0, 136, 184], 200, 3 * 2 ^ 20) ∧
      (session cfg64 k exP 6 ((exRoots.take 1).map Prod.fst) (Ser.fromStorage Sto.new)).result = some ([0], 136, 3 * 2 ^ 20) ∧
      (session cfg64 k exP 6 ((exRoots.take 1).map Prod.fst) (Ser.fromStorage Sto.new)).andThen (fun s =>
        (session cfg64 k exP 6 ((exRoots.drop 1).map Prod.fst) (Ser.fromStorage s.sto)).result) = some ([0, 136, 184], 200, 3 * 2 ^ 20) := by
    cases k <;> decide +kernel
  obtain ⟨a, b, c⟩ := h
  obtain ⟨s, h1, _, h3⟩ := Out.result_ok a
  obtain ⟨s1, g1, _, g3⟩ := Out.result_ok b
  obtain ⟨ps, s1', g1', c⟩ := Out.andThen_some c
  have e : s1' = s1 := by
    have := g1'.symm.trans g1
    injection this
  subst e
  obtain ⟨s2, k1, _, k3⟩ := Out.result_ok c
  have hk : k ≠ .complete ∨ (s1'.sto.vec.ptr = s.sto.vec.ptr ∧ s2.sto.vec.ptr = s.sto.vec.ptr) := Or.inr ⟨g3.trans h3.symm, k3.trans h3.symm⟩
  exact ⟨s, s1', s2, h1, g1, k1, hk, (C55_batching cfg64_ok exP_wf exP_accepted .new (fl := ⟨true, false⟩) (rs1 := exRoots.take 1) (rs2 := exRoots.drop 1)
    (fun x hx => exInputs x (List.mem_of_mem_take hx)) (fun x hx => exInputs x (List.mem_of_mem_drop hx)) h1 g1 k1 hk).2.2⟩

end SerRaw
