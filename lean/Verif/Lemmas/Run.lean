import Verif.Model.Reach
import Verif.Lemmas.Top
import Verif.Lemmas.Fuel
import Verif.Lemmas.Owned
import Verif.Lemmas.History
/-
From valid input values to the reference output: the interface between Lemmas/Top.lean and the properties.
-/
namespace SerRaw

section
variable {C : Cfg} {P : Prog} {fl : Flags}

theorem exists_jobs (hW : 0 < C.arch.ptrBytes) (hP : P.WF C.arch) {rs : List (Root × Val)} (hv : Inputs C.arch P fl rs) :
    ∃ N, ∀ n, N ≤ n → ∃ js : List Job, js.map (fun j => (j.r, j.v)) = rs ∧ ∀ j ∈ js, j.OK C P fl n := by
  induction rs with
  | nil => exact ⟨0, fun n _ => ⟨[], rfl, by simp⟩⟩
  | cons x rs ih =>
    obtain ⟨N, hN⟩ := ih (fun y hy => hv y (by simp [hy]))
    obtain ⟨n0, h0⟩ := hv x (by simp)
    refine ⟨max N n0, fun n hn => ?_⟩
    obtain ⟨js, h1, h2⟩ := hN n (by omega)
    have hd := decode_mono (k := n) (by omega) h0
    obtain ⟨sc, hs, _⟩ := serData_eq hW .pureCopy hP hd
    refine ⟨⟨x.1, x.2, sc⟩ :: js, by simp [h1], ?_⟩
    intro j hj
    rcases List.mem_cons.1 hj with rfl | hj
    · exact ⟨hd, hs⟩
    · exact h2 j hj

/-- With enough fuel, a session on valid values is described by `session_sat`. -/
theorem session_cases (hC : C.OK) (hP : P.WF C.arch) (hacc : P.Accepted C) (k : Kind) {t : Sto} (ht : t.Inv C)
    {rs : List (Root × Val)} (hv : Inputs C.arch P fl rs) :
    ∃ N, ∀ n, N ≤ n → ∃ js : List Job, js.map (fun j => (j.r, j.v)) = rs ∧ (∀ j ∈ js, j.OK C P fl n) ∧
      (session C k P n (rs.map (·.1)) (Ser.fromStorage t)).Sat
        (fun ps s' => SessionPost C k P js (Ser.fromStorage t) (fun _ => t.view) ps s')
        (RootStop C k (placeEnd C.valueAlign t.vec.pos (jobsShapes P js)) (Ser.fromStorage t) fun _ => t.view) (¬ C.NeverFails) := by
  obtain ⟨N, hN⟩ := exists_jobs hC.arch.ptr_pos hP hv
  refine ⟨N, fun n hn => ?_⟩
  obtain ⟨js, h1, h2⟩ := hN n hn
  refine ⟨js, h1, h2, ?_⟩
  have e : rs.map (·.1) = js.map (·.r) := by rw [← h1, List.map_map]; rfl
  rw [e]
  exact session_sat hC hP hacc k js h2 (RelAll.init ht)

theorem session_post (hC : C.OK) (hP : P.WF C.arch) (hacc : P.Accepted C) {k : Kind} {t : Sto} (ht : t.Inv C)
    {rs : List (Root × Val)} (hv : Inputs C.arch P fl rs) {fuel : Nat} {ps : List Nat} {s' : Ser}
    (hrun : session C k P fuel (rs.map (·.1)) (Ser.fromStorage t) = .ok ps s') :
    ∃ n, ∃ js : List Job, js.map (fun j => (j.r, j.v)) = rs ∧ (∀ j ∈ js, j.OK C P fl n) ∧
      SessionPost C k P js (Ser.fromStorage t) (fun _ => t.view) ps s' := by
  obtain ⟨N, hN⟩ := session_cases hC hP hacc k ht hv
  obtain ⟨js, h1, h2, h3⟩ := hN (max N fuel) (Nat.le_max_left _ _)
  rw [session_fuel (Nat.le_max_right N fuel) _ _ (by rw [hrun]; simp), hrun] at h3
  exact ⟨_, js, h1, h2, h3⟩

/-- Any outcome other than the recursion bound. -/
theorem session_out (hC : C.OK) (hP : P.WF C.arch) (hacc : P.Accepted C) {k : Kind} {t : Sto} (ht : t.Inv C)
    {rs : List (Root × Val)} (hv : Inputs C.arch P fl rs) {fuel : Nat} (hne : session C k P fuel (rs.map (·.1)) (Ser.fromStorage t) ≠ .fuel) :
    ∃ n, ∃ js : List Job, js.map (fun j => (j.r, j.v)) = rs ∧ (∀ j ∈ js, j.OK C P fl n) ∧
      (session C k P fuel (rs.map (·.1)) (Ser.fromStorage t)).Sat
        (fun ps s' => SessionPost C k P js (Ser.fromStorage t) (fun _ => t.view) ps s')
        (RootStop C k (placeEnd C.valueAlign t.vec.pos (jobsShapes P js)) (Ser.fromStorage t) fun _ => t.view) (¬ C.NeverFails) := by
  obtain ⟨N, hN⟩ := session_cases hC hP hacc k ht hv
  obtain ⟨js, h1, h2, h3⟩ := hN (max N fuel) (Nat.le_max_left _ _)
  rw [session_fuel (Nat.le_max_right N fuel) _ _ hne] at h3
  exact ⟨_, js, h1, h2, h3⟩

theorem valid_inputs {A : Arch} {rs : List Root} (h : ∀ r ∈ rs, Valid A P r) :
    ∃ xs : List (Root × Val), xs.map (·.1) = rs ∧ Inputs A P ⟨false, false⟩ xs := by
  induction rs with
  | nil => exact ⟨[], rfl, by intro x hx; cases hx⟩
  | cons r rs ih =>
    obtain ⟨xs, h1, h2⟩ := ih (fun x hx => h x (by simp [hx]))
    obtain ⟨fl, v, hv⟩ := h r (by simp)
    refine ⟨(r, v) :: xs, by simp [h1], ?_⟩
    intro x hx
    rcases List.mem_cons.1 hx with rfl | hx
    · exact hv.weaken (by simp) (by simp)
    · exact h2 x hx

/-! ### Positions and blocks of the jobs -/

theorem jobsAt_fst {va : Nat} (p : Nat) (js : List Job) : (jobsAt P va p js).map (·.1) = js := by
  induction js generalizing p with
  | nil => rfl
  | cons j js ih => simp [jobsAt, ih]

/-- The `i`-th result belongs to the `i`-th input. -/
theorem jobsAt_get {va q : Nat} {js : List Job} {rs : List (Root × Val)} (hm : js.map (fun j => (j.r, j.v)) = rs) {ps : List Nat}
    (hps : ps = (jobsAt P va q js).map (jobPos P)) {i : Nat} {r : Root} {v : Val} {p : Nat}
    (hr : rs[i]? = some (r, v)) (hp : ps[i]? = some p) :
    ∃ x ∈ jobsAt P va q js, x.1.r = r ∧ x.1.v = v ∧ jobPos P x = p := by
  subst hm hps
  rw [List.getElem?_map, Option.map_eq_some_iff] at hr hp
  obtain ⟨x, h1, h2⟩ := hp
  obtain ⟨j, h3, h4⟩ := hr
  refine ⟨x, List.mem_of_getElem? h1, ?_⟩
  have : (jobsAt P va q js)[i]?.map (·.1) = js[i]? := by rw [← List.getElem?_map, jobsAt_fst]
  rw [h1, h3] at this
  simp only [Option.map_some, Option.some.injEq] at this
  rw [this]
  injection h4 with e1 e2
  exact ⟨e1, e2, h2⟩

theorem jobs_length {va q : Nat} {js : List Job} {rs : List (Root × Val)} (hm : js.map (fun j => (j.r, j.v)) = rs) {ps : List Nat}
    (hps : ps = (jobsAt P va q js).map (jobPos P)) : ps.length = rs.length := by
  subst hm hps
  have := congrArg List.length (jobsAt_fst (P := P) (va := va) q js)
  simpa using this

theorem Job.OK.blocks {n : Nat} (hW : 0 < C.arch.ptrBytes) (hP : P.WF C.arch) {j : Job} (h : j.OK C P fl n) :
    ∃ as, owned C.arch P j.r.im n j.r.t j.r.a = some as ∧ as.map Own.key = j.sc.pushes ∧ blocksOf (P.layout j.r.t) as = j.shapes P := by
  obtain ⟨as, h1, h2⟩ := script_own n _ _ _ h.2
  have h3 : as.map Own.shape = j.sc.shapes := by
    unfold Script.shapes; rw [← h2, List.map_map]; rfl
  refine ⟨as, h1, h2, ?_⟩
  unfold blocksOf Job.shapes rootShapes
  rw [h3]
  split
  · rename_i hz; rw [script_zst hW hP hz h.2]; rfl
  · rfl

/-- The blocks of a list of inputs, in order. -/
theorem jobs_blocks {n : Nat} (hW : 0 < C.arch.ptrBytes) (hP : P.WF C.arch) {js : List Job} (hj : ∀ j ∈ js, j.OK C P fl n)
    {rs : List (Root × Val)} (hm : js.map (fun j => (j.r, j.v)) = rs) {bs : List (List Shape)}
    (hl : bs.length = rs.length) (hb : ∀ (i : Nat) (x : Root × Val) (xs : List Shape), rs[i]? = some x → bs[i]? = some xs → Blocks C.arch P x.1.im x.1.t x.1.a xs) :
    bs.flatten = jobsShapes P js := by
  induction js generalizing rs bs with
  | nil =>
    subst hm
    have : bs = [] := List.eq_nil_of_length_eq_zero (by simpa using hl)
    rw [this]; rfl
  | cons j js ih =>
    subst hm
    cases bs with
    | nil => simp at hl
    | cons b bs =>
      have h0 := hb 0 (j.r, j.v) b rfl rfl
      obtain ⟨as, h1, _, h3⟩ := (hj j (by simp)).blocks hW hP
      have e := h0.unique ⟨n, as, h1, rfl⟩
      rw [h3] at e
      subst e
      rw [List.flatten_cons, ih (fun x hx => hj x (by simp [hx])) rfl (by simpa using hl)
        (fun i x xs hx hxs => hb (i + 1) x xs (by simpa using hx) (by simpa using hxs))]
      simp [jobsShapes]

/-! ### The output seen by a consumer -/

theorem SessionPost.buffer {k : Kind} {js : List Job} {s s' : Ser} {m : Nat → Mem} {ps : List Nat} (h : SessionPost C k P js s m ps s') {i : Nat}
    (hi : i < s'.sto.vec.pos) : s'.sto.buffer (s'.sto.vec.ptr + i) =
      (jobsIdeal C.arch C.valueAlign (k.mode s'.sto.vec.ptr) P js (m s'.sto.vec.ptr, s.sto.vec.pos)).1 i := by
  have := h.inv.pos_le
  unfold Sto.buffer
  rw [if_pos (by omega), ← h.view]
  exact load_eq_view h.inv.toWInv (by omega)

theorem SessionPost.bytes {k : Kind} {js : List Job} {s s' : Ser} {m : Nat → Mem} {ps : List Nat} (h : SessionPost C k P js s m ps s') {i : Nat}
    (hi : i < s'.sto.vec.pos) : s'.sto.bytes i =
      (jobsIdeal C.arch C.valueAlign (k.mode s'.sto.vec.ptr) P js (m s'.sto.vec.ptr, s.sto.vec.pos)).1 i := by
  have := h.buffer hi
  unfold Sto.buffer at this
  rw [if_pos (by omega)] at this
  rw [← this, Sto.bytes, if_pos hi]

end
end SerRaw
