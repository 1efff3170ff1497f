import Verif.Model.Caught
import Verif.Lemmas.Run
/-
Serializers whose panics are caught: the state after a caught panic still represents some contents (`RootStop`), so what was
written before stays readable and what is written after is readable too.
-/
namespace SerRaw

theorem sat_caught {σ α} {x : M σ α} {s : σ} {Q : Option α → σ → Prop} {R : PanicKind → σ → Prop} {Ab : Prop}
    (h : (x s).Sat (fun a s' => Q (some a) s') (fun _ s' => Q none s') Ab) : (M.caught x s).Sat Q R Ab := by
  unfold M.caught
  cases hr : x s <;> rw [hr] at h <;> exact h

theorem FLe.caught {σ α} {x y : M σ α} (h : FLe x y) : FLe (M.caught x) (M.caught y) := by
  intro s
  unfold M.caught
  rcases h s with h | h
  · rw [h]; exact .inl rfl
  · rw [h]; exact .inr rfl

section
variable {C : Cfg} {k : Kind} {P : Prog} {fl : Flags}

theorem serValuesCaught_fle (n : Nat) (rs : List Root) : FLe (serValuesCaught C k P n rs) (serValuesCaught C k P (n + 1) rs) := by
  induction rs with
  | nil => exact FLe.refl _
  | cons r rs ih => exact (serializeValue_fle (serData_fle _ _ _)).caught.bind fun _ => ih.bind fun _ => FLe.refl _

theorem sessionCaught_fle (n : Nat) (rs : List Root) : FLe (sessionCaught C k P n rs) (sessionCaught C k P (n + 1) rs) :=
  (serValuesCaught_fle n rs).bind fun _ => FLe.refl _

theorem sessionCaught_fuel {n m : Nat} (h : n ≤ m) (rs : List Root) (s : Ser) (hn : sessionCaught C k P n rs s ≠ .fuel) :
    sessionCaught C k P m rs s = sessionCaught C k P n rs s := by
  induction h with
  | refl => rfl
  | step _ ih =>
    rcases sessionCaught_fle (C := C) (k := k) (P := P) _ rs s with h | h
    · rw [ih] at h; exact absurd h hn
    · rw [← h, ih]

theorem serValuesCaught_fuel {n m : Nat} (h : n ≤ m) (rs : List Root) (s : Ser) (hn : serValuesCaught C k P n rs s ≠ .fuel) :
    serValuesCaught C k P m rs s = serValuesCaught C k P n rs s := by
  induction h with
  | refl => rfl
  | step _ ih =>
    rcases serValuesCaught_fle (C := C) (k := k) (P := P) _ rs s with h | h
    · rw [ih] at h; exact absurd h hn
    · rw [← h, ih]

/-- Job `j`, placed at `q`, is in the contents `m'` below its end; its position is `p`. -/
structure Placed1 (C : Cfg) (k : Kind) (P : Prog) (m' : Nat → Mem) (lo hi cap : Nat) (j : Job) (q p : Nat) : Prop where
  at_ : p = jobPos P (j, q)
  lo : lo ≤ q
  hi : placeEnd C.valueAlign q (j.shapes P) ≤ hi
  nz : (P.layout j.r.t).size ≠ 0 → 0 < cap
  cells : ∀ B, ∃ m0, ∀ i < placeEnd C.valueAlign q (j.shapes P),
    m' B i = (rootIdeal C.arch C.valueAlign (k.mode B) (P.layout j.r.t) j.r.im j.r.a j.sc (m0, q)).1 i

/-- The results of the calls, one by one. -/
inductive Results (C : Cfg) (k : Kind) (P : Prog) (m' : Nat → Mem) (hi cap : Nat) : Nat → List Job → List (Option Nat) → Prop
  | nil {lo} : lo ≤ hi → Results C k P m' hi cap lo [] []
  | ok {lo j js q p ps} : Placed1 C k P m' lo hi cap j q p →
      Results C k P m' hi cap (placeEnd C.valueAlign q (j.shapes P)) js ps →
      Results C k P m' hi cap lo (j :: js) (some p :: ps)
  | stop {lo lo' j js ps} : lo ≤ lo' → C.maxCapacity < placeEnd C.valueAlign lo (j.shapes P) →
      Results C k P m' hi cap lo' js ps → Results C k P m' hi cap lo (j :: js) (none :: ps)

structure CaughtPost (C : Cfg) (k : Kind) (P : Prog) (js : List Job) (s : Ser) (m : Nat → Mem) (ps : List (Option Nat)) (s' : Ser)
    (m' : Nat → Mem) : Prop where
  rel : RelAll C k s' m'
  kept : ∀ B, Kept C B s.sto.vec.pos s (m B) s' (m' B)
  res : Results C k P m' s'.sto.vec.pos s'.sto.vec.capacity s.sto.vec.pos js ps

theorem serValuesCaught_sat (hC : C.OK) (hP : P.WF C.arch) (hacc : P.Accepted C) {n : Nat} (js : List Job)
    (hj : ∀ j ∈ js, j.OK C P fl n) {s : Ser} {m : Nat → Mem} (h : RelAll C k s m) :
    (serValuesCaught C k P n (js.map (·.r)) s).Sat (fun ps s' => ∃ m', CaughtPost C k P js s m ps s' m')
      (fun _ _ => False) (¬ C.NeverFails) := by
  have hW := hC.arch.ptr_pos
  have F := hC.facts
  induction js generalizing s m with
  | nil => exact ⟨m, h, fun B => Kept.refl (h.1 B), .nil (Nat.le_refl _)⟩
  | cons j js ih =>
    have hjo := hj j (by simp)
    have hjs : ∀ x ∈ js, x.OK C P fl n := fun x hx => hj x (by simp [hx])
    simp only [List.map_cons, serValuesCaught]
    rw [sat_bind]
    refine sat_caught ((serValue_sat hC hP hacc k hjo.1 hjo.2 h).mono ?_ ?_ id)
    · intro p s1 h1
      rw [sat_bind]
      refine (ih hjs h1.rel).mono ?_ (fun _ _ hf => hf) id
      rintro ps s2 ⟨m', h2⟩
      rw [pure_run, sat_ok]
      have hp1 : s1.sto.vec.pos = placeEnd C.valueAlign s.sto.vec.pos (j.shapes P) := h1.pos
      refine ⟨m', h2.rel, fun B => (h1.kept B).trans ((h2.kept B).lower (h1.kept B).pos), .ok (q := s.sto.vec.pos) ?_ ?_⟩
      · refine ⟨h1.at_, Nat.le_refl _, ?_, fun hz => Nat.lt_of_lt_of_le (h1.nz hz) (h2.kept 0).cap, fun B => ⟨m B, fun i hi => ?_⟩⟩
        · rw [← hp1]; exact (h2.kept 0).pos
        · exact (h2.kept B).frame i (by rw [hp1]; exact hi)
      · rw [← hp1]; exact h2.res
    · intro pk s1 h1
      rw [sat_bind]
      obtain ⟨hcp, m1, hr1, hk1⟩ := h1
      refine (ih hjs hr1).mono ?_ (fun _ _ hf => hf) id
      rintro ps s2 ⟨m', h2⟩
      rw [pure_run, sat_ok]
      exact ⟨m', h2.rel, fun B => (hk1 B).trans ((h2.kept B).lower (hk1 B).pos), .stop (hk1 0).pos hcp.2.2 h2.res⟩

structure CaughtEnd (C : Cfg) (k : Kind) (P : Prog) (js : List Job) (s : Ser) (m : Nat → Mem) (ps : List (Option Nat)) (s' : Ser)
    (m' : Nat → Mem) : Prop where
  inv : s'.sto.Inv C
  view : s'.sto.view = m' s'.sto.vec.ptr
  frame : ∀ i < s.sto.vec.pos, m' s'.sto.vec.ptr i = m s'.sto.vec.ptr i
  pos : s.sto.vec.pos ≤ s'.sto.vec.pos
  cap : s.sto.vec.capacity ≤ s'.sto.vec.capacity
  stay : Stays C s.sto s'.sto
  res : Results C k P m' s'.sto.vec.pos s'.sto.vec.capacity s.sto.vec.pos js ps

theorem sessionCaught_sat (hC : C.OK) (hP : P.WF C.arch) (hacc : P.Accepted C) {n : Nat} (js : List Job)
    (hj : ∀ j ∈ js, j.OK C P fl n) {s : Ser} {m : Nat → Mem} (h : RelAll C k s m) :
    (sessionCaught C k P n (js.map (·.r)) s).Sat (fun ps s' => ∃ m', CaughtEnd C k P js s m ps s' m')
      (fun _ _ => False) (¬ C.NeverFails) := by
  unfold sessionCaught
  rw [sat_bind]
  refine (serValuesCaught_sat hC hP hacc js hj h).mono ?_ (fun _ _ h => h) id
  rintro ps s1 ⟨m', h1⟩
  obtain ⟨s2, e1, e2, e3, e4, _, _⟩ := finalize_ok hC k (h1.rel.1 s1.sto.vec.ptr) h1.rel.2
  rw [sat_bind, e1, sat_ok, pure_run, sat_ok]
  have hk := h1.kept s1.sto.vec.ptr
  refine ⟨m', e3, by rw [e4, e2], by rw [e2]; exact hk.frame, by rw [e2]; exact hk.pos, by rw [e2]; exact hk.cap, hk.stay.congr e2 (finalize_calls e1), by rw [e2]; exact h1.res⟩

theorem sessionCaught_cases (hC : C.OK) (hP : P.WF C.arch) (hacc : P.Accepted C) (k : Kind) {t : Sto} (ht : t.Inv C)
    {rs : List (Root × Val)} (hv : Inputs C.arch P fl rs) :
    ∃ N, ∀ n, N ≤ n → ∃ js : List Job, js.map (fun j => (j.r, j.v)) = rs ∧ (∀ j ∈ js, j.OK C P fl n) ∧
      (sessionCaught C k P n (rs.map (·.1)) (Ser.fromStorage t)).Sat
        (fun ps s' => ∃ m', CaughtEnd C k P js (Ser.fromStorage t) (fun _ => t.view) ps s' m')
        (fun _ _ => False) (¬ C.NeverFails) := by
  obtain ⟨N, hN⟩ := exists_jobs hC.arch.ptr_pos hP hv
  refine ⟨N, fun n hn => ?_⟩
  obtain ⟨js, h1, h2⟩ := hN n hn
  refine ⟨js, h1, h2, ?_⟩
  have e : rs.map (·.1) = js.map (·.r) := by rw [← h1, List.map_map]; rfl
  rw [e]
  exact sessionCaught_sat hC hP hacc js h2 (RelAll.init ht)

theorem sessionCaught_out (hC : C.OK) (hP : P.WF C.arch) (hacc : P.Accepted C) {t : Sto} (ht : t.Inv C)
    {rs : List (Root × Val)} (hv : Inputs C.arch P fl rs) {fuel : Nat}
    (hne : sessionCaught C k P fuel (rs.map (·.1)) (Ser.fromStorage t) ≠ .fuel) :
    ∃ n, ∃ js : List Job, js.map (fun j => (j.r, j.v)) = rs ∧ (∀ j ∈ js, j.OK C P fl n) ∧
      (sessionCaught C k P fuel (rs.map (·.1)) (Ser.fromStorage t)).Sat
        (fun ps s' => ∃ m', CaughtEnd C k P js (Ser.fromStorage t) (fun _ => t.view) ps s' m')
        (fun _ _ => False) (¬ C.NeverFails) := by
  obtain ⟨N, hN⟩ := sessionCaught_cases hC hP hacc k ht hv
  obtain ⟨js, h1, h2, h3⟩ := hN (max N fuel) (Nat.le_max_left _ _)
  rw [sessionCaught_fuel (Nat.le_max_right N fuel) _ _ hne] at h3
  exact ⟨_, js, h1, h2, h3⟩

theorem Results.mono {m' : Nat → Mem} {hi cap lo lo' : Nat} {js : List Job} {ps : List (Option Nat)} (hva : 0 < C.valueAlign) (hl : lo' ≤ lo)
    (h : Results C k P m' hi cap lo js ps) : ∀ (i : Nat) (j : Job) (p : Nat), js[i]? = some j → ps[i]? = some (some p) →
      (∀ j ∈ js, ∀ x ∈ j.shapes P, 0 < x.L.align) →
      ∃ q, Placed1 C k P m' lo' hi cap j q p := by
  induction h generalizing lo' with
  | nil => intro i j p h; simp at h
  | ok h1 _ ih =>
    intro i j p hji hpi hal
    cases i with
    | zero =>
      simp only [List.getElem?_cons_zero, Option.some.injEq] at hji hpi
      subst hji hpi
      exact ⟨_, h1.at_, Nat.le_trans hl h1.lo, h1.hi, h1.nz, h1.cells⟩
    | succ i =>
      refine ih ?_ i j p (by simpa using hji) (by simpa using hpi) (fun j hj => hal j (by simp [hj]))
      exact Nat.le_trans (Nat.le_trans hl h1.lo) (le_placeEnd hva (hal _ (List.mem_cons_self ..)) _)
  | stop h1 _ _ ih =>
    intro i j p hji hpi hal
    cases i with
    | zero => simp at hpi
    | succ i => exact ih (Nat.le_trans hl h1) i j p (by simpa using hji) (by simpa using hpi) (fun j hj => hal j (by simp [hj]))

theorem placeEnd_mono {va : Nat} (hva : 0 < va) {xs : List Shape} (hal : ∀ x ∈ xs, 0 < x.L.align) {p q : Nat} (h : p ≤ q) :
    placeEnd va p xs ≤ placeEnd va q xs := by
  induction xs generalizing p q with
  | nil => exact h
  | cons x xs ih =>
    simp only [placeEnd]
    refine ih (fun y hy => hal y (by simp [hy])) (roundUp_mono hva ?_)
    have := roundUp_mono (hal x (by simp)) h
    omega

theorem Results.le {m' : Nat → Mem} {hi cap lo : Nat} {js : List Job} {ps : List (Option Nat)} (hva : 0 < C.valueAlign)
    (h : Results C k P m' hi cap lo js ps) (hal : ∀ j ∈ js, ∀ x ∈ j.shapes P, 0 < x.L.align) : lo ≤ hi := by
  induction h with
  | nil h => exact h
  | ok h1 _ ih => exact Nat.le_trans h1.lo (Nat.le_trans (le_placeEnd hva (hal _ (List.mem_cons_self ..)) _) h1.hi)
  | stop h1 _ _ ih => exact Nat.le_trans h1 (ih fun j hj => hal j (by simp [hj]))

/-- A caught panic means that the value did not fit (not even at the end the output finally reached). -/
theorem Results.misfit {m' : Nat → Mem} {hi cap lo : Nat} {js : List Job} {ps : List (Option Nat)} (hva : 0 < C.valueAlign)
    (h : Results C k P m' hi cap lo js ps) : ∀ (i : Nat) (j : Job), js[i]? = some j → ps[i]? = some none →
      (∀ j ∈ js, ∀ x ∈ j.shapes P, 0 < x.L.align) → C.maxCapacity < placeEnd C.valueAlign hi (j.shapes P) := by
  induction h with
  | nil => intro i j h; simp at h
  | ok _ _ ih =>
    intro i j hji hpi hal
    cases i with
    | zero => simp at hpi
    | succ i => exact ih i j (by simpa using hji) (by simpa using hpi) (fun j hj => hal j (by simp [hj]))
  | stop h1 h2 h3 ih =>
    intro i j hji hpi hal
    cases i with
    | zero =>
      simp only [List.getElem?_cons_zero, Option.some.injEq] at hji
      subst hji
      exact Nat.lt_of_lt_of_le h2 (placeEnd_mono hva (hal _ (List.mem_cons_self ..))
        (Nat.le_trans h1 (h3.le hva fun j hj => hal j (by simp [hj]))))
    | succ i => exact ih i j (by simpa using hji) (by simpa using hpi) (fun j hj => hal j (by simp [hj]))

theorem Results.length {m' : Nat → Mem} {hi cap lo : Nat} {js : List Job} {ps : List (Option Nat)} (h : Results C k P m' hi cap lo js ps) :
    ps.length = js.length := by
  induction h with
  | nil => rfl
  | ok _ _ ih => simp [ih]
  | stop _ _ _ ih => simp [ih]

/-- Every reachable storage is consistent. -/
theorem Reach.inv (hC : C.OK) (hP : P.WF C.arch) (hacc : P.Accepted C) {t : Sto} (h : Reach C P t) : t.Inv C := by
  induction h with
  | new => exact Sto.new_inv C
  | withCapacity _ h =>
    have := withCapacity_sat hC ‹_›
    rw [h] at this; exact this.inv
  | op _ hl hr ih => have := step_sat hC ih hl; rw [hr] at this; exact this.inv
  | opPanic _ hl hr ih => have := step_sat hC ih hl; rw [hr] at this; exact this.inv
  | session _ hv hr ih =>
    obtain ⟨xs, rfl, hx⟩ := valid_inputs hv
    obtain ⟨n, js, _, _, hp⟩ := session_post hC hP hacc ih hx hr
    exact hp.inv
  | sessionPanic _ hv hr ih =>
    obtain ⟨xs, rfl, hx⟩ := valid_inputs hv
    obtain ⟨n, js, _, _, hp⟩ := session_out hC hP hacc ih hx (by rw [hr]; simp)
    rw [hr] at hp
    exact hp.panic.2.1
  | caught _ hv hr ih =>
    obtain ⟨xs, rfl, hx⟩ := valid_inputs hv
    obtain ⟨n, js, _, _, hp⟩ := sessionCaught_out hC hP hacc ih hx (by rw [hr]; simp)
    rw [hr] at hp
    obtain ⟨m', hp⟩ := hp
    exact hp.inv
  | @dropped _ k fuel _ _ _ _ hv hr ih =>
    obtain ⟨xs, rfl, hx⟩ := valid_inputs hv
    obtain ⟨N, hN⟩ := exists_jobs hC.arch.ptr_pos hP hx
    obtain ⟨js, h1, h2⟩ := hN _ (Nat.le_max_left N fuel)
    have e : xs.map (·.1) = js.map (·.r) := by rw [← h1, List.map_map]; rfl
    have h3 := serValuesCaught_sat (k := k) hC hP hacc js h2 (RelAll.init ih)
    rw [← e, serValuesCaught_fuel (Nat.le_max_right N fuel) _ _ (by rw [hr]; simp), hr] at h3
    obtain ⟨m', h3⟩ := h3
    exact (h3.rel.1 0).inv

end
end SerRaw
