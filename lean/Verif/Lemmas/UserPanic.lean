import Verif.Spec.User
import Verif.Lemmas.Caught
/-
A panic of a hand-written implementation leaves the storage and the recorded pointers as if the implementation had returned at
that point.
-/
namespace SerRaw

/-- `o` is `o'` with a panic of user code in place of a normal return (the position mapping may differ). -/
def Cut {α β} (o : Out Ser α) (o' : Out Ser β) : Prop :=
  match o' with
  | .ok _ s' => ∃ m, o = .panic .user { s' with map := m }
  | .panic k s' => o = .panic k s'
  | .abort => o = .abort
  | .ub => o = .ub
  | .fuel => o = .fuel

theorem Cut.bind {α β} {x : M Ser α} {f : α → M Ser β} {g : α → M Ser γ} (h : ∀ a s, Cut (f a s) (g a s)) (s : Ser) :
    Cut ((x >>= f) s) ((x >>= g) s) := by
  rw [bind_def, bind_def]
  cases x s with
  | ok a s' => exact h a s'
  | _ => rfl

/-- What follows the panic is not run; it must not change the storage or the recorded pointers. -/
theorem Cut.then {α β γ δ} {x : M Ser α} {y : M Ser β} {f : α → M Ser γ} {g : β → M Ser δ} {s : Ser} (h : Cut (x s) (y s))
    (hg : ∀ b s, ∃ d m, g b s = .ok d { s with map := m }) : Cut ((x >>= f) s) ((y >>= g) s) := by
  rw [bind_def, bind_def]
  cases hy : y s with
  | ok b s' =>
    rw [hy] at h
    obtain ⟨m, hx⟩ := h
    obtain ⟨d, m', hd⟩ := hg b s'
    simp only [hx, hd]
    exact ⟨m, rfl⟩
  | panic k s' => rw [hy] at h; simp only [Cut] at h; simp only [h]; rfl
  | abort => rw [hy] at h; simp only [Cut] at h; simp only [h]; rfl
  | ub => rw [hy] at h; simp only [Cut] at h; simp only [h]; rfl
  | fuel => rw [hy] at h; simp only [Cut] at h; simp only [h]; rfl

section
variable {C : Cfg} {k : Kind} {im : Mem}

theorem Cut.pushAndProcessSlice {sl : Slice} {ptr : Nat} {x y : M Ser Unit} (h : ∀ s, Cut (x s) (y s)) (s : Ser) :
    Cut (SerRaw.pushAndProcessSlice C k sl ptr x s) (SerRaw.pushAndProcessSlice C k sl ptr y s) := by
  cases k with
  | pureCopy => exact Cut.bind (fun p s => (h s).then fun _ s => ⟨p, s.map, rfl⟩) s
  | posTracking =>
    refine Cut.bind (fun b s => Cut.bind (fun p s => Cut.bind (fun _ s => (h s).then fun _ s => ⟨p, b, rfl⟩) s) s) s
  | ptrOffset =>
    exact Cut.bind (fun b s => Cut.bind (fun p s => Cut.bind (fun _ s => Cut.bind (fun _ s => Cut.bind (fun _ s =>
      (h s).then fun _ s => ⟨p, b, rfl⟩) s) s) s) s) s
  | complete =>
    exact Cut.bind (fun b s => Cut.bind (fun p s => Cut.bind (fun _ s => Cut.bind (fun _ s => Cut.bind (fun _ s =>
      (h s).then fun _ s => ⟨p, b, rfl⟩) s) s) s) s) s

theorem Cut.serializeValue {L : Layout} {a : Nat} {d : Nat → Cell} {x y : M Ser Unit} (h : ∀ s, Cut (x s) (y s)) (s : Ser) :
    Cut (SerRaw.serializeValue C k L a d x s) (SerRaw.serializeValue C k L a d y s) := by
  rw [serializeValue_eq, serializeValue_eq]
  exact Cut.bind (fun p s => Cut.bind (fun _ s => (h s).then fun _ s => ⟨p, s.map, rfl⟩) s) s

theorem Stop.cut (st : Stop) (s : Ser) : Cut (st.run C k im s) (st.script.run C k im s) := by
  induction st generalizing s with
  | here => exact ⟨s.map, rfl⟩
  | after sc rest ih => simp only [Stop.run, Stop.script, run_app]; exact Cut.bind (fun _ s => ih s) s
  | inside L len src ptr inner ih =>
    simp only [Stop.run, Stop.script, Script.run]
    exact (Cut.pushAndProcessSlice ih s).then fun _ s => ⟨(), s.map, rfl⟩

/-- `serialize_value` on the value whose implementation panics, against the one that returns at that point. -/
theorem UserCall.ser_eq (r : UserCall) (s : Ser) :
    match r.body with
    | .returns _ => r.ser C k s = r.quiet.ser C k s
    | .panics _ => Cut (r.ser C k s) (r.quiet.ser C k s) := by
  obtain ⟨im, L, a, b⟩ := r
  cases b with
  | returns sc => rfl
  | panics st => exact Cut.serializeValue st.cut s

/-- What a caught call leaves. -/
inductive CallPost (C : Cfg) (k : Kind) (r : UserCall) (s : Ser) (m : Nat → Mem) : Option Nat → Ser → (Nat → Mem) → Prop
  | done {p s' s1} : RootPost C k r.L r.im r.a r.body.script s m p s1 → s'.sto = s1.sto → s'.ptrs = s1.ptrs →
      CallPost C k r s m (r.body.result p) s'
        fun B => (rootIdeal C.arch C.valueAlign (k.mode B) r.L r.im r.a r.body.script (m B, s.sto.vec.pos)).1
  | full {s' m'} : C.maxCapacity < placeEnd C.valueAlign s.sto.vec.pos (rootShapes r.L r.body.script) → RelAll C k s' m' →
      (∀ B, Kept C B s.sto.vec.pos s (m B) s' (m' B)) → CallPost C k r s m none s' m'

theorem userCall_sat (hC : C.OK) (k : Kind) {r : UserCall} (hr : r.OK C) {s : Ser} {m : Nat → Mem} (h : RelAll C k s m) :
    (M.caught (r.ser C k) s).Sat (fun p s' => ∃ m', CallPost C k r s m p s' m') (fun _ _ => False) (¬ C.NeverFails) := by
  have h0 := rootScript_sat (im := r.im) hC k hr.1 hr.2 h
  have he := r.ser_eq (C := C) (k := k) s
  change (r.quiet.ser C k s).Sat _ _ _ at h0
  unfold M.caught
  obtain ⟨im, L, a, b⟩ := r
  cases b with
  | returns sc =>
    simp only at he
    rw [he]
    cases hq : (UserCall.quiet ⟨im, L, a, .returns sc⟩).ser C k s with
    | ok p s1 => rw [hq] at h0; exact ⟨_, .done h0 rfl rfl⟩
    | panic pk s1 =>
      rw [hq] at h0
      obtain ⟨hc, m', h1, h2⟩ := h0
      exact ⟨m', .full hc.2.2 h1 h2⟩
    | abort => rw [hq] at h0; exact h0
    | ub => rw [hq] at h0; exact h0
    | fuel => rw [hq] at h0; exact h0
  | panics st =>
    simp only at he
    cases hq : (UserCall.quiet ⟨im, L, a, .panics st⟩).ser C k s with
    | ok p s1 =>
      rw [hq] at h0 he
      obtain ⟨m1, he⟩ := he
      rw [he]
      exact ⟨_, .done (s' := { s1 with map := m1 }) h0 rfl rfl⟩
    | panic pk s1 =>
      rw [hq] at h0 he
      simp only [Cut] at he
      rw [he]
      obtain ⟨hc, m', h1, h2⟩ := h0
      exact ⟨m', .full hc.2.2 h1 h2⟩
    | abort => rw [hq] at h0 he; simp only [Cut] at he; rw [he]; exact h0
    | ub => rw [hq] at h0 he; exact h0.elim
    | fuel => rw [hq] at h0 he; exact h0.elim

theorem CallPost.rel {r : UserCall} {s s' : Ser} {m m' : Nat → Mem} {p : Option Nat} (h : CallPost C k r s m p s' m') : RelAll C k s' m' := by
  cases h with
  | done h1 e1 e2 => exact ⟨fun B => (h1.rel.1 B).congr e1 e2, fun hk => by rw [e2]; exact h1.rel.2 hk⟩
  | full _ h1 _ => exact h1

theorem CallPost.kept {r : UserCall} {s s' : Ser} {m m' : Nat → Mem} {p : Option Nat} (h : CallPost C k r s m p s' m') (B : Nat) :
    Kept C B s.sto.vec.pos s (m B) s' (m' B) := by
  cases h with
  | done h1 e1 e2 => exact (h1.kept B).congr rfl rfl e1 e2
  | full _ _ h1 => exact h1 B

/-- The results of the calls, one by one, in terms of the final contents. -/
inductive CallsPost (C : Cfg) (k : Kind) (m' : Nat → Mem) (hi : Nat) : Nat → List UserCall → List (Option Nat) → Prop
  | nil {lo} : lo ≤ hi → CallsPost C k m' hi lo [] []
  | done {lo r rs ps} (m0 : Nat → Mem) :
      placeEnd C.valueAlign lo (rootShapes r.L r.body.script) ≤ hi →
      (∀ B, ∀ i < placeEnd C.valueAlign lo (rootShapes r.L r.body.script),
        m' B i = (rootIdeal C.arch C.valueAlign (k.mode B) r.L r.im r.a r.body.script (m0 B, lo)).1 i) →
      CallsPost C k m' hi (placeEnd C.valueAlign lo (rootShapes r.L r.body.script)) rs ps →
      CallsPost C k m' hi lo (r :: rs) (r.body.result (rootPos r.L lo) :: ps)
  | full {lo lo' r rs ps} : lo ≤ lo' → C.maxCapacity < placeEnd C.valueAlign lo (rootShapes r.L r.body.script) →
      CallsPost C k m' hi lo' rs ps → CallsPost C k m' hi lo (r :: rs) (none :: ps)

structure CallsEnd (C : Cfg) (k : Kind) (rs : List UserCall) (s : Ser) (m : Nat → Mem) (ps : List (Option Nat)) (s' : Ser)
    (m' : Nat → Mem) : Prop where
  rel : RelAll C k s' m'
  kept : ∀ B, Kept C B s.sto.vec.pos s (m B) s' (m' B)
  res : CallsPost C k m' s'.sto.vec.pos s.sto.vec.pos rs ps
  fits : (userIdeal C.arch C.valueAlign ⟨none, false⟩ (rs.map UserCall.quiet) (fun _ => none, s.sto.vec.pos)).2 ≤ C.maxCapacity →
    s'.sto.vec.pos = (userIdeal C.arch C.valueAlign ⟨none, false⟩ (rs.map UserCall.quiet) (fun _ => none, s.sto.vec.pos)).2 ∧
    (∀ B, m' B = (userIdeal C.arch C.valueAlign (k.mode B) (rs.map UserCall.quiet) (m B, s.sto.vec.pos)).1) ∧
    ps = (rs.zip (userPositions C.arch C.valueAlign (rs.map UserCall.quiet) s.sto.vec.pos)).map fun x => x.1.body.result x.2

theorem rootIdeal_end_indep {A : Arch} {va : Nat} {md md' : Mode} {L : Layout} {im : Mem} {a : Nat} {sc : Script} {m m' : Mem} {p : Nat} :
    (rootIdeal A va md L im a sc (m, p)).2 = (rootIdeal A va md' L im a sc (m', p)).2 := by
  rw [rootIdeal_end, rootIdeal_end]

theorem userIdeal_end_indep {A : Arch} {va : Nat} {md md' : Mode} (rs : List UserRoot) {st st' : Mem × Nat} (h : st.2 = st'.2) :
    (userIdeal A va md rs st).2 = (userIdeal A va md' rs st').2 := by
  induction rs generalizing st st' with
  | nil => exact h
  | cons r rs ih => exact ih (by rw [rootIdeal_end, rootIdeal_end, h])

theorem userIdeal_le {va : Nat} (hva : 0 < va) {md : Mode} {rs : List UserRoot} (hr : ∀ r ∈ rs, r.OK C) {st : Mem × Nat} :
    st.2 ≤ (userIdeal C.arch va md rs st).2 := by
  induction rs generalizing st with
  | nil => exact Nat.le_refl _
  | cons r rs ih =>
    refine Nat.le_trans ?_ (ih fun x hx => hr x (by simp [hx]))
    rw [rootIdeal_end]
    refine le_placeEnd hva ?_ _
    intro x hx
    have h := hr r (by simp)
    unfold rootShapes at hx
    split at hx
    · cases hx
    · rcases List.mem_cons.1 hx with rfl | hx
      · exact h.1.pow2.pos
      · exact pushes_align r.sc h.2 x hx

theorem userCallsCaught_sat (hC : C.OK) (k : Kind) {rs : List UserCall} (hr : ∀ r ∈ rs, r.OK C) {s : Ser} {m : Nat → Mem}
    (h : RelAll C k s m) :
    (userCallsCaught C k rs s).Sat (fun ps s' => ∃ m', CallsEnd C k rs s m ps s' m') (fun _ _ => False) (¬ C.NeverFails) := by
  induction rs generalizing s m with
  | nil => exact ⟨m, h, fun B => Kept.refl (h.1 B), .nil (Nat.le_refl _), fun _ => ⟨rfl, fun _ => rfl, rfl⟩⟩
  | cons r rs ih =>
    have ho := hr r (by simp)
    have hrs : ∀ x ∈ rs, x.OK C := fun x hx => hr x (by simp [hx])
    have hq : ∀ x ∈ rs.map UserCall.quiet, x.OK C := by
      intro x hx; obtain ⟨y, hy, rfl⟩ := List.mem_map.1 hx; exact hrs y hy
    simp only [userCallsCaught]
    rw [sat_bind]
    refine (userCall_sat hC k ho h).mono ?_ (fun _ _ hf => hf) id
    rintro p s1 ⟨m1, h1⟩
    rw [sat_bind]
    refine (ih hrs h1.rel).mono ?_ (fun _ _ hf => hf) id
    rintro ps s2 ⟨m2, h2⟩
    rw [pure_run, sat_ok]
    refine ⟨m2, h2.rel, fun B => (h1.kept B).trans ((h2.kept B).lower (h1.kept B).pos), ?_, ?_⟩
    · have hk2 := h2.kept
      have hr2 := h2.res
      cases h1 with
      | done h3 e1 e2 =>
        have hp1 : s1.sto.vec.pos = placeEnd C.valueAlign s.sto.vec.pos (rootShapes r.L r.body.script) := by rw [e1]; exact h3.pos
        rw [h3.at_]
        rw [hp1] at hr2
        refine .done m (by rw [← hp1]; exact (hk2 0).pos) (fun B i hi => ?_) hr2
        exact (hk2 B).frame i (by rw [hp1]; exact hi)
      | full h3 _ h4 => exact .full (h4 0).pos h3 hr2
    · intro hfit
      simp only [List.map_cons, userIdeal] at hfit ⊢
      have hle := userIdeal_le (C := C) (va := C.valueAlign) (md := ⟨none, false⟩) hC.facts.va.pos hq
        (st := rootIdeal C.arch C.valueAlign ⟨none, false⟩ r.L r.im r.a r.body.script (fun _ => none, s.sto.vec.pos))
      have hend := rootIdeal_end (A := C.arch) (va := C.valueAlign) (md := ⟨none, false⟩) (L := r.L) (im := r.im) (a := r.a)
        (sc := r.body.script) (st := (fun _ => none, s.sto.vec.pos))
      cases h1 with
      | full h3 _ _ =>
        exfalso
        rw [hend] at hle
        have : placeEnd C.valueAlign s.sto.vec.pos (rootShapes r.L r.body.script) ≤ C.maxCapacity := Nat.le_trans hle hfit
        omega
      | done h3 e1 e2 =>
        have hp1 : ∀ md mm, s1.sto.vec.pos = (rootIdeal C.arch C.valueAlign md r.L r.im r.a r.body.script (mm, s.sto.vec.pos)).2 := by
          intro md mm; rw [rootIdeal_end, e1]; exact h3.pos
        have hst : ∀ md mm, ((rootIdeal C.arch C.valueAlign md r.L r.im r.a r.body.script (mm, s.sto.vec.pos)).1, s1.sto.vec.pos) =
            rootIdeal C.arch C.valueAlign md r.L r.im r.a r.body.script (mm, s.sto.vec.pos) :=
          fun md mm => Prod.ext rfl (hp1 md mm)
        have hi : (userIdeal C.arch C.valueAlign ⟨none, false⟩ (rs.map UserCall.quiet) (fun _ => none, s1.sto.vec.pos)).2 =
            (userIdeal C.arch C.valueAlign ⟨none, false⟩ (rs.map UserCall.quiet)
              (rootIdeal C.arch C.valueAlign ⟨none, false⟩ r.L r.im r.a r.body.script (fun _ => none, s.sto.vec.pos))).2 :=
          userIdeal_end_indep _ (hp1 _ _)
        obtain ⟨f1, f2, f3⟩ := h2.fits (by rw [hi]; exact hfit)
        refine ⟨by rw [f1, hi]; rfl, fun B => ?_, ?_⟩
        · have := f2 B
          simp only [hst] at this
          exact this
        · rw [f3, h3.at_, rootPos, if_neg (show ¬ r.L.size = 0 from ho.1.size_ne), hp1 ⟨none, false⟩ (fun _ => none)]
          rfl

/-- The whole session. -/
theorem userSessionCaught_sat (hC : C.OK) (k : Kind) {rs : List UserCall} (hr : ∀ r ∈ rs, r.OK C) {t : Sto} (ht : t.Inv C) :
    (userSessionCaught C k rs (Ser.fromStorage t)).Sat
      (fun ps s' => s'.sto.Inv C ∧ ∃ s1 m', CallsEnd C k rs (Ser.fromStorage t) (fun _ => t.view) ps s1 m' ∧
        s'.sto.vec = s1.sto.vec ∧ s'.sto.view = m' s'.sto.vec.ptr)
      (fun _ _ => False) (¬ C.NeverFails) := by
  unfold userSessionCaught
  rw [sat_bind]
  refine (userCallsCaught_sat hC k hr (RelAll.init (k := k) ht)).mono ?_ (fun _ _ hf => hf) id
  rintro ps s1 ⟨m', h1⟩
  obtain ⟨s2, e1, e2, e3, e4, _, _⟩ := finalize_ok hC k (h1.rel.1 s1.sto.vec.ptr) h1.rel.2
  rw [sat_bind, e1, sat_ok, pure_run, sat_ok]
  exact ⟨e3, s1, m', h1, e2, by rw [e4, e2]⟩

end
end SerRaw
