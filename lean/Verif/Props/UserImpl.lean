import Verif.Lemmas.UserPanic
import Verif.Lemmas.History
import Verif.Props.Concrete
import Verif.Spec.Output
/-
C45: hand-written implementations of `Serialize` that follow the rules of Spec/Discipline.lean get the output of the reference
serializer of Spec/Ideal.lean (`userIdeal`, `userPositions`: Spec/User.lean).
-/
namespace SerRaw

/-- `UReach C t`: some sequence of storage operations and disciplined serializer sessions leads to `t`. Some sessions panic, some
catch the panics of their calls (panics at the capacity limit, and panics of the implementations). -/
inductive UReach (C : Cfg) : Sto → Prop
  | new : UReach C Sto.new
  | withCapacity {c t} : c < C.arch.usizeMod → Sto.withCapacity C c Sto.new = .ok () t → UReach C t
  | op {t o p t'} : UReach C t → SOp.Legal C t o → SOp.run C o t = .ok p t' → UReach C t'
  | opPanic {t o k t'} : UReach C t → SOp.Legal C t o → SOp.run C o t = .panic k t' → UReach C t'
  | session {t k rs ps s'} : UReach C t → (∀ r ∈ rs, r.OK C) → userSession C k rs (Ser.fromStorage t) = .ok ps s' → UReach C s'.sto
  | sessionPanic {t k rs pk s'} : UReach C t → (∀ r ∈ rs, r.OK C) →
      userSession C k rs (Ser.fromStorage t) = .panic pk s' → UReach C s'.sto
  | caught {t k rs ps s'} : UReach C t → (∀ r ∈ rs, r.OK C) →
      userSessionCaught C k rs (Ser.fromStorage t) = .ok ps s' → UReach C s'.sto

section
variable {C : Cfg}

structure UserPost (C : Cfg) (k : Kind) (rs : List UserRoot) (s : Ser) (m : Nat → Mem) (ps : List Nat) (s' : Ser) : Prop where
  ps : ps = userPositions C.arch C.valueAlign rs s.sto.vec.pos
  rel : RelAll C k s' fun B => (userIdeal C.arch C.valueAlign (k.mode B) rs (m B, s.sto.vec.pos)).1
  pos : s'.sto.vec.pos = (userIdeal C.arch C.valueAlign (k.mode 0) rs (m 0, s.sto.vec.pos)).2

theorem userValues_sat (hC : C.OK) (k : Kind) {rs : List UserRoot} (hr : ∀ r ∈ rs, r.OK C) {s : Ser} {m : Nat → Mem} (h : RelAll C k s m) :
    (userValues C k rs s).Sat (fun ps s' => UserPost C k rs s m ps s')
      (CapPanic C (userIdeal C.arch C.valueAlign (k.mode 0) rs (m 0, s.sto.vec.pos)).2) (¬ C.NeverFails) := by
  induction rs generalizing s m with
  | nil => exact ⟨rfl, h, rfl⟩
  | cons r rs ih =>
    have ho := hr r (by simp)
    have hrs : ∀ x ∈ rs, x.OK C := fun x hx => hr x (by simp [hx])
    simp only [userValues]
    rw [sat_bind]
    refine (rootScript_sat (im := r.im) hC k ho.1 ho.2 h).mono ?_ ?_ id
    · intro p s1 h1
      have hp1 : ∀ md m', s1.sto.vec.pos = (rootIdeal C.arch C.valueAlign md r.L r.im r.a r.sc (m', s.sto.vec.pos)).2 := by
        intro md m'; rw [rootIdeal_end]; exact h1.pos
      rw [sat_bind]
      refine (ih hrs h1.rel).mono ?_ ?_ id
      · intro ps s2 h2
        rw [pure_run, sat_ok]
        have hst : ∀ B, ((rootIdeal C.arch C.valueAlign (k.mode B) r.L r.im r.a r.sc (m B, s.sto.vec.pos)).1, s1.sto.vec.pos) =
            rootIdeal C.arch C.valueAlign (k.mode B) r.L r.im r.a r.sc (m B, s.sto.vec.pos) :=
          fun B => Prod.ext rfl (hp1 (k.mode B) (m B))
        refine ⟨?_, ⟨fun B => ?_, h2.rel.2⟩, ?_⟩
        · rw [h1.at_, h2.ps, hp1 ⟨none, false⟩ (fun _ => none), rootPos, if_neg ho.1.size_ne]; rfl
        · have := h2.rel.1 B
          simp only [hst B] at this
          exact this
        · have := h2.pos
          simp only [hst 0] at this
          exact this
      · intro k' s2 hk
        simp only [userIdeal]
        rw [show rootIdeal C.arch C.valueAlign (k.mode 0) r.L r.im r.a r.sc (m 0, s.sto.vec.pos) =
          ((rootIdeal C.arch C.valueAlign (k.mode 0) r.L r.im r.a r.sc (m 0, s.sto.vec.pos)).1, s1.sto.vec.pos) from
          Prod.ext rfl (hp1 (k.mode 0) (m 0)).symm]
        exact hk
    · intro k' s1 hk
      refine hk.panic.mono ?_
      simp only [userIdeal]
      refine Nat.le_trans ?_ (userIdeal_le hC.facts.va.pos hrs)
      rw [rootIdeal_end]

theorem userSession_sat (hC : C.OK) (k : Kind) {rs : List UserRoot} (hr : ∀ r ∈ rs, r.OK C) {t : Sto} (ht : t.Inv C) :
    (userSession C k rs (Ser.fromStorage t)).Sat
      (fun ps s' => s'.sto.Inv C ∧ ps = userPositions C.arch C.valueAlign rs t.vec.pos ∧
        s'.sto.vec.pos = (userIdeal C.arch C.valueAlign (k.mode 0) rs (t.view, t.vec.pos)).2 ∧
        s'.sto.view = (userIdeal C.arch C.valueAlign (k.mode s'.sto.vec.ptr) rs (t.view, t.vec.pos)).1)
      (CapPanic C (userIdeal C.arch C.valueAlign (k.mode 0) rs (t.view, t.vec.pos)).2) (¬ C.NeverFails) := by
  unfold userSession
  rw [sat_bind]
  refine (userValues_sat hC k hr (RelAll.init (k := k) ht)).imp ?_
  intro ps s1 h1
  obtain ⟨s2, e1, e2, e3, e4, _, _⟩ := finalize_ok hC k (h1.rel.1 s1.sto.vec.ptr) h1.rel.2
  rw [sat_bind, e1, sat_ok, pure_run, sat_ok]
  exact ⟨e3, h1.ps, by rw [e2]; exact h1.pos, by rw [e4, e2]; rfl⟩

theorem UReach.inv (hC : C.OK) {t : Sto} (h : UReach C t) : t.Inv C := by
  induction h with
  | new => exact Sto.new_inv C
  | withCapacity _ h =>
    have := withCapacity_sat hC ‹_›
    rw [h] at this; exact this.inv
  | op _ hl hr ih => have := step_sat hC ih hl; rw [hr] at this; exact this.inv
  | opPanic _ hl hr ih => have := step_sat hC ih hl; rw [hr] at this; exact this.inv
  | @session _ k _ _ _ _ hv hr ih => have := userSession_sat hC k hv ih; rw [hr] at this; exact this.1
  | @sessionPanic _ k _ _ _ _ hv hr ih => have := userSession_sat hC k hv ih; rw [hr] at this; exact this.2.1
  | @caught _ k _ _ _ _ hv hr ih => have := userSessionCaught_sat hC k hv ih; rw [hr] at this; exact this.1

/-- C45. Values with hand-written implementations, serialized one after the other into any reachable storage `t` and finalized:
either everything is done, the values are at the positions the reference serializer gives them, and the storage holds exactly
the reference output (pointers being absolute addresses in the final buffer for `CompleteSerializer`, offsets for
`PtrOffsetSerializer`, untouched otherwise); or there is a panic because the reference output exceeds the maximum capacity; or the
allocator fails. Never undefined behaviour. -/
theorem C45_user_impls (hC : C.OK) (k : Kind) {t : Sto} (ht : UReach C t) {rs : List UserRoot} (hr : ∀ r ∈ rs, r.OK C) :
    let ref := fun B => userIdeal C.arch C.valueAlign (k.mode B) rs (t.view, t.vec.pos)
    (∃ ps s', userSession C k rs (Ser.fromStorage t) = .ok ps s' ∧ ps = userPositions C.arch C.valueAlign rs t.vec.pos ∧
      s'.sto.vec.pos = (ref 0).2 ∧ ∀ i < s'.sto.vec.pos, s'.sto.bytes i = (ref s'.sto.vec.ptr).1 i) ∨
    (∃ s', userSession C k rs (Ser.fromStorage t) = .panic .capacity s' ∧ C.maxCapacity < (ref 0).2) ∨
    (userSession C k rs (Ser.fromStorage t) = .abort ∧ ¬ C.NeverFails) := by
  intro ref
  have h := userSession_sat hC k hr (ht.inv hC)
  cases e : userSession C k rs (Ser.fromStorage t) with
  | ok ps s' =>
    rw [e] at h
    obtain ⟨h1, h2, h3, h4⟩ := h
    refine Or.inl ⟨ps, s', rfl, h2, h3, fun i hi => ?_⟩
    rw [← h4, Sto.bytes, if_pos hi]
    exact load_eq_view h1.toWInv (Nat.lt_of_lt_of_le hi h1.pos_le)
  | panic pk s' => rw [e] at h; obtain ⟨rfl, _, h2⟩ := h; exact Or.inr (Or.inl ⟨s', rfl, h2⟩)
  | abort => rw [e] at h; exact Or.inr (Or.inr ⟨rfl, h⟩)
  | ub => rw [e] at h; exact h.elim
  | fuel => rw [e] at h; exact h.elim

end

/-! ### Concrete case -/

/-- A 24-byte value at 4096: a pointer at offset 8 to two 16-byte elements at 8192, the second of which owns five bytes at 300 (by
the pointer at its offset 8), and a `u16` at offset 20 that is overwritten; the pointer at offset 0 is to an empty slice. -/
def exUser : UserRoot where
  im := fun i => some (UInt8.ofNat i)
  L := ⟨24, 8⟩
  a := 4096
  sc := .pushProcess ⟨16, 8⟩ 2 8192 4104 (.push ⟨1, 1⟩ 5 300 (8192 + 24) .done) (.overwrite 4116 ⟨2, 2⟩ (fun _ => some 7) (.pushRaw ⟨4, 4⟩ 3 400 (.push ⟨8, 8⟩ 0 8 4096 .done)))

theorem exUser_ok : exUser.OK cfg64 := by
  have e8 : Pow2 8 := ⟨3, rfl⟩
  have e4 : Pow2 4 := ⟨2, rfl⟩
  have e1 : Pow2 1 := ⟨0, rfl⟩
  refine ⟨⟨by decide, e8, by decide, by decide⟩, ⟨by decide, e8, by decide, by decide⟩,
    ⟨by decide, by decide, by decide, by decide⟩, ?_, ⟨⟨by decide, e1, by decide, by decide⟩,
      ⟨by decide, by decide, by decide, by decide⟩, by simp [Script.touch], trivial⟩,
    ⟨by decide, ⟨1, rfl⟩, by decide, by decide, by decide, by decide⟩,
      ⟨by decide, e4, by decide, by decide⟩, ⟨by decide, e8, by decide, by decide⟩,
      ⟨by decide, by decide, by decide, by decide⟩, by simp [Script.touch], trivial⟩
  intro t ht
  simp only [Script.touch, List.mem_cons, List.not_mem_nil, or_false] at ht
  rcases ht with rfl | rfl
  · left; decide
  · right; decide

/-- What the reference serializer gives for it: positions of the value, of the two elements, of the five bytes and of the raw
words are 0, 24, 56 and 64, and the pointers say so. -/
example : let r := userIdeal x64 8 ⟨some 0x10000, true⟩ [exUser, exUser] (fun _ => none, 0)
    r.2 = 160 ∧ userPositions x64 8 [exUser, exUser] 0 = [0, 80] ∧ readWord x64 r.1 8 = some (0x10000 + 24) ∧ readWord x64 r.1 0 = some (0x10000 + 80) ∧
    readWord x64 r.1 48 = some (0x10000 + 56) ∧ r.1 19 = some 19 ∧ r.1 20 = some 7 ∧ r.1 21 = some 7 ∧ r.1 22 = some 22 ∧ readWord x64 r.1 88 = some (0x10000 + 104) ∧
    r.1 56 = some (UInt8.ofNat 300) ∧ r.1 61 = none ∧ r.1 64 = some (UInt8.ofNat 400) := by decide +kernel

end SerRaw
