import Verif.Model.SharedPrograms
import Verif.Lemmas.Programs
import Verif.Lemmas.SharedHeap
import Verif.Lemmas.Housed
/-
Programs on a shared heap: a program's call leaves what the call that is known leaves, and so whatever is reached with programs is reached, up to the position
mapping (which the next call sets), without them.
-/
namespace SerRaw

section
variable {C : Cfg} {k : Kind} {P : Prog}

/-! ### The mapping a call starts with does not matter -/

/-- The same from states that differ only in the position mapping. -/
def likeAct : ActRel Ser Ser where
  rel x y := M.Like Ser.Like Ser.Like x y
  pure b := M.Like.pure b
  bind h h' := h.bind h'
  ub := fun _ _ _ => trivial
  fuel := fun _ _ _ => trivial
  throw _ := fun _ _ h => ⟨rfl, h⟩

theorem like_pure_own : SerRel likeAct (ownSerializer C .pureCopy) (ownSerializer C .pureCopy) where
  A := rfl
  fromRef := rfl
  fromRefOffset a off := M.Like.pure _
  serializeValue L a d {_ _} h := (like_lift' _).bind fun _ => M.Like.bind h fun _ => M.Like.pure _
  pushSlice sl p := (like_lift' _).bind fun _ => M.Like.bind (Q := Ser.Like) (M.Like.pure _) fun _ => M.Like.pure _
  pushAndProcess L a d p {_ _} h := (like_lift' _).bind fun _ => M.Like.bind h fun _ => M.Like.pure _
  pushAndProcessSlice sl p {_ _} h := (like_lift' _).bind fun _ => M.Like.bind h fun _ => M.Like.pure _
  pushRawSlice sl := like_lift' _
  overwrite x L d := M.Like.pure _
  overwriteWith {_ _} h := M.Like.pure _
  finalize := M.Like.pure _

theorem like_pure_script (im : Mem) (sc : Script) : M.Like Ser.Like Ser.Like (sc.run C .pureCopy im) (sc.run C .pureCopy im) := by
  have := runA_rel (im := im) (like_pure_own (C := C)) sc
  rwa [runA_own] at this

theorem like_pure_stop (im : Mem) (st : Stop) : M.Like Ser.Like Ser.Like (st.run C .pureCopy im) (st.run C .pureCopy im) := by
  induction st with
  | here => exact likeAct.throw _
  | after sc rest ih => exact (like_pure_script _ _).bind fun _ => ih
  | inside L len src ptr inner ih =>
    exact M.Like.bind ((like_pure_own (C := C)).pushAndProcessSlice _ 0 ih) fun _ => M.Like.pure _

/-- `serialize_value`, whatever `serialize_data` does. -/
theorem like_value {L : Layout} {a : Nat} {d : Nat → Cell} {x : M Ser Unit} (h : k = .pureCopy → M.Like Ser.Like Ser.Like x x) :
    M.Like Ser.Like Ser.Like (serializeValue C k L a d x) (serializeValue C k L a d x) := by
  rw [serializeValue_eq]
  refine (like_lift' _).bind fun pos => ?_
  have track : k ≠ .pureCopy → M.Like Ser.Like Ser.Like (setRoot k ⟨a, pos⟩ >>= fun _ => x >>= fun _ => pure pos)
      (setRoot k ⟨a, pos⟩ >>= fun _ => x >>= fun _ => pure pos) := by
    intro hk
    have e : setRoot k ⟨a, pos⟩ = Ser.setMap ⟨a, pos⟩ := by cases k <;> first | rfl | exact absurd rfl hk
    rw [e]
    refine (like_setMap fun _ _ h => h).bind (Q := Ser.At ⟨a, pos⟩ ⟨a, pos⟩) fun _ => M.Like.bind (Q := Ser.Like) ?_ fun _ => M.Like.pure _
    rintro ⟨s1, s2, s3⟩ ⟨t1, t2, t3⟩ ⟨⟨h1, h2⟩, h3, h4⟩
    simp only at h1 h2 h3 h4
    subst h1 h2 h3 h4
    exact Out.Like.refl _
  cases k with
  | pureCopy => exact M.Like.bind (Q := Ser.Like) (M.Like.pure _) fun _ => M.Like.bind (h rfl) fun _ => M.Like.pure _
  | posTracking => exact track (by decide)
  | ptrOffset => exact track (by decide)
  | complete => exact track (by decide)

theorem like_act (fuel : Nat) (a : Act) : M.Like Ser.Like Ser.Like (a.run C k P fuel) (a.run C k P fuel) := by
  cases a with
  | typed r =>
    refine like_value fun hk => ?_
    subst hk
    have := aData_rel (P := P) (im := r.im) (like_pure_own (C := C)) fuel r.t r.a
    rwa [aData_own] at this
  | user r =>
    refine like_value fun hk => ?_
    subst hk
    cases r.body with
    | returns sc => exact like_pure_script _ _
    | panics st => exact like_pure_stop _ _
  | sto o => exact like_lift' _

theorem like_caught {α : Type} {x y : M Ser α} (h : M.Like Ser.Like Ser.Like x y) : M.Like Ser.Like Ser.Like (M.caught x) (M.caught y) := by
  intro s s' hs
  have h := h s s' hs
  unfold M.caught
  cases hx : x s <;> cases hy : y s' <;> rw [hx, hy] at h <;> first | exact h.elim | skip
  · exact ⟨by rw [h.1], h.2⟩
  · exact ⟨rfl, h.2⟩
  all_goals trivial

theorem Out.Like.trans {α : Type} {x y z : Out Ser α} (h : x.Like Ser.Like y) (h' : y.Like Ser.Like z) : x.Like Ser.Like z := by
  cases x <;> cases y <;> first | exact h.elim | skip
  all_goals cases z <;> first | exact h'.elim | skip
  · exact ⟨h'.1.trans h.1, h'.2.1.trans h.2.1, h'.2.2.trans h.2.2⟩
  · exact ⟨h'.1.trans h.1, h'.2.1.trans h.2.1, h'.2.2.trans h.2.2⟩
  all_goals trivial

/-! ### The rules do not depend on the allocator -/

theorem tcalls_alloc {o : Oracle} {c : TCalls} {x : Ctx} (h : c.WF C x) : c.WF (C.withAlloc o) x := by
  induction c generalizing x with
  | done => trivial
  | pushProcess L len src d ptr inner rest ih1 ih2 =>
    obtain ⟨h1, h2, h3, h4, h5⟩ := h
    exact ⟨⟨h1.1, h1.2, h1.3, h1.4⟩, ⟨h2.1, h2.2, h2.3, h2.4⟩, h3, ih1 h4, ih2 h5⟩
  | push L len src d ptr rest ih =>
    obtain ⟨h1, h2, h3, h4⟩ := h
    exact ⟨⟨h1.1, h1.2, h1.3, h1.4⟩, ⟨h2.1, h2.2, h2.3, h2.4⟩, h3, ih h4⟩
  | pushRaw L len src d rest ih => exact ⟨⟨h.1.1, h.1.2, h.1.3, h.1.4⟩, ih h.2⟩
  | pushRawBytes len d rest ih => exact ⟨h.1, ih h.2⟩
  | overwrite a L d rest ih => exact ⟨h.1, ih h.2⟩

theorem troot_alloc {o : Oracle} {r : TRoot} (h : r.OK C) : r.OK (C.withAlloc o) :=
  ⟨⟨h.1.1, h.1.2, h.1.3, h.1.4⟩, tcalls_alloc h.2⟩

theorem withAlloc_back (C : Cfg) (o : Oracle) : (C.withAlloc o).withAlloc C.alloc = C := rfl

theorem troot_back {o : Oracle} {r : TRoot} (h : r.OK (C.withAlloc o)) : r.OK C := troot_alloc (C := C.withAlloc o) (o := C.alloc) h

theorem evSim_back {o : Oracle} {x : XEv} {e : Ev} (h : EvSim (C.withAlloc o) x e) : EvSim C x e :=
  ⟨h.res, h.lo, h.hi, h.plain, fun L a d b hx => ⟨troot_back (h.program L a d b hx).1, (h.program L a d b hx).2⟩,
    fun L a d b hx => ⟨troot_back (h.catching L a d b hx).1, (h.catching L a d b hx).2⟩⟩

theorem evSim_alloc {o : Oracle} {x : XEv} {e : Ev} (h : EvSim C x e) : EvSim (C.withAlloc o) x e :=
  ⟨h.res, h.lo, h.hi, h.plain, fun L a d b hx => ⟨troot_alloc (h.program L a d b hx).1, (h.program L a d b hx).2⟩,
    fun L a d b hx => ⟨troot_alloc (h.catching L a d b hx).1, (h.catching L a d b hx).2⟩⟩

theorem sim_alloc {o : Oracle} {xs : List XEv} {es : List Ev} (h : List.Forall₂ (EvSim C) xs es) : List.Forall₂ (EvSim (C.withAlloc o)) xs es  := by
  induction h with
  | nil => exact .nil
  | cons h _ ih => exact .cons (evSim_alloc h) ih

/-- Calls that follow the rules end, or do not fit, or the allocator fails, on a shared heap too. -/
theorem ser_cases_shared (P : Prog) (hC : C.OK) {o' : Oracle} (hC' : (C.withAlloc o').OK) {F : List Block} (hf : FreshFor F C.alloc) {s s0 t0 : Ser} (hl : s.Like s0)
    (ham : SerAmong F s0 t0) (ha : ∀ n, C.alloc (s0.sto.w.calls + n) = o' (t0.sto.w.calls + n)) {m : Nat → Mem} (h : RelAll (C.withAlloc o') k t0 m)
    {r : TRoot} (hr : r.OK C) : (∃ p s', r.ser C k s = .ok p s') ∨ (∃ s', r.ser C k s = .panic .capacity s') ∨ r.ser C k s = .abort := by
  have hv := TRoot.virt_ser (k := k) hC hr s s0 hl
  have ho := TRoot.virt_ok hC' (troot_alloc (o := o') hr) (U := C.arch.usizeMod)
  have hs := rootScript_sat (im := (r.virt C.arch.usizeMod).im) hC' k ho.1 ho.2 h
  change ((r.virt C.arch.usizeMod).ser (C.withAlloc o') k t0).Sat _ _ _ at hs
  have hi := (iso_act (C := C) (o' := o') (P := P) (k := k) hf 0 (.user (TRoot.image C.arch.usizeMod false r))).2 s0 t0 ham fun n _ => ha n
  change OutRel _ _ s0 t0 ((r.virt C.arch.usizeMod).ser C k s0) ((r.virt C.arch.usizeMod).ser (C.withAlloc o') k t0) at hi
  cases he : (r.virt C.arch.usizeMod).ser (C.withAlloc o') k t0 <;> rw [he] at hs hi
  · cases he1 : (r.virt C.arch.usizeMod).ser C k s0 <;> rw [he1] at hi hv <;> first | exact hi.elim | skip
    cases he2 : r.ser C k s <;> rw [he2] at hv <;> first | exact hv.elim | skip
    exact .inl ⟨_, _, rfl⟩
  · cases he1 : (r.virt C.arch.usizeMod).ser C k s0 <;> rw [he1] at hi hv <;> first | exact hi.elim | skip
    cases he2 : r.ser C k s <;> rw [he2] at hv <;> first | exact hv.elim | skip
    obtain ⟨rfl, _⟩ := hi
    obtain ⟨rfl, _⟩ := hv
    have := hs.panic.1
    exact .inr (.inl ⟨_, by rw [this]⟩)
  · cases he1 : (r.virt C.arch.usizeMod).ser C k s0 <;> rw [he1] at hi hv <;> first | exact hi.elim | skip
    cases he2 : r.ser C k s <;> rw [he2] at hv <;> first | exact hv.elim | skip
    exact .inr (.inr rfl)
  · exact hs.elim
  · exact hs.elim

/-- One more event, from states that are the same but for the mapping, as one that is known. -/
theorem like_step (hC : C.OK) {xs : List XEv} {es : List Ev} (hsim : List.Forall₂ (EvSim C) xs es) {a : XAct}
    {s t : Ser} (hst : s.Like t) (hh : Housed C s.sto)
    (hsafe : ∀ r : TRoot, r.OK C → (∃ p s', r.ser C k s = .ok p s') ∨ (∃ s', r.ser C k s = .panic .capacity s') ∨ r.ser C k s = .abort)
    (hl : a.Legal C k P xs s) (fuel : Nat) :
    ∃ a0 : Act, a0.Legal C P es t ∧ (M.caught (a.run C k P fuel) s).Like Ser.Like (M.caught (a0.run C k P fuel) t) ∧
      ∀ r lo hi, EvSim C ⟨a, a.callsFrom C k s, r, lo, hi⟩ ⟨a0, r, lo, hi⟩ := by
  cases a with
  | plain a =>
    refine ⟨a, ?_, like_caught (like_act fuel a) s t hst, fun r lo hi => ⟨rfl, rfl, rfl, ?_, ?_, ?_⟩⟩
    · have := legal_plain hsim hl
      cases a with
      | typed r => exact this
      | user r => exact this
      | sto o => exact ⟨by rw [hst.1]; exact this.1, this.2⟩
    · rintro a' h; cases h; rfl
    · rintro L a' d b h; cases h
    · rintro L a' d b h; cases h
  | program L a data b =>
    obtain ⟨stop, hn, hlike⟩ := program_image hC hl.2 hl.1
    refine ⟨.user (TRoot.image C.arch.usizeMod stop ⟨L, a, data, b.callsFrom C k L a data s⟩), TRoot.image_ok hC hl.1,
      Out.Like.trans hlike (like_caught (like_act (P := P) fuel (.user _)) s t hst), fun r lo hi => ⟨rfl, rfl, rfl, ?_, ?_, ?_⟩⟩
    · rintro a' h; cases h
    · rintro L' a' d b' h; cases h; exact ⟨hl.1, stop, hn, rfl⟩
    · rintro L a' d b h; cases h
  | catching L a data b =>
    obtain ⟨stop, hlike⟩ := catching_image_of hC (catching_ser_of hC (.shared hC k) hl.2.1 hl.2.2 hh (hsafe _ hl.1) hl.1) hl.1
    refine ⟨.user (TRoot.image C.arch.usizeMod stop ⟨L, a, data, b.callsFrom C k L a data s⟩), TRoot.image_ok hC hl.1,
      Out.Like.trans hlike (like_caught (like_act (P := P) fuel (.user _)) s t hst), fun r lo hi => ⟨rfl, rfl, rfl, ?_, ?_, ?_⟩⟩
    · rintro a' h; cases h
    · rintro L a' d b h; cases h
    · rintro L' a' d b' h; cases h; exact ⟨hl.1, stop, rfl⟩

end

/-! ### The program without programs -/

/-- The variable as one that is known. -/
inductive OwnerSim (C : Cfg) : POwner → Owner → Prop
  | absent : OwnerSim C .absent .absent
  | storage (v : AVec) : OwnerSim C (.storage v) (.storage v)
  | serializer (k : Kind) (v : AVec) (m m' : PosMapping) (p : Ptrs) {xs : List XEv} {es : List Ev} : List.Forall₂ (EvSim C) xs es →
      OwnerSim C (.serializer k v m p xs) (.serializer k v m' p es)

/-- The program as one that is known. -/
structure SharedP.Sim (C : Nat → Cfg) (H : SharedP) (H0 : Shared) : Prop where
  live : H0.live = H.live
  owner : ∀ i, OwnerSim (C i) (H.owners i) (H0.owners i)

section
variable {C : Nat → Cfg} {P : Prog} {H : SharedP} {H0 : Shared}

theorem OwnerSim.vec {C : Cfg} {w : POwner} {w0 : Owner} (h : OwnerSim C w w0) : w0.vec = w.vec := by cases h <;> rfl

theorem OwnerSim.owns {C : Cfg} {w : POwner} {w0 : Owner} (h : OwnerSim C w w0) {b : Block} : w0.Owns b ↔ w.Owns b := by
  unfold Owner.Owns POwner.Owns
  rw [h.vec]

theorem POwner.bare_vec (w : POwner) : w.bare.vec = w.vec := by cases w <;> rfl

theorem SharedP.Sim.sto (h : H.Sim C H0) (v : AVec) : H0.sto v = H.sto v := by unfold Shared.sto SharedP.sto; rw [h.live]

theorem SharedP.Sim.answers (h : H.Sim C H0) {i : Nat} {o : Oracle} (ha : H.bare.Answers C i o) : H0.Answers C i o := by
  refine ⟨ha.1, fun n L h0 b hb ho => ha.2 n L h0 b (by rw [h.live] at hb; exact hb) fun h1 => ho ((h.owner i).owns.2 ?_)⟩
  unfold Owner.Owns at h1
  rwa [show (H.bare.owners i).vec = (H.owners i).vec from POwner.bare_vec _] at h1

theorem SharedP.Sim.put (h : H.Sim C H0) {i : Nat} {w : POwner} {w0 : Owner} (hw : OwnerSim (C i) w w0) (l : List Block) :
    (H.put i w l).Sim C (H0.put i w0 l) := by
  refine ⟨rfl, fun j => ?_⟩
  show OwnerSim (C j) (if j = i then w else H.owners j) (if j = i then w0 else H0.owners j)
  by_cases hj : j = i
  · rw [if_pos hj, if_pos hj, hj]; exact hw
  · rw [if_neg hj, if_neg hj]; exact h.owner j

theorem SharedP.Sim.atAbsent (h : H.Sim C H0) {i : Nat} (hw : H.owners i = .absent) : H0.owners i = .absent := by
  have := h.owner i
  rw [hw] at this
  cases ho : H0.owners i <;> rw [ho] at this <;> cases this
  all_goals rfl

theorem SharedP.Sim.atStorage (h : H.Sim C H0) {i : Nat} {v : AVec} (hw : H.owners i = .storage v) : H0.owners i = .storage v := by
  have := h.owner i
  rw [hw] at this
  cases ho : H0.owners i <;> rw [ho] at this <;> cases this
  all_goals rfl

theorem SharedP.Sim.atSerializer (h : H.Sim C H0) {i : Nat} {k : Kind} {v : AVec} {m : PosMapping} {p : Ptrs} {xs : List XEv}
    (hw : H.owners i = .serializer k v m p xs) : ∃ m' es, H0.owners i = .serializer k v m' p es ∧ List.Forall₂ (EvSim (C i)) xs es := by
  have := h.owner i
  rw [hw] at this
  cases ho : H0.owners i <;> rw [ho] at this <;> cases this
  rename_i hs
  exact ⟨_, _, rfl, hs⟩

/-- Before a call with the answers `o` on variable `i`: what implementations that catch panics need. -/
theorem SharedP.Sim.ready (hC : ∀ i, (C i).OK) (hP : ∀ i, P.WF (C i).arch) (hacc : ∀ i, P.Accepted (C i)) (hR : SharedReach C P H0) (h : H.Sim C H0) {i : Nat}
    {k : Kind} {v : AVec} {m m' : PosMapping} {p : Ptrs} {es : List Ev} (hw0 : H0.owners i = .serializer k v m' p es) {o : Oracle} (ho : H0.Answers C i o) :
    Housed ((C i).withAlloc o) (H.sto v) ∧ ∀ r : TRoot, r.OK ((C i).withAlloc o) → (∃ q s', r.ser ((C i).withAlloc o) k ⟨H.sto v, m, p⟩ = .ok q s') ∨
      (∃ s', r.ser ((C i).withAlloc o) k ⟨H.sto v, m, p⟩ = .panic .capacity s') ∨ r.ser ((C i).withAlloc o) k ⟨H.sto v, m, p⟩ = .abort := by
  obtain ⟨F, o', t, hok, hal, hF, ham, ha⟩ := (hR.good hC hP hacc).ready hC hP hacc (i := i) ho.1
  obtain ⟨hI, _⟩ := hal.inv hok (hP i) (hacc i)
  have hf : FreshFor F o := fun n L h0 f hf => ho.2 n L h0 f ((hF f).1 hf).1 ((hF f).1 hf).2
  rw [hw0] at hal ham
  obtain ⟨hv', t0, hg0, hs⟩ := hal
  obtain ⟨m1, hinv⟩ := hs.inv hok (hP i) (hacc i) (hg0.inv hok (hP i) (hacc i))
  change Among F (H0.sto v) t at ham
  refine ⟨⟨F, t, by rw [← h.sto]; exact ham, ⟨⟨hI.pos_le, hI.cap_le, hI.cap_dvd, hI.mem⟩, hI.pos_dvd⟩, hf⟩, fun r hr => ?_⟩
  exact ser_cases_shared (C := (C i).withAlloc o) (o' := o') P (withAlloc_ok (hC i) ho.1) hok hf (s := ⟨H.sto v, m, p⟩) (s0 := ⟨H0.sto v, m', p⟩)
    ⟨h.sto v, rfl⟩ (t0 := ⟨t, m', p⟩) ⟨ham, rfl, rfl⟩ ha hinv.rel hr

/-- Every step is matched. -/
theorem SharedP.Sim.step (hC : ∀ i, (C i).OK) (hP : ∀ i, P.WF (C i).arch) (hacc : ∀ i, P.Accepted (C i)) (hR : SharedReach C P H0) (h : H.Sim C H0) {x : Option Nat} {H' : SharedP} (hs : SharedP.Step C P x H H') :
    ∃ H0', Shared.Step C P x H0 H0' ∧ H'.Sim C H0' := by
  cases hs with
  | @other _ live h1 h2 h3 =>
    refine ⟨_, .other (live := live) h1 h2 fun i b hb ho => h3 i b (by rw [← h.live]; exact hb) ((h.owner i).owns.1 ho), ⟨rfl, h.owner⟩⟩
  | new hw =>
    refine ⟨_, .new (h.atAbsent hw), ?_⟩
    rw [h.live]
    exact h.put (.storage _) _
  | withCapacity hw hc ho hr =>
    rw [← h.sto] at hr
    exact ⟨_, .withCapacity (h.atAbsent hw) hc (h.answers ho) hr, h.put (.storage _) _⟩
  | op hw hl ho hr =>
    rw [← h.sto] at hr hl
    exact ⟨_, .op (h.atStorage hw) hl (h.answers ho) hr, h.put (.storage _) _⟩
  | drop hw hr =>
    rw [← h.sto] at hr
    exact ⟨_, .drop (h.atStorage hw) hr, h.put .absent _⟩
  | «from» hw =>
    rename_i k
    refine ⟨_, .from (k := k) (h.atStorage hw), ?_⟩
    rw [h.live]
    exact h.put (.serializer _ _ _ _ _ .nil) _
  | @act _ i k v m p xs a fuel o r s hw hl ho hr =>
    obtain ⟨m', es, hw0, hsim⟩ := h.atSerializer hw
    have hst : Ser.Like ⟨H.sto v, m, p⟩ ⟨H0.sto v, m', p⟩ := ⟨h.sto v, rfl⟩
    obtain ⟨hh, hsafe⟩ := h.ready hC hP hacc hR (m := m) hw0 (h.answers ho)
    obtain ⟨a0, hl0, hlike, hev⟩ := like_step (withAlloc_ok (hC i) ho.1) (sim_alloc hsim) hst hh hsafe hl fuel
    rw [hr] at hlike
    cases hr0 : M.caught (a0.run ((C i).withAlloc o) k P fuel) ⟨H0.sto v, m', p⟩ with
    | ok r0 s0 =>
      rw [hr0] at hlike
      obtain ⟨rfl, h1, h2⟩ := hlike
      refine ⟨_, .act hw0 (act_legal_alloc (C := (C i).withAlloc o) (o := (C i).alloc) hl0 rfl) (h.answers ho) hr0, ?_⟩
      rw [h1, h2]
      exact h.put (.serializer _ _ _ _ _ (sim_append hsim (.cons (evSim_back (hev _ _ _)) .nil))) _
    | _ => rw [hr0] at hlike; exact hlike.elim
  | @finalize _ i k v m p xs s hw hr =>
    obtain ⟨m', es, hw0, hsim⟩ := h.atSerializer hw
    have hlike := like_finalize (C := C i) (k := k) ⟨H.sto v, m, p⟩ ⟨H0.sto v, m', p⟩ ⟨h.sto v, rfl⟩
    rw [hr] at hlike
    cases hr0 : SerRaw.finalize (C i) k ⟨H0.sto v, m', p⟩ with
    | ok r0 s0 =>
      rw [hr0] at hlike
      refine ⟨_, .finalize hw0 hr0, ?_⟩
      rw [hlike.2.1]
      exact h.put (.storage _) _
    | _ => rw [hr0] at hlike; exact hlike.elim
  | leave hw =>
    obtain ⟨m', es, hw0, hsim⟩ := h.atSerializer hw
    refine ⟨_, .leave hw0, ?_⟩
    rw [h.live]
    exact h.put (.storage _) _

/-- What is reached with programs is reached without. -/
theorem SharedPReach.sim (hC : ∀ i, (C i).OK) (hP : ∀ i, P.WF (C i).arch) (hacc : ∀ i, P.Accepted (C i)) (h : SharedPReach C P H) : ∃ H0, SharedReach C P H0 ∧ H.Sim C H0 := by
  induction h with
  | start h1 h2 => exact ⟨_, .start h1 h2, ⟨rfl, fun _ => .absent⟩⟩
  | step _ hs ih =>
    obtain ⟨H0, hr, h⟩ := ih
    obtain ⟨H0', hs', h'⟩ := h.step hC hP hacc hr hs
    exact ⟨H0', hr.step hs', h'⟩

end
end SerRaw
