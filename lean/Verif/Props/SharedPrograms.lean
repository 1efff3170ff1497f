import Verif.Lemmas.SharedPrograms
import Verif.Props.SharedHeap
import Verif.Props.Catching
/-
C88: storages and serializers on one heap (C78), with any programs as `serialize_data` (C83), those that catch panics too (C85).
-/
namespace SerRaw

section
variable {C : Nat → Cfg} {P : Prog} (hC : ∀ i, (C i).OK) (hP : ∀ i, P.WF (C i).arch) (hacc : ∀ i, P.Accepted (C i))

/-- The variable of C78, with its record. -/
def Owner.recorded : Owner → POwner
  | .absent => .absent
  | .storage v => .storage v
  | .serializer k v m p es => .serializer k v m p (es.map fun e => ⟨.plain e.act, .done, e.res, e.lo, e.hi⟩)

/-- The program of C78, with its records. -/
def Shared.recorded (H : Shared) : SharedP := ⟨fun i => (H.owners i).recorded, H.live⟩

theorem recorded_vec (w : Owner) : w.recorded.vec = w.vec := by cases w <;> rfl

theorem recorded_bare (w : Owner) : w.recorded.bare.vec = w.vec := by cases w <;> rfl

theorem recorded_answers {H : Shared} {i : Nat} {o : Oracle} (h : H.Answers C i o) : H.recorded.bare.Answers C i o := by
  refine ⟨h.1, fun n L h0 b hb ho => h.2 n L h0 b hb fun h1 => ho ?_⟩
  unfold Owner.Owns at h1 ⊢
  rwa [show (H.recorded.bare.owners i).vec = (H.owners i).vec from recorded_bare _]

theorem recorded_put (H : Shared) (i : Nat) (w : Owner) (l : List Block) : (H.put i w l).recorded = H.recorded.put i w.recorded l := by
  unfold Shared.put SharedP.put Shared.recorded
  congr 1
  funext j
  show Owner.recorded (if j = i then w else H.owners j) = if j = i then w.recorded else (H.owners j).recorded
  split <;> rfl

theorem recorded_at {H : Shared} {i : Nat} {w : Owner} (h : H.owners i = w) : H.recorded.owners i = w.recorded := congrArg Owner.recorded h

/-- C88: the programs of C78 are among these. -/
theorem C88_includes {H : Shared} (h : SharedReach C P H) : SharedPReach C P H.recorded := by
  induction h with
  | start h1 h2 => exact .start h1 h2
  | @step x H H' _ hs ih =>
    refine ih.step (i := x) ?_
    cases hs with
    | other h1 h2 h3 =>
      refine .other h1 h2 fun i b hb ho => h3 i b hb ?_
      unfold Owner.Owns
      unfold POwner.Owns at ho
      rwa [show (H.recorded.owners i).vec = (H.owners i).vec from recorded_vec _] at ho
    | new hw => rw [recorded_put]; exact .new (recorded_at hw)
    | withCapacity hw hc ho hr => rw [recorded_put]; exact .withCapacity (recorded_at hw) hc (recorded_answers ho) hr
    | op hw hl ho hr => rw [recorded_put]; exact .op (recorded_at hw) hl (recorded_answers ho) hr
    | drop hw hr => rw [recorded_put]; exact .drop (recorded_at hw) hr
    | «from» hw => rw [recorded_put]; exact .from (recorded_at hw)
    | @act _ i k v m p es a fuel o r s hw hl ho hr =>
      rw [recorded_put]
      have := SharedP.Step.act (C := C) (P := P) (H := H.recorded) (a := .plain a) (fuel := fuel) (o := o) (r := r) (s := s) (recorded_at hw)
        (by
          cases a with
          | typed r => exact hl
          | user r => exact act_legal_alloc (P := P) (es := []) (s := ⟨H.sto v, m, p⟩) (a := .user r) hl rfl
          | sto a =>
            refine ⟨sop_legal_alloc hl.1 rfl, hl.2.1, fun q L len d ho x hx hv => ?_⟩
            obtain ⟨e, he, rfl⟩ := List.mem_map.1 hx
            exact hl.2.2 q L len d ho e he hv) (recorded_answers ho) hr
      rw [Owner.recorded, List.map_append]
      exact this
    | finalize hw hr => rw [recorded_put]; exact .finalize (recorded_at hw) hr
    | leave hw => rw [recorded_put]; exact .leave (recorded_at hw)

include hC hP hacc

/-- After `finalize`: what would be there alone. -/
theorem shared_final {H : Shared} (h : SharedReach C P H) {i : Nat} {k : Kind} {v : AVec} {m : PosMapping} {p : Ptrs} {es : List Ev}
    (hv : H.owners i = .serializer k v m p es) {s : Ser} (hf : finalize (C i) k ⟨H.sto v, m, p⟩ = .ok () s) :
    ∃ o t0 s0 s1, ((C i).withAlloc o).OK ∧ GReach ((C i).withAlloc o) P t0 ∧ Sess ((C i).withAlloc o) k P t0 es s0 ∧
      finalize ((C i).withAlloc o) k s0 = .ok () s1 ∧ s.sto.vec = s1.sto.vec ∧ s.sto.buffer = s1.sto.buffer ∧ s.sto.bytes = s1.sto.bytes := by
  obtain ⟨F, o', t, hok, hal, hF, ham, ha⟩ := (h.good hC hP hacc).ready hC hP hacc (i := i) (hC i).alloc
  rw [hv] at hal ham
  obtain ⟨hv', t0, hg0, hs⟩ := hal
  obtain ⟨t', e1, he⟩ := (C59_safe hok (hP i) (hacc i) hg0 hs).2
  obtain ⟨t2, h1, h2, _⟩ := iso_ok (iso_finalize (k := k) (C := C i) (o' := o')) (show SerAmong F ⟨H.sto v, m, p⟩ ⟨t, m, p⟩ from ⟨ham, rfl, rfl⟩) hf
    (fun n _ => ha n) (by rw [e1]; simp)
  have hinv := (GReach.finished hg0 hs h1).inv hok (hP i) (hacc i)
  refine ⟨o', t0, _, t2, hok, hg0, hs, h1, h2.sto.vec, buffer_congr h2.sto.vec hinv.pos_le fun n hn => ?_⟩
  refine h2.sto.load (n := t2.sto.vec.capacity) ?_ hn
  rcases hinv.mem with ⟨h3, _, _⟩ | ⟨_, _, _, _, d, e⟩
  · omega
  · rw [e]; simp [Block.contains]

/-- C88. Live blocks never overlap; a storage that owns memory owns exactly one of them, of its capacity and alignment; and no two storages own
the same, whatever programs ran. -/
theorem C88_owned {H : SharedP} (h : SharedPReach C P H) :
    H.live.Pairwise Block.Apart ∧
    (∀ i, 0 < (H.owners i).vec.capacity → ∃ b ∈ H.live, (H.owners i).Owns b ∧ b.size = (H.owners i).vec.capacity ∧ b.align = (C i).storageAlign ∧
      ∀ c ∈ H.live, (H.owners i).Owns c → c = b) ∧
    ∀ i j b, (H.owners i).Owns b → (H.owners j).Owns b → i = j := by
  obtain ⟨H0, hr, hsim⟩ := h.sim hC hP hacc
  obtain ⟨h1, h2, h3⟩ := C78_owned hC hP hacc hr
  rw [hsim.live] at h1 h2
  refine ⟨h1, fun i h0 => ?_, fun i j b hi hj => h3 i j b ((hsim.owner i).owns.2 hi) ((hsim.owner j).owns.2 hj)⟩
  rw [← (hsim.owner i).vec] at h0 ⊢
  obtain ⟨b, hb, ho, h4, h5, h6⟩ := h2 i h0
  exact ⟨b, hb, (hsim.owner i).owns.1 ho, h4, h5, fun c hc hoc => h6 c hc ((hsim.owner i).owns.2 hoc)⟩

/-- C88. A call on one storage or serializer, of whatever program, leaves everything else alone: the other variables, and all blocks that are not its own
(their contents too); and what it allocates and keeps is its own: nothing leaks. -/
theorem C88_untouched {H H' : SharedP} (h : SharedPReach C P H) {i : Nat} (hs : SharedP.Step C P (some i) H H') :
    (∀ j, j ≠ i → H'.owners j = H.owners j) ∧
    ∀ b, (b ∈ H'.live ∧ ¬ (H'.owners i).Owns b) ↔ (b ∈ H.live ∧ ¬ (H.owners i).Owns b) := by
  obtain ⟨H0, hr, hsim⟩ := h.sim hC hP hacc
  obtain ⟨H0', hs', hsim'⟩ := hsim.step hC hP hacc hr hs
  have h2 := (C78_untouched hC hP hacc hr hs').2
  refine ⟨fun j hj => ?_, fun b => ?_⟩
  · cases hs <;> exact if_neg hj
  · rw [← hsim.live, ← hsim'.live, ← (hsim.owner i).owns, ← (hsim'.owner i).owns]
    exact h2 b

/-- C88. So a storage and its contents stay as they are, however long only others (or the rest of the program) are active. -/
theorem C88_keeps {H H' : SharedP} (h : SharedPReach C P H) {i : Nat} {x : Option Nat} (hx : x ≠ some i) (hs : SharedP.Step C P x H H') :
    H'.owners i = H.owners i ∧ (H'.sto (H'.owners i).vec).buffer = (H.sto (H.owners i).vec).buffer ∧
      (H'.sto (H'.owners i).vec).bytes = (H.sto (H.owners i).vec).bytes := by
  obtain ⟨H0, hr, hsim⟩ := h.sim hC hP hacc
  obtain ⟨H0', hs', hsim'⟩ := hsim.step hC hP hacc hr hs
  have h2 := (C78_keeps hC hP hacc hr hx hs').2
  refine ⟨?_, ?_⟩
  · cases x with
    | none => cases hs; rfl
    | some j => exact (C88_untouched hC hP hacc h hs).1 i fun he => hx (by rw [he])
  · rw [hsim'.sto, hsim.sto, (hsim'.owner i).vec, (hsim.owner i).vec] at h2
    exact h2

/-- C88. Nothing that is permitted is undefined behaviour on a shared heap: not `with_capacity`, not a storage method, not a call on a serializer, of
whatever program; a call on a serializer lets no panic through `catch_unwind`, and ends. `drop` and `finalize` always return. -/
theorem C88_safe {H : SharedP} (h : SharedPReach C P H) (i : Nat) :
    (H.owners i = .absent → ∀ c, ∀ o, H.bare.Answers C i o → Sto.withCapacity ((C i).withAlloc o) c (H.sto Sto.newVec) ≠ .ub) ∧
    (∀ v a o, H.owners i = .storage v → SOp.Legal (C i) (H.sto v) a → H.bare.Answers C i o → a.run ((C i).withAlloc o) (H.sto v) ≠ .ub) ∧
    (∀ k v m p xs a o, H.owners i = .serializer k v m p xs →
      XAct.Legal ((C i).withAlloc o) k P xs ⟨H.sto v, m, p⟩ a → H.bare.Answers C i o →
      (∀ fuel, M.caught (a.run ((C i).withAlloc o) k P fuel) ⟨H.sto v, m, p⟩ ≠ .ub ∧
        ∀ pk s1, M.caught (a.run ((C i).withAlloc o) k P fuel) ⟨H.sto v, m, p⟩ ≠ .panic pk s1) ∧
      ∃ N, ∀ fuel, N ≤ fuel → M.caught (a.run ((C i).withAlloc o) k P fuel) ⟨H.sto v, m, p⟩ ≠ .fuel) ∧
    (∀ v, H.owners i = .storage v → ∃ s, Sto.drop (C i) (H.sto v) = .ok () s) ∧
    ∀ k v m p xs, H.owners i = .serializer k v m p xs → ∃ s, finalize (C i) k ⟨H.sto v, m, p⟩ = .ok () s ∧ s.sto.vec = v := by
  obtain ⟨H0, hr, hsim⟩ := h.sim hC hP hacc
  have hsafe := C78_safe hC hP hacc hr i
  refine ⟨fun hw c o ho => ?_, fun v a o hw hl ho => ?_, fun k v m p xs a o hw hl ho => ?_, fun v hw => ?_, fun k v m p xs hw => ?_⟩
  · rw [← hsim.sto]
    exact hsafe.1 (hsim.atAbsent hw) c o (hsim.answers ho)
  · rw [← hsim.sto] at hl ⊢
    obtain ⟨o', t, _, _, _, hsame⟩ := C78_op hC hP hacc hr (hsim.atStorage hw) hl (hsim.answers ho)
    intro he
    rw [he] at hsame
    exact hsame
  · obtain ⟨m', es, hw0, hev⟩ := hsim.atSerializer hw
    have hst : Ser.Like ⟨H.sto v, m, p⟩ ⟨H0.sto v, m', p⟩ := ⟨hsim.sto v, rfl⟩
    have hok := withAlloc_ok (hC i) ho.1
    obtain ⟨hh, hsf⟩ := hsim.ready hC hP hacc hr (m := m) hw0 (hsim.answers ho)
    have key : ∃ (a0 : Act), a0.Legal ((C i).withAlloc o) P es ⟨H0.sto v, m', p⟩ ∧ ∀ fuel,
        (M.caught (a.run ((C i).withAlloc o) k P fuel) ⟨H.sto v, m, p⟩).Like Ser.Like
          (M.caught (a0.run ((C i).withAlloc o) k P fuel) ⟨H0.sto v, m', p⟩) := by
      cases a with
      | plain a =>
        obtain ⟨a0, h1, _, h3⟩ := like_step hok (sim_alloc hev) hst hh hsf hl 0
        obtain rfl := (h3 none 0 0).plain _ rfl
        exact ⟨_, h1, fun fuel => like_caught (like_act fuel _) _ _ hst⟩
      | program L x d b =>
        obtain ⟨a0, h1, h2, h3⟩ := like_step hok (sim_alloc hev) hst hh hsf hl 0
        obtain ⟨_, stop, _, h4⟩ := (h3 none 0 0).program _ _ _ _ rfl
        cases h4
        exact ⟨_, h1, fun fuel => h2⟩
      | catching L x d b =>
        obtain ⟨a0, h1, h2, h3⟩ := like_step hok (sim_alloc hev) hst hh hsf hl 0
        obtain ⟨_, stop, h4⟩ := (h3 none 0 0).catching _ _ _ _ rfl
        cases h4
        exact ⟨_, h1, fun fuel => h2⟩
    obtain ⟨a0, hl0, hlike⟩ := key
    have hl1 : a0.Legal (C i) P es ⟨H0.sto v, m', p⟩ := act_legal_alloc (C := (C i).withAlloc o) (o := (C i).alloc) hl0 rfl
    obtain ⟨F, o', t, hok', hal, hF, ham, ha⟩ := (hr.good hC hP hacc).ready hC hP hacc (i := i) ho.1
    rw [hw0] at hal ham
    obtain ⟨hv', t0, hg, hs⟩ := hal
    have hs59 := (C59_safe hok' (hP i) (hacc i) hg hs).1 a0 (act_legal_alloc hl1 hv')
    have hsame : ∀ fuel, SameOutcome (fun s : Ser => (s.sto.vec, s.map, s.ptrs)) (M.caught (a0.run ((C i).withAlloc o) k P fuel) ⟨H0.sto v, m', p⟩)
        (M.caught (a0.run ((C i).withAlloc o') k P fuel) ⟨t, m', p⟩) := fun fuel =>
      iso_same (iso_caught (iso_act (C := (C i).withAlloc o) (o' := o') (F := F)
        (fun n L h0 f hf => (hsim.answers ho).2 n L h0 f ((hF f).1 hf).1 ((hF f).1 hf).2) fuel a0))
        (show SerAmong F ⟨H0.sto v, m', p⟩ ⟨t, m', p⟩ from ⟨ham, rfl, rfl⟩) ha ((hs59.1 fuel).1) fun _ _ h => by simp only [h.sto.vec, h.map, h.ptrs]
    refine ⟨fun fuel => ⟨fun he => ?_, fun pk s1 he => ?_⟩, ?_⟩
    · have h1 := hlike fuel
      have h2 := hsame fuel
      rw [he] at h1
      cases hx : M.caught (a0.run ((C i).withAlloc o) k P fuel) ⟨H0.sto v, m', p⟩ <;> rw [hx] at h1 h2 <;> first | exact h1.elim | exact h2.elim
    · have h1 := hlike fuel
      rw [he] at h1
      unfold M.caught at h1
      revert h1
      cases a0.run ((C i).withAlloc o) k P fuel ⟨H0.sto v, m', p⟩ <;> exact fun h1 => h1.elim
    · obtain ⟨N, hN⟩ := hs59.2
      refine ⟨N, fun fuel hle he => ?_⟩
      have h1 := hlike fuel
      have h2 := hsame fuel
      have h3 := hN fuel hle
      rw [he] at h1
      cases hx : M.caught (a0.run ((C i).withAlloc o) k P fuel) ⟨H0.sto v, m', p⟩ <;> rw [hx] at h1 h2 <;> try exact h1.elim
      cases hy : M.caught (a0.run ((C i).withAlloc o') k P fuel) ⟨t, m', p⟩ <;> rw [hy] at h2 h3 <;> first | exact h2.elim | exact h3 rfl
  · rw [← hsim.sto]
    exact hsafe.2.1 v (hsim.atStorage hw)
  · obtain ⟨m', es, hw0, _⟩ := hsim.atSerializer hw
    obtain ⟨s0, h1, h2⟩ := hsafe.2.2 _ _ _ _ _ hw0
    have hlike := (like_finalize (C := C i) (k := k) ⟨H.sto v, m, p⟩ ⟨H0.sto v, m', p⟩ ⟨hsim.sto v, rfl⟩)
    rw [h1] at hlike
    cases hf : finalize (C i) k ⟨H.sto v, m, p⟩ with
    | ok u s =>
      rw [hf] at hlike
      refine ⟨s, rfl, ?_⟩
      rw [← hlike.2.1]
      exact h2
    | _ => rw [hf] at hlike; exact hlike.elim

/-- After `finalize`, with programs: what would be there alone, without. -/
theorem sharedP_final {H : SharedP} (h : SharedPReach C P H) {i : Nat} {k : Kind} {v : AVec} {m : PosMapping} {p : Ptrs} {xs : List XEv}
    (hv : H.owners i = .serializer k v m p xs) {s : Ser} (hf : finalize (C i) k ⟨H.sto v, m, p⟩ = .ok () s) :
    ∃ es o t0 s0 s1, List.Forall₂ (EvSim (C i)) xs es ∧ ((C i).withAlloc o).OK ∧ GReach ((C i).withAlloc o) P t0 ∧
      Sess ((C i).withAlloc o) k P t0 es s0 ∧ finalize ((C i).withAlloc o) k s0 = .ok () s1 ∧ s.sto.vec = s1.sto.vec ∧
      s.sto.buffer = s1.sto.buffer ∧ s.sto.bytes = s1.sto.bytes := by
  obtain ⟨H0, hr, hsim⟩ := h.sim hC hP hacc
  obtain ⟨m', es, hw0, hev⟩ := hsim.atSerializer hv
  have hlike := like_finalize (C := C i) (k := k) ⟨H.sto v, m, p⟩ ⟨H0.sto v, m', p⟩ ⟨hsim.sto v, rfl⟩
  rw [hf] at hlike
  cases hr0 : finalize (C i) k ⟨H0.sto v, m', p⟩ with
  | ok u s2 =>
    rw [hr0] at hlike
    obtain ⟨o, t0, s0, s1, h1⟩ := shared_final hC hP hacc hr hw0 hr0
    rw [hlike.2.1] at h1
    exact ⟨es, o, t0, s0, s1, hev, h1⟩
  | _ => rw [hr0] at hlike; exact hlike.elim

/-- C88, C83 on a shared heap: after `finalize`, each value whose `serialize_data` is a program and whose call returned a position is at that position, and
the bytes between where the output ended before and after the call are the reference output of the calls the program made, whatever other
storages and serializers did in between. -/
theorem C88_program {H : SharedP} (h : SharedPReach C P H) {i : Nat} {k : Kind} {v : AVec} {m : PosMapping} {p : Ptrs} {xs : List XEv}
    (hv : H.owners i = .serializer k v m p xs) {s : Ser} (hf : finalize (C i) k ⟨H.sto v, m, p⟩ = .ok () s) :
    ∀ x ∈ xs, ∀ L a data b q, x.act = .program L a data b → x.res = some q →
      q = roundUp x.lo L.align ∧
      ∃ m0, let out := TRoot.ideal (C i).arch (C i).valueAlign (k.mode s.sto.vec.ptr) ⟨L, a, data, x.calls⟩ (m0, x.lo)
        out.2 = x.hi ∧ ∀ j, x.lo ≤ j → j < x.hi → s.sto.bytes j = out.1 j := by
  obtain ⟨es, o, t0, s0, s1, hsim, hok', hg, hs, hf', hvec, _, hb⟩ := sharedP_final hC hP hacc h hv hf
  intro x hx L a data b q ha hq
  obtain ⟨e, he, h1⟩ := sim_mem hsim hx
  obtain ⟨hok, stop, _, h2⟩ := h1.program _ _ _ _ ha
  obtain ⟨h3, h4, m0, h5, h6⟩ := C59_user hok' (hP i) (hacc i) hg hs hf' e he _ q h2 (h1.res.trans hq)
  rw [h1.lo] at h4 h5 h6
  rw [h1.hi] at h5 h6
  rw [TRoot.image_script] at h5 h6
  rw [hb, hvec]
  have e1 := TRoot.virt_ideal (hC i) hok (A := (C i).arch) (va := (C i).valueAlign) (md := k.mode s1.sto.vec.ptr) (st := (m0, x.lo))
  rw [rootPos, if_neg (show ¬ (TRoot.image (C i).arch.usizeMod stop ⟨L, a, data, x.calls⟩).L.size = 0 from hok.1.size_ne)] at h4
  refine ⟨h4, m0, ?_⟩
  rw [← e1]
  exact ⟨h5, h6⟩

/-- C88, C85 on a shared heap: the same for values whose implementation catches panics. -/
theorem C88_catching {H : SharedP} (h : SharedPReach C P H) {i : Nat} {k : Kind} {v : AVec} {m : PosMapping} {p : Ptrs} {xs : List XEv}
    (hv : H.owners i = .serializer k v m p xs) {s : Ser} (hf : finalize (C i) k ⟨H.sto v, m, p⟩ = .ok () s) :
    ∀ x ∈ xs, ∀ L a data b q, x.act = .catching L a data b → x.res = some q →
      q = roundUp x.lo L.align ∧
      ∃ m0, let out := TRoot.ideal (C i).arch (C i).valueAlign (k.mode s.sto.vec.ptr) ⟨L, a, data, x.calls⟩ (m0, x.lo)
        out.2 = x.hi ∧ ∀ j, x.lo ≤ j → j < x.hi → s.sto.bytes j = out.1 j := by
  obtain ⟨es, o, t0, s0, s1, hsim, hok', hg, hs, hf', hvec, _, hb⟩ := sharedP_final hC hP hacc h hv hf
  intro x hx L a data b q ha hq
  obtain ⟨e, he, h1⟩ := sim_mem hsim hx
  obtain ⟨hok, stop, h2⟩ := h1.catching _ _ _ _ ha
  obtain ⟨h3, h4, m0, h5, h6⟩ := C59_user hok' (hP i) (hacc i) hg hs hf' e he _ q h2 (h1.res.trans hq)
  rw [h1.lo] at h4 h5 h6
  rw [h1.hi] at h5 h6
  rw [TRoot.image_script] at h5 h6
  rw [hb, hvec]
  have e1 := TRoot.virt_ideal (hC i) hok (A := (C i).arch) (va := (C i).valueAlign) (md := k.mode s1.sto.vec.ptr) (st := (m0, x.lo))
  rw [rootPos, if_neg (show ¬ (TRoot.image (C i).arch.usizeMod stop ⟨L, a, data, x.calls⟩).L.size = 0 from hok.1.size_ne)] at h4
  refine ⟨h4, m0, ?_⟩
  rw [← e1]
  exact ⟨h5, h6⟩

/-- C88, the calls of an implementation that catches panics, on a shared heap: at any moment, `serialize_value` does what it does on the same value with the
plain calls recorded — same result, same state of the serializer and of the whole heap, same panic —, or a panic was not caught, and then the storage, the
heap and the recorded pointers are as if the implementation had returned instead. -/
theorem C88_calls {H : SharedP} (h : SharedPReach C P H) {i : Nat} {k : Kind} {v : AVec} {m : PosMapping} {p : Ptrs} {xs : List XEv}
    (hv : H.owners i = .serializer k v m p xs) {o : Oracle} (ho : H.bare.Answers C i o) {L : Layout} {a : Nat} {data : Nat → Cell} {b : Catching}
    (hl : (XAct.catching L a data b).Legal ((C i).withAlloc o) k P xs ⟨H.sto v, m, p⟩) :
    let D := (C i).withAlloc o
    let s : Ser := ⟨H.sto v, m, p⟩
    let r : TRoot := ⟨L, a, data, b.callsFrom D k L a data s⟩
    serializeValue D k L a data (do let _ ← b.run D k; pure ()) s = r.ser D k s ∨
    ∃ p s1 pk s2, r.ser D k s = .ok p s1 ∧ serializeValue D k L a data (do let _ ← b.run D k; pure ()) s = .panic pk s2 ∧
      s2.sto = s1.sto ∧ s2.ptrs = s1.ptrs := by
  obtain ⟨H0, hr, hsim⟩ := h.sim hC hP hacc
  obtain ⟨m', es, hw0, hev⟩ := hsim.atSerializer hv
  have hok := withAlloc_ok (hC i) ho.1
  obtain ⟨hh, hsf⟩ := hsim.ready hC hP hacc hr (m := m) hw0 (hsim.answers ho)
  rcases catching_ser_of hok (.shared hok k) hl.2.1 hl.2.2 hh (hsf _ hl.1) hl.1 with h1 | ⟨p, s1, pk, mp, h1, h2⟩
  · exact .inl h1
  · exact .inr ⟨p, s1, pk, _, h1, h2, rfl, rfl⟩

/-- C88, what such an implementation does is decided by positions on a shared heap too (C85): if it looks at nothing but positions, the calls it amounts to,
where the output ends and what the call returns are those of the plan, computed from where the output ended before and the maximum capacity alone, whatever
the others do with the heap. -/
theorem C88_plan {H : SharedP} (h : SharedPReach C P H) : ∀ {i : Nat} {k : Kind} {v : AVec} {m : PosMapping} {p : Ptrs} {xs : List XEv},
    H.owners i = .serializer k v m p xs → ∀ x ∈ xs, ∀ L a data b, x.act = .catching L a data b → b.Blind →
      b.planValue (C i).valueAlign (C i).maxCapacity L x.lo = (x.calls, x.hi, x.res) := by
  induction h with
  | start => intro i k v m p xs hv; cases hv
  | @step i0 H H' h hs ih =>
    have hput : ∀ {i0 : Nat} {w : POwner} {l : List Block} {i : Nat} {k : Kind} {v : AVec} {m : PosMapping} {p : Ptrs} {xs : List XEv},
        (H.put i0 w l).owners i = .serializer k v m p xs → (i = i0 ∧ w = .serializer k v m p xs) ∨ H.owners i = .serializer k v m p xs := by
      intro i0 w l i k v m p xs hv
      change (if i = i0 then w else H.owners i) = _ at hv
      split at hv
      · exact .inl ⟨‹_›, hv⟩
      · exact .inr hv
    obtain ⟨H0, hr, hsim⟩ := h.sim hC hP hacc
    intro i k v m p xs hv
    cases hs with
    | other => exact ih hv
    | new => rcases hput hv with ⟨_, h1⟩ | h1; cases h1; exact ih h1
    | withCapacity => rcases hput hv with ⟨_, h1⟩ | h1; cases h1; exact ih h1
    | op => rcases hput hv with ⟨_, h1⟩ | h1; cases h1; exact ih h1
    | drop => rcases hput hv with ⟨_, h1⟩ | h1; cases h1; exact ih h1
    | «from» => rcases hput hv with ⟨_, h1⟩ | h1; cases h1; exact nofun; exact ih h1
    | finalize => rcases hput hv with ⟨_, h1⟩ | h1; cases h1; exact ih h1
    | leave => rcases hput hv with ⟨_, h1⟩ | h1; cases h1; exact ih h1
    | act hw hl ho he =>
      rcases hput hv with ⟨h0, h1⟩ | h1
      · subst h0
        cases h1
        intro x hx L a' data b ha hB
        rcases List.mem_append.1 hx with hx | hx
        · exact ih hw x hx L a' data b ha hB
        · obtain rfl := List.mem_singleton.1 hx
          change _ = _ at ha
          subst ha
          obtain ⟨m', es, hw0, hev⟩ := hsim.atSerializer hw
          have hok := withAlloc_ok (hC _) ho.1
          obtain ⟨hh, hsf⟩ := hsim.ready hC hP hacc hr (m := _) hw0 (hsim.answers ho)
          exact catching_plan_of hok (.shared hok _) hl.2.1 hl.2.2 hB hh (hsf _ hl.1) hl.1 he
      · exact ih h1

/-- C88, C59 on a shared heap with programs: after `finalize`, each value with the crate's own or derived implementations whose call returned a position is
in the final buffer of a `CompleteSerializer` at that position. -/
theorem C88_complete {H : SharedP} (h : SharedPReach C P H) {i : Nat} {v : AVec} {m : PosMapping} {p : Ptrs} {xs : List XEv}
    (hv : H.owners i = .serializer .complete v m p xs) {s : Ser} (hf : finalize (C i) .complete ⟨H.sto v, m, p⟩ = .ok () s) :
    ∀ x ∈ xs, ∀ r q, x.act = .plain (.typed r) → x.res = some q → ∀ fl y, Denotes (C i).arch P fl r.im r.t r.a y →
      ((P.layout r.t).size ≠ 0 ∨ (P.layout r.t).align ∣ s.sto.vec.ptr) →
      Denotes (C i).arch P ⟨fl.canon, true⟩ s.sto.buffer r.t (s.sto.vec.ptr + q) y ∧
      ((P.layout r.t).size ≠ 0 → x.lo ≤ q ∧ q + (P.layout r.t).size ≤ x.hi) := by
  obtain ⟨es, o, t0, s0, s1, hsim, hok', hg, hs, hf', hvec, hbuf, _⟩ := sharedP_final hC hP hacc h hv hf
  intro x hx r q ha hq fl y hy hz
  obtain ⟨e, he, h1⟩ := sim_mem hsim hx
  rw [hvec] at hz
  have := C59_complete hok' (hP i) (hacc i) hg hs hf' e he r q (h1.plain _ ha) (h1.res.trans hq) fl y hy hz
  rw [h1.lo, h1.hi] at this
  rw [hbuf, hvec]
  exact this

end

/-! ### A program between two storages -/

/-- A serializer's next call. -/
def SharedP.doAct (H : SharedP) (i a0 : Nat) (a : XAct) : Option SharedP :=
  match H.owners i with
  | .serializer k v m p xs =>
    match M.caught (a.run (cfg64.withAlloc (answerAt a0)) k exP 6) ⟨H.sto v, m, p⟩ with
    | .ok r s => some (H.put i (.serializer k s.sto.vec s.map s.ptrs
        (xs ++ [⟨a, a.callsFrom (cfg64.withAlloc (answerAt a0)) k ⟨H.sto v, m, p⟩, r, v.pos, s.sto.vec.pos⟩])) s.sto.w.live)
    | _ => none
  | _ => none

/-- A storage's next call. -/
def SharedP.doOp (H : SharedP) (i a0 : Nat) (a : SOp) : Option SharedP :=
  match H.owners i with
  | .storage v =>
    match M.caught (a.run (cfg64.withAlloc (answerAt a0))) (H.sto v) with
    | .ok _ s => some (H.put i (.storage s.vec) s.w.live)
    | _ => none
  | _ => none

theorem SharedP.doAct_step {H H' : SharedP} {i a0 : Nat} {a : XAct} (h : H.doAct i a0 a = some H') (hf : H.bare.freeAt i a0 = true)
    (hl : ∀ k v m p xs, H.owners i = .serializer k v m p xs → a.Legal (cfg64.withAlloc (answerAt a0)) k exP xs ⟨H.sto v, m, p⟩) :
    SharedP.Step (fun _ => cfg64) exP (some i) H H' := by
  unfold SharedP.doAct at h
  split at h
  · rename_i k v m p xs hw
    split at h
    · rename_i r s hr
      cases h
      exact .act hw (hl _ _ _ _ _ hw) (Shared.freeAt_ok hf) hr
    · cases h
  · cases h

theorem SharedP.doOp_step {H H' : SharedP} {i a0 : Nat} {a : SOp} (h : H.doOp i a0 a = some H') (hf : H.bare.freeAt i a0 = true)
    (hl : ∀ v, a.Legal cfg64 (H.sto v)) : SharedP.Step (fun _ => cfg64) exP (some i) H H' := by
  unfold SharedP.doOp at h
  split at h
  · rename_i v hw
    split at h
    · rename_i r s hr
      cases h
      exact .op hw (hl v) (Shared.freeAt_ok hf) hr
    · cases h
  · cases h

/-- The rules do not depend on the allocator. -/
theorem program_alloc {C : Cfg} {o : Oracle} {b : Program} {c : Ctx} (h : b.Follows C c) : b.Follows (C.withAlloc o) c := by
  induction b generalizing c with
  | done out => trivial
  | panic => trivial
  | look f ih => exact fun s => ih s (h s)
  | lookPos f ih => exact fun p => ih p (h p)
  | lookFor x f ih => exact fun p => ih p (h p)
  | pushProcess L len src d ptr inner rest ih1 ih2 =>
    obtain ⟨h1, h2, h3, h4, h5⟩ := h
    exact ⟨⟨h1.1, h1.2, h1.3, h1.4⟩, ⟨h2.1, h2.2, h2.3, h2.4⟩, h3, ih1 h4, fun p r => ih2 p r (h5 p r)⟩
  | push L len src d ptr rest ih =>
    obtain ⟨h1, h2, h3, h4⟩ := h
    exact ⟨⟨h1.1, h1.2, h1.3, h1.4⟩, ⟨h2.1, h2.2, h2.3, h2.4⟩, h3, fun p => ih p (h4 p)⟩
  | pushRaw L len src d rest ih => exact ⟨⟨h.1.1, h.1.2, h.1.3, h.1.4⟩, fun p => ih p (h.2 p)⟩
  | pushRawBytes len d rest ih => exact ⟨h.1, fun p => ih p (h.2 p)⟩
  | overwrite a L d rest ih => exact ⟨h.1, ih h.2⟩

theorem exLoud_legal_any (o : Oracle) (k : Kind) (xs : List XEv) (s : Ser) :
    (XAct.program ⟨16, 8⟩ 4096 exLoudData exLoud).Legal (cfg64.withAlloc o) k exP xs s := by
  refine ⟨C83_follows (cfg64.withAlloc o) k ⟨(exLoud_legal k xs s).1.1.1, (exLoud_legal k xs s).1.1.2, (exLoud_legal k xs s).1.1.3, (exLoud_legal k xs s).1.1.4⟩
    (program_alloc exLoud_follows) s, (exLoud_legal k xs s).2.imp id fun h => ?_⟩
  rcases h with h | _
  · exact .inl h
  · exact .inl fun p => ⟨fun q => by
      show Adaptive.NoPosFor (Program.marked (if q < 100 then _ else _))
      split
      · exact fun _ => trivial
      · trivial, fun p r => by
      cases r with
      | nil => trivial
      | cons x out => exact fun _ => trivial⟩

theorem catching_alloc {C : Cfg} {o : Oracle} {b : Catching} {c : Ctx} (h : b.Follows C c) : b.Follows (C.withAlloc o) c := by
  induction b generalizing c with
  | done out => trivial
  | panic => trivial
  | look f ih => exact fun s => ih s (h s)
  | lookPos f ih => exact fun p => ih p (h p)
  | lookFor x f ih => exact fun p => ih p (h p)
  | pushProcess L len src d ptr inner rest ih1 ih2 =>
    obtain ⟨h1, h2, h3, h4, h5⟩ := h
    exact ⟨⟨h1.1, h1.2, h1.3, h1.4⟩, ⟨h2.1, h2.2, h2.3, h2.4⟩, h3, ih1 h4, fun p r => ih2 p r (h5 p r)⟩
  | push L len src d ptr rest ih =>
    obtain ⟨h1, h2, h3, h4⟩ := h
    exact ⟨⟨h1.1, h1.2, h1.3, h1.4⟩, ⟨h2.1, h2.2, h2.3, h2.4⟩, h3, fun p => ih p (h4 p)⟩
  | pushRaw L len src d rest ih => exact ⟨⟨h.1.1, h.1.2, h.1.3, h.1.4⟩, fun p => ih p (h.2 p)⟩
  | pushRawBytes len d rest ih => exact ⟨h.1, fun p => ih p (h.2 p)⟩
  | overwrite a L d rest ih => exact ⟨h.1, ih h.2⟩
  | attempt restore inner rest ih1 ih2 => exact ⟨ih1 h.1, fun r => ih2 r (h.2.1 r), h.2.2⟩

/-- A value with three words. Its implementation pushes a pair of words from a temporary, to which the second word of the value points, panics inside the closure
if there are more than two blocks on the heap, catches that, and then pushes the position where the output ends, to which the first word points. -/
def exRetry : Catching :=
  .attempt true
    (.pushProcess ⟨16, 8⟩ 1 32 (wordsCells x64 [7, 9]) 4104 (.look fun s => if 2 < s.sto.w.live.length then .panic else .done []) fun _ _ => .done [])
    fun r => if r.isSome then .done [] else .lookPos fun q => .push ⟨8, 8⟩ 1 32 (wordsCells x64 [q]) 4096 fun _ => .done []

theorem exRetry_restores (k : Kind) : exRetry.Restores k := by
  refine ⟨.inl rfl, ⟨fun s => ?_, fun _ _ => trivial⟩, fun r => ?_⟩
  · show Catching.Restores k (if _ then _ else _)
    split <;> trivial
  · show Catching.Restores k (if _ then _ else _)
    split
    · trivial
    · exact fun _ _ => trivial

theorem exRetry_follows : exRetry.Follows cfg64 ⟨4096, 24, 8⟩ := by
  have e8 : Pow2 8 := ⟨3, rfl⟩
  have p1 : PushOK cfg64 ⟨16, 8⟩ 1 32 := ⟨by decide, e8, by decide, by decide⟩
  have p3 : PushOK cfg64 ⟨8, 8⟩ 1 32 := ⟨by decide, e8, by decide, by decide⟩
  have t1 : TouchOK cfg64 ⟨4096, 24, 8⟩ 4104 cfg64.arch.ptrBytes := ⟨by decide, by decide, by decide, by decide⟩
  have t3 : TouchOK cfg64 ⟨4096, 24, 8⟩ 4096 cfg64.arch.ptrBytes := ⟨by decide, by decide, by decide, by decide⟩
  have hd : DisjRange 4104 cfg64.arch.ptrBytes 4096 cfg64.arch.ptrBytes := .inr (by decide)
  refine ⟨⟨p1, t1, nofun, fun s => ?_, fun _ _ => trivial⟩, fun r => ?_, ?_⟩
  · show Catching.Follows cfg64 (if _ then _ else _) _
    split <;> trivial
  · show Catching.Follows cfg64 (if _ then _ else _) _
    split
    · trivial
    · exact fun q => ⟨p3, t3, fun _ _ h => h.elim, fun _ => trivial⟩
  · rintro x r t hx ht
    change Catching.MayTouch _ (if _ then _ else _) _ at ht
    have hx : x = 4104 := hx.elim id fun ⟨_, _, h⟩ => h.elim
    subst hx
    split at ht
    · exact ht.elim
    · obtain ⟨_, rfl | ⟨_, h⟩⟩ := ht
      · exact hd
      · exact h.elim

theorem exRetry_legal (o : Oracle) (k : Kind) (xs : List XEv) (s : Ser) :
    (XAct.catching ⟨24, 8⟩ 4096 exLoudData exRetry).Legal (cfg64.withAlloc o) k exP xs s := by
  have h : PushOK cfg64 ⟨24, 8⟩ 1 4096 := ⟨by decide, ⟨3, rfl⟩, by decide, by decide⟩
  exact C85_follows (cfg64.withAlloc o) k exP ⟨h.1, h.2, h.3, h.4⟩ (catching_alloc exRetry_follows) (exRetry_restores k) xs s

/-- A value with a program to the serializer, bytes to the storage, the node to the serializer, and the program again, which now panics. -/
def exSharedP0 : SharedP := exShared0.recorded
def exSharedP1 : Option SharedP := exSharedP0.doAct 0 (2 ^ 20) (.program ⟨16, 8⟩ 4096 exLoudData exLoud)
def exSharedP2 : Option SharedP := exSharedP1.bind fun H => H.doOp 1 (2 ^ 21) (.pushSlice ⟨8, 8⟩ 2 fun _ => some 7)
def exSharedP3 : Option SharedP := exSharedP2.bind fun H => H.doAct 0 (2 ^ 22) (.plain (.typed ⟨exIm, 1, 4096⟩))
def exSharedP4 : Option SharedP := exSharedP3.bind fun H => H.doOp 1 (2 ^ 20) (.pushSlice ⟨8, 8⟩ 4 fun _ => some 8)
def exSharedP5 : Option SharedP := exSharedP4.bind fun H => H.doAct 0 (2 ^ 23) (.program ⟨16, 8⟩ 4096 exLoudData exLoud)

def exSharedP6 : Option SharedP := exSharedP5.bind fun H => H.doAct 0 (2 ^ 24) (.catching ⟨24, 8⟩ 4096 exLoudData exRetry)

/-- What was done with a serializer, and its kind. -/
def SharedP.log (H : SharedP) (i : Nat) : Option (Kind × List XEv) :=
  match H.owners i with
  | .serializer k _ _ _ xs => some (k, xs)
  | _ => none

/-- The program runs: the serializer's buffer is where it moved while the node was processed, the storage's is where the serializer's was; the second program
panicked. -/
theorem exSharedP_reach : ∃ H, exSharedP6 = some H ∧ SharedPReach (fun _ => cfg64) exP H ∧
    (H.log 0).map (fun l => (l.1, l.2.map fun x => (x.res, x.lo, x.hi))) =
      some (.complete, [(some 0, 0, 56), (some 56, 56, 192), (none, 192, 232), (some 232, 232, 280)]) ∧
    (H.owners 1).vec = ⟨2 ^ 20, 64, 48⟩ ∧ H.live.map (·.addr) = [2 ^ 24, 2 ^ 20, 100] := by
  have e8 : Layout.OK ⟨8, 8⟩ := ⟨⟨3, rfl⟩, by decide⟩
  have hv : Valid cfg64.arch exP ⟨exIm, 1, 4096⟩ := ⟨⟨true, false⟩, exNode, exInputs (⟨exIm, 1, 4096⟩, exNode) (by simp [exRoots])⟩
  have f0 : exSharedP0.bare.freeAt 0 (2 ^ 20) = true := by decide +kernel
  have f1 : exSharedP1.all (·.bare.freeAt 1 (2 ^ 21)) = true := by decide +kernel
  have f2 : exSharedP2.all (·.bare.freeAt 0 (2 ^ 22)) = true := by decide +kernel
  have f3 : exSharedP3.all (·.bare.freeAt 1 (2 ^ 20)) = true := by decide +kernel
  have f4 : exSharedP4.all (·.bare.freeAt 0 (2 ^ 23)) = true := by decide +kernel
  have f5' : exSharedP5.all (·.bare.freeAt 0 (2 ^ 24)) = true := by decide +kernel
  have f5 : exSharedP6.map (fun H => ((H.owners 1).vec, H.live.map (·.addr))) = some (⟨2 ^ 20, 64, 48⟩, [2 ^ 24, 2 ^ 20, 100]) := by decide +kernel
  have f6 : exSharedP6.map (fun H => (H.log 0).map fun l => (l.1, l.2.map fun x => (x.res, x.lo, x.hi))) =
      some (some (.complete, [(some 0, 0, 56), (some 56, 56, 192), (none, 192, 232), (some 232, 232, 280)])) := by decide +kernel
  obtain ⟨H6, e6, h5⟩ := Option.map_eq_some_iff.1 f5
  obtain ⟨H5, e5, d6⟩ := Option.bind_eq_some_iff.1 e6
  obtain ⟨H4, e4, d5⟩ := Option.bind_eq_some_iff.1 e5
  obtain ⟨H3, e3, d4⟩ := Option.bind_eq_some_iff.1 e4
  obtain ⟨H2, e2, d3⟩ := Option.bind_eq_some_iff.1 e3
  obtain ⟨H1, e1, d2⟩ := Option.bind_eq_some_iff.1 e2
  rw [e1] at f1
  rw [e2] at f2
  rw [e3] at f3
  rw [e4] at f4
  rw [e5] at f5'
  have r0 : SharedPReach (fun _ => cfg64) exP exSharedP0 := C88_includes exShared0_reach
  have r1 := r0.step (SharedP.doAct_step e1 f0 fun _ _ _ _ _ _ => exLoud_legal_any _ _ _ _)
  have r2 := r1.step (SharedP.doOp_step d2 f1 fun v => ⟨e8, fun _ => rfl, by decide, .inr (.inl (by decide))⟩)
  have r3 := r2.step (SharedP.doAct_step d3 f2 fun _ _ _ _ _ _ => hv)
  have r4 := r3.step (SharedP.doOp_step d4 f3 fun v => ⟨e8, fun _ => rfl, by decide, .inr (.inl (by decide))⟩)
  have r5 := r4.step (SharedP.doAct_step d5 f4 fun _ _ _ _ _ _ => exLoud_legal_any _ _ _ _)
  have r6 := r5.step (SharedP.doAct_step d6 f5' fun _ _ _ _ _ _ => exRetry_legal _ _ _ _)
  simp only [Prod.mk.injEq] at h5
  rw [e6, Option.map_some, Option.some.injEq] at f6
  exact ⟨H6, e6, r6, f6, h5.1, h5.2⟩

theorem SharedP.doAct_log {H H' : SharedP} {i a0 : Nat} {a : XAct} (h : H.doAct i a0 a = some H') :
    ∃ k xs x, H.log i = some (k, xs) ∧ H'.log i = some (k, xs ++ [x]) ∧ x.act = a := by
  unfold SharedP.doAct at h
  split at h
  · rename_i k v m p xs hw
    split at h
    · rename_i r s hr
      cases h
      refine ⟨k, xs, ⟨a, a.callsFrom (cfg64.withAlloc (answerAt a0)) k ⟨H.sto v, m, p⟩, r, v.pos, s.sto.vec.pos⟩, by unfold SharedP.log; rw [hw], ?_, rfl⟩
      unfold SharedP.log SharedP.put
      simp
    · cases h
  · cases h

theorem SharedP.doOp_log {H H' : SharedP} {i j a0 : Nat} {a : SOp} (h : H.doOp i a0 a = some H') (hj : j ≠ i) : H'.log j = H.log j := by
  unfold SharedP.doOp at h
  split at h
  · split at h
    · cases h
      unfold SharedP.log SharedP.put
      simp [hj]
    · cases h
  · cases h

/-- C88 applies: after `finalize`, the node is read from the final buffer, at its start + 56, the bytes before it are the output of the calls the first program
made, the last 48 those of the calls the implementation that catches a panic made, and the storage in between has 48 bytes of its own. -/
example : ∃ (H : SharedP) (s : Ser) (x y : XEv), SharedPReach (fun _ => cfg64) exP H ∧ (H.owners 1).vec = ⟨2 ^ 20, 64, 48⟩ ∧
    SharedP.Step (fun _ => cfg64) exP (some 0) H (H.put 0 (.storage s.sto.vec) s.sto.w.live) ∧
    Denotes x64 exP ⟨true, true⟩ s.sto.buffer 1 (s.sto.vec.ptr + 56) exNode ∧
    x.act = .program ⟨16, 8⟩ 4096 exLoudData exLoud ∧ x.res = some 0 ∧
    (∃ m0, ∀ j < 56, s.sto.bytes j = (TRoot.ideal x64 cfg64.valueAlign (Kind.complete.mode s.sto.vec.ptr) ⟨⟨16, 8⟩, 4096, exLoudData, x.calls⟩ (m0, 0)).1 j) ∧
    y.act = .catching ⟨24, 8⟩ 4096 exLoudData exRetry ∧ y.res = some 232 ∧
    ∃ m0, ∀ j, 232 ≤ j → j < 280 → s.sto.bytes j = (TRoot.ideal x64 cfg64.valueAlign (Kind.complete.mode s.sto.vec.ptr) ⟨⟨24, 8⟩, 4096, exLoudData, y.calls⟩ (m0, 232)).1 j := by
  have hC : ∀ i : Nat, ((fun _ => cfg64) i : Cfg).OK := fun _ => cfg64_ok
  obtain ⟨H, e6, hr, hlog, h1, _⟩ := exSharedP_reach
  obtain ⟨H5, e5, d6⟩ := Option.bind_eq_some_iff.1 e6
  obtain ⟨H4, e4, d5⟩ := Option.bind_eq_some_iff.1 e5
  obtain ⟨H3, e3, d4⟩ := Option.bind_eq_some_iff.1 e4
  obtain ⟨H2, e2, d3⟩ := Option.bind_eq_some_iff.1 e3
  obtain ⟨H1, e1, d2⟩ := Option.bind_eq_some_iff.1 e2
  obtain ⟨k1, xs1, x1, l1, l1', a1⟩ := SharedP.doAct_log e1
  obtain ⟨k2, xs2, x2, l2, l2', a2⟩ := SharedP.doAct_log d3
  obtain ⟨k3, xs3, x3, l3, l3', a3⟩ := SharedP.doAct_log d5
  obtain ⟨k4, xs4, x4, l4, l4', a4⟩ := SharedP.doAct_log d6
  have lk : exSharedP0.log 0 = some (.complete, []) := rfl
  rw [l1] at lk
  cases lk
  rw [SharedP.doOp_log d2 (by decide), l1'] at l2
  cases l2
  rw [SharedP.doOp_log d4 (by decide), l2'] at l3
  cases l3
  rw [l3'] at l4
  cases l4
  rw [l4'] at hlog
  simp only [Option.map_some, Option.some.injEq, List.map_cons, List.map_nil, List.cons_append, List.nil_append, List.cons.injEq, Prod.mk.injEq,
    true_and] at hlog
  obtain ⟨v, m, p, hw⟩ : ∃ v m p, H.owners 0 = .serializer .complete v m p ([] ++ [x1] ++ [x2] ++ [x3] ++ [x4]) := by
    unfold SharedP.log at l4'
    split at l4'
    · rename_i k v m p xs hw
      cases l4'
      exact ⟨v, m, p, hw⟩
    · cases l4'
  obtain ⟨s, hf, hv⟩ := (C88_safe hC (fun _ => exP_wf) (fun _ => exP_accepted) hr 0).2.2.2.2 _ _ _ _ _ hw
  refine ⟨H, s, x1, x4, hr, h1, .finalize hw hf, ?_, a1, hlog.1.1, ?_, a4, hlog.2.2.2.1.1, ?_⟩
  · have hd : Denotes cfg64.arch exP ⟨true, false⟩ exIm 1 4096 exNode := exInputs (⟨exIm, 1, 4096⟩, exNode) (by simp [exRoots])
    exact (C88_complete hC (fun _ => exP_wf) (fun _ => exP_accepted) hr hw hf x2 (by simp) ⟨exIm, 1, 4096⟩ 56 a2 hlog.2.1.1 ⟨true, false⟩ exNode hd (.inl (by decide))).1
  · obtain ⟨_, m0, h2, h3⟩ := C88_program hC (fun _ => exP_wf) (fun _ => exP_accepted) hr hw hf x1 (by simp) _ _ _ _ 0 a1 hlog.1.1
    rw [hlog.1.2.1, hlog.1.2.2] at h3
    exact ⟨m0, fun j hj => h3 j (Nat.zero_le _) hj⟩
  · obtain ⟨_, m0, h2, h3⟩ := C88_catching hC (fun _ => exP_wf) (fun _ => exP_accepted) hr hw hf x4 (by simp) _ _ _ _ 232 a4 hlog.2.2.2.1.1
    rw [hlog.2.2.2.1.2.1, hlog.2.2.2.1.2.2] at h3
    exact ⟨m0, h3⟩

/-- One that looks at nothing but positions: it pushes the pair, panics, catches that and pushes the position where the output ends. -/
def exGiveUp : Catching :=
  .attempt true (.pushProcess ⟨16, 8⟩ 1 32 (wordsCells x64 [7, 9]) 4104 .panic fun _ _ => .done [])
    fun r => if r.isSome then .done [] else .lookPos fun q => .push ⟨8, 8⟩ 1 32 (wordsCells x64 [q]) 4096 fun _ => .done []

theorem exGiveUp_blind : exGiveUp.Blind := by
  refine ⟨⟨trivial, fun _ _ => trivial⟩, fun r => ?_⟩
  show Catching.Blind (if _ then _ else _)
  split
  · trivial
  · exact fun _ _ => trivial

theorem exGiveUp_restores (k : Kind) : exGiveUp.Restores k := by
  refine ⟨.inl rfl, ⟨trivial, fun _ _ => trivial⟩, fun r => ?_⟩
  show Catching.Restores k (if _ then _ else _)
  split
  · trivial
  · exact fun _ _ => trivial

theorem exGiveUp_follows : exGiveUp.Follows cfg64 ⟨4096, 24, 8⟩ := by
  have e8 : Pow2 8 := ⟨3, rfl⟩
  have p1 : PushOK cfg64 ⟨16, 8⟩ 1 32 := ⟨by decide, e8, by decide, by decide⟩
  have p3 : PushOK cfg64 ⟨8, 8⟩ 1 32 := ⟨by decide, e8, by decide, by decide⟩
  have t1 : TouchOK cfg64 ⟨4096, 24, 8⟩ 4104 cfg64.arch.ptrBytes := ⟨by decide, by decide, by decide, by decide⟩
  have t3 : TouchOK cfg64 ⟨4096, 24, 8⟩ 4096 cfg64.arch.ptrBytes := ⟨by decide, by decide, by decide, by decide⟩
  have hd : DisjRange 4104 cfg64.arch.ptrBytes 4096 cfg64.arch.ptrBytes := .inr (by decide)
  refine ⟨⟨p1, t1, nofun, trivial, fun _ _ => trivial⟩, fun r => ?_, ?_⟩
  · show Catching.Follows cfg64 (if _ then _ else _) _
    split
    · trivial
    · exact fun q => ⟨p3, t3, fun _ _ h => h.elim, fun _ => trivial⟩
  · rintro x r t hx ht
    change Catching.MayTouch _ (if _ then _ else _) _ at ht
    have hx : x = 4104 := hx.elim id fun ⟨_, _, h⟩ => h.elim
    subst hx
    split at ht
    · exact ht.elim
    · obtain ⟨_, rfl | ⟨_, h⟩⟩ := ht
      · exact hd
      · exact h.elim

/-- C88_plan applies: on the shared heap, the calls recorded of this implementation are those of the plan at 0. -/
example : ∃ (H : SharedP) (x : XEv), SharedPReach (fun _ => cfg64) exP H ∧ H.log 0 = some (.complete, [x]) ∧ x.res = some 0 ∧ x.hi = 48 ∧
    x.calls = (exGiveUp.planValue 8 cfg64.maxCapacity ⟨24, 8⟩ 0).1 := by
  have hC : ∀ i : Nat, ((fun _ => cfg64) i : Cfg).OK := fun _ => cfg64_ok
  have h : PushOK cfg64 ⟨24, 8⟩ 1 4096 := ⟨by decide, ⟨3, rfl⟩, by decide, by decide⟩
  have f0 : exSharedP0.bare.freeAt 0 (2 ^ 20) = true := by decide +kernel
  have f1 : ((exSharedP0.doAct 0 (2 ^ 20) (.catching ⟨24, 8⟩ 4096 exLoudData exGiveUp)).bind fun H => (H.log 0).map fun l => l.2.map fun x => (x.res, x.lo, x.hi)) =
      some [(some 0, 0, 48)] := by decide +kernel
  obtain ⟨H, e1, f2⟩ := Option.bind_eq_some_iff.1 f1
  have r0 : SharedPReach (fun _ => cfg64) exP exSharedP0 := C88_includes exShared0_reach
  have r1 := r0.step (SharedP.doAct_step e1 f0 fun _ _ _ _ _ _ => C85_follows (cfg64.withAlloc (answerAt (2 ^ 20))) _ exP ⟨h.1, h.2, h.3, h.4⟩
    (catching_alloc exGiveUp_follows) (exGiveUp_restores _) _ _)
  obtain ⟨k1, xs1, x1, l1, l1', a1⟩ := SharedP.doAct_log e1
  have lk : exSharedP0.log 0 = some (.complete, []) := rfl
  rw [l1] at lk
  cases lk
  rw [l1'] at f2
  simp only [Option.map_some, Option.some.injEq, List.map_cons, List.map_nil, List.nil_append, List.cons.injEq, Prod.mk.injEq, and_true] at f2
  obtain ⟨v, m, p, hw⟩ : ∃ v m p, H.owners 0 = .serializer .complete v m p ([] ++ [x1]) := by
    unfold SharedP.log at l1'
    split at l1'
    · rename_i k v m p xs hw
      cases l1'
      exact ⟨v, m, p, hw⟩
    · cases l1'
  have hx := C88_plan hC (fun _ => exP_wf) (fun _ => exP_accepted) r1 hw x1 (by simp) _ _ _ _ a1 exGiveUp_blind
  rw [f2.2.1] at hx
  exact ⟨H, x1, r1, l1', f2.1, f2.2.2, (congrArg Prod.fst hx).symm⟩

end SerRaw
