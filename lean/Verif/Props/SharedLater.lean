import Verif.Lemmas.SharedLater
/-
C90: what a storage on a shared heap holds stays there, whatever it and all others are used for later (C84 on a shared heap).
`SharedP.Later C P i K H H'` (Model/SharedLater.lean): the program goes from `H` to `H'`, and storage `i` is neither dropped nor cleared, and none of its bytes in
`K` is written to by a random-access write.
-/
namespace SerRaw

theorem SharedP.Later.reach {C : Nat → Cfg} {P : Prog} {i : Nat} {K : Nat → Prop} {H H' : SharedP} (h : SharedPReach C P H) (hl : H.Later C P i K H') :
    SharedPReach C P H' := by
  induction hl with
  | now => exact h
  | others _ _ hs ih => exact ih.step hs
  | op _ hv hl _ _ ho hr ih => exact ih.step (.op hv hl ho hr)
  | «from» _ hv ih => exact ih.step (.from hv)
  | act _ hv hl _ ho hr ih => exact ih.step (.act hv hl ho hr)
  | finalize _ hv hf ih => exact ih.step (.finalize hv hf)
  | leave _ hv ih => exact ih.step (.leave hv)

/-- What has been kept of variable `i` since it had the position `n` and the bytes `b`. -/
structure KeptSince (K : Nat → Prop) (i n : Nat) (b : Mem) (H : SharedP) : Prop where
  there : H.owners i ≠ .absent
  pos : n ≤ (H.owners i).vec.pos
  bytes : ∀ j < n, K j → (H.sto (H.owners i).vec).bytes j = b j
  values : ∀ v m p xs, H.owners i = .serializer .complete v m p xs → ∀ x ∈ xs, x.act.IsValue → ∀ j < n, K j → j < x.lo ∨ x.hi ≤ j

theorem put_owner (H : SharedP) (i : Nat) (w : POwner) (l : List Block) : (H.put i w l).owners i = w := if_pos rfl

theorem forall₂_split {α β : Type} {R : α → β → Prop} {l1 l2 : List α} {r : List β} (h : List.Forall₂ R (l1 ++ l2) r) :
    ∃ r1 r2, List.Forall₂ R l2 r2 ∧ r = r1 ++ r2 := by
  induction l1 generalizing r with
  | nil => exact ⟨[], r, h, rfl⟩
  | cons x l ih =>
    cases h with
    | @cons _ y _ ys _ h2 =>
      obtain ⟨r1, r2, h3, rfl⟩ := ih h2
      exact ⟨y :: r1, r2, h3, rfl⟩

section
variable {C : Nat → Cfg} {P : Prog} (hC : ∀ i, (C i).OK) (hP : ∀ i, P.WF (C i).arch) (hacc : ∀ i, P.Accepted (C i)) {i : Nat} {K : Nat → Prop}
include hC hP hacc

theorem SharedP.Later.kept {H H' : SharedP} {n : Nat} {b : Mem} (h : SharedPReach C P H) (h0 : KeptSince K i n b H) (hl : H.Later C P i K H') : KeptSince K i n b H' := by
  induction hl with
  | now => exact h0
  | others hl hx hs ih =>
    obtain ⟨e1, _, e2⟩ := C88_keeps hC hP hacc (hl.reach h) hx hs
    exact ⟨by rw [e1]; exact ih.there, by rw [e1]; exact ih.pos, by rw [e2]; exact ih.bytes, by rw [e1]; exact ih.values⟩
  | @op H1 v a o r s hl hv hle hc hw ho hr ih =>
    obtain ⟨H0, hR, hsim⟩ := (hl.reach h).sim hC hP hacc
    rw [← hsim.sto] at hle hr
    obtain ⟨h1, h2⟩ := shared_op_stays hC hP hacc hR (hsim.atStorage hv) hle hc hw (hsim.answers ho) hr
    have hp := ih.pos
    have hb := ih.bytes
    rw [hv] at hp hb
    change n ≤ v.pos at hp
    refine ⟨by rw [put_owner]; nofun, by rw [put_owner]; exact Nat.le_trans hp h1, fun j hj hk => ?_, by rw [put_owner]; nofun⟩
    rw [put_owner, ← hb j hj hk]
    show s.bytes j = (H1.sto v).bytes j
    rw [h2 j (by omega) hk, hsim.sto]
  | @«from» H1 v k hl hv ih =>
    have hp := ih.pos
    have hb := ih.bytes
    rw [hv] at hp hb
    refine ⟨by rw [put_owner]; nofun, by rw [put_owner]; exact hp, by rw [put_owner]; exact hb, ?_⟩
    rw [put_owner]
    rintro v m p xs e x hx
    cases e
    cases hx
  | @act H1 k v m p xs a fuel o r s hl hv hle hw ho hr ih =>
    obtain ⟨H0, hR, hsim⟩ := (hl.reach h).sim hC hP hacc
    obtain ⟨m', es, hw0, hev⟩ := hsim.atSerializer hv
    have hst : Ser.Like ⟨H1.sto v, m, p⟩ ⟨H0.sto v, m', p⟩ := ⟨hsim.sto v, rfl⟩
    obtain ⟨hh, hsafe⟩ := hsim.ready hC hP hacc hR (m := m) hw0 (hsim.answers ho)
    obtain ⟨a0, hl0, hlike, hev'⟩ := like_step (withAlloc_ok (hC i) ho.1) (sim_alloc hev) hst hh hsafe hle fuel
    rw [hr] at hlike
    have hp := ih.pos
    have hb := ih.bytes
    have hval := ih.values
    rw [hv] at hp hb hval
    change n ≤ v.pos at hp
    cases hr0 : M.caught (a0.run ((C i).withAlloc o) k P fuel) ⟨H0.sto v, m', p⟩ with
    | ok r0 s0 =>
      rw [hr0] at hlike
      obtain ⟨rfl, e1, e2⟩ := hlike
      obtain ⟨h1, h2⟩ := shared_act_stays hC hP hacc hR hw0 (act_legal_alloc (C := (C i).withAlloc o) (o := (C i).alloc) hl0 rfl) (hsim.answers ho) hr0
      rw [e1] at h1 h2
      refine ⟨by rw [put_owner]; nofun, by rw [put_owner]; exact Nat.le_trans hp h1, fun j hj hk => ?_, ?_⟩
      · rw [put_owner, ← hb j hj hk]
        show s.sto.bytes j = (H1.sto v).bytes j
        rw [h2 j (by omega) ?_, hsim.sto]
        intro hwr
        obtain ⟨q, L, len, d, e3, e4⟩ := (hev' r0 v.pos s.sto.vec.pos).writes.1 hwr
        exact hw q L len d e3 j hk e4
      · rw [put_owner]
        rintro v1 m1 p1 xs1 e x hx hx'
        cases e
        intro j hj hk
        rcases List.mem_append.1 hx with hx | hx
        · exact hval _ _ _ _ rfl x hx hx' j hj hk
        · obtain rfl := List.mem_singleton.1 hx
          exact .inl (by show j < v.pos; omega)
    | _ => rw [hr0] at hlike; exact hlike.elim
  | @finalize H1 k v m p xs s hl hv hf ih =>
    obtain ⟨H0, hR, hsim⟩ := (hl.reach h).sim hC hP hacc
    obtain ⟨m', es, hw0, hev⟩ := hsim.atSerializer hv
    have hlike := like_finalize (C := C i) (k := k) ⟨H1.sto v, m, p⟩ ⟨H0.sto v, m', p⟩ ⟨hsim.sto v, rfl⟩
    rw [hf] at hlike
    have hp := ih.pos
    have hb := ih.bytes
    have hval := ih.values
    rw [hv] at hp hb hval
    cases hr0 : SerRaw.finalize (C i) k ⟨H0.sto v, m', p⟩ with
    | ok u s2 =>
      rw [hr0] at hlike
      obtain ⟨h1, h2⟩ := shared_finalize_stays hC hP hacc hR hw0 hr0
      rw [hlike.2.1] at h1 h2
      refine ⟨by rw [put_owner]; nofun, by rw [put_owner]; show n ≤ s.sto.vec.pos; rw [h1]; exact hp, fun j hj hk => ?_, by rw [put_owner]; nofun⟩
      rw [put_owner, ← hb j hj hk]
      show s.sto.bytes j = (H1.sto v).bytes j
      rw [h2 j ?_, hsim.sto]
      rintro rfl e he hev1
      obtain ⟨x, hx, hs⟩ := sim_mem' hev he
      rw [hs.lo, hs.hi]
      exact hval _ _ _ _ rfl x hx (hs.isValue.1 hev1) j hj hk
    | _ => rw [hr0] at hlike; exact hlike.elim
  | @leave H1 k v m p xs hl hv ih =>
    have hp := ih.pos
    have hb := ih.bytes
    rw [hv] at hp hb
    exact ⟨by rw [put_owner]; nofun, by rw [put_owner]; exact hp, by rw [put_owner]; exact hb, by rw [put_owner]; nofun⟩

/-- C90, bytes: whatever happens on the heap, no byte of a storage changes, except through a random-access write to it, or, while a `CompleteSerializer` is at
work on the storage, if it is part of a value: then `finalize` may. The storage may be anywhere at the later moment, and be in the hands of another serializer. -/
theorem C90_stays {H H' : SharedP} (h : SharedPReach C P H) (h0 : H.owners i ≠ .absent)
    (hK : ∀ v m p xs, H.owners i = .serializer .complete v m p xs → ∀ x ∈ xs, x.act.IsValue → ∀ j, K j → j < x.lo ∨ x.hi ≤ j) (hl : H.Later C P i K H') :
    H'.owners i ≠ .absent ∧ (H.owners i).vec.pos ≤ (H'.owners i).vec.pos ∧
      ∀ j < (H.owners i).vec.pos, K j → (H'.sto (H'.owners i).vec).bytes j = (H.sto (H.owners i).vec).bytes j := by
  have hk := hl.kept hC hP hacc h (n := (H.owners i).vec.pos) (b := (H.sto (H.owners i).vec).bytes)
    ⟨h0, Nat.le_refl _, fun _ _ _ => rfl, fun v m p xs e x hx hv j _ hj => hK v m p xs e x hx hv j hj⟩
  exact ⟨hk.there, hk.pos, hk.bytes⟩

/-- A finished session on a shared heap, and what is still there afterwards. -/
theorem SharedP.Later.lasting {H H' : SharedP} (h : SharedPReach C P H) {k : Kind} {v : AVec} {m : PosMapping} {p : Ptrs} {xs : List XEv}
    (hv : H.owners i = .serializer k v m p xs) {s : Ser} (hf : SerRaw.finalize (C i) k ⟨H.sto v, m, p⟩ = .ok () s)
    (hl : (H.put i (.storage s.sto.vec) s.sto.w.live).Later C P i K H') :
    ∃ es o t0 s0 s1 t1, List.Forall₂ (EvSim (C i)) xs es ∧ ((C i).withAlloc o).OK ∧ Lasting ((C i).withAlloc o) k P K t0 es s0 s1 t1 ∧
      s1.sto.vec = s.sto.vec ∧ t1.vec = (H'.owners i).vec ∧ (H'.sto (H'.owners i).vec).buffer = t1.buffer ∧ (H'.sto (H'.owners i).vec).bytes = t1.bytes := by
  have hr1 : SharedPReach C P (H.put i (.storage s.sto.vec) s.sto.w.live) := h.step (.finalize hv hf)
  obtain ⟨_, hpos, hbytes⟩ := C90_stays hC hP hacc hr1 (by rw [put_owner]; nofun) (by rw [put_owner]; nofun) hl
  rw [put_owner] at hpos hbytes
  obtain ⟨es, o, t0, s0, s1, hsim, hok, hg, hs, hf', hvec, _, hb⟩ := sharedP_final hC hP hacc h hv hf
  obtain ⟨H0, hR, hsim'⟩ := (hl.reach hr1).sim hC hP hacc
  obtain ⟨o1, t1, hok1, hal, hbuf, hbt⟩ := C78_alone hC hP hacc hR i
  obtain ⟨hI1, hv1⟩ := hal.inv hok1 (hP i) (hacc i)
  rw [(hsim'.owner i).vec] at hv1 hbuf hbt
  rw [hsim'.sto] at hbuf hbt
  obtain ⟨m1, h1, h2, h3, h4⟩ := hs.final hok (hP i) (hacc i) (hg.inv hok (hP i) (hacc i)) hf'
  have hp' : s1.sto.vec.pos ≤ t1.vec.pos := by rw [hv1, ← hvec]; exact hpos
  refine ⟨es, o, t0, s0, s1, t1, hsim, hok, ⟨m1, h1, h2, h3, ⟨⟨hI1.pos_le, hI1.cap_le, hI1.cap_dvd, hI1.mem⟩, hI1.pos_dvd⟩, hp', fun j hj hk => ?_⟩,
    hvec.symm, hv1, hbuf, hbt⟩
  have e1 : t1.bytes j = m1 s1.sto.vec.ptr j := by
    rw [← hbt, hbytes j (by show j < s.sto.vec.pos; rw [hvec]; exact hj) hk, ← (h4 j hj).1]
    exact congrFun hb j
  refine ⟨e1, ?_⟩
  rw [← e1]
  unfold Sto.bytes Sto.buffer
  rw [if_pos (by omega), if_pos (by omega)]

/-- C90, `PtrOffsetSerializer`: a value stays readable at its position. -/
theorem C90_offset {H H' : SharedP} (h : SharedPReach C P H) {v : AVec} {m : PosMapping} {p : Ptrs} {xs : List XEv}
    (hv : H.owners i = .serializer .ptrOffset v m p xs) {s : Ser} (hf : finalize (C i) .ptrOffset ⟨H.sto v, m, p⟩ = .ok () s)
    (hl : (H.put i (.storage s.sto.vec) s.sto.w.live).Later C P i K H') :
    ∀ x ∈ xs, (∀ j, x.lo ≤ j → j < x.hi → K j) → ∀ r q, x.act = .plain (.typed r) → x.res = some q → ∀ fl y, Denotes (C i).arch P fl r.im r.t r.a y →
      Denotes (C i).arch P ⟨fl.canon, false⟩ (H'.sto (H'.owners i).vec).bytes r.t q y := by
  obtain ⟨es, o, t0, s0, s1, t1, hsim, hok, hlast, _, _, _, hb⟩ := hl.lasting hC hP hacc h hv hf
  intro x hx hK r q ha hq
  obtain ⟨e, he, hs⟩ := sim_mem hsim hx
  rw [hb]
  exact hlast.offset hok (hP i) (hacc i) e he (hs.kept hK) r q (hs.plain _ ha) (hs.res.trans hq)

/-- C90, `PureCopySerializer` and position tracking: a reader that knows the type and where the call started still recovers the value. -/
theorem C90_in_order {H H' : SharedP} (h : SharedPReach C P H) {k : Kind} (hk : k = .pureCopy ∨ k = .posTracking) {v : AVec} {m : PosMapping} {p : Ptrs} {xs : List XEv}
    (hv : H.owners i = .serializer k v m p xs) {s : Ser} (hf : finalize (C i) k ⟨H.sto v, m, p⟩ = .ok () s)
    (hl : (H.put i (.storage s.sto.vec) s.sto.w.live).Later C P i K H') :
    ∀ x ∈ xs, (∀ j, x.lo ≤ j → j < x.hi → K j) → ∀ r q, x.act = .plain (.typed r) → x.res = some q → ∀ fl y, Denotes (C i).arch P fl r.im r.t r.a y →
      ∃ n, seqRoots (C i).arch P (C i).valueAlign (H'.sto (H'.owners i).vec).bytes n [r.t] x.lo = some ([y], x.hi) := by
  obtain ⟨es, o, t0, s0, s1, t1, hsim, hok, hlast, _, _, _, hb⟩ := hl.lasting hC hP hacc h hv hf
  intro x hx hK r q ha hq
  obtain ⟨e, he, hs⟩ := sim_mem hsim hx
  rw [hb]
  have := hlast.inOrder hok (hP i) (hacc i) hk e he (hs.kept hK) r q (hs.plain _ ha) (hs.res.trans hq)
  rw [hs.lo, hs.hi] at this
  exact this

/-- C90, `CompleteSerializer`: as long as the buffer is where it was when the serializer finished, a value stays readable there. -/
theorem C90_complete {H H' : SharedP} (h : SharedPReach C P H) {v : AVec} {m : PosMapping} {p : Ptrs} {xs : List XEv}
    (hv : H.owners i = .serializer .complete v m p xs) {s : Ser} (hf : finalize (C i) .complete ⟨H.sto v, m, p⟩ = .ok () s)
    (hl : (H.put i (.storage s.sto.vec) s.sto.w.live).Later C P i K H') (hsame : (H'.owners i).vec.ptr = s.sto.vec.ptr) :
    ∀ x ∈ xs, (∀ j, x.lo ≤ j → j < x.hi → K j) → ∀ r q, x.act = .plain (.typed r) → x.res = some q → ∀ fl y, Denotes (C i).arch P fl r.im r.t r.a y →
      ((P.layout r.t).size ≠ 0 ∨ (P.layout r.t).align ∣ s.sto.vec.ptr) →
      Denotes (C i).arch P ⟨fl.canon, true⟩ (H'.sto (H'.owners i).vec).buffer r.t (s.sto.vec.ptr + q) y := by
  obtain ⟨es, o, t0, s0, s1, t1, hsim, hok, hlast, h1, h2, hb, _⟩ := hl.lasting hC hP hacc h hv hf
  intro x hx hK r q ha hq
  obtain ⟨e, he, hs⟩ := sim_mem hsim hx
  rw [hb, ← hsame, ← h2]
  exact hlast.complete hok (hP i) (hacc i) (by show t1.vec.ptr = s1.sto.vec.ptr; rw [h1, h2, hsame]) e he (hs.kept hK) r q (hs.plain _ ha) (hs.res.trans hq)

/-- C90, repairing one value of a `CompleteSerializer` after the buffer has moved: its pointer words, rewritten for the new address. -/
theorem C90_repair {H H' : SharedP} (h : SharedPReach C P H) {v : AVec} {m : PosMapping} {p : Ptrs} {xs : List XEv}
    (hv : H.owners i = .serializer .complete v m p xs) {s : Ser} (hf : finalize (C i) .complete ⟨H.sto v, m, p⟩ = .ok () s)
    (hl : (H.put i (.storage s.sto.vec) s.sto.w.live).Later C P i K H') :
    let ptr := (H'.owners i).vec.ptr
    let buffer := (H'.sto (H'.owners i).vec).buffer
    ∀ x ∈ xs, (∀ j, x.lo ≤ j → j < x.hi → K j) → ∀ r q, x.act = .plain (.typed r) → x.res = some q → ∀ fl y, Denotes (C i).arch P fl r.im r.t r.a y →
      ((P.layout r.t).size ≠ 0 ∨ (P.layout r.t).align ∣ ptr) →
      let repaired := rebase (C i).arch s.sto.vec.ptr ptr (y.pointersAt (C i).arch P (C i).valueAlign r.t q) buffer
      Denotes (C i).arch P ⟨fl.canon, true⟩ repaired r.t (ptr + q) y ∧
      ∀ a, (a < ptr + x.lo ∨ ptr + x.hi ≤ a) → repaired a = buffer a := by
  obtain ⟨es, o, t0, s0, s1, t1, hsim, hok, hlast, h1, h2, hb, _⟩ := hl.lasting hC hP hacc h hv hf
  intro ptr buffer x hx hK r q ha hq fl y hy hz
  obtain ⟨e, he, hs⟩ := sim_mem hsim hx
  have := hlast.repair hok (hP i) (hacc i) e he (hs.kept hK) r q (hs.plain _ ha) (hs.res.trans hq) fl y hy (by show _ ∨ _ ∣ t1.vec.ptr; rw [h2]; exact hz)
  rw [hs.lo, hs.hi, ← hb] at this
  unfold Sto.asPtr at this
  rw [h1, h2] at this
  exact this

/-- C90, programs and implementations that catch panics: the output of a call stays, byte for byte, the reference output of the calls that were made. -/
theorem C90_program {H H' : SharedP} (h : SharedPReach C P H) {k : Kind} {v : AVec} {m : PosMapping} {p : Ptrs} {xs : List XEv}
    (hv : H.owners i = .serializer k v m p xs) {s : Ser} (hf : finalize (C i) k ⟨H.sto v, m, p⟩ = .ok () s)
    (hl : (H.put i (.storage s.sto.vec) s.sto.w.live).Later C P i K H') :
    ∀ x ∈ xs, ∀ L a data q, (∃ b, x.act = .program L a data b) ∨ (∃ b, x.act = .catching L a data b) → x.res = some q →
      ∃ m0, let out := TRoot.ideal (C i).arch (C i).valueAlign (k.mode s.sto.vec.ptr) ⟨L, a, data, x.calls⟩ (m0, x.lo)
        out.2 = x.hi ∧ ∀ j, x.lo ≤ j → j < x.hi → K j → (H'.sto (H'.owners i).vec).bytes j = out.1 j := by
  obtain ⟨es, o, t0, s0, s1, t1, hsim, hok, hlast, h1, _, _, hb⟩ := hl.lasting hC hP hacc h hv hf
  intro x hx L a data q ha hq
  obtain ⟨e, he, hs⟩ := sim_mem hsim hx
  have key : TRoot.OK (C i) ⟨L, a, data, x.calls⟩ ∧ ∃ stop, e.act = .user (TRoot.image (C i).arch.usizeMod stop ⟨L, a, data, x.calls⟩) := by
    rcases ha with ⟨b, ha⟩ | ⟨b, ha⟩
    · obtain ⟨h3, stop, _, h4⟩ := hs.program _ _ _ _ ha
      exact ⟨h3, stop, h4⟩
    · obtain ⟨h3, stop, h4⟩ := hs.catching _ _ _ _ ha
      exact ⟨h3, stop, h4⟩
  obtain ⟨hok', stop, h2⟩ := key
  obtain ⟨m0, h5, h6⟩ := hlast.user hok (hP i) (hacc i) e he _ q h2 (hs.res.trans hq)
  rw [hs.lo] at h5 h6
  rw [hs.hi] at h5 h6
  rw [TRoot.image_script] at h5 h6
  unfold Sto.asPtr at h5 h6
  rw [h1] at h5 h6
  rw [hb]
  have e1 := TRoot.virt_ideal (hC i) hok' (A := (C i).arch) (va := (C i).valueAlign) (md := k.mode s.sto.vec.ptr) (st := (m0, x.lo))
  refine ⟨m0, ?_⟩
  rw [← e1]
  exact ⟨h5, h6⟩

/-- C90, hand-written implementations: the output of a call stays, byte for byte, the reference output of its calls. -/
theorem C90_user {H H' : SharedP} (h : SharedPReach C P H) {k : Kind} {v : AVec} {m : PosMapping} {p : Ptrs} {xs : List XEv}
    (hv : H.owners i = .serializer k v m p xs) {s : Ser} (hf : finalize (C i) k ⟨H.sto v, m, p⟩ = .ok () s)
    (hl : (H.put i (.storage s.sto.vec) s.sto.w.live).Later C P i K H') :
    ∀ x ∈ xs, ∀ r q, x.act = .plain (.user r) → x.res = some q →
      ∃ m0, let out := rootIdeal (C i).arch (C i).valueAlign (k.mode s.sto.vec.ptr) r.L r.im r.a r.body.script (m0, x.lo)
        out.2 = x.hi ∧ ∀ j, x.lo ≤ j → j < x.hi → K j → (H'.sto (H'.owners i).vec).bytes j = out.1 j := by
  obtain ⟨es, o, t0, s0, s1, t1, hsim, hok, hlast, h1, _, _, hb⟩ := hl.lasting hC hP hacc h hv hf
  intro x hx r q ha hq
  obtain ⟨e, he, hs⟩ := sim_mem hsim hx
  have := hlast.user hok (hP i) (hacc i) e he _ q (hs.plain _ ha) (hs.res.trans hq)
  rw [hs.lo, hs.hi, ← hb] at this
  unfold Sto.asPtr at this
  rw [h1] at this
  exact this

/-- C90, moving one value: a copy of the bytes of its call at any address aligned for the values, with its pointer words filled in for the new address, is
the value. -/
theorem C90_filled {H H' : SharedP} (h : SharedPReach C P H) {k : Kind} {v : AVec} {m : PosMapping} {p : Ptrs} {xs : List XEv}
    (hv : H.owners i = .serializer k v m p xs) {s : Ser} (hf : finalize (C i) k ⟨H.sto v, m, p⟩ = .ok () s)
    (hl : (H.put i (.storage s.sto.vec) s.sto.w.live).Later C P i K H') {B : Nat} (hB : (C i).maxValueAlign ∣ B) {dm : Mem} :
    ∀ x ∈ xs, (∀ j, x.lo ≤ j → j < x.hi → K j) → ∀ r q, x.act = .plain (.typed r) → x.res = some q → ∀ fl y, Denotes (C i).arch P fl r.im r.t r.a y →
      ((P.layout r.t).size ≠ 0 ∨ (P.layout r.t).align ∣ B) → B + x.hi < (C i).arch.usizeMod →
      FilledAt (C i).arch (H'.sto (H'.owners i).vec).bytes dm x.lo x.hi B (y.pointersAt (C i).arch P (C i).valueAlign r.t q) →
      Denotes (C i).arch P ⟨fl.canon, (k.mode B).fixup⟩ dm r.t (B + q) y := by
  obtain ⟨es, o, t0, s0, s1, t1, hsim, hok, hlast, _, _, _, hb⟩ := hl.lasting hC hP hacc h hv hf
  intro x hx hK r q ha hq
  obtain ⟨e, he, hs⟩ := sim_mem hsim hx
  have := hlast.filled hok (hP i) (hacc i) hB (dm := dm) e he (hs.kept hK) r q (hs.plain _ ha) (hs.res.trans hq)
  rw [hs.lo, hs.hi, ← hb] at this
  exact this

/-- C90, what was pushed to the storage of a serializer directly: it is where the call said, as long as none of it was written over. -/
theorem C90_direct {H H' : SharedP} (h : SharedPReach C P H) {k : Kind} {v : AVec} {m : PosMapping} {p : Ptrs} {xs1 xs2 : List XEv} {x : XEv}
    (hv : H.owners i = .serializer k v m p (xs1 ++ x :: xs2)) {s : Ser} (hf : finalize (C i) k ⟨H.sto v, m, p⟩ = .ok () s)
    (hl : (H.put i (.storage s.sto.vec) s.sto.w.live).Later C P i K H') :
    ∀ L len d q, x.act = .plain (.sto (.pushSlice L len d)) → L.size ≠ 0 → x.res = some q →
      ∀ j < L.size * len, K (q + j) → (∀ x' ∈ xs2, ¬ x'.Writes (q + j)) → (H'.sto (H'.owners i).vec).bytes (q + j) = d j := by
  obtain ⟨es, o, t0, s0, s1, t1, hsim, hok, hlast, _, _, _, hb⟩ := hl.lasting hC hP hacc h hv hf
  obtain ⟨es1, es', hs2, rfl⟩ := forall₂_split hsim
  intro L len d q ha hL hq j hj hk hn
  cases hs2 with
  | @cons _ e _ es2 he hrest =>
    rw [hb]
    refine hlast.direct hok (hP i) (hacc i) rfl L len d q (he.plain _ ha) hL (he.res.trans hq) j hj hk fun e' he' hw => ?_
    obtain ⟨x', hx', hs'⟩ := sim_mem' hrest he'
    exact hn x' hx' (hs'.writes.1 hw)

/-- At any moment, a serializer on a shared heap is in a state it could have reached on its own, with the same bytes. -/
theorem sharedP_session {H : SharedP} (h : SharedPReach C P H) {k : Kind} {v : AVec} {m : PosMapping} {p : Ptrs} {xs : List XEv}
    (hv : H.owners i = .serializer k v m p xs) :
    ∃ es o t0 s0 m1, List.Forall₂ (EvSim (C i)) xs es ∧ ((C i).withAlloc o).OK ∧ SessInv ((C i).withAlloc o) k P t0 es s0 m1 ∧ (H.sto v).bytes = s0.sto.bytes := by
  obtain ⟨H0, hR, hsim⟩ := h.sim hC hP hacc
  obtain ⟨m', es, hw0, hev⟩ := hsim.atSerializer hv
  obtain ⟨o, t, hok, hal, _, hb⟩ := C78_alone hC hP hacc hR i
  rw [hw0] at hal hb
  obtain ⟨hv', t0, hg, hs⟩ := hal
  obtain ⟨m1, hinv⟩ := hs.inv hok (hP i) (hacc i) (hg.inv hok (hP i) (hacc i))
  rw [hsim.sto] at hb
  exact ⟨es, o, t0, _, m1, hev, hok, hinv, hb⟩

/-- C90, crash points, `PtrOffsetSerializer`: at any moment, the first `n` bytes of the unfinished output are in a file, with anything behind them. Every value
whose call ended at or before `n` can be read from it, whatever others did with the heap. -/
theorem C90_prefix_offset {H : SharedP} (h : SharedPReach C P H) {v : AVec} {m : PosMapping} {p : Ptrs} {xs : List XEv}
    (hv : H.owners i = .serializer .ptrOffset v m p xs) {n : Nat} {file : Mem} (hfile : ∀ j < n, file j = (H.sto v).bytes j) :
    ∀ x ∈ xs, x.hi ≤ n → ∀ r q, x.act = .plain (.typed r) → x.res = some q → ∀ fl y, Denotes (C i).arch P fl r.im r.t r.a y →
      Denotes (C i).arch P ⟨fl.canon, false⟩ file r.t q y := by
  obtain ⟨es, o, t0, s0, m1, hsim, hok, hinv, hb⟩ := sharedP_session hC hP hacc h hv
  intro x hx hn r q ha hq
  obtain ⟨e, he, hs⟩ := sim_mem hsim hx
  rw [hb] at hfile
  exact SessInv.prefixOffset hok (hP i) (hacc i) hinv hfile e he (hs.hi.trans_le hn) r q (hs.plain _ ha) (hs.res.trans hq)

/-- C90, crash points, `PureCopySerializer` and position tracking: the same, reading in order. -/
theorem C90_prefix_in_order {H : SharedP} (h : SharedPReach C P H) {k : Kind} (hk : k = .pureCopy ∨ k = .posTracking) {v : AVec} {m : PosMapping} {p : Ptrs}
    {xs : List XEv} (hv : H.owners i = .serializer k v m p xs) {n : Nat} {file : Mem} (hfile : ∀ j < n, file j = (H.sto v).bytes j) :
    ∀ x ∈ xs, x.hi ≤ n → ∀ r q, x.act = .plain (.typed r) → x.res = some q → ∀ fl y, Denotes (C i).arch P fl r.im r.t r.a y →
      ∃ d, seqRoots (C i).arch P (C i).valueAlign file d [r.t] x.lo = some ([y], x.hi) := by
  obtain ⟨es, o, t0, s0, m1, hsim, hok, hinv, hb⟩ := sharedP_session hC hP hacc h hv
  intro x hx hn r q ha hq fl y hy
  obtain ⟨e, he, hs⟩ := sim_mem hsim hx
  rw [hb] at hfile
  rw [← hs.lo, ← hs.hi]
  exact SessInv.prefixInOrder hok (hP i) (hacc i) hk hinv hfile e he (hs.hi.trans_le hn) r q (hs.plain _ ha) (hs.res.trans hq) fl y hy

/-- C90, crash points, programs and implementations that catch panics: with every kind but `CompleteSerializer`, the output of a call is in the file: it is
the reference output of the calls that were made. -/
theorem C90_prefix_program {H : SharedP} (h : SharedPReach C P H) {k : Kind} (hk : k ≠ .complete) {v : AVec} {m : PosMapping} {p : Ptrs}
    {xs : List XEv} (hv : H.owners i = .serializer k v m p xs) {n : Nat} {file : Mem} (hfile : ∀ j < n, file j = (H.sto v).bytes j) :
    ∀ x ∈ xs, ∀ L a data q, (∃ b, x.act = .program L a data b) ∨ (∃ b, x.act = .catching L a data b) → x.res = some q →
      ∃ m0, let out := TRoot.ideal (C i).arch (C i).valueAlign (k.mode 0) ⟨L, a, data, x.calls⟩ (m0, x.lo)
        out.2 = x.hi ∧ ∀ j, x.lo ≤ j → j < x.hi → j < n → file j = out.1 j := by
  obtain ⟨es, o, t0, s0, m1, hsim, hok, h1, hb⟩ := sharedP_session hC hP hacc h hv
  rw [hb] at hfile
  intro x hx L a data q ha hq
  obtain ⟨e, he, hs⟩ := sim_mem hsim hx
  have key : TRoot.OK (C i) ⟨L, a, data, x.calls⟩ ∧ ∃ stop, e.act = .user (TRoot.image (C i).arch.usizeMod stop ⟨L, a, data, x.calls⟩) := by
    rcases ha with ⟨b, ha⟩ | ⟨b, ha⟩
    · obtain ⟨h3, stop, _, h4⟩ := hs.program _ _ _ _ ha
      exact ⟨h3, stop, h4⟩
    · obtain ⟨h3, stop, h4⟩ := hs.catching _ _ _ _ ha
      exact ⟨h3, stop, h4⟩
  obtain ⟨hok', stop, h2⟩ := key
  have h3 := h1.left e he q (hs.res.trans hq)
  rw [h2] at h3
  obtain ⟨_, h4⟩ := h3
  obtain ⟨m0, hc⟩ := h4.cells 0
  have hhi := (h1.bounds e he).2.2
  have h5 := h4.end_
  rw [hs.lo, hs.hi] at hc
  rw [hs.hi] at hhi h5
  rw [hs.lo] at h5
  rw [TRoot.image_script] at hc h5
  have e1 := TRoot.virt_ideal (hC i) hok' (A := (C i).arch) (va := (C i).valueAlign) (md := k.mode 0) (st := (m0, x.lo))
  have e2 : (TRoot.ideal (C i).arch (C i).valueAlign (k.mode 0) ⟨L, a, data, x.calls⟩ (m0, x.lo)).2 = x.hi := by
    rw [← e1]
    exact rootIdeal_end.trans h5.symm
  refine ⟨m0, e2, fun j h6 h7 h8 => ?_⟩
  rw [hfile j h8, h1.bytes hk (by omega) 0, hc j h6 h7]
  show _ = (TRoot.ideal (C i).arch (C i).valueAlign (k.mode 0) ⟨L, a, data, x.calls⟩ (m0, x.lo)).1 j
  rw [← e1]
  rfl

/-- C90, bytes lost, `PtrOffsetSerializer`: bytes of the output at any moment are missing but none is altered. Whatever can still be read at the position of a
value is that value. -/
theorem C90_lost_offset {H : SharedP} (h : SharedPReach C P H) {v : AVec} {m : PosMapping} {p : Ptrs} {xs : List XEv}
    (hv : H.owners i = .serializer .ptrOffset v m p xs) {part : Mem} (hpart : part.PartOf (H.sto v).bytes) :
    ∀ x ∈ xs, ∀ r q, x.act = .plain (.typed r) → x.res = some q → ∀ fl y, Denotes (C i).arch P fl r.im r.t r.a y →
      ∀ w, Denotes (C i).arch P ⟨fl.canon, false⟩ part r.t q w → w = y := by
  obtain ⟨es, o, t0, s0, m1, hsim, hok, h1, hb⟩ := sharedP_session hC hP hacc h hv
  rw [hb] at hpart
  intro x hx r q ha hq
  obtain ⟨e, he, hs⟩ := sim_mem hsim hx
  exact SessInv.lostOffset hok (hP i) (hacc i) h1 hpart e he r q (hs.plain _ ha) (hs.res.trans hq)

/-- C90, bytes lost, `PureCopySerializer` and position tracking. -/
theorem C90_lost_in_order {H : SharedP} (h : SharedPReach C P H) {k : Kind} (hk : k = .pureCopy ∨ k = .posTracking) {v : AVec} {m : PosMapping} {p : Ptrs}
    {xs : List XEv} (hv : H.owners i = .serializer k v m p xs) {part : Mem} (hpart : part.PartOf (H.sto v).bytes) :
    ∀ x ∈ xs, ∀ r q, x.act = .plain (.typed r) → x.res = some q → ∀ fl y, Denotes (C i).arch P fl r.im r.t r.a y →
      ∀ d w z, seqRoots (C i).arch P (C i).valueAlign part d [r.t] x.lo = some ([w], z) → w = y ∧ z = x.hi := by
  obtain ⟨es, o, t0, s0, m1, hsim, hok, h1, hb⟩ := sharedP_session hC hP hacc h hv
  rw [hb] at hpart
  intro x hx r q ha hq
  obtain ⟨e, he, hs⟩ := sim_mem hsim hx
  rw [← hs.lo, ← hs.hi]
  exact SessInv.lostInOrder hok (hP i) (hacc i) hk h1 hpart e he r q (hs.plain _ ha) (hs.res.trans hq)

end

/-! ### The two storages of C88, later -/

theorem SharedP.doOp_later {H H1 H2 : SharedP} {i a0 : Nat} {a : SOp} {K : Nat → Prop} (hl : H.Later (fun _ => cfg64) exP i K H1) (h : H1.doOp i a0 a = some H2)
    (hf : H1.bare.freeAt i a0 = true) (hle : ∀ v, a.Legal cfg64 (H1.sto v)) (hc : a ≠ .clear)
    (hw : ∀ p L len d, a = .writeSlice p L len d → ∀ j, K j → ¬ (p ≤ j ∧ j < p + L.size * len)) : H.Later (fun _ => cfg64) exP i K H2 := by
  unfold SharedP.doOp at h
  split at h
  · rename_i v hw0
    split at h
    · rename_i r s hr
      cases h
      exact .op hl hw0 (hle v) hc hw (Shared.freeAt_ok hf) hr
    · cases h
  · cases h

theorem SharedP.doOp_storage {H H' : SharedP} {i a0 : Nat} {a : SOp} (h : H.doOp i a0 a = some H') : ∃ v, H'.owners i = .storage v := by
  unfold SharedP.doOp at h
  split at h
  · split at h
    · cases h
      exact ⟨_, put_owner _ _ _ _⟩
    · cases h
  · cases h

theorem exSharedP2_vec : exSharedP2.map (fun H => ((H.owners 1).vec, (List.range 16).map (H.sto (H.owners 1).vec).bytes)) =
    some (⟨2 ^ 21, 16, 16⟩, List.replicate 16 (some 7)) := by decide +kernel

/-- C90 applies: the storage of C88 is given 16 bytes, and 32 more when its buffer moves to where the serializer's was; then the serializer writes a value
whose implementation panics, and one that catches a panic. The 16 bytes are still there. -/
example : ∃ H2 H6 : SharedP, exSharedP2 = some H2 ∧ exSharedP6 = some H6 ∧ H2.Later (fun _ => cfg64) exP 1 (fun _ => True) H6 ∧
    (H2.owners 1).vec = ⟨2 ^ 21, 16, 16⟩ ∧ (H6.owners 1).vec = ⟨2 ^ 20, 64, 48⟩ ∧ ∀ j < 16, (H6.sto (H6.owners 1).vec).bytes j = some 7 := by
  have hC : ∀ i : Nat, ((fun _ => cfg64) i : Cfg).OK := fun _ => cfg64_ok
  have e8 : Layout.OK ⟨8, 8⟩ := ⟨⟨3, rfl⟩, by decide⟩
  have hv : Valid cfg64.arch exP ⟨exIm, 1, 4096⟩ := ⟨⟨true, false⟩, exNode, exInputs (⟨exIm, 1, 4096⟩, exNode) (by simp [exRoots])⟩
  have f0 : exSharedP0.bare.freeAt 0 (2 ^ 20) = true := by decide +kernel
  have f1 : exSharedP1.all (·.bare.freeAt 1 (2 ^ 21)) = true := by decide +kernel
  have f2 : exSharedP2.all (·.bare.freeAt 0 (2 ^ 22)) = true := by decide +kernel
  have f3 : exSharedP3.all (·.bare.freeAt 1 (2 ^ 20)) = true := by decide +kernel
  have f4 : exSharedP4.all (·.bare.freeAt 0 (2 ^ 23)) = true := by decide +kernel
  have f5 : exSharedP5.all (·.bare.freeAt 0 (2 ^ 24)) = true := by decide +kernel
  have g2 := exSharedP2_vec
  obtain ⟨H6, e6, _, _, g6, _⟩ := exSharedP_reach
  have e6' := e6
  obtain ⟨H5, e5, d6⟩ := Option.bind_eq_some_iff.1 e6
  obtain ⟨H4, e4, d5⟩ := Option.bind_eq_some_iff.1 e5
  obtain ⟨H3, e3, d4⟩ := Option.bind_eq_some_iff.1 e4
  obtain ⟨H2, e2, d3⟩ := Option.bind_eq_some_iff.1 e3
  obtain ⟨H1, e1, d2⟩ := Option.bind_eq_some_iff.1 e2
  rw [e1] at f1
  rw [e2] at f2 g2
  rw [e3] at f3
  rw [e4] at f4
  rw [e5] at f5
  have r0 : SharedPReach (fun _ => cfg64) exP exSharedP0 := C88_includes exShared0_reach
  have r1 := r0.step (SharedP.doAct_step e1 f0 fun _ _ _ _ _ _ => exLoud_legal_any _ _ _ _)
  have r2 := r1.step (SharedP.doOp_step d2 f1 fun v => ⟨e8, fun _ => rfl, by decide, .inr (.inl (by decide))⟩)
  have l2 : H2.Later (fun _ => cfg64) exP 1 (fun _ => True) H2 := .now
  have l3 := l2.others (x := some 0) (by decide) (SharedP.doAct_step d3 f2 fun _ _ _ _ _ _ => hv)
  have l4 := SharedP.doOp_later l3 d4 f3 (fun v => ⟨e8, fun _ => rfl, by decide, .inr (.inl (by decide))⟩) nofun nofun
  have l5 := l4.others (x := some 0) (by decide) (SharedP.doAct_step d5 f4 fun _ _ _ _ _ _ => exLoud_legal_any _ _ _ _)
  have l6 := l5.others (x := some 0) (by decide) (SharedP.doAct_step d6 f5 fun _ _ _ _ _ _ => exRetry_legal _ _ _ _)
  simp only [Option.map_some, Option.some.injEq, Prod.mk.injEq] at g2
  obtain ⟨v2, w2⟩ := SharedP.doOp_storage d2
  obtain ⟨_, _, h3⟩ := C90_stays hC (fun _ => exP_wf) (fun _ => exP_accepted) r2 (by rw [w2]; nofun) (by rw [w2]; nofun) l6
  rw [g2.1] at h3
  refine ⟨H2, H6, e2, e6', l6, g2.1, g6, fun j hj => (h3 j hj trivial).trans ?_⟩
  have := congrArg (fun l => l[j]?) g2.2
  simp only [List.getElem?_map, List.getElem?_range hj, Option.map_some, List.getElem?_replicate, hj, if_true, Option.some.injEq] at this
  rw [g2.1] at this
  exact this

/-- A serializer finishes. -/
def SharedP.doFinalize (H : SharedP) (i : Nat) : Option SharedP :=
  match H.owners i with
  | .serializer k v m p _ =>
    match SerRaw.finalize cfg64 k ⟨H.sto v, m, p⟩ with
    | .ok _ s => some (H.put i (.storage s.sto.vec) s.sto.w.live)
    | _ => none
  | _ => none

/-- The serializer of C88 finishes, the other storage is given 64 bytes more, for which its buffer moves, and then the first one 16. -/
def exSharedP7 : Option SharedP := exSharedP6.bind fun H => H.doFinalize 0
def exSharedP8 : Option SharedP := exSharedP7.bind fun H => H.doOp 1 (2 ^ 21) (.pushSlice ⟨8, 8⟩ 8 fun _ => some 9)
def exSharedP9 : Option SharedP := exSharedP8.bind fun H => H.doOp 0 (2 ^ 25) (.pushSlice ⟨8, 8⟩ 2 fun _ => some 5)

theorem exSharedP7_free : exSharedP7.all (·.bare.freeAt 1 (2 ^ 21)) = true := by decide +kernel
theorem exSharedP8_free : exSharedP8.all (·.bare.freeAt 0 (2 ^ 25)) = true := by decide +kernel
theorem exSharedP7_vec : exSharedP7.map (fun H => (H.owners 0).vec) = some ⟨2 ^ 24, 512, 280⟩ := by decide +kernel
theorem exSharedP9_vec : exSharedP9.map (fun H => ((H.owners 0).vec, (H.owners 1).vec)) = some (⟨2 ^ 24, 512, 296⟩, ⟨2 ^ 21, 128, 112⟩) := by decide +kernel

/-- What the serializer of C88 has done. -/
theorem exSharedP6_log : ∃ H v m p x1 x2 x3 x4, exSharedP6 = some H ∧ SharedPReach (fun _ => cfg64) exP H ∧ H.owners 0 = .serializer .complete v m p [x1, x2, x3, x4] ∧
    x2.act = .plain (.typed ⟨exIm, 1, 4096⟩) ∧ x2.res = some 56 ∧ x2.lo = 56 ∧ x2.hi = 192 ∧
    x4.act = .catching ⟨24, 8⟩ 4096 exLoudData exRetry ∧ x4.res = some 232 ∧ x4.lo = 232 ∧ x4.hi = 280 := by
  obtain ⟨H, e6, hr, hlog, h1, _⟩ := exSharedP_reach
  have e6' := e6
  obtain ⟨H5, e5, d6⟩ := Option.bind_eq_some_iff.1 e6
  obtain ⟨H4, e4, d5⟩ := Option.bind_eq_some_iff.1 e5
  obtain ⟨H3, e3, d4⟩ := Option.bind_eq_some_iff.1 e4
  obtain ⟨H2, e2, d3⟩ := Option.bind_eq_some_iff.1 e3
  obtain ⟨H1, e1, d2⟩ := Option.bind_eq_some_iff.1 e2
  obtain ⟨k1, xs1, x1, l1, l1', a1⟩ := SharedP.doAct_log e1
  obtain ⟨k2, xs2, x2, l2, l2', a2⟩ := SharedP.doAct_log d3
  obtain ⟨k3, xs3, x3, l3, l3', a3⟩ := SharedP.doAct_log d5
  obtain ⟨k4, xs4, x4, l4, l4', a4⟩ := SharedP.doAct_log d6
  have lk : exSharedP0.log 0 = some (.complete, []) := rfl
  rw [l1] at lk
  cases lk
  rw [SharedP.doOp_log d2 (by decide), l1'] at l2
  cases l2
  rw [SharedP.doOp_log d4 (by decide), l2'] at l3
  cases l3
  rw [l3'] at l4
  cases l4
  rw [l4'] at hlog
  simp only [Option.map_some, Option.some.injEq, List.map_cons, List.map_nil, List.cons_append, List.nil_append, List.cons.injEq, Prod.mk.injEq,
    true_and] at hlog
  obtain ⟨v, m, p, hw⟩ : ∃ v m p, H.owners 0 = .serializer .complete v m p ([] ++ [x1] ++ [x2] ++ [x3] ++ [x4]) := by
    unfold SharedP.log at l4'
    split at l4'
    · rename_i k v m p xs hw
      cases l4'
      exact ⟨v, m, p, hw⟩
    · cases l4'
  exact ⟨H, v, m, p, x1, x2, x3, x4, e6', hr, hw, a2, hlog.2.1.1, hlog.2.1.2.1, hlog.2.1.2.2, a4, hlog.2.2.2.1.1, hlog.2.2.2.1.2.1, hlog.2.2.2.1.2.2⟩

/-- C90 applies: later, the node is still read from the buffer, at its start + 56, and the output of the implementation that caught a panic is still the
reference output of its calls. -/
example : ∃ (H9 : SharedP) (y : XEv), exSharedP9 = some H9 ∧ (H9.owners 0).vec = ⟨2 ^ 24, 512, 296⟩ ∧
    Denotes x64 exP ⟨true, true⟩ (H9.sto (H9.owners 0).vec).buffer 1 (2 ^ 24 + 56) exNode ∧
    ∃ m0, ∀ j, 232 ≤ j → j < 280 → (H9.sto (H9.owners 0).vec).bytes j =
      (TRoot.ideal x64 cfg64.valueAlign (Kind.complete.mode (2 ^ 24)) ⟨⟨24, 8⟩, 4096, exLoudData, y.calls⟩ (m0, 232)).1 j := by
  have hC : ∀ i : Nat, ((fun _ => cfg64) i : Cfg).OK := fun _ => cfg64_ok
  have e8 : Layout.OK ⟨8, 8⟩ := ⟨⟨3, rfl⟩, by decide⟩
  obtain ⟨H6, v, m, p, x1, x2, x3, x4, e6, hr, hw, a2, r2, lo2, hi2, a4, r4, lo4, hi4⟩ := exSharedP6_log
  have f7 := exSharedP7_free
  have f8 := exSharedP8_free
  have g7 := exSharedP7_vec
  have g9 := exSharedP9_vec
  obtain ⟨H9, e9, g9⟩ := Option.map_eq_some_iff.1 g9
  have e9' := e9
  obtain ⟨H8, e8', d9⟩ := Option.bind_eq_some_iff.1 e9
  obtain ⟨H7, e7, d8⟩ := Option.bind_eq_some_iff.1 e8'
  rw [e7] at f7 g7
  rw [e8'] at f8
  simp only [Option.map_some, Option.some.injEq] at g7
  simp only [Prod.mk.injEq] at g9
  obtain ⟨H6', e6', d7⟩ := Option.bind_eq_some_iff.1 e7
  rw [e6] at e6'
  cases e6'
  obtain ⟨s, hf, _⟩ := (C88_safe hC (fun _ => exP_wf) (fun _ => exP_accepted) hr 0).2.2.2.2 _ _ _ _ _ hw
  have e : H7 = H6.put 0 (.storage s.sto.vec) s.sto.w.live := by
    unfold SharedP.doFinalize at d7
    rw [hw] at d7
    simp only [hf] at d7
    cases d7
    rfl
  have l7 : H7.Later (fun _ => cfg64) exP 0 (fun _ => True) H7 := .now
  have l8 := l7.others (x := some 1) (by decide) (SharedP.doOp_step d8 f7 fun v => ⟨e8, fun _ => rfl, by decide, .inr (.inl (by decide))⟩)
  have l9 := SharedP.doOp_later l8 d9 f8 (fun v => ⟨e8, fun _ => rfl, by decide, .inr (.inl (by decide))⟩) nofun nofun
  have hptr : s.sto.vec.ptr = 2 ^ 24 := by
    rw [e, put_owner] at g7
    change s.sto.vec = _ at g7
    rw [g7]
  have l9' : (H6.put 0 (.storage s.sto.vec) s.sto.w.live).Later (fun _ => cfg64) exP 0 (fun _ => True) H9 := by rw [← e]; exact l9
  have hd : Denotes cfg64.arch exP ⟨true, false⟩ exIm 1 4096 exNode := exInputs (⟨exIm, 1, 4096⟩, exNode) (by simp [exRoots])
  have c1 := C90_complete hC (fun _ => exP_wf) (fun _ => exP_accepted) hr hw hf l9' (by rw [g9.1, hptr]) x2 (by simp) (fun _ _ _ => trivial) ⟨exIm, 1, 4096⟩ 56 a2 r2
    ⟨true, false⟩ exNode hd (.inl (by decide))
  obtain ⟨m0, _, c2⟩ := C90_program hC (fun _ => exP_wf) (fun _ => exP_accepted) hr hw hf l9' x4 (by simp) _ _ _ 232 (.inr ⟨_, a4⟩) r4
  rw [lo4, hi4, hptr] at c2
  rw [hptr] at c1
  exact ⟨H9, x4, e9', g9.1, c1, m0, fun j h1 h2 => c2 j h1 h2 trivial⟩

/-- The other storage is given to a `PtrOffsetSerializer`, and that the node, for which the buffer moves. -/
def SharedP.doFrom (H : SharedP) (i : Nat) (k : Kind) : Option SharedP :=
  match H.owners i with
  | .storage v => some (H.put i (.serializer k v PosMapping.dummy Ptrs.new []) H.live)
  | _ => none

def exSharedP10 : Option SharedP := exSharedP9.bind fun H => H.doFrom 1 .ptrOffset
def exSharedP11 : Option SharedP := exSharedP10.bind fun H => H.doAct 1 (2 ^ 26) (.plain (.typed ⟨exIm, 1, 4096⟩))

theorem exSharedP10_free : exSharedP10.all (·.bare.freeAt 1 (2 ^ 26)) = true := by decide +kernel
theorem exSharedP11_vec : exSharedP11.map (fun H => (H.owners 1).vec) = some ⟨2 ^ 26, 256, 248⟩ := by decide +kernel
theorem exSharedP11_log : exSharedP11.map (fun H => (H.log 1).map fun l => (l.1, l.2.map fun x => (x.res, x.lo, x.hi))) =
    some (some (.ptrOffset, [(some 112, 112, 248)])) := by decide +kernel

/-- It is reached, as before. -/
theorem exSharedP11_reach : ∃ H v m p x, exSharedP11 = some H ∧ SharedPReach (fun _ => cfg64) exP H ∧ H.owners 1 = .serializer .ptrOffset v m p [x] ∧ v = ⟨2 ^ 26, 256, 248⟩ ∧
    x.act = .plain (.typed ⟨exIm, 1, 4096⟩) ∧ x.res = some 112 ∧ x.lo = 112 ∧ x.hi = 248 := by
  have e8 : Layout.OK ⟨8, 8⟩ := ⟨⟨3, rfl⟩, by decide⟩
  have hv : Valid cfg64.arch exP ⟨exIm, 1, 4096⟩ := ⟨⟨true, false⟩, exNode, exInputs (⟨exIm, 1, 4096⟩, exNode) (by simp [exRoots])⟩
  have f7 := exSharedP7_free
  have f8 := exSharedP8_free
  have f10 := exSharedP10_free
  obtain ⟨H11, e11, g11⟩ := Option.map_eq_some_iff.1 exSharedP11_vec
  have e11' := e11
  obtain ⟨H10, e10, d11⟩ := Option.bind_eq_some_iff.1 e11
  obtain ⟨H9, e9, d10⟩ := Option.bind_eq_some_iff.1 e10
  obtain ⟨H8, e8', d9⟩ := Option.bind_eq_some_iff.1 e9
  obtain ⟨H7, e7, d8⟩ := Option.bind_eq_some_iff.1 e8'
  obtain ⟨H6, e6, d7⟩ := Option.bind_eq_some_iff.1 e7
  obtain ⟨H6', e6', hr, _⟩ := exSharedP_reach
  rw [e6] at e6'
  cases e6'
  rw [e7] at f7
  rw [e8'] at f8
  rw [e10] at f10
  have s7 : SharedP.Step (fun _ => cfg64) exP (some 0) H6 H7 := by
    unfold SharedP.doFinalize at d7
    split at d7
    · rename_i k v m p xs hw
      split at d7
      · rename_i u s hf
        cases d7
        exact .finalize hw hf
      · cases d7
    · cases d7
  have r8 := (hr.step s7).step (SharedP.doOp_step d8 f7 fun v => ⟨e8, fun _ => rfl, by decide, .inr (.inl (by decide))⟩)
  have r9 := r8.step (SharedP.doOp_step d9 f8 fun v => ⟨e8, fun _ => rfl, by decide, .inr (.inl (by decide))⟩)
  have s10 : SharedP.Step (fun _ => cfg64) exP (some 1) H9 H10 ∧ H10.log 1 = some (.ptrOffset, []) := by
    unfold SharedP.doFrom at d10
    split at d10
    · rename_i v hw
      cases d10
      refine ⟨.from hw, ?_⟩
      unfold SharedP.log
      rw [put_owner]
    · cases d10
  have r11 := (r9.step s10.1).step (SharedP.doAct_step d11 f10 fun _ _ _ _ _ _ => hv)
  obtain ⟨k, xs, x, l1, l2, a1⟩ := SharedP.doAct_log d11
  rw [s10.2] at l1
  cases l1
  obtain ⟨v, m, p, hw⟩ : ∃ v m p, H11.owners 1 = .serializer .ptrOffset v m p ([] ++ [x]) := by
    unfold SharedP.log at l2
    split at l2
    · rename_i k v m p xs hw
      cases l2
      exact ⟨v, m, p, hw⟩
    · cases l2
  have g12 := exSharedP11_log
  rw [e11', Option.map_some, Option.some.injEq, l2] at g12
  simp only [Option.map_some, Prod.mk.injEq, Option.some.injEq, List.nil_append, List.map_cons, List.map_nil, List.cons.injEq, true_and, and_true] at g12
  rw [hw] at g11
  exact ⟨H11, v, m, p, x, e11', r11, hw, g11, a1, g12.1, g12.2.1, g12.2.2⟩

/-- C90 applies: the file written so far holds the node, at 112, before the serializer has finished and after. -/
example : ∃ (H : SharedP) (s : Ser), exSharedP11 = some H ∧ Denotes x64 exP ⟨true, false⟩ (H.sto (H.owners 1).vec).bytes 1 112 exNode ∧
    SharedP.Step (fun _ => cfg64) exP (some 1) H (H.put 1 (.storage s.sto.vec) s.sto.w.live) ∧ Denotes x64 exP ⟨true, false⟩ s.sto.bytes 1 112 exNode := by
  have hC : ∀ i : Nat, ((fun _ => cfg64) i : Cfg).OK := fun _ => cfg64_ok
  have hd : Denotes cfg64.arch exP ⟨true, false⟩ exIm 1 4096 exNode := exInputs (⟨exIm, 1, 4096⟩, exNode) (by simp [exRoots])
  obtain ⟨H, v, m, p, x, e, hr, hw, _, a1, r1, lo1, hi1⟩ := exSharedP11_reach
  obtain ⟨s, hf, _⟩ := (C88_safe hC (fun _ => exP_wf) (fun _ => exP_accepted) hr 1).2.2.2.2 _ _ _ _ _ hw
  have c1 := C90_prefix_offset hC (fun _ => exP_wf) (fun _ => exP_accepted) hr hw (n := 248) (file := (H.sto v).bytes) (fun _ _ => rfl) x (by simp) (by rw [hi1])
    ⟨exIm, 1, 4096⟩ 112 a1 r1 ⟨true, false⟩ exNode hd
  have c2 := C90_offset hC (fun _ => exP_wf) (fun _ => exP_accepted) (K := fun _ => True) hr hw hf .now x (by simp) (fun _ _ _ => trivial)
    ⟨exIm, 1, 4096⟩ 112 a1 r1 ⟨true, false⟩ exNode hd
  rw [put_owner] at c2
  refine ⟨H, s, e, ?_, .finalize hw hf, c2⟩
  rw [hw]
  exact c1

end SerRaw
