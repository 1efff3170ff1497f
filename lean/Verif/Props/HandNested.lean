import Verif.Lemmas.HandTop
/-
C74: types with hand-written `Serialize` implementations inside types with the crate's own (or derived) ones, and the other way round.
The requirements on the hand-written ones are `HandOK` (Spec/HandNested.lean).
-/
namespace SerRaw

section
variable {C : Cfg} {P : Prog} {fl : Flags} {X : TyId → Option HandImpl} {V V' : TyId → HandView}

/-- C74 (calls). Whatever the values are, as long as they are valid and the hand-written implementations meet their requirements, the
serializer methods are called according to the rules (so C45 applies), and the calls do not depend on which serializer is used. -/
theorem C74_calls (hC : C.OK) (hP : P.WF C.arch) (hacc : P.Accepted C) (hX : AllHandOK C P X V V')
    {rs : List (Root × Val)} (hv : ∀ x ∈ rs, DenotesH C.arch P X V fl x.1.im x.1.t x.1.a x.2 ∧ (P.layout x.1.t).size ≠ 0) :
    ∃ n, ∀ fuel, n ≤ fuel → ∃ us : List UserRoot, (∀ u ∈ us, u.OK C) ∧
      us.map (fun u => (u.im, u.L, u.a)) = rs.map (fun x => (x.1.im, P.layout x.1.t, x.1.a)) ∧
      ∀ k, hSession C k P X fuel (rs.map Prod.fst) = userSession C k us := by
  have hW := hC.arch.ptr_pos
  obtain ⟨n, hn⟩ := exists_asUser hW hP hX hv
  refine ⟨n, fun fuel hf => ?_⟩
  obtain ⟨us, h⟩ := hn fuel hf
  refine ⟨us, h.ok hW hP hacc hX, ?_, fun k => by rw [hSession, userSession, h.run hW hP hX k]⟩
  clear hn hv
  induction h with
  | nil => rfl
  | cons _ _ _ _ ih => simp only [List.map_cons, ih]

/-- C74. Any number of valid values, of types in which hand-written implementations may occur anywhere, serialized into any reachable
storage with any of the four serializers: everything is done, or there is a capacity panic, or the allocator fails; never undefined
behaviour. When it is done, what was in the storage is still there, and each value can be read from the finished storage: by following
the pointers stored in the buffer at `as_ptr() + p` with `CompleteSerializer`, and by taking pointers as offsets at `p` in the bytes with
`PtrOffsetSerializer`. -/
theorem C74_hand_nested (hC : C.OK) (hP : P.WF C.arch) (hacc : P.Accepted C) (hX : AllHandOK C P X V V') {t0 : Sto} (h0 : UReach C t0)
    {rs : List (Root × Val)} (hv : ∀ x ∈ rs, DenotesH C.arch P X V fl x.1.im x.1.t x.1.a x.2 ∧ (P.layout x.1.t).size ≠ 0) :
    ∃ n, ∀ fuel, n ≤ fuel → ∀ k : Kind,
      (∃ ps s', hSession C k P X fuel (rs.map Prod.fst) (Ser.fromStorage t0) = .ok ps s' ∧ UReach C s'.sto ∧ ps.length = rs.length ∧
        (∀ i < t0.vec.pos, s'.sto.bytes i = t0.bytes i) ∧
        (k = .complete → ∀ (i : Nat) (r : Root) (v : Val) (p : Nat), rs[i]? = some (r, v) → ps[i]? = some p →
          DenotesH C.arch P X V' ⟨fl.canon, true⟩ s'.sto.buffer r.t (s'.sto.vec.ptr + p) v) ∧
        (k = .ptrOffset → ∀ (i : Nat) (r : Root) (v : Val) (p : Nat), rs[i]? = some (r, v) → ps[i]? = some p →
          DenotesH C.arch P X V' ⟨fl.canon, false⟩ s'.sto.bytes r.t p v)) ∨
      (∃ s', hSession C k P X fuel (rs.map Prod.fst) (Ser.fromStorage t0) = .panic .capacity s' ∧ UReach C s'.sto) ∨
      (hSession C k P X fuel (rs.map Prod.fst) (Ser.fromStorage t0) = .abort ∧ ¬ C.NeverFails) := by
  have hW := hC.arch.ptr_pos
  have hva := hC.facts.va.pos
  obtain ⟨n, hn⟩ := exists_asUser hW hP hX hv
  refine ⟨n, fun fuel hf k => ?_⟩
  obtain ⟨us, h⟩ := hn fuel hf
  have hok := h.ok hW hP hacc hX
  have e : hSession C k P X fuel (rs.map Prod.fst) = userSession C k us := by rw [hSession, userSession, h.run hW hP hX k]
  rw [e]
  have hs := userSession_sat hC k hok (h0.inv hC)
  cases hr : userSession C k us (Ser.fromStorage t0) with
  | panic pk s' => rw [hr] at hs; obtain ⟨rfl, _, _⟩ := hs; exact Or.inr (Or.inl ⟨s', rfl, h0.sessionPanic hok hr⟩)
  | abort => rw [hr] at hs; exact Or.inr (Or.inr ⟨rfl, hs⟩)
  | ub => rw [hr] at hs; exact hs.elim
  | fuel => rw [hr] at hs; exact hs.elim
  | ok ps s' =>
    rw [hr] at hs
    obtain ⟨h1, rfl, h3, h4⟩ := hs
    have hend : ∀ md, (userIdeal C.arch C.valueAlign md us (t0.view, t0.vec.pos)).2 = s'.sto.vec.pos := fun md => by
      rw [h3]; exact userIdeal_end_indep us rfl
    have hbytes : ∀ i < s'.sto.vec.pos, s'.sto.w.load (s'.sto.vec.ptr + i) =
        (userIdeal C.arch C.valueAlign (k.mode s'.sto.vec.ptr) us (t0.view, t0.vec.pos)).1 i := by
      intro i hi
      rw [← h4]
      exact load_eq_view h1.toWInv (Nat.lt_of_lt_of_le hi h1.pos_le)
    have hle : t0.vec.pos ≤ s'.sto.vec.pos := by
      rw [h3]; exact userIdeal_le (md := k.mode 0) hva hok (st := (t0.view, t0.vec.pos))
    refine Or.inl ⟨_, s', rfl, h0.session hok hr, by rw [userPositions_length, h.length], ?_, ?_, ?_⟩
    · intro i hi
      rw [Sto.bytes, Sto.bytes, if_pos hi, if_pos (by omega), hbytes i (by omega), userIdeal_frame hva hok hi,
        load_eq_view (h0.inv hC).toWInv (Nat.lt_of_lt_of_le hi (h0.inv hC).pos_le)]
    · rintro rfl i r v p hri hpi
      have hcap : 0 < s'.sto.vec.capacity := by
        cases us with
        | nil => simp [userPositions] at hpi
        | cons u us =>
          have hu := hok u (by simp)
          have h5 : 0 < (rootIdeal C.arch C.valueAlign (Kind.mode 0 .complete) u.L u.im u.a u.sc (t0.view, t0.vec.pos)).2 := by
            rw [rootIdeal, if_neg hu.1.size_ne]
            refine Nat.lt_of_lt_of_le ?_ (ideal_mono hva u.sc hu.2 _ _ _)
            have := le_roundUp (roundUp t0.vec.pos u.L.align + u.L.size) hva
            have := hu.1.size_ne
            simp only; omega
          have h6 := userIdeal_le (md := Kind.mode 0 .complete) hva (fun x hx => hok x (List.mem_cons_of_mem _ hx))
            (st := rootIdeal C.arch C.valueAlign (Kind.mode 0 .complete) u.L u.im u.a u.sc (t0.view, t0.vec.pos))
          have h7 := h1.pos_le
          rw [h3, userIdeal] at h7
          omega
      refine ⟨fuel, asUser_back (md := Kind.mode s'.sto.vec.ptr .complete) (D := s'.sto.vec.ptr) (st := (t0.view, t0.vec.pos)) hC hP hacc hX rfl
        (fun u hu => align_dvd_ptr hC hP hacc h1 hcap hu) h (by rw [hend]; exact ptr_end_lt hC h1) ?_ hri hpi⟩
      intro j _ hj
      rw [hend] at hj
      rw [Sto.buffer, if_pos (by omega)]
      exact hbytes j hj
    · rintro rfl i r v p hri hpi
      have := asUser_back (md := Kind.mode s'.sto.vec.ptr .ptrOffset) (D := 0) (dm := s'.sto.bytes) (st := (t0.view, t0.vec.pos)) hC hP hacc hX rfl
        (fun u _ => Nat.dvd_zero _) h (by rw [hend]; have := ptr_end_lt hC h1; omega) (by
          intro j _ hj
          rw [hend] at hj
          rw [Nat.zero_add, Sto.bytes, if_pos hj]
          exact hbytes j hj) hri hpi
      rw [Nat.zero_add] at this
      exact ⟨fuel, this⟩

end

end SerRaw
