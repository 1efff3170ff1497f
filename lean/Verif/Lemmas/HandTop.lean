import Verif.Lemmas.HandDecode
import Verif.Props.UserImpl
import Verif.Props.Serialize
/-
Sessions on values whose types have hand-written implementations (or contain such types).
-/
namespace SerRaw

section
variable {C : Cfg} {P : Prog} {fl : Flags} {X : TyId → Option HandImpl} {V V' : TyId → HandView}

/-- What lies below the end stays as it is. -/
theorem userIdeal_frame {va : Nat} (hva : 0 < va) {md : Mode} {rs : List UserRoot} (hr : ∀ r ∈ rs, r.OK C) {st : Mem × Nat} {i : Nat}
    (hi : i < st.2) : (userIdeal C.arch va md rs st).1 i = st.1 i := by
  induction rs generalizing st with
  | nil => rfl
  | cons r rs ih =>
    have ho := hr r (by simp)
    have h1 : st.2 ≤ (rootIdeal C.arch va md r.L r.im r.a r.sc st).2 := by
      have := userIdeal_le (md := md) hva (rs := [r]) (by simpa using ho) (st := st)
      exact this
    rw [userIdeal, ih (fun x hx => hr x (by simp [hx])) (by omega), rootIdeal, if_neg ho.1.size_ne]
    have h2 := le_roundUp st.2 (Pow2.pos ho.1.pow2)
    have h3 := le_roundUp (roundUp st.2 r.L.align + r.L.size) hva
    rw [ideal_frame hva r.sc ho.2 _ _ _ (by simp only; omega)]
    · simp only; rw [blit_out (by omega)]
    · intro t _
      have := outPos_ge r.a (roundUp st.2 r.L.align) t.1
      omega

/-- The values, with the calls their `serialize_data`s make. -/
inductive AsUser (C : Cfg) (P : Prog) (X : TyId → Option HandImpl) (V : TyId → HandView) (fl : Flags) (n : Nat) :
    List (Root × Val) → List UserRoot → Prop
  | nil : AsUser C P X V fl n [] []
  | cons {r v sc rs us} : decodeH C.arch P X V fl r.im n r.t r.a = some v → hScript C.arch P X r.im n r.t r.a = some sc →
      (P.layout r.t).size ≠ 0 → AsUser C P X V fl n rs us →
      AsUser C P X V fl n ((r, v) :: rs) (⟨r.im, P.layout r.t, r.a, sc⟩ :: us)

theorem AsUser.ok (hW : 0 < C.arch.ptrBytes) (hP : P.WF C.arch) (hacc : P.Accepted C) (hX : AllHandOK C P X V V') {n : Nat}
    {rs : List (Root × Val)} {us : List UserRoot} (h : AsUser C P X V fl n rs us) : ∀ u ∈ us, u.OK C := by
  induction h with
  | nil => intro u hu; cases hu
  | @cons r v sc rs us h1 h2 h3 _ ih =>
    intro u hu
    rcases List.mem_cons.1 hu with rfl | hu
    · obtain ⟨g1, g2⟩ := decodeH_guard _ _ _ _ _ _ _ _ _ _ h1
      have hac := hacc _ h3
      rw [accepts_iff] at hac
      obtain ⟨w1, _, w2, _⟩ := hP r.t
      exact ⟨⟨h3, w1, hac, by simp only; omega⟩, (hScript_wf hW hP hacc hX n _ _ _ _ _ h1 h2 (placed_root g1)).1⟩
    · exact ih u hu

/-- The same calls are made. -/
theorem AsUser.run (hW : 0 < C.arch.ptrBytes) (hP : P.WF C.arch) (hX : AllHandOK C P X V V') {n : Nat} (k : Kind)
    {rs : List (Root × Val)} {us : List UserRoot} (h : AsUser C P X V fl n rs us) :
    hValues C k P X n (rs.map Prod.fst) = userValues C k us := by
  induction h with
  | nil => rfl
  | @cons r v sc rs us h1 h2 h3 _ ih =>
    obtain ⟨sc', e1, e2⟩ := hSerData_eq hW k hP hX h1
    rw [h2] at e1; obtain rfl := Option.some.inj e1
    simp only [List.map_cons, hValues, userValues, ih, e2, UserRoot.ser]
    rfl

/-- There are such calls, the same whatever serializer is used. -/
theorem exists_asUser (hW : 0 < C.arch.ptrBytes) (hP : P.WF C.arch) (hX : AllHandOK C P X V V')
    {rs : List (Root × Val)} (hv : ∀ x ∈ rs, DenotesH C.arch P X V fl x.1.im x.1.t x.1.a x.2 ∧ (P.layout x.1.t).size ≠ 0) :
    ∃ n, ∀ fuel, n ≤ fuel → ∃ us, AsUser C P X V fl fuel rs us := by
  induction rs with
  | nil => exact ⟨0, fun _ _ => ⟨[], .nil⟩⟩
  | cons x rs ih =>
    obtain ⟨n1, h1⟩ := ih fun y hy => hv y (by simp [hy])
    obtain ⟨⟨n2, h2⟩, hz⟩ := hv x (by simp)
    refine ⟨max n1 n2, fun fuel hf => ?_⟩
    obtain ⟨us, h3⟩ := h1 fuel (by omega)
    have h4 := decodeH_mono hX (show n2 ≤ fuel by omega) h2
    obtain ⟨sc, e1, _⟩ := hSerData_eq hW .complete hP hX h4
    exact ⟨_, .cons h4 e1 hz h3⟩

/-- Reading back one value. -/
theorem hRoot_back (hC : C.OK) (hP : P.WF C.arch) (hacc : P.Accepted C) (hX : AllHandOK C P X V V') {md : Mode} {D n : Nat}
    (hD : md.ptrBase = some D) (hDal : ∀ u, (P.layout u).size ≠ 0 → (P.layout u).align ∣ D) {r : Root} {v : Val} {sc : Script}
    (hd : decodeH C.arch P X V fl r.im n r.t r.a = some v) (hs : hScript C.arch P X r.im n r.t r.a = some sc)
    (hz : (P.layout r.t).size ≠ 0) {st : Mem × Nat}
    (hb : D + (rootIdeal C.arch C.valueAlign md (P.layout r.t) r.im r.a sc st).2 < C.arch.usizeMod) {dm : Mem}
    (hdm : ∀ i, st.2 ≤ i → i < (rootIdeal C.arch C.valueAlign md (P.layout r.t) r.im r.a sc st).2 →
      dm (D + i) = (rootIdeal C.arch C.valueAlign md (P.layout r.t) r.im r.a sc st).1 i) :
    decodeH C.arch P X V' ⟨fl.canon, md.fixup⟩ dm n r.t (D + roundUp st.2 (P.layout r.t).align) = some v := by
  have hW := hC.arch.ptr_pos
  have hva := hC.facts.va.pos
  obtain ⟨g1, g2⟩ := decodeH_guard _ _ _ _ _ _ _ _ _ _ hd
  have hap := Pow2.pos (hP r.t).1
  have h1 := le_roundUp st.2 hap
  have h2 := le_roundUp (roundUp st.2 (P.layout r.t).align + (P.layout r.t).size) hva
  simp only [rootIdeal, if_neg hz] at hb hdm
  have hwf := (hScript_wf hW hP hacc hX n _ _ _ _ _ hd hs (placed_root g1)).1
  have key := (hScript_back (fl := fl) hva hW hP hacc hX hD hDal n _ _ _ _ hd hs
    ⟨r.a, (P.layout r.t).size, (P.layout r.t).align⟩ (roundUp st.2 (P.layout r.t).align)
    (st.1.blit (roundUp st.2 (P.layout r.t).align) (P.layout r.t).size fun i => r.im (r.a + i)) _ _ _ (placed_root g1) h2
    (by rw [outPos_self]; exact dvd_roundUp _ _) (hDal _ hz)
    (by intro i hi; rw [outPos_self]; exact blit_at hi) (Prod.mk.eta).symm hb).2 dm
  rw [outPos_self] at key
  have hmono := ideal_mono (A := C.arch) (md := md) (im := r.im) hva sc hwf r.a (roundUp st.2 (P.layout r.t).align)
    (st.1.blit (roundUp st.2 (P.layout r.t).align) (P.layout r.t).size fun i => r.im (r.a + i),
      roundUp (roundUp st.2 (P.layout r.t).align + (P.layout r.t).size) C.valueAlign)
  simp only at hmono
  apply key
  intro i hi
  apply hdm
  · omega
  · simp only at hi; omega

/-- Reading back every value. -/
theorem asUser_back (hC : C.OK) (hP : P.WF C.arch) (hacc : P.Accepted C) (hX : AllHandOK C P X V V') {md : Mode} {D n : Nat}
    (hD : md.ptrBase = some D) (hDal : ∀ u, (P.layout u).size ≠ 0 → (P.layout u).align ∣ D)
    {rs : List (Root × Val)} {us : List UserRoot} (h : AsUser C P X V fl n rs us) {st : Mem × Nat}
    (hb : D + (userIdeal C.arch C.valueAlign md us st).2 < C.arch.usizeMod) {dm : Mem}
    (hdm : ∀ i, st.2 ≤ i → i < (userIdeal C.arch C.valueAlign md us st).2 → dm (D + i) = (userIdeal C.arch C.valueAlign md us st).1 i)
    {i : Nat} {r : Root} {v : Val} {p : Nat} (hr : rs[i]? = some (r, v))
    (hp : (userPositions C.arch C.valueAlign us st.2)[i]? = some p) :
    decodeH C.arch P X V' ⟨fl.canon, md.fixup⟩ dm n r.t (D + p) = some v := by
  have hW := hC.arch.ptr_pos
  have hva := hC.facts.va.pos
  induction h generalizing st i with
  | nil => simp at hr
  | @cons r0 v0 sc rs us h1 h2 h3 h4 ih =>
    have hok := h4.ok hW hP hacc hX
    have hok0 := (AsUser.cons h1 h2 h3 .nil).ok hW hP hacc hX
    simp only [userIdeal] at hb hdm
    have hle := userIdeal_le (md := md) hva hok (st := rootIdeal C.arch C.valueAlign md (P.layout r0.t) r0.im r0.a sc st)
    have hle0 : st.2 ≤ (rootIdeal C.arch C.valueAlign md (P.layout r0.t) r0.im r0.a sc st).2 :=
      userIdeal_le (md := md) hva hok0 (st := st)
    cases i with
    | zero =>
      simp only [List.getElem?_cons_zero, Option.some.injEq, Prod.mk.injEq] at hr
      obtain ⟨rfl, rfl⟩ := hr
      simp only [userPositions, List.getElem?_cons_zero, Option.some.injEq] at hp
      subst hp
      refine hRoot_back hC hP hacc hX hD hDal h1 h2 h3 (by omega) fun i hi1 hi2 => ?_
      rw [hdm i hi1 (by omega), userIdeal_frame hva hok hi2]
    | succ i =>
      simp only [List.getElem?_cons_succ] at hr
      simp only [userPositions, List.getElem?_cons_succ] at hp
      rw [rootIdeal_end, ← rootIdeal_end (A := C.arch) (md := md) (im := r0.im) (a := r0.a) (st := st)] at hp
      exact ih hb (fun i hi1 hi2 => hdm i (by omega) hi2) hr hp

theorem userPositions_length {A : Arch} {va : Nat} (us : List UserRoot) (p : Nat) : (userPositions A va us p).length = us.length := by
  induction us generalizing p with
  | nil => rfl
  | cons u us ih => simp only [userPositions, List.length_cons, ih]

theorem AsUser.length {n : Nat} {rs : List (Root × Val)} {us : List UserRoot} (h : AsUser C P X V fl n rs us) : us.length = rs.length := by
  induction h with
  | nil => rfl
  | cons _ _ _ _ ih => simp only [List.length_cons, ih]

end
end SerRaw
