import Verif.Lemmas.CustomComplete
import Verif.Props.CustomSerializer
/-
C63: a serializer derived over a custom contiguous storage with `#[derive(Serializer)] #[ser_type(complete)]` is right for *every* correct
contiguous, random-access storage whose `reserve` keeps the position, wherever its buffer is and however often it moves — not only for
`AlignedVec`.

`ContigImpl`, `cSession`, `CReach` (Model/CustomComplete.lean): the storage a user writes, a session of a serializer on it, the states such a
storage can be in. `Conforms`, `buffer` (Spec/CustomComplete.lean): the contract of the storage, and what a consumer may look at.
-/
namespace SerRaw

section
variable {σ : Type} {I : ContigImpl σ} {Inv : σ → Prop} {content : σ → Mem} {P : Prog} {fl : Flags}

theorem CReach.inv (h : I.Conforms Inv content) (hP : P.WF I.C.arch) (hacc : P.Accepted I.C) {s : σ} (hr : CReach I P s) :
    Inv s ∧ I.C.valueAlign ∣ I.pos s := by
  have hR := h.random
  induction hr with
  | new => exact ⟨hR.storage.new.1, by rw [hR.storage.new.2]; exact Nat.dvd_zero _⟩
  | @withCapacity c s _ e =>
    have := hR.storage.withCapacity_sat c
    rw [e] at this
    exact ⟨this.1, by rw [this.2.1]; exact Nat.dvd_zero _⟩
  | op _ hl hr ih => have := hR.storage.step_sat ih.1 ih.2 hl; rw [hr] at this; exact ⟨this.inv, this.dvd⟩
  | opPanic _ hl hr ih => have := hR.storage.step_sat ih.1 ih.2 hl; rw [hr] at this; exact ⟨this.2.inv, this.2.dvd⟩
  | session _ hv hr ih =>
    obtain ⟨xs, rfl, hx⟩ := valid_inputs hv
    obtain ⟨n, js, _, _, hs⟩ := hR.rootsOut hP hacc ih.1 ih.2 hx (by rw [hr]; simp)
    rw [hr] at hs
    exact ⟨hs.kept.inv, hs.kept.dvd⟩
  | sessionPanic _ hv hr ih =>
    obtain ⟨xs, rfl, hx⟩ := valid_inputs hv
    obtain ⟨n, js, _, _, hs⟩ := hR.rootsOut hP hacc ih.1 ih.2 hx (by rw [hr]; simp)
    rw [hr] at hs
    exact ⟨hs.1.2.inv, hs.1.2.dvd⟩
  | complete _ hv hr ih =>
    obtain ⟨xs, rfl, hx⟩ := valid_inputs hv
    obtain ⟨n, js, _, _, hs⟩ := h.rootsOut hP hacc ih.1 ih.2 hx (by rw [hr]; simp)
    rw [hr] at hs
    exact ⟨hs.inv, hs.dvd⟩
  | completePanic _ hv hr ih =>
    obtain ⟨xs, rfl, hx⟩ := valid_inputs hv
    obtain ⟨n, js, _, _, hs⟩ := h.rootsOut hP hacc ih.1 ih.2 hx (by rw [hr]; simp)
    rw [hr] at hs
    exact ⟨hs.1.2.inv, hs.1.2.dvd⟩

/-- C63. Serializing valid values into any reachable storage with a derived `complete` serializer never has undefined behaviour and never
fails a debug assertion: given enough recursion depth it returns, panics for lack of capacity, or the process aborts (allocation failure). -/
theorem C63_outcome (h : I.Conforms Inv content) (hP : P.WF I.C.arch) (hacc : P.Accepted I.C) {t : σ} (ht : CReach I P t)
    {rs : List Root} (hv : ∀ r ∈ rs, Valid I.C.arch P r) :
    ∃ N, ∀ fuel, N ≤ fuel →
      (∃ ps s', cSession I P fuel rs (CSer.fromStorage t) = .ok ps s') ∨
      (∃ s', cSession I P fuel rs (CSer.fromStorage t) = .panic .capacity s') ∨
      cSession I P fuel rs (CSer.fromStorage t) = .abort := by
  obtain ⟨hI, hd⟩ := ht.inv h hP hacc
  obtain ⟨xs, rfl, hx⟩ := valid_inputs hv
  obtain ⟨N, hN⟩ := h.roots hP hacc hI hd hx
  refine ⟨N, fun fuel hf => ?_⟩
  obtain ⟨js, _, _, hs⟩ := hN fuel hf
  cases hr : cSession I P fuel (xs.map (·.1)) (CSer.fromStorage t) with
  | ok ps s' => exact Or.inl ⟨ps, s', rfl⟩
  | panic pk s' =>
    rw [hr] at hs
    obtain ⟨⟨rfl, _⟩, _⟩ := hs
    exact Or.inr (Or.inl ⟨s', rfl⟩)
  | abort => exact Or.inr (Or.inr rfl)
  | ub => rw [hr] at hs; exact hs.elim
  | fuel => rw [hr] at hs; exact hs.elim

/-- The reference output lies before the position, so it is part of what the consumer sees. -/
theorem CJobs.buffer {js : List Job} {t : σ} {ps : List Nat} {s' : CSer σ} (h : CJobs I Inv content P js t ps s') :
    Mem.Le (fun a => if I.asPtr s'.sto ≤ a then
      (jobsIdeal I.C.arch I.C.valueAlign (ContigImpl.cmode (I.asPtr s'.sto)) P js (fun _ => none, I.pos t)).1 (a - I.asPtr s'.sto) else none)
      (I.buffer content s'.sto) := by
  intro a b hb
  simp only at hb
  split at hb
  · rename_i hle
    have hlt : a - I.asPtr s'.sto < I.pos s'.sto := by
      apply Nat.lt_of_not_le; intro hge
      rw [h.fresh _ hge] at hb; cases hb
    unfold ContigImpl.buffer
    rw [if_pos ⟨hle, by omega⟩]
    exact h.le _ b hb
  · cases hb

theorem job_nz (hW : 0 < I.C.arch.ptrBytes) (hva : 0 < I.C.valueAlign) (hP : P.WF I.C.arch) (hacc : P.Accepted I.C) {n : Nat} {js : List Job}
    (hj : ∀ j ∈ js, j.OK I.C P fl n) {p : Nat} {x : Job × Nat} (hx : x ∈ jobsAt P I.C.valueAlign p js) (hz : (P.layout x.1.r.t).size ≠ 0) :
    0 < placeEnd I.C.valueAlign p (jobsShapes P js) := by
  obtain ⟨hm, hle, hend⟩ := jobsAt_mem_le hva hW hP hacc hj x hx
  obtain ⟨hd, hs⟩ := hj _ hm
  have hap : 0 < (P.layout x.1.r.t).align := Pow2.pos (hP x.1.r.t).1
  have h1 := le_roundUp x.2 hap
  have h2 := le_roundUp (roundUp x.2 (P.layout x.1.r.t).align + (P.layout x.1.r.t).size) hva
  have h3 := le_placeEnd hva (pushes_align x.1.sc (script_wf hW hP hacc n _ _ _ _ _ hd hs (placed_root (decode_guard hd).1)).1)
    (roundUp (roundUp x.2 (P.layout x.1.r.t).align + (P.layout x.1.r.t).size) I.C.valueAlign)
  have h4 : placeEnd I.C.valueAlign x.2 (x.1.shapes P) =
      placeEnd I.C.valueAlign (roundUp (roundUp x.2 (P.layout x.1.r.t).align + (P.layout x.1.r.t).size) I.C.valueAlign) x.1.sc.shapes := by
    simp [Job.shapes, rootShapes, hz, placeEnd, Shape.bytes]
  omega

/-- C63 (C24, C34 for any storage). After serializing any list of valid values into any reachable storage with a derived `complete`
serializer, each is found at `as_ptr() + p` where `p` is the position its `serialize_value` returned: reading there as its type, following
only pointers stored in the buffer and looking only at the buffer, gives the value, every `Vec` and `String` having capacity equal to its
length. (A zero-sized value occupies no bytes; its address is usable if aligned.) -/
theorem C63_roundtrip (h : I.Conforms Inv content) (hP : P.WF I.C.arch) (hacc : P.Accepted I.C) {t : σ} (ht : CReach I P t)
    {rs : List (Root × Val)} (hv : Inputs I.C.arch P fl rs) {fuel : Nat} {ps : List Nat} {s' : CSer σ}
    (hrun : cSession I P fuel (rs.map (·.1)) (CSer.fromStorage t) = .ok ps s') :
    ps.length = rs.length ∧ ∀ (i : Nat) (r : Root) (v : Val) (p : Nat), rs[i]? = some (r, v) → ps[i]? = some p →
      ((P.layout r.t).size ≠ 0 ∨ (P.layout r.t).align ∣ I.asPtr s'.sto) →
      Denotes I.C.arch P ⟨fl.canon, true⟩ (I.buffer content s'.sto) r.t (I.asPtr s'.sto + p) v := by
  have F := h.random.storage.facts
  have hW := h.random.storage.arch.ptr_pos
  obtain ⟨hI, hd⟩ := ht.inv h hP hacc
  obtain ⟨n, js, hm, hj, hp⟩ := h.rootsOut hP hacc hI hd hv (by rw [hrun]; simp)
  rw [hrun] at hp
  have hp : CJobs I Inv content P js t ps s' := hp
  refine ⟨jobs_length hm hp.ps, ?_⟩
  intro i r v p hr hpi hz
  obtain ⟨x, hx, rfl, rfl, rfl⟩ := jobsAt_get hm hp.ps hr hpi
  have h1 := h.random.storage.pos_le _ hp.inv
  have h2 := h.fits _ hp.inv
  have hpos := hp.pos
  have := (jobs_read (md := ContigImpl.cmode (I.asPtr s'.sto)) (va := I.C.valueAlign) (D := I.asPtr s'.sto) (m := fun _ => none) F.va.pos hW hP
    hacc rfl hj (p := I.pos t) (by omega) (dm := fun a => if I.asPtr s'.sto ≤ a then
      (jobsIdeal I.C.arch I.C.valueAlign (ContigImpl.cmode (I.asPtr s'.sto)) P js (fun _ => none, I.pos t)).1 (a - I.asPtr s'.sto) else none)
    (fun i _ _ => by rw [if_pos (by omega), show I.asPtr s'.sto + i - I.asPtr s'.sto = i by omega]) x hx
    (fun hh => hz.resolve_left (by omega)) (fun hh u hu => ?_)).1
  · exact Denotes.le hp.buffer ⟨n, this⟩
  · have hnz := job_nz hW F.va.pos hP hacc hj hx hh
    have hacc' := hacc u hu
    rw [accepts_iff] at hacc'
    exact Nat.dvd_trans (Pow2.dvd_of_le (hP u).1 F.sa (Nat.le_trans hacc' F.mva_le)) (h.aligned _ hp.inv (by omega))

/-- C63. Whatever was in the storage before a session stays where it is (by position), whether the session succeeds or panics, and the position
does not go back; after either, the storage is still consistent. -/
theorem C63_keeps (h : I.Conforms Inv content) (hP : P.WF I.C.arch) (hacc : P.Accepted I.C) {t : σ} (ht : CReach I P t)
    {rs : List Root} (hv : ∀ r ∈ rs, Valid I.C.arch P r) {fuel : Nat} {s' : CSer σ}
    (hrun : (∃ ps, cSession I P fuel rs (CSer.fromStorage t) = .ok ps s') ∨ ∃ pk, cSession I P fuel rs (CSer.fromStorage t) = .panic pk s') :
    (∀ i < I.pos t, content s'.sto i = content t i) ∧ I.pos t ≤ I.pos s'.sto ∧ I.pos s'.sto ≤ I.capacity s'.sto ∧
    I.capacity s'.sto ≤ I.C.maxCapacity ∧ I.C.valueAlign ∣ I.pos s'.sto := by
  obtain ⟨hI, hd⟩ := ht.inv h hP hacc
  obtain ⟨xs, rfl, hx⟩ := valid_inputs hv
  obtain ⟨n, js, _, _, hs⟩ := h.rootsOut hP hacc hI hd hx (fuel := fuel) (by
    rcases hrun with ⟨_, hr⟩ | ⟨_, hr⟩ <;> rw [hr] <;> simp)
  rcases hrun with ⟨_, hr⟩ | ⟨_, hr⟩
  · rw [hr] at hs
    have hs : CJobs I Inv content P js t _ s' := hs
    exact ⟨hs.below, hs.mono, h.random.storage.pos_le _ hs.inv, h.random.storage.cap_le _ hs.inv, hs.dvd⟩
  · rw [hr] at hs
    exact ⟨hs.1.2.below, hs.1.2.pos, h.random.storage.pos_le _ hs.1.2.inv, h.random.storage.cap_le _ hs.1.2.inv, hs.1.2.dvd⟩

/-- C63. A custom storage gives the output of `AlignedVec`: on the same target with the same `VALUE_ALIGNMENT`, both starting empty, the
positions returned and the length of the output are the same, and so, if both buffers ended up at the same address, is every byte the
`AlignedVec` serializer initialised. -/
theorem C63_same_output (h : I.Conforms Inv content) (hP : P.WF I.C.arch) (hacc : P.Accepted I.C) {t : σ} (ht : CReach I P t)
    {C : Cfg} (hC : C.OK) (hA : I.C.arch = C.arch) (hva : I.C.valueAlign = C.valueAlign) (haccC : P.Accepted C) (h0 : I.pos t = 0)
    {rs : List (Root × Val)} (hv : Inputs I.C.arch P fl rs) {f1 f2 : Nat} {ps1 ps2 : List Nat} {s1 : CSer σ} {s2 : Ser}
    (h1 : cSession I P f1 (rs.map (·.1)) (CSer.fromStorage t) = .ok ps1 s1)
    (h2 : session C .complete P f2 (rs.map (·.1)) (Ser.fromStorage Sto.new) = .ok ps2 s2) :
    ps1 = ps2 ∧ I.pos s1.sto = s2.sto.vec.pos ∧
    (I.asPtr s1.sto = s2.sto.asPtr → ∀ a b, s2.sto.buffer a = some b → I.buffer content s1.sto a = some b) := by
  obtain ⟨hI, hd⟩ := ht.inv h hP hacc
  obtain ⟨N1, hN1⟩ := h.roots hP hacc hI hd hv
  obtain ⟨N2, hN2⟩ := session_cases hC (hA ▸ hP) haccC .complete (Sto.new_inv C) (fl := fl) (rs := rs) (hA ▸ hv)
  obtain ⟨js, m1, o1, p1⟩ := hN1 (max (max N1 N2) (max f1 f2)) (by omega)
  obtain ⟨js', m2, o2, p2⟩ := hN2 (max (max N1 N2) (max f1 f2)) (by omega)
  have e := jobs_unique (m1.trans m2.symm) hA o1 o2
  subst e
  rw [cSession_fuel (show f1 ≤ _ by omega) _ _ (by rw [h1]; simp), h1] at p1
  rw [session_fuel (show f2 ≤ _ by omega) _ _ (by rw [h2]; simp), h2] at p2
  have p1 : CJobs I Inv content P js t ps1 s1 := p1
  have p2 : SessionPost C .complete P js (Ser.fromStorage Sto.new) (fun _ => Sto.new.view) ps2 s2 := p2
  refine ⟨?_, ?_, ?_⟩
  · rw [p1.ps, p2.ps, h0, hva]; rfl
  · rw [p1.pos, p2.pos, h0, hva]; rfl
  · intro haddr a b hb
    have hin : s2.sto.vec.ptr ≤ a ∧ a < s2.sto.vec.ptr + s2.sto.vec.pos := by
      apply Classical.byContradiction; intro hn
      unfold Sto.buffer at hb
      rw [if_neg hn] at hb; cases hb
    have hbuf := p2.buffer (i := a - s2.sto.vec.ptr) (by omega)
    rw [show s2.sto.vec.ptr + (a - s2.sto.vec.ptr) = a by omega, hb] at hbuf
    refine p1.buffer a b ?_
    change I.asPtr s1.sto = s2.sto.vec.ptr at haddr
    have hview : (Sto.new.view : Mem) = fun _ => none := by funext i; rfl
    simp only
    rw [haddr, if_pos hin.1, h0, hA, hva, ← hview]
    exact hbuf.symm

/-- C63 (C45 for any storage). Values with hand-written implementations that follow the rules of the `unsafe` methods (Spec/Discipline.lean):
either everything is done, the values are at the positions the reference serializer gives them (`userPositions`), the output is as long as the
reference output (`userIdeal`, pointers being addresses in the final buffer) and contains its every byte, and what was stored before is
untouched; or there is a panic for lack of capacity, what was stored before being untouched; or the process aborts. Never undefined
behaviour. -/
theorem C63_user (h : I.Conforms Inv content) (hP : P.WF I.C.arch) (hacc : P.Accepted I.C) {t : σ} (ht : CReach I P t)
    {rs : List UserRoot} (hr : ∀ r ∈ rs, r.OK I.C) (hty : ∀ r ∈ rs, r.L.OK ∧ r.sc.RealTypes ∧ r.sc.RealOverwrites) :
    let ref := fun B => userIdeal I.C.arch I.C.valueAlign (Kind.complete.mode B) rs (fun _ => none, I.pos t)
    (∃ ps s', cUserSession I rs (CSer.fromStorage t) = .ok ps s' ∧ ps = userPositions I.C.arch I.C.valueAlign rs (I.pos t) ∧
      I.pos s'.sto = (ref (I.asPtr s'.sto)).2 ∧
      (∀ i b, (ref (I.asPtr s'.sto)).1 i = some b → I.buffer content s'.sto (I.asPtr s'.sto + i) = some b) ∧
      ∀ i < I.pos t, content s'.sto i = content t i) ∨
    (∃ s', cUserSession I rs (CSer.fromStorage t) = .panic .capacity s' ∧ ∀ i < I.pos t, content s'.sto i = content t i) ∨
    cUserSession I rs (CSer.fromStorage t) = .abort := by
  intro ref
  obtain ⟨hI, hd⟩ := ht.inv h hP hacc
  have hv : ∀ v ∈ rs, ContigImpl.CValueOK I.C v := fun v hv =>
    ⟨⟨(hty v hv).1, fun _ => (hr v hv).1, fun _ => (hr v hv).2, (hty v hv).2.1, fun hz => absurd hz (hr v hv).1.size_ne⟩, (hty v hv).2.2⟩
  have hs := h.csession rs hv hI hd
  cases hr' : cUserSession I rs (CSer.fromStorage t) with
  | ok ps s' =>
    rw [hr'] at hs
    refine Or.inl ⟨ps, s', rfl, by rw [hs.ps]; exact gPos_user (fun r hx => (hr r hx).1.size_ne) _ _, hs.pos, ?_, hs.below⟩
    intro i b hb
    have hlt : i < I.pos s'.sto := by
      apply Nat.lt_of_not_le; intro hle
      have := hs.fresh i hle
      rw [show (userIdeal I.C.arch I.C.valueAlign (ContigImpl.cmode (I.asPtr s'.sto)) rs (fun _ => none, I.pos t)).1 i = some b from hb] at this
      cases this
    unfold ContigImpl.buffer
    rw [if_pos ⟨by omega, by omega⟩, show I.asPtr s'.sto + i - I.asPtr s'.sto = i by omega]
    exact hs.le i b hb
  | panic pk s' =>
    rw [hr'] at hs
    obtain ⟨⟨rfl, hs⟩, _⟩ := hs
    exact Or.inr (Or.inl ⟨s', rfl, hs.below⟩)
  | abort => exact Or.inr (Or.inr rfl)
  | ub => rw [hr'] at hs; exact hs.elim
  | fuel => rw [hr'] at hs; exact hs.elim

end

/-! ### `AlignedVec` -/

/-- C63. `AlignedVec` keeps the contract. -/
theorem C63_aligned_vec {C : Cfg} (hC : C.OK) : (alignedVecContig C).Conforms (Sto.WInv C) Sto.view where
  random := C62_aligned_vec hC
  nonNull s h hc := by
    change 0 < s.vec.capacity at hc
    rcases h.mem with ⟨h0, _, _⟩ | ⟨_, hp0, _, _, _⟩
    · omega
    · exact Nat.pos_of_ne_zero hp0
  aligned s h hc := by
    change 0 < s.vec.capacity at hc
    rcases h.mem with ⟨h0, _, _⟩ | ⟨_, _, hd, _, _⟩
    · omega
    · exact hd
  fits s h := by
    change s.vec.ptr + s.vec.capacity < C.arch.usizeMod
    have h2 : 1 < C.arch.usizeMod := Nat.one_lt_two_pow (by unfold Arch.usizeBits; have := hC.arch.ptr_pos; omega)
    rcases h.mem with ⟨h0, h1, _⟩ | ⟨_, _, _, h1, _⟩
    · omega
    · omega
  rawAdd s p h hp := by
    change p < s.vec.capacity at hp
    change ptrAdd s.vec.ptr p s = .ok (s.vec.ptr + p) s
    rcases h.mem with ⟨h0, _, _⟩ | ⟨hc0, hp0, hpd, hpe, d, hl⟩
    · omega
    unfold ptrAdd
    split
    · rename_i hz; simp [hz]
    · rw [if_pos]; simp [hl, Block.contains]; omega
  rawLoad s p w h hp hd hpm hw := by
    have F := hC.facts
    have hpp := hC.arch.ptr_pos
    have hpl := h.pos_le
    change p + C.arch.ptrBytes ≤ s.vec.pos at hp
    change C.arch.ptrBytes ∣ p at hd
    change C.arch.ptrBytes ≤ C.maxValueAlign at hpm
    change readWord C.arch s.view p = some w at hw
    rcases h.mem with ⟨h0, _, _⟩ | ⟨hc0, hp0, hpd, hpe, d, hl⟩
    · omega
    have hsa : C.arch.ptrBytes ∣ C.storageAlign := hC.arch.ptr_pow2.dvd_of_le F.sa (Nat.le_trans hpm F.mva_le)
    have hda : C.arch.ptrBytes ∣ s.vec.ptr + p := Nat.dvd_add (Nat.dvd_trans hsa hpd) hd
    have hcont : (⟨s.vec.ptr, s.vec.capacity, C.storageAlign, d⟩ : Block).contains (s.vec.ptr + p) C.arch.ptrBytes = true := by
      simp [Block.contains]; omega
    have hal : ¬ (s.vec.ptr + p = 0 ∨ (s.vec.ptr + p) % C.arch.ptrBytes ≠ 0) := by
      rw [not_or]; exact ⟨by omega, by simp [Nat.dvd_iff_mod_eq_zero.1 hda]⟩
    have hrd : memRef (s.vec.ptr + p) C.arch.ptrBytes C.arch.ptrBytes s = .ok (fun i => s.w.load (s.vec.ptr + p + i)) s := by
      unfold memRef
      rw [if_neg hal, if_neg (by omega), if_pos (by simp only [hl, List.any_cons, hcont, Bool.true_or])]
    have hload : readWord C.arch (fun i => s.w.load (s.vec.ptr + p + i)) 0 = some w := by
      rw [← hw]
      refine readWord_congr fun i hi => ?_
      rw [Sto.view_of_live hl]
      simp only [World.load, hl, List.find?_cons, Nat.zero_add]
      have : (⟨s.vec.ptr, s.vec.capacity, C.storageAlign, d⟩ : Block).contains (s.vec.ptr + p + i) 1 = true := by
        simp [Block.contains]; omega
      simp only [this]
      rw [if_pos (by omega)]
      congr 1; omega
    refine (bind_ok hrd).trans ?_
    simp only [hload]
    rfl
  rawStore s p w h hp hd hpm := by
    have F := hC.facts
    have hpp := hC.arch.ptr_pos
    have hpl := h.pos_le
    change p + C.arch.ptrBytes ≤ s.vec.pos at hp
    change C.arch.ptrBytes ∣ p at hd
    change C.arch.ptrBytes ≤ C.maxValueAlign at hpm
    obtain ⟨s', h1, h2, _, h3, h4⟩ := writeSlice_ok hC h (p := p) (len := 1) (L := ⟨C.arch.ptrBytes, C.arch.ptrBytes⟩)
      (wordCells C.arch w) (by simp only; omega) (by omega) (by simp only; omega) hC.arch.ptr_pow2 hd (Nat.le_trans hpm F.mva_le)
    simp only [Nat.mul_one] at h1 h4
    have hadd : ptrAdd s.vec.ptr p s = .ok (s.vec.ptr + p) s := by
      rcases h.mem with ⟨h0, _, _⟩ | ⟨hc0, hp0, hpd, hpe, d, hl⟩
      · omega
      unfold ptrAdd
      split
      · rename_i hz; simp [hz]
      · rw [if_pos]; simp [hl, Block.contains]; omega
    refine ⟨s', ?_, h3, ?_, ?_, ?_, ?_, ?_⟩
    · change memWrite (s.vec.ptr + p) C.arch.ptrBytes C.arch.ptrBytes (wordCells C.arch w) s = .ok () s'
      rw [← h1]
      unfold Sto.writeSlice
      rw [bind_ok (show Sto.getCapacity s = .ok s.vec.capacity s from rfl),
        bind_ok (debugAssert_true _ (decide_eq_true (by omega)) s), bind_ok (debugAssertM_ok _ ?_),
        bind_ok (debugAssertM_ok _ ?_), if_neg (by simp only; omega), bind_ok (show Sto.getPtr s = .ok s.vec.ptr s from rfl),
        bind_ok hadd]
      · simp only [Nat.mul_one]
      · intro _; rw [isAlignedTo_ok hC.arch.ptr_pow2, decide_eq_true hd]
      · intro _
        have := h.cap_le; have := F.max_lt
        rw [bind_ok (usub_ok _ (by omega) s), bind_ok (umul_ok _ (by simp only; omega) s)]
        simp only [pure_run]; rw [decide_eq_true]; omega
    · show s'.vec.pos = s.vec.pos
      rw [h2]
    · show s'.vec.capacity = s.vec.capacity
      rw [h2]
    · show s'.vec.ptr = s.vec.ptr
      rw [h2]
    · intro i hi; rw [h4]; exact blit_at hi
    · intro i _ ho
      change i < p ∨ p + C.arch.ptrBytes ≤ i at ho
      rw [h4]; exact blit_out ho

/-- A state of the generic serializer as a state of the serializer on `AlignedVec`. -/
def CSer.toSer (g : CSer Sto) : Ser := ⟨g.sto, g.map, g.ptrs⟩

/-- `y` does on `AlignedVec` what `x` does. -/
def CSim {α : Type} (x : M (CSer Sto) α) (y : M Ser α) : Prop := ∀ g, y g.toSer = (x g).mapState CSer.toSer

section
variable {C : Cfg}

theorem CSim.bind {α β : Type} {x : M (CSer Sto) α} {y : M Ser α} {f : α → M (CSer Sto) β} {f' : α → M Ser β} (h : CSim x y)
    (hf : ∀ a, CSim (f a) (f' a)) : CSim (x >>= f) (y >>= f') := by
  intro g
  rw [bind_def, bind_def, h g]
  cases x g with
  | ok a s => exact hf a s
  | _ => rfl

theorem CSim.pure {α : Type} (a : α) : CSim (Pure.pure a) (Pure.pure a) := fun _ => rfl
theorem CSim.ub {α : Type} : CSim (M.ub : M (CSer Sto) α) M.ub := fun _ => rfl
theorem CSim.fuel {α : Type} : CSim (M.outOfFuel : M (CSer Sto) α) M.outOfFuel := fun _ => rfl

theorem CSim.lift {α : Type} (x : M Sto α) : CSim (CSer.lift x) (Ser.lift x) := by
  intro g
  show Ser.lift x ⟨g.sto, g.map, g.ptrs⟩ = _
  unfold Ser.lift CSer.lift
  cases x g.sto <;> rfl

theorem CSim.getMap : CSim CSer.getMap Ser.getMap := fun _ => rfl
theorem CSim.setMap (m : PosMapping) : CSim (CSer.setMap m) (Ser.setMap m) := fun _ => rfl
theorem CSim.getCapacity : CSim (CSer.getCapacity (alignedVecImpl C)) Ser.getCapacity := fun _ => rfl

theorem CSim.ite {α : Type} {c : Prop} [Decidable c] {x x' : M (CSer Sto) α} {y y' : M Ser α} (h : CSim x y) (h' : CSim x' y') :
    CSim (if c then x else x') (if c then y else y') := by split <;> assumption

theorem CSim.throw {α : Type} (k : PanicKind) : CSim (M.throw k : M (CSer Sto) α) (M.throw k) := fun _ => rfl
theorem CSim.assert (k : PanicKind) (b : Bool) : CSim (M.assert k b) (M.assert k b) := by
  unfold M.assert; cases b <;> intro _ <;> rfl

theorem CSim.debugAssert (b : Bool) : CSim (M.debugAssert C.arch b) (M.debugAssert C.arch b) := by
  intro g; unfold M.debugAssert; split <;> rfl

theorem CSim.uadd (a b : Nat) : CSim (SerRaw.uadd C.arch a b) (SerRaw.uadd C.arch a b) := by
  intro g; unfold SerRaw.uadd; split
  · rfl
  · split <;> rfl

theorem CSim.usub (a b : Nat) : CSim (SerRaw.usub C.arch a b) (SerRaw.usub C.arch a b) := by
  intro g; unfold SerRaw.usub; split
  · rfl
  · split <;> rfl

theorem CSim.debugAssertM {x : M (CSer Sto) Bool} {y : M Ser Bool} (h : CSim x y) :
    CSim (M.debugAssertM C.arch x) (M.debugAssertM C.arch y) := by
  unfold M.debugAssertM
  exact CSim.ite (h.bind fun b => CSim.debugAssert b) (CSim.pure ())

theorem CSim.isAlignedTo (a b : Nat) : CSim (SerRaw.isAlignedTo C.arch a b) (SerRaw.isAlignedTo C.arch a b) := by
  unfold SerRaw.isAlignedTo
  exact (CSim.debugAssert _).bind fun _ => (CSim.usub _ _).bind fun _ => CSim.pure _

theorem CSim.posForAddr (m : PosMapping) (a : Nat) : CSim (m.posForAddr C.arch a) (m.posForAddr C.arch a) := by
  unfold PosMapping.posForAddr
  exact (CSim.usub _ _).bind fun _ => CSim.uadd _ _

theorem CSim.readIn (im : Mem) (a : Nat) : CSim (SerRaw.readIn C.arch im a) (SerRaw.readIn C.arch im a) := by
  unfold SerRaw.readIn
  split
  · exact CSim.pure _
  · exact CSim.ub

theorem CSim.constEval {α : Type} (x : Option α) : CSim (SerRaw.constEval x) (SerRaw.constEval x) := by
  cases x
  · exact CSim.throw _
  · exact CSim.pure _

theorem CSim.pushRaw (sl : Slice) : CSim (CSer.pushRawSlice (alignedVecContig C) sl) (SerRaw.pushRawSlice C sl) := CSim.lift _

theorem CSim.overwritePtr (x y : Nat) : CSim (CSer.doOverwritePtr (alignedVecContig C) x y) (SerRaw.overwritePtr C .complete x y) := by
  show CSim _ (Complete.doOverwritePtr C x y)
  unfold CSer.doOverwritePtr Complete.doOverwritePtr
  refine CSim.getCapacity.bind fun _ => (CSim.debugAssertM ((CSim.usub _ _).bind fun _ => CSim.pure _)).bind fun _ =>
    (CSim.debugAssertM (CSim.isAlignedTo _ _)).bind fun _ => (CSim.debugAssert _).bind fun _ => ?_
  intro g
  exact ((CSim.uadd _ _).bind fun _ => (CSim.lift _).bind fun _ => fun _ => rfl) g

theorem CSim.pushProcess (sl : Slice) (a : Nat) {x : M (CSer Sto) Unit} {y : M Ser Unit} (h : CSim x y) :
    CSim (CSer.pushAndProcessSlice (alignedVecContig C) sl a x) (SerRaw.pushAndProcessSlice C .complete sl a y) :=
  CSim.getMap.bind fun _ => (CSim.lift _).bind fun _ => (CSim.posForAddr _ _).bind fun _ => (CSim.overwritePtr _ _).bind fun _ =>
    (CSim.setMap _).bind fun _ => h.bind fun _ => (CSim.setMap _).bind fun _ => CSim.pure _

theorem CSim.pushSlice (sl : Slice) (a : Nat) :
    CSim (CSer.pushSlice (alignedVecContig C) sl a) (SerRaw.pushSlice C .complete sl a) :=
  (CSim.pushRaw _).bind fun _ => CSim.getMap.bind fun _ => (CSim.posForAddr _ _).bind fun _ => (CSim.overwritePtr _ _).bind fun _ =>
    CSim.pure _

theorem CSim.overwrite (a : Nat) (L : Layout) (d : Nat → Cell) :
    CSim (CSer.overwrite (alignedVecContig C) a L d) (SerRaw.overwrite C .complete a L d) :=
  CSim.getMap.bind fun _ => (CSim.posForAddr _ _).bind fun _ => CSim.lift _

theorem CSim.value (L : Layout) (a : Nat) (d : Nat → Cell) {x : M (CSer Sto) Unit} {y : M Ser Unit} (h : CSim x y) :
    CSim (CSer.serializeValue (alignedVecContig C) L a d x) (SerRaw.serializeValue C .complete L a d y) :=
  (CSim.pushRaw _).bind fun _ => (CSim.setMap _).bind fun _ => h.bind fun _ => CSim.pure _

variable {P : Prog} {im : Mem}

theorem CSim.each {r : TyId → Nat → M (CSer Sto) Unit} {r' : TyId → Nat → M Ser Unit} (h : ∀ t a, CSim (r t a) (r' t a)) (a : Nat)
    (fs : List Field) : CSim (cEach r a fs) (serEach r' a fs) := by
  induction fs with
  | nil => exact CSim.pure _
  | cons f fs ih => exact (h _ _).bind fun _ => ih

theorem CSim.fixEmpty (off : VecOffsets) (d a : Nat) :
    CSim (cFixEmpty (alignedVecContig C) off d a) (overwriteCapAndPtrForEmpty C .complete off d a) := by
  unfold cFixEmpty overwriteCapAndPtrForEmpty
  refine CSim.ite (CSim.overwrite _ _ _) (CSim.ite (CSim.overwrite _ _ _) (CSim.ite ?_ (CSim.ite ?_ ?_)))
  · exact (CSim.uadd _ _).bind fun _ => CSim.overwrite _ _ _
  · exact (CSim.uadd _ _).bind fun _ => CSim.overwrite _ _ _
  · exact (CSim.uadd _ _).bind fun _ => (CSim.overwrite _ _ _).bind fun _ => (CSim.uadd _ _).bind fun _ => CSim.overwrite _ _ _

theorem CSim.vec {r : TyId → Nat → M (CSer Sto) Unit} {r' : TyId → Nat → M Ser Unit} (h : ∀ t a, CSim (r t a) (r' t a)) (t a : Nat) :
    CSim (cVec (alignedVecContig C) P im r t a) (serVec C .complete P im r' t a) := by
  unfold cVec serVec
  refine CSim.ite (CSim.pure _) ?_
  refine (CSim.readIn _ _).bind fun _ => (CSim.readIn _ _).bind fun _ => (CSim.readIn _ _).bind fun _ => (CSim.constEval _).bind fun _ => ?_
  refine CSim.ite (CSim.ite (CSim.fixEmpty _ _ _) (CSim.pure _)) ?_
  refine CSim.bind (CSim.ite ((CSim.uadd _ _).bind fun _ => CSim.overwrite _ _ _) (CSim.pure _)) fun _ => ?_
  exact (CSim.uadd _ _).bind fun _ => (CSim.pushProcess _ _ (CSim.each h _ _)).bind fun _ => CSim.pure _

theorem CSim.string (a : Nat) : CSim (cString (alignedVecContig C) P im a) (serString C .complete P im a) := by
  unfold cString serString
  refine (CSim.readIn _ _).bind fun _ => (CSim.readIn _ _).bind fun _ => (CSim.readIn _ _).bind fun _ => (CSim.constEval _).bind fun _ => ?_
  refine CSim.ite (CSim.ite (CSim.fixEmpty _ _ _) (CSim.pure _)) ?_
  refine CSim.bind (CSim.ite ((CSim.uadd _ _).bind fun _ => CSim.overwrite _ _ _) (CSim.pure _)) fun _ => ?_
  exact (CSim.uadd _ _).bind fun _ => (CSim.pushSlice _ _).bind fun _ => CSim.pure _

theorem CSim.bigintOffset (u : TyId) : CSim (bigintDataOffset C.arch P u) (bigintDataOffset C.arch P u) := by
  unfold bigintDataOffset
  refine (CSim.constEval _).bind fun _ => (CSim.constEval _).bind fun _ => ?_
  split
  · refine CSim.ite ?_ ?_
    · exact (CSim.assert _ _).bind fun _ => CSim.pure _
    · exact (CSim.assert _ _).bind fun _ => CSim.pure _
  · exact CSim.ub

theorem CSim.data (n t a : Nat) : CSim (cData (alignedVecContig C) P im n t a) (serData C .complete P im n t a) := by
  induction n generalizing t a with
  | zero => exact CSim.fuel
  | succ n ih =>
    rw [cData, serData]
    cases P.defn t with
    | prim => exact CSim.pure _
    | box u =>
      refine CSim.ite (CSim.pure _) ?_
      exact (CSim.readIn _ _).bind fun _ => (CSim.pushProcess _ _ (ih _ _)).bind fun _ => CSim.pure _
    | vec u => exact CSim.vec ih _ _
    | string => exact CSim.string _
    | array u m => exact CSim.each ih _ _
    | struct fs => exact CSim.each ih _ _
    | enum tag vs =>
      simp only [cEnum, serEnum]
      cases hv : activeVariant C.arch im a tag with
      | none =>
        rw [show activeVariant (alignedVecContig C).C.arch im a tag = none from hv]
        exact CSim.ub
      | some i =>
        rw [show activeVariant (alignedVecContig C).C.arch im a tag = some i from hv]
        cases hi : vs[i]? with
        | none => simp only [hi]; exact CSim.ub
        | some fs => simp only [hi]; exact CSim.each ih _ _
    | bigUint u => exact CSim.vec ih _ _
    | bigInt u =>
      simp only [cBigInt, serBigInt]
      cases P.defn u with
      | bigUint w => exact (CSim.bigintOffset _).bind fun _ => ih _ _
      | _ => exact CSim.ub

theorem correctPtr_same (x y z : Nat) : CSer.correctPtr (alignedVecContig C) x y z = SerRaw.correctPtr C.arch x y z := by
  unfold CSer.correctPtr SerRaw.correctPtr
  funext s
  show (ptrAdd x z >>= _) s = (ptrAdd x z >>= _) s
  rw [bind_def, bind_def]
  cases ptrAdd x z s with
  | ok a s1 =>
    simp only
    show ((memRef a C.arch.ptrBytes C.arch.ptrBytes >>= _) >>= _) s1 = (memRef a C.arch.ptrBytes C.arch.ptrBytes >>= _) s1
    rw [bind_def, bind_def, bind_def]
    cases memRef a C.arch.ptrBytes C.arch.ptrBytes s1 with
    | ok cells s2 =>
      simp only
      cases readWord C.arch cells 0 <;> rfl
    | _ => rfl
  | _ => rfl

theorem correctLoop_same (x y : Nat) (ps : List Nat) : CSer.correctLoop (alignedVecContig C) x y ps = SerRaw.correctLoop C.arch x y ps := by
  induction ps with
  | nil => rfl
  | cons p ps ih => rw [CSer.correctLoop, SerRaw.correctLoop, correctPtr_same, ih]

theorem correctPast_same (x : Nat) (gs : List PtrGroup) : CSer.correctPast (alignedVecContig C) x gs = Complete.correctPast C.arch x gs := by
  induction gs with
  | nil => rfl
  | cons g gs ih =>
    rw [CSer.correctPast, Complete.correctPast, ih]
    have : CSer.correctPtrs (alignedVecContig C) g x = g.correctPtrs C.arch x := correctLoop_same _ _ _
    rw [this]

theorem CSim.finalize : CSim (CSer.finalize (alignedVecContig C)) (SerRaw.finalize C .complete) := by
  intro g
  show (Complete.doFinalize C) g.toSer = _
  have h1 : ∀ (q : Ptrs) (x : Nat), CSim (do
      (if q.current.addr ≠ x ∧ q.current.isEmpty = false then CSer.lift (CSer.correctPtrs (alignedVecContig C) q.current x) else Pure.pure ())
      CSer.lift (CSer.correctPast (alignedVecContig C) x q.past)) (do
      (if q.current.addr ≠ x ∧ q.current.isEmpty = false then Ser.lift (q.current.correctPtrs C.arch x) else Pure.pure ())
      Ser.lift (Complete.correctPast C.arch x q.past)) := by
    intro q x
    have : CSer.correctPtrs (alignedVecContig C) q.current x = q.current.correctPtrs C.arch x := correctLoop_same _ _ _
    rw [this, correctPast_same]
    exact (CSim.ite (CSim.lift _) (CSim.pure _)).bind fun _ => CSim.lift _
  exact h1 g.ptrs g.sto.asPtr g

end

/-- C63. The model of `complete` serializers over a custom storage, applied to `AlignedVec`, is the model used by all other properties: for
*every* input (valid or not), storage state and outcome, the run of `cSession` is the run of `session`. -/
theorem C63_aligned_vec_same (C : Cfg) (P : Prog) (fuel : Nat) (rs : List Root) (t : Sto) :
    session C .complete P fuel rs (Ser.fromStorage t) =
      (cSession (alignedVecContig C) P fuel rs (CSer.fromStorage t)).mapState CSer.toSer := by
  have h : ∀ rs, CSim (cRoots (alignedVecContig C) P fuel rs) (serValues C .complete P fuel rs) := by
    intro rs
    induction rs with
    | nil => exact CSim.pure _
    | cons r rs ih => exact (CSim.value _ _ _ (CSim.data _ _ _)).bind fun _ => ih.bind fun _ => CSim.pure _
  exact ((h rs).bind fun _ => CSim.finalize.bind fun _ => CSim.pure _) (CSer.fromStorage t)

/-! ### Another conforming storage, which moves -/

/-- A storage of a user: a buffer of `MAX_CAPACITY` bytes that lives at one of two addresses. (A hypothetical implementation, not part of
/repo: it shows that the contract admits implementations other than `AlignedVec`, and ones that move more often.) -/
structure MovingStorage where
  pos : Nat
  addr : Nat
  mem : Mem

/-- The methods of the hypothetical storage: every successful `reserve` moves the buffer to the other address. Outside their safety
contracts the unsafe methods, and accesses to memory outside the current buffer, have undefined behaviour. -/
def movingImpl (C : Cfg) : ContigImpl MovingStorage where
  C := C
  new := ⟨0, C.storageAlign, fun _ => some 0⟩
  withCapacityUnchecked _ := fun _ => .ok () ⟨0, C.storageAlign, fun _ => some 0⟩
  capacity _ := C.maxCapacity
  pos s := s.pos
  setPos p := fun s => if p ≤ C.maxCapacity ∧ C.valueAlign ∣ p then .ok () { s with pos := p } else .ub
  pushSliceUnchecked L len data size := fun s =>
    if s.pos + size ≤ C.maxCapacity ∧ L.align ∣ s.pos ∧ size = L.size * len then
      .ok () { s with pos := s.pos + size, mem := s.mem.blit s.pos size data } else .ub
  reserve n := fun s => if s.pos + n ≤ C.maxCapacity then .ok () { s with addr := 3 * C.storageAlign - s.addr } else .panic .capacity s
  shrinkToFit := fun s => .ok () s
  writeSlice p L len data := fun s =>
    if p + L.size * len ≤ C.maxCapacity ∧ L.align ∣ p then .ok () { s with mem := s.mem.blit p (L.size * len) data } else .ub
  asPtr s := s.addr
  rawAdd a p := fun s => if a = s.addr ∧ p ≤ C.maxCapacity then .ok (a + p) s else .ub
  rawLoad a := fun s =>
    if s.addr ≤ a ∧ a + C.arch.ptrBytes ≤ s.addr + C.maxCapacity ∧ C.arch.ptrBytes ∣ a then
      match readWord C.arch s.mem (a - s.addr) with
      | some w => .ok w s
      | none => .ub
    else .ub
  rawStore a w := fun s =>
    if s.addr ≤ a ∧ a + C.arch.ptrBytes ≤ s.addr + C.maxCapacity ∧ C.arch.ptrBytes ∣ a then
      .ok () { s with mem := s.mem.blit (a - s.addr) C.arch.ptrBytes (wordCells C.arch w) }
    else .ub

/-- C63. The moving storage keeps the contract. -/
theorem C63_moving {C : Cfg} (hC : C.OK) : (movingImpl C).Conforms
    (fun s => s.pos ≤ C.maxCapacity ∧ (s.addr = C.storageAlign ∨ s.addr = 2 * C.storageAlign)) MovingStorage.mem where
  random :=
    { storage :=
        { arch := hC.arch
          consts := hC.valid
          pos_le := fun _ h => h.1
          cap_le := fun _ _ => Nat.le_refl _
          cap_dvd := fun _ _ => hC.facts.max_dvd
          new := ⟨⟨Nat.zero_le _, Or.inl rfl⟩, rfl⟩
          withCapacity := fun c _ h1 _ => Or.inl ⟨_, rfl, ⟨Nat.zero_le _, Or.inl rfl⟩, rfl, h1⟩
          setPos := fun s p h h1 h2 => ⟨{ s with pos := p }, if_pos ⟨h1, h2⟩, ⟨h1, h.2⟩, rfl, rfl, rfl⟩
          pushSliceUnchecked := fun s L len data h hL hz hal hroom hd hlen => by
            refine ⟨{ s with pos := s.pos + L.size * len, mem := s.mem.blit s.pos (L.size * len) data }, if_pos ⟨hroom, hd, rfl⟩, ⟨hroom, h.2⟩,
              rfl, rfl, ?_, ?_⟩
            · intro i hi; exact blit_at hi
            · intro i hi
              change i < s.pos at hi
              exact blit_out (by omega)
          reserve := fun s n h => by
            by_cases h1 : s.pos + n ≤ C.maxCapacity
            · refine Or.inl ⟨{ s with addr := 3 * C.storageAlign - s.addr }, if_pos h1, ⟨h.1, ?_⟩, h1, Nat.le_refl _, Or.inl rfl, fun _ _ => rfl⟩
              rcases h.2 with h2 | h2 <;> simp only [h2] <;> omega
            · exact Or.inr (Or.inl ⟨s, if_neg h1, h, rfl, Nat.le_refl _, fun _ _ => rfl⟩)
          shrinkToFit := fun s h _ => Or.inl ⟨s, rfl, h, rfl, Nat.le_refl _, fun _ _ => rfl⟩ }
      inPlace := fun s n s' _ e => by
        change (if s.pos + n ≤ C.maxCapacity then Out.ok () { s with addr := 3 * C.storageAlign - s.addr } else .panic .capacity s) = .ok () s' at e
        split at e
        · cases e; rfl
        · cases e
      writeSlice := fun s p L len data h hL hz hal hlen hroom hd => by
        refine ⟨{ s with mem := s.mem.blit p (L.size * len) data }, if_pos ⟨hroom, hd⟩, h, rfl, rfl, ?_, ?_⟩
        · intro i hi; exact blit_at hi
        · intro i _ ho; exact blit_out (by omega) }
  nonNull s h _ := by
    have := hC.facts.sa.pos
    change 0 < s.addr
    rcases h.2 with h2 | h2 <;> omega
  aligned s h _ := by
    change C.storageAlign ∣ s.addr
    rcases h.2 with h2 | h2
    · rw [h2]
    · rw [h2]; exact Nat.dvd_mul_left _ _
  fits s h := by
    change s.addr + C.maxCapacity < C.arch.usizeMod
    have h1 := hC.facts.max_le
    have h2 := hC.facts.isize_lt
    have h3 := hC.facts.max_pos
    rcases h.2 with h4 | h4 <;> omega
  rawAdd s p h hp := by
    change p < C.maxCapacity at hp
    exact if_pos ⟨rfl, by omega⟩
  rawLoad s p w h hp hd hpm hw := by
    change p + C.arch.ptrBytes ≤ s.pos at hp
    change C.arch.ptrBytes ∣ p at hd
    change readWord C.arch s.mem p = some w at hw
    have h1 := h.1
    have hda : C.arch.ptrBytes ∣ s.addr + p := by
      have hsa : C.arch.ptrBytes ∣ C.storageAlign := hC.arch.ptr_pow2.dvd_of_le hC.facts.sa (Nat.le_trans hpm hC.facts.mva_le)
      refine Nat.dvd_add (Nat.dvd_trans hsa ?_) hd
      rcases h.2 with h2 | h2
      · rw [h2]
      · rw [h2]; exact Nat.dvd_mul_left _ _
    refine (if_pos (show s.addr ≤ s.addr + p ∧ s.addr + p + C.arch.ptrBytes ≤ s.addr + C.maxCapacity ∧ C.arch.ptrBytes ∣ s.addr + p from
      ⟨by omega, by omega, hda⟩)).trans ?_
    rw [show (movingImpl C).asPtr s + p - s.addr = p from Nat.add_sub_cancel_left _ _, hw]
  rawStore s p w h hp hd hpm := by
    change p + C.arch.ptrBytes ≤ s.pos at hp
    change C.arch.ptrBytes ∣ p at hd
    have h1 := h.1
    have hda : C.arch.ptrBytes ∣ s.addr + p := by
      have hsa : C.arch.ptrBytes ∣ C.storageAlign := hC.arch.ptr_pow2.dvd_of_le hC.facts.sa (Nat.le_trans hpm hC.facts.mva_le)
      refine Nat.dvd_add (Nat.dvd_trans hsa ?_) hd
      rcases h.2 with h2 | h2
      · rw [h2]
      · rw [h2]; exact Nat.dvd_mul_left _ _
    refine ⟨{ s with mem := s.mem.blit p C.arch.ptrBytes (wordCells C.arch w) }, ?_, h, rfl, rfl, rfl, ?_, ?_⟩
    · refine (if_pos (show s.addr ≤ s.addr + p ∧ s.addr + p + C.arch.ptrBytes ≤ s.addr + C.maxCapacity ∧ C.arch.ptrBytes ∣ s.addr + p from
        ⟨by omega, by omega, hda⟩)).trans ?_
      rw [show (movingImpl C).asPtr s + p - s.addr = p from Nat.add_sub_cancel_left _ _]
    · intro i hi; exact blit_at hi
    · intro i _ ho; exact blit_out ho

/-- What a session on the moving storage returned: the positions, the end of the output and the address. -/
def Out.movingResult {α : Type} (o : Out (CSer MovingStorage) α) : Option (α × Nat × Nat × Nat) :=
  match o with
  | .ok a s => some (a, s.sto.pos, s.sto.addr, s.ptrs.past.length)
  | _ => none

theorem Out.movingResult_ok {α : Type} {o : Out (CSer MovingStorage) α} {r : α × Nat × Nat × Nat} (h : o.movingResult = some r) :
    ∃ s, o = .ok r.1 s ∧ s.sto.pos = r.2.1 ∧ s.sto.addr = r.2.2.1 ∧ s.ptrs.past.length = r.2.2.2 := by
  cases o with
  | ok a s => simp only [Out.movingResult, Option.some.injEq] at h; subst h; exact ⟨s, rfl, rfl, rfl, rfl⟩
  | _ => cases h

/-- The example values (a linked node with strings, a zero-sized value, a `BigInt`, an enum) serialized to a new moving storage: 200 bytes,
the buffer having moved between the writing of pointers, so that `finalize` has two groups of pointers to correct. -/
theorem movingRun : ∃ s', cSession (movingImpl cfg64) exP 6 (exRoots.map Prod.fst) (CSer.fromStorage (movingImpl cfg64).new) =
    .ok [0, 0, 136, 184] s' ∧ s'.sto.pos = 200 ∧ s'.sto.addr = 32 ∧ s'.ptrs.past.length = 2 := by
  have h : (cSession (movingImpl cfg64) exP 6 (exRoots.map Prod.fst) (CSer.fromStorage (movingImpl cfg64).new)).movingResult =
      some ([0, 0, 136, 184], 200, 32, 2) := by decide +kernel
  exact Out.movingResult_ok h

/-- C63 applies: the node is found at `as_ptr() + 0` and the `BigInt` at `as_ptr() + 136`. -/
example : ∃ s' : MovingStorage, Denotes x64 exP ⟨true, true⟩ ((movingImpl cfg64).buffer MovingStorage.mem s') 1 32 exNode ∧
    Denotes x64 exP ⟨true, true⟩ ((movingImpl cfg64).buffer MovingStorage.mem s') 8 168 exBig := by
  obtain ⟨s', hr, _, ha, _⟩ := movingRun
  have h := (C63_roundtrip (C63_moving cfg64_ok) exP_wf exP_accepted .new exInputs hr).2
  have h0 := h 0 _ _ _ rfl rfl (Or.inl (by decide))
  have h2 := h 2 _ _ _ rfl rfl (Or.inl (by decide))
  rw [show (movingImpl cfg64).asPtr s'.sto = 32 from ha] at h0 h2
  exact ⟨s'.sto, h0, h2⟩

/-- A second serializer, of another kind or the same, leaves the output of the first where it is. -/
example : ∃ s1 s2 : MovingStorage, s1.pos = 200 ∧ (∀ i < 200, s2.mem i = s1.mem i) ∧ 200 ≤ s2.pos := by
  obtain ⟨s1, hr, hp, _, _⟩ := movingRun
  have hv : ∀ r ∈ exRoots.map Prod.fst, Valid x64 exP r := by
    intro r hr
    obtain ⟨x, hx, rfl⟩ := List.mem_map.1 hr
    exact ⟨_, _, exInputs x hx⟩
  have h1 : CReach (movingImpl cfg64) exP s1.sto := .complete .new hv hr
  obtain ⟨N, hN⟩ := C63_outcome (C63_moving cfg64_ok) exP_wf exP_accepted h1 hv
  rcases hN N (Nat.le_refl _) with ⟨ps, s2, h2⟩ | ⟨s2, h2⟩ | h2
  · have := C63_keeps (C63_moving cfg64_ok) exP_wf exP_accepted h1 hv (Or.inl ⟨_, h2⟩)
    exact ⟨s1.sto, s2.sto, hp, by rw [← hp]; exact this.1, by rw [← hp]; exact this.2.1⟩
  · have := C63_keeps (C63_moving cfg64_ok) exP_wf exP_accepted h1 hv (Or.inr ⟨_, h2⟩)
    exact ⟨s1.sto, s2.sto, hp, by rw [← hp]; exact this.1, by rw [← hp]; exact this.2.1⟩
  · exact ⟨s1.sto, s1.sto, hp, fun _ _ => rfl, by rw [hp]⟩

/-- The moving storage and `AlignedVec` give the same positions and length. -/
example : ∃ (s1 : CSer MovingStorage) (s2 : Ser), s2.sto.vec.pos = 200 ∧ s1.sto.pos = s2.sto.vec.pos := by
  obtain ⟨s1, hr, hp, _, _⟩ := movingRun
  have h : (session cfg64 .complete exP 6 (exRoots.map Prod.fst) (Ser.fromStorage Sto.new)).result.map Prod.fst = some [0, 0, 136, 184] := by
    decide +kernel
  obtain ⟨r, h, _⟩ := Option.map_eq_some_iff.1 h
  obtain ⟨s2, h2, _⟩ := Out.result_ok h
  have := C63_same_output (C63_moving cfg64_ok) exP_wf exP_accepted .new cfg64_ok rfl rfl exP_accepted rfl exInputs hr h2
  exact ⟨s1, s2, by rw [← this.2.1]; exact hp, this.2.1⟩

/-- C63 applies to the hand-written implementation of the C45 example: the overwritten `u16` of the second value (at position 80) holds 7s. -/
example : ∃ ps s', cUserSession (movingImpl cfg64) [exUser, exUser] (CSer.fromStorage (movingImpl cfg64).new) = .ok ps s' ∧
    ps = [0, 80] ∧ s'.sto.pos = 160 ∧ (movingImpl cfg64).buffer MovingStorage.mem s'.sto (s'.sto.addr + 101) = some 7 := by
  have e8 : Pow2 8 := ⟨3, rfl⟩
  have e4 : Pow2 4 := ⟨2, rfl⟩
  have e2 : Pow2 2 := ⟨1, rfl⟩
  have e1 : Pow2 1 := ⟨0, rfl⟩
  have h := C63_user (C63_moving cfg64_ok) exP_wf exP_accepted .new (rs := [exUser, exUser])
    (by intro r hr; simp only [List.mem_cons, List.not_mem_nil, or_false, or_self] at hr; subst hr; exact exUser_ok)
    (by
      intro r hr; simp only [List.mem_cons, List.not_mem_nil, or_false, or_self] at hr; subst hr
      exact ⟨⟨e8, by decide⟩, ⟨⟨e8, by decide⟩, ⟨⟨e1, by decide⟩, trivial⟩, ⟨e4, by decide⟩, ⟨e8, by decide⟩, trivial⟩,
        trivial, ⟨e2, by decide⟩, trivial⟩)
  have hok : (cUserSession (movingImpl cfg64) [exUser, exUser] (CSer.fromStorage (movingImpl cfg64).new)).movingResult =
      some ([0, 80], 160, 16, 2) := by decide +kernel
  obtain ⟨s0, hok, hp, ha, _⟩ := Out.movingResult_ok hok
  rw [hok] at h
  rcases h with ⟨ps, s', he, h1, h2, h3, _⟩ | ⟨_, he, _⟩ | he
  · cases he
    refine ⟨_, s0, hok, rfl, hp, h3 101 _ ?_⟩
    rw [show (movingImpl cfg64).asPtr s0.sto = 16 from ha]
    decide +kernel
  · cases he
  · cases he

/-! ### Why the contract is needed -/

/-- A hypothetical storage that hands out a pointer to a *copy* of its bytes: writes through it are lost. -/
def copyImpl (C : Cfg) : ContigImpl MovingStorage := { movingImpl C with rawStore := fun _ _ s => .ok () s }

/-- Whether the pointer at offset 8 is the address of what is at position 24. -/
def Out.movingPtr {α : Type} (o : Out (CSer MovingStorage) α) : Option (α × Bool) :=
  match o with
  | .ok a s => some (a, decide (readWord x64 s.sto.mem 8 = some (s.sto.addr + 24)))
  | _ => none

theorem Out.movingPtr_ok {α : Type} {o : Out (CSer MovingStorage) α} {a : α} {b : Bool} (h : o.movingPtr = some (a, b)) :
    ∃ s, o = .ok a s ∧ (b = true ↔ readWord x64 s.sto.mem 8 = some (s.sto.addr + 24)) := by
  cases o with
  | ok c s =>
    simp only [Out.movingPtr, Option.some.injEq, Prod.mk.injEq] at h
    obtain ⟨rfl, rfl⟩ := h
    exact ⟨s, rfl, by simp⟩
  | _ => cases h

/-- On the moving storage the value's pointer is right, on the copying one it is stale. -/
example : (∃ s', cUserSession (movingImpl cfg64) [exUser] (CSer.fromStorage (movingImpl cfg64).new) = .ok [0] s' ∧
      readWord x64 s'.sto.mem 8 = some (s'.sto.addr + 24)) ∧
    ∃ s', cUserSession (copyImpl cfg64) [exUser] (CSer.fromStorage (copyImpl cfg64).new) = .ok [0] s' ∧
      readWord x64 s'.sto.mem 8 ≠ some (s'.sto.addr + 24) := by
  have h1 : (cUserSession (movingImpl cfg64) [exUser] (CSer.fromStorage (movingImpl cfg64).new)).movingPtr = some ([0], true) := by
    decide +kernel
  have h2 : (cUserSession (copyImpl cfg64) [exUser] (CSer.fromStorage (copyImpl cfg64).new)).movingPtr = some ([0], false) := by
    decide +kernel
  obtain ⟨s1, e1, i1⟩ := Out.movingPtr_ok h1
  obtain ⟨s2, e2, i2⟩ := Out.movingPtr_ok h2
  exact ⟨⟨s1, e1, i1.1 rfl⟩, s2, e2, fun h => by cases i2.2 h⟩

end SerRaw
