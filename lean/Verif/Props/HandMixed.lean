import Verif.Lemmas.HandMixed
import Verif.Props.HandEx
import Verif.Props.Afterwards
import Verif.Props.Streaming
/-
C82: values whose types have hand-written implementations, or contain such types, or are contained in such types' output (C74), among the other
things one serializer is used for (C59), and afterwards (C80), and while the session is going on (C81).
`handCall C P X n r` is `serializer.serialize_value(&v)` on the value of type `r.t` at address `r.a`, whose pointers go at most `n` deep, as an action of a
session (Model/Mixed.lean): `C82_call` says that it makes the calls of `hSerData` (Model/HandNested.lean).
-/
namespace SerRaw

/-- The call as an action of a session: the value, and the calls its `serialize_data` makes. -/
def handCall (C : Cfg) (P : Prog) (X : TyId → Option HandImpl) (n : Nat) (r : Root) : UserCall :=
  ⟨r.im, P.layout r.t, r.a, .returns ((hScript C.arch P X r.im n r.t r.a).getD .done)⟩

section
variable {C : Cfg} {P : Prog} {fl : Flags} {X : TyId → Option HandImpl} {V V' : TyId → HandView} {r : Root} {v : Val} {n : Nat}
  {t t' : Sto} {es : List Ev} {s s' : Ser} {K : Nat → Prop}

theorem handCall_script (hC : C.OK) (hP : P.WF C.arch) (hX : AllHandOK C P X V V')
    (hn : decodeH C.arch P X V fl r.im n r.t r.a = some v) : hScript C.arch P X r.im n r.t r.a = some (handCall C P X n r).body.script := by
  obtain ⟨sc, h1, _⟩ := hSerData_eq hC.arch.ptr_pos .complete hP hX hn
  rw [h1]
  simp [handCall, h1, Body.script]

/-- C82, the call: with every kind of serializer, it is `serialize_value` with the implementations `X`, and it is permitted in a session. -/
theorem C82_call (hC : C.OK) (hP : P.WF C.arch) (hacc : P.Accepted C) (hX : AllHandOK C P X V V')
    (hn : decodeH C.arch P X V fl r.im n r.t r.a = some v) (hz : (P.layout r.t).size ≠ 0) :
    (Act.user (handCall C P X n r)).Legal C P es s ∧ ∀ k P' fuel fuel', n ≤ fuel' →
      (Act.user (handCall C P X n r)).run C k P' fuel =
        serializeValue C k (P.layout r.t) r.a (inputAt r.im r.a) (hSerData C k P X r.im fuel' r.t r.a) := by
  have hs := handCall_script hC hP hX hn
  constructor
  · have h := (AsUser.cons hn hs hz .nil).ok hC.arch.ptr_pos hP hacc hX _ List.mem_cons_self
    exact h
  · intro k P' fuel fuel' hf
    obtain ⟨sc, h1, h2⟩ := hSerData_eq hC.arch.ptr_pos k hP hX (decodeH_mono hX hf hn)
    rw [hScript_mono hf hs] at h1
    obtain rfl := Option.some.inj h1
    rw [h2]
    rfl

/-- A call in a session, with what it left. -/
theorem SessInv.hand (hC : C.OK) (hP : P.WF C.arch) (hX : AllHandOK C P X V V') {k : Kind} {m : Nat → Mem} (h : SessInv C k P t es s m)
    (hn : decodeH C.arch P X V fl r.im n r.t r.a = some v) {e : Ev} (he : e ∈ es) {p : Nat} (ha : e.act = .user (handCall C P X n r))
    (hp : e.res = some p) :
    ∃ sc, hScript C.arch P X r.im n r.t r.a = some sc ∧ Left C k (P.layout r.t) r.im r.a sc m e.lo e.hi p := by
  have h2 := h.left e he p hp
  rw [ha] at h2
  exact ⟨_, handCall_script hC hP hX hn, h2.2⟩

/-- C82, `CompleteSerializer`: after `finalize`, and after whatever else happens to the storage as long as the buffer is not moved (in
particular at once: `Afterwards.now`), the value is read at its position of the buffer. -/
theorem C82_complete (hC : C.OK) (hP : P.WF C.arch) (hacc : P.Accepted C) (hX : AllHandOK C P X V V')
    (hn : decodeH C.arch P X V fl r.im n r.t r.a = some v) (hz : (P.layout r.t).size ≠ 0)
    (ht : GReach C P t) (h : Sess C .complete P t es s) (hf : finalize C .complete s = .ok () s') (ha : Afterwards C P K s'.sto t')
    (hsame : t'.asPtr = s'.sto.asPtr) :
    ∀ e ∈ es, (∀ i, e.lo ≤ i → i < e.hi → K i) → ∀ p, e.act = .user (handCall C P X n r) → e.res = some p →
      DenotesH C.arch P X V' ⟨fl.canon, true⟩ t'.buffer r.t (t'.asPtr + p) v := by
  obtain ⟨m, h1, hI, hvec, hI', hpp, hb⟩ := h.after hC hP hacc (ht.inv hC hP hacc) hf ha
  intro e he hK p hact hp
  obtain ⟨sc, hs, hl⟩ := h1.hand hC hP hX hn he hact hp
  have hhi := (h1.bounds e he).2.2
  rw [← hvec] at hhi
  have hend := ptr_end_lt hC hI
  have hcap := hI.pos_le
  have hlo := hl.end_
  rw [rootShapes, if_neg hz] at hlo
  have hwf := hScript_wf hC.arch.ptr_pos hP hacc hX n _ _ _ _ _ hn hs (placed_root (decodeH_guard _ _ _ _ _ _ _ _ _ _ hn).1)
  have hpos : 0 < s'.sto.vec.capacity := by
    have h2 := rootIdeal_end (A := C.arch) (md := ⟨none, false⟩) (L := P.layout r.t) (im := r.im) (a := r.a) (sc := sc) (va := C.valueAlign)
      (st := ((fun _ => none : Mem), e.lo))
    rw [rootIdeal, if_neg hz, rootShapes, if_neg hz] at h2
    have h3 := ideal_mono (A := C.arch) (md := ⟨none, false⟩) (im := r.im) hC.facts.va.pos sc hwf.1 r.a (roundUp e.lo (P.layout r.t).align)
      (Mem.blit (fun _ => none) (roundUp e.lo (P.layout r.t).align) (P.layout r.t).size fun i => r.im (r.a + i),
        roundUp (roundUp e.lo (P.layout r.t).align + (P.layout r.t).size) C.valueAlign)
    have h4 := le_roundUp (roundUp e.lo (P.layout r.t).align + (P.layout r.t).size) hC.facts.va.pos
    simp only at h2 h3
    omega
  replace hsame : t'.vec.ptr = s'.sto.vec.ptr := hsame
  change DenotesH C.arch P X V' ⟨fl.canon, true⟩ t'.buffer r.t (t'.vec.ptr + p) v
  rw [hsame]
  refine hl.hand hC hP hacc hX (D := s'.sto.vec.ptr) rfl (fun u hu => align_dvd_ptr hC hP hacc hI hpos hu) hn hs hz (by omega) fun i h2 h3 => ?_
  have := (hb i (by omega) (hK i h2 h3)).2
  rw [hsame] at this
  exact this

/-- C82, `PtrOffsetSerializer`: after `finalize`, and after whatever else happens to the storage. -/
theorem C82_offset (hC : C.OK) (hP : P.WF C.arch) (hacc : P.Accepted C) (hX : AllHandOK C P X V V')
    (hn : decodeH C.arch P X V fl r.im n r.t r.a = some v) (hz : (P.layout r.t).size ≠ 0)
    (ht : GReach C P t) (h : Sess C .ptrOffset P t es s) (hf : finalize C .ptrOffset s = .ok () s') (ha : Afterwards C P K s'.sto t') :
    ∀ e ∈ es, (∀ i, e.lo ≤ i → i < e.hi → K i) → ∀ p, e.act = .user (handCall C P X n r) → e.res = some p →
      DenotesH C.arch P X V' ⟨fl.canon, false⟩ t'.bytes r.t p v := by
  obtain ⟨m, h1, hI, hvec, hI', hpp, hb⟩ := h.after hC hP hacc (ht.inv hC hP hacc) hf ha
  intro e he hK p hact hp
  obtain ⟨sc, hs, hl⟩ := h1.hand hC hP hX hn he hact hp
  have hhi := (h1.bounds e he).2.2
  rw [← hvec] at hhi
  have hend := ptr_end_lt hC hI
  have := hl.hand hC hP hacc hX (D := s'.sto.vec.ptr) (D' := 0) (dm := t'.bytes) rfl (fun _ _ => Nat.dvd_zero _) hn hs hz (by omega)
    fun i h2 h3 => by rw [Nat.zero_add]; exact (hb i (by omega) (hK i h2 h3)).1
  rw [Nat.zero_add] at this
  exact this

/-- C82, crash points, `PtrOffsetSerializer`: the serializer has not finished and perhaps never will; the first `q` bytes of what is in its storage
have been written out, and the call ended at or before `q`. -/
theorem C82_prefix (hC : C.OK) (hP : P.WF C.arch) (hacc : P.Accepted C) (hX : AllHandOK C P X V V')
    (hn : decodeH C.arch P X V fl r.im n r.t r.a = some v) (hz : (P.layout r.t).size ≠ 0)
    (ht : GReach C P t) (h : Sess C .ptrOffset P t es s) {q : Nat} :
    ∀ e ∈ es, e.hi ≤ q → ∀ p, e.act = .user (handCall C P X n r) → e.res = some p →
      DenotesH C.arch P X V' ⟨fl.canon, false⟩ (s.sto.bytes.upTo q) r.t p v := by
  obtain ⟨m, h1⟩ := h.inv hC hP hacc (ht.inv hC hP hacc)
  intro e he hq p hact hp
  obtain ⟨sc, hs, hl⟩ := h1.hand hC hP hX hn he hact hp
  have hhi := (h1.bounds e he).2.2
  have hend := ptr_end_lt hC (h1.rel.1 0).inv
  have := hl.hand hC hP hacc hX (D := 0) (D' := 0) (dm := s.sto.bytes.upTo q) rfl (fun _ _ => Nat.dvd_zero _) hn hs hz (by omega)
    fun i h2 h3 => by rw [Nat.zero_add, Mem.upTo, if_pos (by omega), h1.bytes (by simp) (by omega) 0]
  rw [Nat.zero_add] at this
  exact this

end

/-! ### A concrete case -/

/-- Serialize `Top` (with `Box`, `Vec`, two hand-written implementations inside, one of which calls the other); a header; a hand-written implementation panics;
serialize a `MyString` by itself; shrink the storage. -/
def haActs : List Act :=
  [.user (handCall cfg64 haP haX 8 ⟨haIm, 10, 4096⟩), .sto (.pushEmptySlice ⟨8, 8⟩ 1), .user exPanic,
   .user (handCall cfg64 haP haX 8 ⟨haIm, 6, 4136⟩), .sto .shrinkToFit]

/-- The events. -/
def haEvs : List Ev :=
  [⟨.user (handCall cfg64 haP haX 8 ⟨haIm, 10, 4096⟩), some 0, 0, 224⟩, ⟨.sto (.pushEmptySlice ⟨8, 8⟩ 1), some 224, 224, 232⟩,
   ⟨.user exPanic, none, 232, 296⟩, ⟨.user (handCall cfg64 haP haX 8 ⟨haIm, 6, 4136⟩), some 296, 296, 336⟩,
   ⟨.sto .shrinkToFit, some 0, 336, 336⟩]

theorem haDeep1 : decodeH cfg64.arch haP haX haV ⟨true, false⟩ haIm 8 10 4096 = some haVal := rfl

theorem haDeep2 : decodeH cfg64.arch haP haX haV ⟨true, false⟩ haIm 8 6 4136 = some (.str [97, 98, 99]) := rfl

theorem haSess (k : Kind) : ∃ s, Sess cfg64 k haP Sto.new haEvs s ∧ s.sto.vec.ptr = 5 * 2 ^ 20 := by
  obtain ⟨s, h0, _, hb⟩ := Out.result_ok (o := actsRun cfg64 k haP 8 haActs (Ser.fromStorage Sto.new))
    (r := ([(some 0, 0, 224, 256), (some 224, 224, 232, 256), (none, 232, 296, 512), (some 296, 296, 336, 512),
      (some 0, 336, 336, 336)], 336, 5 * 2 ^ 20)) (by cases k <;> decide +kernel)
  refine ⟨s, ?_, hb⟩
  obtain ⟨s1, a1, b1, c1, d1, h1⟩ := actsRun_cons h0
  obtain ⟨s2, a2, b2, c2, d2, h2⟩ := actsRun_cons h1
  obtain ⟨s3, a3, b3, c3, d3, h3⟩ := actsRun_cons h2
  obtain ⟨s4, a4, b4, c4, d4, h4⟩ := actsRun_cons h3
  obtain ⟨s5, a5, b5, c5, d5, h5⟩ := actsRun_cons h4
  have r1 := (Sess.start (C := cfg64) (k := k) (P := haP) (t := Sto.new)).step (a := .user (handCall cfg64 haP haX 8 ⟨haIm, 10, 4096⟩)) (fuel := 8)
    (C82_call cfg64_ok haP_wf haP_accepted haX_ok haDeep1 (by decide)).1 a1
  have r2 := r1.step (a := .sto (.pushEmptySlice ⟨8, 8⟩ 1))
    ⟨⟨⟨⟨3, rfl⟩, by decide⟩, by decide, by decide⟩, (by intro h; cases h), (by intro p L len d h; cases h)⟩ a2
  have r3 := r2.step (a := .user exPanic) exPanic_ok a3
  have r4 := r3.step (a := .user (handCall cfg64 haP haX 8 ⟨haIm, 6, 4136⟩))
    (C82_call cfg64_ok haP_wf haP_accepted haX_ok haDeep2 (by decide)).1 a4
  have r5 := r4.step (a := .sto .shrinkToFit) ⟨trivial, (by intro h; cases h), (by intro p L len d h; cases h)⟩ a5
  rw [b1, b2, b3, b4, b5, c5] at r5
  cases h5
  exact r5

/-- C82 on it: both values are in the buffer, the fifth that was allocated. -/
example : ∃ s s' : Ser, Sess cfg64 .complete haP Sto.new haEvs s ∧ finalize cfg64 .complete s = .ok () s' ∧
    DenotesH x64 haP haX haV' ⟨true, true⟩ s'.sto.buffer 10 (s'.sto.asPtr + 0) haVal ∧
    DenotesH x64 haP haX haV' ⟨true, true⟩ s'.sto.buffer 6 (s'.sto.asPtr + 296) (.str [97, 98, 99]) := by
  obtain ⟨s, h, _⟩ := haSess .complete
  obtain ⟨s', hf, _⟩ := (C59_safe cfg64_ok haP_wf haP_accepted .new h).2
  have key {r : Root} {v : Val} (hn : decodeH cfg64.arch haP haX haV ⟨true, false⟩ r.im 8 r.t r.a = some v) (hz : (haP.layout r.t).size ≠ 0) :=
    C82_complete cfg64_ok haP_wf haP_accepted haX_ok hn hz .new h hf (K := fun _ => True) .now rfl
  exact ⟨s, s', h, hf,
    key (r := ⟨haIm, 10, 4096⟩) haDeep1 (by decide) ⟨.user (handCall cfg64 haP haX 8 ⟨haIm, 10, 4096⟩), some 0, 0, 224⟩ (by simp [haEvs]) (fun _ _ _ => trivial) 0 rfl rfl,
    key (r := ⟨haIm, 6, 4136⟩) haDeep2 (by decide) ⟨.user (handCall cfg64 haP haX 8 ⟨haIm, 6, 4136⟩), some 296, 296, 336⟩ (by simp [haEvs]) (fun _ _ _ => trivial) 296 rfl rfl⟩

/-- The same with `PtrOffsetSerializer`, and with the first 250 bytes of the storage only. -/
example : ∃ s s' : Ser, Sess cfg64 .ptrOffset haP Sto.new haEvs s ∧ finalize cfg64 .ptrOffset s = .ok () s' ∧
    DenotesH x64 haP haX haV' ⟨true, false⟩ s'.sto.bytes 6 296 (.str [97, 98, 99]) ∧
    DenotesH x64 haP haX haV' ⟨true, false⟩ (s.sto.bytes.upTo 250) 10 0 haVal := by
  obtain ⟨s, h, _⟩ := haSess .ptrOffset
  obtain ⟨s', hf, _⟩ := (C59_safe cfg64_ok haP_wf haP_accepted .new h).2
  exact ⟨s, s', h, hf,
    C82_offset (r := ⟨haIm, 6, 4136⟩) cfg64_ok haP_wf haP_accepted haX_ok haDeep2 (by decide) .new h hf (K := fun _ => True) .now
      ⟨.user (handCall cfg64 haP haX 8 ⟨haIm, 6, 4136⟩), some 296, 296, 336⟩ (by simp [haEvs]) (fun _ _ _ => trivial) 296 rfl rfl,
    C82_prefix (r := ⟨haIm, 10, 4096⟩) cfg64_ok haP_wf haP_accepted haX_ok haDeep1 (by decide) .new h
      ⟨.user (handCall cfg64 haP haX 8 ⟨haIm, 10, 4096⟩), some 0, 0, 224⟩ (by simp [haEvs]) (by decide) 0 rfl rfl⟩

end SerRaw
