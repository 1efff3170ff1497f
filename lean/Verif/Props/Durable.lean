import Verif.Lemmas.Later
import Verif.Props.SerEx
/-
C54. What a finished session left in a storage stays there: later operations (other than `clear` and random-access writes into it)
and later sessions on the same storage, of any kind and whether they return or panic, do not change it. Offset-based and in-order
outputs therefore stay readable for ever; outputs of a `CompleteSerializer` stay readable for as long as the buffer does not move.
-/
namespace SerRaw

section
variable {C : Cfg} {P : Prog} {fl : Flags}

theorem inputs_valid {A : Arch} {rs : List (Root × Val)} (h : Inputs A P fl rs) : ∀ r ∈ rs.map (·.1), Valid A P r := by
  intro r hr
  obtain ⟨x, hx, rfl⟩ := List.mem_map.1 hr
  exact ⟨fl, x.2, h x hx⟩

/-- C54. Everything below `pos()` stays, and `pos()` does not go back. -/
theorem C54_stays (hC : C.OK) (hP : P.WF C.arch) (hacc : P.Accepted C) {t t' : Sto} (h0 : Reach C P t) (h : Later C P t t') :
    (∀ i < t.vec.pos, t'.bytes i = t.bytes i) ∧ t.vec.pos ≤ t'.vec.pos := by
  have hI := h0.inv hC hP hacc
  have hh := h.holds hC hP hacc hI
  exact ⟨fun i hi => hh.bytes hI hi, hh.pos⟩

/-- C54, `PtrOffsetSerializer`: the values can be read at their positions at any later time. -/
theorem C54_offset (hC : C.OK) (hP : P.WF C.arch) (hacc : P.Accepted C) {t0 : Sto} (h0 : Reach C P t0)
    {rs : List (Root × Val)} (hv : Inputs C.arch P fl rs) {fuel : Nat} {ps : List Nat} {s' : Ser}
    (hrun : session C .ptrOffset P fuel (rs.map (·.1)) (Ser.fromStorage t0) = .ok ps s') {t' : Sto} (hl : Later C P s'.sto t') :
    ∀ (i : Nat) (r : Root) (v : Val) (p : Nat), rs[i]? = some (r, v) → ps[i]? = some p → Denotes C.arch P ⟨fl.canon, false⟩ t'.bytes r.t p v := by
  intro i r v p hr hp
  have h1 := (C27_offset_roundtrip hC hP hacc h0 hv hrun).2 i r v p hr hp
  have hR : Reach C P s'.sto := .session h0 (inputs_valid hv) hrun
  exact h1.le (bytes_le_of (C54_stays hC hP hacc hR hl).1)

/-- C54, `PureCopySerializer` and position-tracking serializers: the values can be read in order at any later time. -/
theorem C54_in_order (hC : C.OK) (hP : P.WF C.arch) (hacc : P.Accepted C) {t0 : Sto} (h0 : Reach C P t0) {k : Kind}
    (hk : k = .pureCopy ∨ k = .posTracking) {rs : List (Root × Val)} (hv : Inputs C.arch P fl rs) {fuel : Nat} {ps : List Nat} {s' : Ser}
    (hrun : session C k P fuel (rs.map (·.1)) (Ser.fromStorage t0) = .ok ps s') {t' : Sto} (hl : Later C P s'.sto t') :
    ∃ n, seqRoots C.arch P C.valueAlign t'.bytes n (rs.map (·.1.t)) t0.vec.pos = some (rs.map (·.2), s'.sto.vec.pos) := by
  obtain ⟨n, h1⟩ := C29_in_order hC hP hacc h0 hk hv hrun
  have hR : Reach C P s'.sto := .session h0 (inputs_valid hv) hrun
  exact ⟨n, seqRoots_le (bytes_le_of (C54_stays hC hP hacc hR hl).1) _ h1⟩

/-- C54, `CompleteSerializer`: the bytes of the output, at any later time, form the values if they are at the address `as_ptr()` had
when the session finished, in whatever memory `m`. -/
theorem C54_complete_at (hC : C.OK) (hP : P.WF C.arch) (hacc : P.Accepted C) {t0 : Sto} (h0 : Reach C P t0)
    {rs : List (Root × Val)} (hv : Inputs C.arch P fl rs) {fuel : Nat} {ps : List Nat} {s' : Ser}
    (hrun : session C .complete P fuel (rs.map (·.1)) (Ser.fromStorage t0) = .ok ps s') {t' : Sto} (hl : Later C P s'.sto t')
    {m : Mem} (hm : ∀ i < s'.sto.vec.pos, m (s'.sto.vec.ptr + i) = t'.bytes i) :
    ∀ (i : Nat) (r : Root) (v : Val) (p : Nat), rs[i]? = some (r, v) → ps[i]? = some p →
      ((P.layout r.t).size ≠ 0 ∨ (P.layout r.t).align ∣ s'.sto.vec.ptr) →
      Denotes C.arch P ⟨fl.canon, true⟩ m r.t (s'.sto.vec.ptr + p) v := by
  intro i r v p hr hp hz
  have h1 := (C34_complete hC hP hacc h0 hv hrun).2 i r v p hr hp hz
  have hR : Reach C P s'.sto := .session h0 (inputs_valid hv) hrun
  refine h1.le (buffer_le_of fun i hi => ?_)
  rw [hm i hi, (C54_stays hC hP hacc hR hl).1 i hi]

/-- C54, `CompleteSerializer`: the values can be read in the storage at any later time at which `as_ptr()` is what it was. -/
theorem C54_complete (hC : C.OK) (hP : P.WF C.arch) (hacc : P.Accepted C) {t0 : Sto} (h0 : Reach C P t0)
    {rs : List (Root × Val)} (hv : Inputs C.arch P fl rs) {fuel : Nat} {ps : List Nat} {s' : Ser}
    (hrun : session C .complete P fuel (rs.map (·.1)) (Ser.fromStorage t0) = .ok ps s') {t' : Sto} (hl : Later C P s'.sto t')
    (hsame : t'.vec.ptr = s'.sto.vec.ptr) :
    ∀ (i : Nat) (r : Root) (v : Val) (p : Nat), rs[i]? = some (r, v) → ps[i]? = some p →
      ((P.layout r.t).size ≠ 0 ∨ (P.layout r.t).align ∣ t'.vec.ptr) →
      Denotes C.arch P ⟨fl.canon, true⟩ t'.buffer r.t (t'.vec.ptr + p) v := by
  rw [hsame]
  have hR : Reach C P s'.sto := .session h0 (inputs_valid hv) hrun
  have h2 := (C54_stays hC hP hacc hR hl).2
  refine C54_complete_at hC hP hacc h0 hv hrun hl (m := t'.buffer) fun i hi => ?_
  rw [Sto.buffer, Sto.bytes, if_pos (by omega), if_pos (by omega), hsame]

end

/-! ### Concrete cases -/

/-- The continuation `f` of a run that returned. -/
def Out.andThen {σ α β} (o : Out σ α) (f : σ → Option β) : Option β :=
  match o with
  | .ok _ s => f s
  | _ => none

theorem Out.andThen_some {σ α β} {o : Out σ α} {f : σ → Option β} {b : β} (h : o.andThen f = some b) : ∃ a s, o = .ok a s ∧ f s = some b := by
  cases o with
  | ok a s => exact ⟨a, s, rfl, h⟩
  | _ => cases h

/-- A session of any kind followed by a session of any other kind on the same storage, during which the buffer moves. -/
theorem exLater (k k' : Kind) : ∃ s', session cfg64 k exP 6 (exRoots.map Prod.fst) (Ser.fromStorage Sto.new) = .ok [0, 0, 136, 184] s' ∧
    s'.sto.vec.pos = 200 ∧ ∃ u, Later cfg64 exP s'.sto u ∧ u.vec.pos = 336 ∧ u.vec.ptr ≠ s'.sto.vec.ptr := by
  have h : (session cfg64 k exP 6 (exRoots.map Prod.fst) (Ser.fromStorage Sto.new)).result.map (·.1) = some [0, 0, 136, 184] ∧
      (session cfg64 k exP 6 (exRoots.map Prod.fst) (Ser.fromStorage Sto.new)).andThen (fun s =>
        (session cfg64 k' exP 6 [⟨exIm, 1, 4096⟩] (Ser.fromStorage s.sto)).andThen fun u =>
          some (s.sto.vec.pos, u.sto.vec.pos, decide (u.sto.vec.ptr = s.sto.vec.ptr))) = some (200, 336, false) := by
    cases k <;> cases k' <;> decide +kernel
  obtain ⟨h1, h2⟩ := h
  obtain ⟨ps, s', h3, h4⟩ := Out.andThen_some h2
  obtain ⟨qs, u, h5, h6⟩ := Out.andThen_some h4
  simp only [Option.some.injEq, Prod.mk.injEq, decide_eq_false_iff_not] at h6
  rw [h3] at h1
  have e : ps = [0, 0, 136, 184] := Option.some.inj h1
  subst e
  refine ⟨s', h3, h6.1, u.sto, .session .refl ?_ h5, h6.2.1, h6.2.2⟩
  intro r hr
  obtain rfl := List.mem_singleton.1 hr
  exact ⟨_, _, exInputs _ (List.mem_cons_self ..)⟩

/-- C54 applies: offsets written by the first session still lead to the node after the second one. -/
example : ∃ u : Sto, u.vec.pos = 336 ∧ Denotes x64 exP ⟨true, false⟩ u.bytes 1 0 exNode := by
  obtain ⟨s', h, _, u, hu, hp, _⟩ := exLater .ptrOffset .complete
  exact ⟨u, hp, C54_offset cfg64_ok exP_wf exP_accepted .new exInputs h hu 0 _ _ _ rfl rfl⟩

/-- C54 applies: in-order reading. -/
example : ∃ (u : Sto) (n : Nat), u.vec.pos = 336 ∧ seqRoots x64 exP 8 u.bytes n [1, 10, 8, 9] 0 = some ([exNode, .prim [], exBig, exEnum], 200) := by
  obtain ⟨s', h, h1, u, hu, hp, _⟩ := exLater .pureCopy .ptrOffset
  obtain ⟨n, hn⟩ := C54_in_order cfg64_ok exP_wf exP_accepted .new (Or.inl rfl) exInputs h hu
  exact ⟨u, n, hp, by rw [h1] at hn; exact hn⟩

/-- C54 applies: a `CompleteSerializer` output while the storage is used without moving. -/
example : ∃ u : Sto, u.vec.pos = 208 ∧ Denotes x64 exP ⟨true, true⟩ u.buffer 1 u.vec.ptr exNode := by
  have h : (session cfg64 .complete exP 6 (exRoots.map Prod.fst) (Ser.fromStorage Sto.new)).result.map (·.1) = some [0, 0, 136, 184] ∧
      (session cfg64 .complete exP 6 (exRoots.map Prod.fst) (Ser.fromStorage Sto.new)).andThen (fun s =>
        (Sto.pushSlice cfg64 ⟨1, 1⟩ 3 (fun i => some (UInt8.ofNat i)) s.sto).andThen fun u =>
          some (u.vec.pos, decide (u.vec.ptr = s.sto.vec.ptr))) = some (208, true) := by
    decide +kernel
  obtain ⟨h1, h2⟩ := h
  obtain ⟨ps, s', h3, h4⟩ := Out.andThen_some h2
  obtain ⟨q, u, h5, h6⟩ := Out.andThen_some h4
  simp only [Option.some.injEq, Prod.mk.injEq, decide_eq_true_eq] at h6
  rw [h3] at h1
  have e : ps = [0, 0, 136, 184] := Option.some.inj h1
  subst e
  have hl : Later cfg64 exP s'.sto u := .op (o := .pushSlice ⟨1, 1⟩ 3 (fun i => some (UInt8.ofNat i))) .refl
    ⟨⟨⟨0, rfl⟩, by decide⟩, by decide, by decide, Or.inr (Or.inl (by decide))⟩ trivial h5
  exact ⟨u, h6.1, C54_complete cfg64_ok exP_wf exP_accepted .new exInputs h3 hl h6.2 0 _ _ _ rfl rfl (Or.inl (by decide))⟩

/-- Finding F17. The output of a `CompleteSerializer` is *not* readable any more once the buffer has moved: `finalize` made its pointers
absolute, and nothing that happens to the storage later (here: a safe `reserve`) relocates them. A second session with `from_storage` on the
same storage does not repair them either. -/
theorem C54_moved_stale : ∃ s' u, session cfg64 .complete exP 6 [⟨exIm, 4, 4096⟩] (Ser.fromStorage Sto.new) = .ok [0] s' ∧
    Denotes x64 exP ⟨true, true⟩ s'.sto.buffer 4 s'.sto.vec.ptr (.box (.struct [.prim [9, 0, 0, 0], .enum 0 [], .vec []])) ∧
    Later cfg64 exP s'.sto u ∧ ∀ fl v, ¬ Denotes x64 exP fl u.buffer 4 u.vec.ptr v := by
  have hin : Inputs x64 exP ⟨true, false⟩ [(⟨exIm, 4, 4096⟩, .box (.struct [.prim [9, 0, 0, 0], .enum 0 [], .vec []]))] := by
    intro x hx
    obtain rfl := List.mem_singleton.1 hx
    exact ⟨6, rfl⟩
  have h : (session cfg64 .complete exP 6 [⟨exIm, 4, 4096⟩] (Ser.fromStorage Sto.new)).result.map (·.1) = some [0] ∧
      (session cfg64 .complete exP 6 [⟨exIm, 4, 4096⟩] (Ser.fromStorage Sto.new)).andThen (fun s =>
        (Sto.reserve cfg64 1000 s.sto).andThen fun u => some (readWord x64 u.buffer u.vec.ptr, u.buffer (2 * 2 ^ 20 + 40))) = some (some (2 * 2 ^ 20 + 8), none) := by
    decide +kernel
  obtain ⟨h1, h2⟩ := h
  obtain ⟨ps, s', h3, h4⟩ := Out.andThen_some h2
  obtain ⟨q, u, h5, h6⟩ := Out.andThen_some h4
  simp only [Option.some.injEq, Prod.mk.injEq] at h6
  rw [h3] at h1
  have e : ps = [0] := Option.some.inj h1
  subst e
  refine ⟨s', u, h3, ?_, .op (o := .reserve 1000) (p := 0) .refl (show (1000 : Nat) < 2 ^ 64 by decide) trivial ?_, ?_⟩
  · exact (C34_complete cfg64_ok exP_wf exP_accepted .new hin h3).2 0 _ _ _ rfl rfl (Or.inl (by decide))
  · rw [SOp.run, bind_ok h5]; rfl
  · rintro fl v ⟨n, hn⟩
    have hid : ∀ n, decode x64 exP fl u.buffer n 2 (2 * 2 ^ 20 + 8 + 32) = none := by
      intro n
      cases n with
      | zero => rfl
      | succ n =>
        rw [decode, if_pos (by decide)]
        show (readBytes u.buffer (2 * 2 ^ 20 + 8 + 32) (3 + 1)).map Val.prim = none
        rw [readBytes, show u.buffer (2 * 2 ^ 20 + 8 + 32) = none from h6.2]
        rfl
    have hnode : ∀ n, decode x64 exP fl u.buffer n 1 (2 * 2 ^ 20 + 8) = none := by
      intro n
      cases n with
      | zero => rfl
      | succ n =>
        rw [decode, if_pos (by decide)]
        show (decodeEach (decode x64 exP fl u.buffer n) (2 * 2 ^ 20 + 8) [(32, 2), (0, 3), (8, 5)]).bind _ = none
        rw [decodeEach, hid]
        rfl
    cases n with
    | zero => cases hn
    | succ n =>
      rw [decode] at hn
      split at hn
      · simp only [show exP.defn 4 = .box 1 from rfl, h6.1, Option.bind_eq_bind, Option.bind_some, hnode, Option.bind_none, ite_self] at hn
        cases hn
      · cases hn

end SerRaw
