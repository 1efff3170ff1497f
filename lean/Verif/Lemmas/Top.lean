import Verif.Model.Session
import Verif.Lemmas.Finalize
import Verif.Lemmas.TypedDecode
import Verif.Lemmas.TypedSeq
/-
Whole serializer runs: `serialize_value` on typed values, any number of them, then `finalize`.
-/
namespace SerRaw

/-! ### Kinds other than `complete` never record pointers -/

def Keeps {α} (x : M Ser α) : Prop := ∀ s,
  match x s with
  | .ok _ s' | .panic _ s' => s'.ptrs = s.ptrs
  | _ => True

theorem Keeps.ok {α} {x : M Ser α} (h : Keeps x) {s a s'} (hr : x s = .ok a s') : s'.ptrs = s.ptrs := by
  have := h s; rw [hr] at this; exact this
theorem Keeps.panic {α} {x : M Ser α} (h : Keeps x) {s k s'} (hr : x s = .panic k s') : s'.ptrs = s.ptrs := by
  have := h s; rw [hr] at this; exact this

theorem Keeps.pure {α} (a : α) : Keeps (pure a : M Ser α) := fun _ => rfl
theorem Keeps.bind {α β} {x : M Ser α} {f : α → M Ser β} (hx : Keeps x) (hf : ∀ a, Keeps (f a)) : Keeps (x >>= f) := by
  intro s
  have h1 := hx s
  rw [bind_def]
  cases hr : x s with
  | ok a t =>
    have h2 := hf a t
    rw [hr] at h1
    simp only at h1 ⊢
    rw [← h1]; exact h2
  | panic k t => rw [hr] at h1; exact h1
  | abort => trivial
  | ub => trivial
  | fuel => trivial
theorem Keeps.lift {α} (x : M Sto α) : Keeps (Ser.lift x) := by
  intro s
  unfold Ser.lift
  cases x s.sto <;> first | rfl | trivial
theorem Keeps.setMap (m : PosMapping) : Keeps (Ser.setMap m) := fun _ => rfl
theorem Keeps.getMap : Keeps Ser.getMap := fun _ => rfl
theorem Keeps.getCapacity : Keeps Ser.getCapacity := fun _ => rfl
theorem Keeps.debugAssert (A : Arch) (b : Bool) : Keeps (M.debugAssert A b) := by
  intro s; unfold M.debugAssert
  by_cases h : (A.debug && !b) = true <;> simp [h]
theorem Keeps.usub (A : Arch) (x y : Nat) : Keeps (SerRaw.usub A x y) := by
  intro s; unfold SerRaw.usub
  by_cases h : y ≤ x
  · simp [h]
  · by_cases h2 : A.debug = true <;> simp [h, h2]
theorem Keeps.uadd (A : Arch) (x y : Nat) : Keeps (SerRaw.uadd A x y) := by
  intro s; unfold SerRaw.uadd
  by_cases h : x + y < A.usizeMod
  · simp [h]
  · by_cases h2 : A.debug = true <;> simp [h, h2]
theorem Keeps.debugAssertM (A : Arch) {e : M Ser Bool} (h : Keeps e) : Keeps (M.debugAssertM A e) := by
  unfold M.debugAssertM; split
  · exact h.bind fun b => Keeps.debugAssert A b
  · exact Keeps.pure ()
theorem Keeps.isAlignedTo (A : Arch) (x y : Nat) : Keeps (SerRaw.isAlignedTo A x y) :=
  (Keeps.debugAssert A _).bind fun _ => (Keeps.usub A _ _).bind fun _ => Keeps.pure _
theorem Keeps.posForAddr (A : Arch) (m : PosMapping) (x : Nat) : Keeps (m.posForAddr A x) :=
  (Keeps.usub A _ _).bind fun _ => Keeps.uadd A _ _

theorem Keeps.overwritePtr {C : Cfg} {k : Kind} (hk : k ≠ .complete) (x y : Nat) : Keeps (SerRaw.overwritePtr C k x y) := by
  cases k with
  | pureCopy => exact Keeps.pure ()
  | posTracking => exact Keeps.pure ()
  | complete => exact absurd rfl hk
  | ptrOffset =>
    exact Keeps.getCapacity.bind fun _ => (Keeps.debugAssertM _ ((Keeps.usub _ _ _).bind fun _ => Keeps.pure _)).bind fun _ =>
      (Keeps.debugAssertM _ (Keeps.isAlignedTo _ _ _)).bind fun _ => (Keeps.debugAssert _ _).bind fun _ => Keeps.lift _

theorem Keeps.pushAndProcessSlice {C : Cfg} {k : Kind} (hk : k ≠ .complete) (sl : Slice) (p : Nat) {x : M Ser Unit} (hx : Keeps x) :
    Keeps (SerRaw.pushAndProcessSlice C k sl p x) := by
  cases k with
  | complete => exact absurd rfl hk
  | pureCopy => exact (Keeps.lift _).bind fun _ => hx.bind fun _ => Keeps.pure _
  | posTracking =>
    exact Keeps.getMap.bind fun _ => (Keeps.lift _).bind fun _ => (Keeps.setMap _).bind fun _ => hx.bind fun _ =>
      (Keeps.setMap _).bind fun _ => Keeps.pure _
  | ptrOffset =>
    exact Keeps.getMap.bind fun _ => (Keeps.lift _).bind fun _ => (Keeps.posForAddr _ _ _).bind fun _ =>
      (Keeps.overwritePtr (by simp) _ _).bind fun _ => (Keeps.setMap _).bind fun _ => hx.bind fun _ =>
      (Keeps.setMap _).bind fun _ => Keeps.pure _

theorem Keeps.pushSlice {C : Cfg} {k : Kind} (hk : k ≠ .complete) (sl : Slice) (p : Nat) : Keeps (SerRaw.pushSlice C k sl p) := by
  cases k with
  | complete => exact absurd rfl hk
  | pureCopy => exact Keeps.pushAndProcessSlice hk sl p (Keeps.pure ())
  | posTracking => exact Keeps.lift _
  | ptrOffset =>
    exact (Keeps.lift _).bind fun _ => Keeps.getMap.bind fun _ => (Keeps.posForAddr _ _ _).bind fun _ =>
      (Keeps.overwritePtr (by simp) _ _).bind fun _ => Keeps.pure _

theorem Keeps.run {C : Cfg} {k : Kind} (hk : k ≠ .complete) {im : Mem} (sc : Script) : Keeps (sc.run C k im) := by
  induction sc with
  | done => exact Keeps.pure ()
  | pushProcess L len src ptr inner rest ih1 ih2 => exact (Keeps.pushAndProcessSlice hk _ _ ih1).bind fun _ => ih2
  | push L len src ptr rest ih => exact (Keeps.pushSlice hk _ _).bind fun _ => ih
  | pushRaw L len src rest ih => exact (Keeps.lift _).bind fun _ => ih
  | overwrite a L data rest ih =>
    refine Keeps.bind ?_ fun _ => ih
    cases k <;> first | exact Keeps.pure () | exact absurd rfl hk

theorem Keeps.serializeValue {C : Cfg} {k : Kind} {L : Layout} {a : Nat} {d : Nat → Cell} {x : M Ser Unit} (hx : Keeps x) :
    Keeps (SerRaw.serializeValue C k L a d x) := by
  cases k with
  | pureCopy => exact (Keeps.lift _).bind fun _ => hx.bind fun _ => Keeps.pure _
  | _ => exact (Keeps.lift _).bind fun _ => (Keeps.setMap _).bind fun _ => hx.bind fun _ => Keeps.pure _

theorem Out.Sat.all {σ α : Type} {ι : Type} [Nonempty ι] {o : Out σ α} {Q : ι → α → σ → Prop} {R : PanicKind → σ → Prop} {Ab : Prop}
    (h : ∀ i, o.Sat (Q i) R Ab) : o.Sat (fun a s => ∀ i, Q i a s) R Ab := by
  cases o with
  | ok a s => exact fun i => h i
  | panic k s => exact h (Classical.choice ‹_›)
  | abort => exact h (Classical.choice ‹_›)
  | ub => exact h (Classical.choice ‹_›)
  | fuel => exact h (Classical.choice ‹_›)

/-! ### Zero-sized values make no calls -/

theorem scriptEach_done {rc : TyId → Nat → Option Script} {a : Nat} {fs : List Field} {sc : Script}
    (h : ∀ f ∈ fs, ∀ a s, rc f.2 a = some s → s = .done) (hs : scriptEach rc a fs = some sc) : sc = .done := by
  induction fs generalizing sc with
  | nil => simp only [scriptEach, Option.some.injEq] at hs; exact hs.symm
  | cons f fs ih =>
    simp only [scriptEach, Option.bind_eq_bind, Option.bind_eq_some_iff, Option.pure_def, Option.some.injEq] at hs
    obtain ⟨x, h1, y, h2, h3⟩ := hs
    rw [h f (by simp) _ _ h1, ih (fun g hg => h g (by simp [hg])) h2] at h3
    exact h3.symm

theorem script_zst {A : Arch} (hW : 0 < A.ptrBytes) {P : Prog} (hP : P.WF A) {im : Mem} {n t a : Nat} {sc : Script}
    (hz : (P.layout t).size = 0) (hs : script A P im n t a = some sc) : sc = .done := by
  induction n generalizing t a sc with
  | zero => simp [script] at hs
  | succ n ih =>
    have hfield : ∀ (fs : List Field), FieldsWF P (P.layout t) fs → ∀ f ∈ fs, ∀ a s, script A P im n f.2 a = some s → s = .done := by
      intro fs hf f hfm b s hb
      exact ih (by have := hf.inBounds f hfm; omega) hb
    have hw := hP t
    unfold TyWF at hw
    rw [script] at hs
    obtain ⟨_, _, _, hw⟩ := hw
    split at hs <;> rename_i hd <;> rw [hd] at hw <;> simp only at hw
    · exact (Option.some.inj hs).symm
    · rw [hw] at hz; simp only at hz; omega
    · rw [hw] at hz; simp only at hz; omega
    · rw [hw] at hz; simp only at hz; omega
    · rename_i u k
      rcases Nat.eq_zero_or_pos k with rfl | hk
      · simp only [elems, List.range_zero, List.map_nil, scriptEach, Option.some.injEq] at hs; exact hs.symm
      · refine scriptEach_done ?_ hs
        intro f hf b s hb
        obtain ⟨i, _, rfl⟩ := mem_elems.1 hf
        refine ih ?_ hb
        have h1 := hw.1; rw [hz] at h1
        rcases Nat.mul_eq_zero.1 h1.symm with h | h <;> omega
    · exact scriptEach_done (hfield _ hw) hs
    · simp only [Option.bind_eq_bind, Option.bind_eq_some_iff] at hs
      obtain ⟨i, _, fs, h2, h3⟩ := hs
      exact scriptEach_done (hfield _ (hw.1 _ (List.mem_of_getElem? h2))) h3
    · rw [hw.1] at hz; simp only at hz; omega
    · rw [hw.1] at hz; simp only at hz; omega

/-! ### One value -/

/-- The blocks one `serialize_value` appends. -/
def rootShapes (L : Layout) (sc : Script) : List Shape := if L.size = 0 then [] else ⟨L, 1⟩ :: sc.shapes

theorem rootIdeal_end {A : Arch} {va : Nat} {md : Mode} {L : Layout} {im : Mem} {a : Nat} {sc : Script} {st : Mem × Nat} :
    (rootIdeal A va md L im a sc st).2 = placeEnd va st.2 (rootShapes L sc) := by
  unfold rootIdeal rootShapes
  split
  · rfl
  · rw [ideal_end]; simp only [placeEnd, Shape.bytes, Nat.mul_one]

section
variable {C : Cfg} {P : Prog} {im : Mem} {fl : Flags}

theorem placed_root {L : Layout} {a : Nat} (ha : L.align ∣ a) : Placed ⟨a, L.size, L.align⟩ L a :=
  ⟨Nat.le_refl _, Nat.le_refl _, Nat.dvd_refl _, ha⟩

theorem outPos_self (a q : Nat) : outPos a q a = q := by simp [outPos]

/-- `B`-indexed relation: the state represents contents `m B` should the buffer end up at `B`. -/
def RelAll (C : Cfg) (k : Kind) (s : Ser) (m : Nat → Mem) : Prop :=
  (∀ B, Rel C B s (m B)) ∧ (k ≠ .complete → s.ptrs.entries = [])

theorem RelAll.init {k : Kind} {t : Sto} (h : t.Inv C) : RelAll C k (Ser.fromStorage t) fun _ => t.view :=
  ⟨fun _ => Rel.init h, fun _ => entries_new⟩

structure RootPost (C : Cfg) (k : Kind) (L : Layout) (im : Mem) (a : Nat) (sc : Script) (s : Ser) (m : Nat → Mem) (p : Nat) (s' : Ser) : Prop where
  at_ : p = rootPos L s.sto.vec.pos
  rel : RelAll C k s' fun B => (rootIdeal C.arch C.valueAlign (k.mode B) L im a sc (m B, s.sto.vec.pos)).1
  pos : s'.sto.vec.pos = placeEnd C.valueAlign s.sto.vec.pos (rootShapes L sc)
  cap : s.sto.vec.capacity ≤ s'.sto.vec.capacity
  nz : L.size ≠ 0 → 0 < s'.sto.vec.capacity
  kept : ∀ B, Kept C B s.sto.vec.pos s (m B) s' (rootIdeal C.arch C.valueAlign (k.mode B) L im a sc (m B, s.sto.vec.pos)).1

/-- A `serialize_value` (or several) that reached the capacity limit: the state still represents some contents, which are
unchanged below the position at which it started. -/
structure RootStop (C : Cfg) (k : Kind) (need : Nat) (s : Ser) (m : Nat → Mem) (pk : PanicKind) (s' : Ser) : Prop where
  panic : CapPanic C need pk s'
  kept : ∃ m', RelAll C k s' m' ∧ ∀ B, Kept C B s.sto.vec.pos s (m B) s' (m' B)

theorem RootStop.from {k : Kind} {need need' : Nat} {s s1 s2 : Ser} {m m1 : Nat → Mem} {pk : PanicKind} (h : RootStop C k need' s1 m1 pk s2)
    (h1 : ∀ B, Kept C B s.sto.vec.pos s (m B) s1 (m1 B)) (hn : need' ≤ need) : RootStop C k need s m pk s2 := by
  obtain ⟨h2, m2, h3, h4⟩ := h
  exact ⟨h2.mono hn, m2, h3, fun B => (h1 B).trans ((h4 B).lower (h1 B).pos)⟩

theorem RootStop.of {k : Kind} {need : Nat} {s s' : Ser} {m : Nat → Mem} {pk : PanicKind}
    (h : ∀ B, Stopped C B s.sto.vec.pos need s (m B) pk s') (hp : k ≠ .complete → s'.ptrs.entries = []) : RootStop C k need s m pk s' := by
  refine ⟨(h 0).panic, ?_⟩
  have hex := fun B => (h B).kept
  exact ⟨fun B => Classical.choose (hex B), ⟨fun B => (Classical.choose_spec (hex B)).rel, hp⟩, fun B => Classical.choose_spec (hex B)⟩

theorem Out.Sat.all' {σ α : Type} {ι : Type} [Nonempty ι] {o : Out σ α} {Q : ι → α → σ → Prop} {R : ι → PanicKind → σ → Prop} {Ab : Prop}
    (h : ∀ i, o.Sat (Q i) (R i) Ab) : o.Sat (fun a s => ∀ i, Q i a s) (fun k s => ∀ i, R i k s) Ab := by
  cases o with
  | ok a s => exact fun i => h i
  | panic k s => exact fun i => h i
  | abort => exact h (Classical.choice ‹_›)
  | ub => exact h (Classical.choice ‹_›)
  | fuel => exact h (Classical.choice ‹_›)

/-- What `serialize_value` does to the mapping after copying the root. -/
def setRoot (k : Kind) (m : PosMapping) : M Ser Unit :=
  match k with
  | .pureCopy => pure ()
  | .posTracking | .ptrOffset | .complete => Ser.setMap m

theorem serializeValue_eq {k : Kind} {L : Layout} {a : Nat} {d : Nat → Cell} {x : M Ser Unit} :
    serializeValue C k L a d x =
      (pushRaw C L a d >>= fun pos => setRoot k ⟨a, pos⟩ >>= fun _ => x >>= fun _ => pure pos) := by
  cases k <;> rfl

/-- `serialize_value` on a value whose `serialize_data` makes the calls of a well-formed script. -/
theorem rootScript_sat (hC : C.OK) (k : Kind) {L : Layout} {a : Nat} {sc : Script} (ho : PushOK C L 1 a)
    (hwf : sc.WF C ⟨a, L.size, L.align⟩) {s : Ser} {m : Nat → Mem} (h : RelAll C k s m) :
    (serializeValue C k L a (inputAt im a) (sc.run C k im) s).Sat (fun p s' => RootPost C k L im a sc s m p s')
      (RootStop C k (placeEnd C.valueAlign s.sto.vec.pos (rootShapes L sc)) s m) (¬ C.NeverFails) := by
  have F := hC.facts
  have hz := ho.size_ne
  have hpow := ho.pow2
  rw [serializeValue_eq, sat_bind]
  unfold pushRaw pushRawSlice Slice.fromRef
  simp only
  have hmono := le_placeEnd (xs := sc.shapes) F.va.pos
    (pushes_align sc hwf)
    (roundUp (roundUp s.sto.vec.pos L.align + L.size * 1) C.valueAlign)
  have hend : placeEnd C.valueAlign s.sto.vec.pos (rootShapes L sc) =
      placeEnd C.valueAlign (roundUp (roundUp s.sto.vec.pos L.align + L.size * 1) C.valueAlign) sc.shapes := by
    simp [rootShapes, hz, placeEnd, Shape.bytes]
  refine (Out.Sat.and (Out.Sat.all' fun B => pushRawSlice_stop (lo := s.sto.vec.pos) (need := placeEnd C.valueAlign s.sto.vec.pos (rootShapes L sc)) hC ho (h.1 B) (Nat.le_refl _) (Or.inl Nat.one_pos) (by rw [hend]; exact hmono) (inputAt im a))
    (show (Ser.lift (Sto.pushSlice C L 1 (inputAt im a)) s).Sat (fun _ _ => True) (fun _ s' => s'.ptrs = s.ptrs) True from ?_)).mono ?_ ?_ (fun h => h.1)
  · have hkp := Keeps.lift (Sto.pushSlice C L 1 (inputAt im a)) s
    have hne := pushRawSlice_sat hC ho (h.1 0).inv (Or.inl Nat.one_pos) (inputAt im a)
    cases hr : Ser.lift (Sto.pushSlice C L 1 (inputAt im a)) s with
    | ok a s1 => trivial
    | panic k s1 => rw [hr] at hkp; exact hkp
    | abort => trivial
    | ub => rw [hr] at hne; exact hne
    | fuel => rw [hr] at hne; exact hne
  · rintro p s1 ⟨hall, -⟩
    obtain ⟨t1, rfl, hp⟩ := hall 0
    rw [sat_bind]
    have hset : ∃ s2 : Ser, s2.sto = t1 ∧ s2.ptrs = s.ptrs ∧ (k.tracking = true → s2.map = ⟨a, p⟩) ∧
        setRoot k ⟨a, p⟩ { s with sto := t1 } = .ok () s2 := by
      cases k with
      | pureCopy => exact ⟨{ s with sto := t1 }, rfl, rfl, by simp [Kind.tracking], rfl⟩
      | _ => exact ⟨{ s with sto := t1, map := ⟨a, p⟩ }, rfl, rfl, fun _ => rfl, rfl⟩
    obtain ⟨s2, e1, e2, e3, e4⟩ := hset
    rw [e4, sat_ok, sat_bind]
    have hrel : ∀ B, Rel C B s2 ((m B).blit p L.size (inputAt im a)) := by
      intro B
      have := (h.1 B).push hp hpow.pos F.va.pos
      rw [Nat.mul_one] at this
      refine ⟨?_, ?_, ?_, ?_, ?_⟩
      · rw [e1]; exact this.inv
      · rw [e1, e2]; exact this.bound
      · rw [e2]; exact this.nodup
      · rw [e1, e2]; exact this.word
      · rw [e1, e2]; exact this.rest
    have hpe := hp.end_eq
    rw [Nat.mul_one] at hpe
    have hpre : ∀ B, RunPre C k B sc ⟨a, L.size, L.align⟩ p s2 ((m B).blit p L.size (inputAt im a)) := by
      intro B
      refine ⟨hrel B, hwf, e3, ?_, ?_, ?_, hpow.pos, ho.align_le, ?_⟩
      · rw [e1, hpe]; exact le_roundUp _ F.va.pos
      · rw [e1, hpe]; have := le_roundUp (p + L.size) F.va.pos; have := Nat.pos_of_ne_zero ho.size_ne; omega
      · rw [hp.pos_eq]; exact dvd_roundUp _ _
      · intro e he tt htt
        rw [e2] at he
        have hb := ((h.1 0).bound e he).1
        have hge : s.sto.vec.pos ≤ p := by rw [hp.pos_eq]; exact le_roundUp _ hpow.pos
        left
        have := outPos_ge a p tt.1
        simp only
        omega
    have hge : s.sto.vec.pos ≤ p := by rw [hp.pos_eq]; exact le_roundUp _ hpow.pos
    have hk1 : ∀ B, Kept C B s.sto.vec.pos s (m B) s2 ((m B).blit p L.size (inputAt im a)) := by
      intro B
      have := (Kept.push (lo := s.sto.vec.pos) (h.1 B) hp hpow.pos F (Nat.le_refl _)).congr (s' := s) (t' := s2) rfl rfl e1 e2
      rwa [Nat.mul_one] at this
    have hruns : ((sc.run C k im) s2).Sat
        (fun _ s' => ∀ B, RunPost C B sc ⟨a, L.size, L.align⟩ p s2
          (sc.ideal C.arch C.valueAlign (k.mode B) im a p ((m B).blit p L.size (inputAt im a), s2.sto.vec.pos)) s')
        (fun pk s' => ∀ B, Stopped C B s.sto.vec.pos (placeEnd C.valueAlign s.sto.vec.pos (rootShapes L sc)) s (m B) pk s') (¬ C.NeverFails) := by
      refine Out.Sat.all' fun B => (run_stop hC sc (hpre B)).mono (fun _ _ h => h) (fun k s' hk => ?_) id
      refine (hk.lower hge).from (hk1 B) ?_
      rw [ideal_end, hend, e1, hpe, hp.pos_eq, Nat.mul_one]
    cases hres : (sc.run C k im) s2 with
    | ok u s3 =>
      rw [hres, sat_ok] at hruns
      rw [sat_ok, pure_run, sat_ok]
      refine ⟨by rw [hp.pos_eq, rootPos, if_neg hz], ⟨fun B => ?_, fun hk => ?_⟩, ?_, ?_, fun _ => ?_, fun B => ?_⟩
      · have := (hruns B).rel
        rw [e1, hpe, hp.pos_eq] at this
        simp only [rootIdeal, if_neg hz]
        exact this
      · rw [(Keeps.run hk sc).ok hres, e2]; exact h.2 hk
      · rw [(hruns 0).pos, ideal_end, hend, e1, hpe, hp.pos_eq, Nat.mul_one]
      · have := (hruns 0).cap; rw [e1] at this; exact Nat.le_trans hp.cap_le this
      · have := (hruns 0).cap; rw [e1] at this
        have := hp.within; omega
      · have hq : s2.sto.vec.pos = roundUp (p + L.size) C.valueAlign := by rw [e1, hpe]
        have hop : p ≤ s2.sto.vec.pos := by rw [hq]; have := le_roundUp (p + L.size) F.va.pos; omega
        have := (hk1 B).trans ((RunPost.kept F.va.pos hwf rfl hop (hruns B)).lower hge)
        rw [hq, hp.pos_eq] at this
        simp only [rootIdeal, if_neg hz]
        exact this
    | panic k' s3 =>
      rw [hres] at hruns
      exact RootStop.of hruns fun hk => by rw [(Keeps.run hk sc).panic hres, e2]; exact h.2 hk
    | abort => rw [hres] at hruns; exact hruns
    | ub => rw [hres] at hruns; exact hruns
    | fuel => rw [hres] at hruns; exact hruns
  · rintro k' s1 ⟨hk, hpt⟩
    exact RootStop.of hk fun hc => by rw [hpt]; exact h.2 hc

theorem serValue_sat (hC : C.OK) (hP : P.WF C.arch) (hacc : P.Accepted C) (k : Kind) {n t a : Nat} {v : Val} {sc : Script}
    (hd : decode C.arch P fl im n t a = some v) (hs : script C.arch P im n t a = some sc) {s : Ser} {m : Nat → Mem}
    (h : RelAll C k s m) :
    (serValue C k P im n t a s).Sat (fun p s' => RootPost C k (P.layout t) im a sc s m p s')
      (RootStop C k (placeEnd C.valueAlign s.sto.vec.pos (rootShapes (P.layout t) sc)) s m) (¬ C.NeverFails) := by
  have hW := hC.arch.ptr_pos
  have F := hC.facts
  obtain ⟨sc', hs', heq⟩ := serData_eq hW k hP hd
  rw [hs] at hs'; obtain rfl := Option.some.inj hs'
  obtain ⟨hal, hlt⟩ := decode_guard hd
  obtain ⟨hpow, _, hisz, _⟩ := hP t
  replace hpow : Pow2 (P.layout t).align := hpow
  unfold serValue
  rw [heq, serializeValue_eq, sat_bind]
  unfold pushRaw pushRawSlice Slice.fromRef
  simp only
  by_cases hz : (P.layout t).size = 0
  · have := script_zst hW hP hz hs; subst this
    rw [lift_ok (pushSlice_zst hz), sat_ok]
    have key : ∀ mp, RootPost C k (P.layout t) im a .done s m 0 { s with map := mp } := by
      intro mp
      refine ⟨by simp [rootPos, hz], ⟨fun B => ?_, h.2⟩, by simp [rootShapes, hz, placeEnd], Nat.le_refl _, fun h0 => absurd hz h0, fun B => ?_⟩
      rotate_left
      · simp only [rootIdeal, hz, if_true]
        exact (Kept.refl (h.1 B)).congr rfl rfl rfl rfl
      simp only [rootIdeal, hz, if_true]
      exact ⟨(h.1 B).inv, (h.1 B).bound, (h.1 B).nodup, (h.1 B).word, (h.1 B).rest⟩
    cases k <;> exact key _
  · have ho : PushOK C (P.layout t) 1 a :=
      ⟨hz, hpow, by have := hacc t hz; simpa [Cfg.accepts] using this, by simpa using hisz⟩
    have hwf := (script_wf hW hP hacc n t a v sc _ hd hs (placed_root hal)).1
    have hr := rootScript_sat (im := im) hC k ho hwf h
    rw [serializeValue_eq, sat_bind] at hr
    exact hr

/-! ### Several values -/

/-- A value to serialize with what it denotes and the calls it makes. -/
structure Job where
  r : Root
  v : Val
  sc : Script

/-- The job is a valid value (with depth at most `n`). -/
def Job.OK (C : Cfg) (P : Prog) (fl : Flags) (n : Nat) (j : Job) : Prop :=
  decode C.arch P fl j.r.im n j.r.t j.r.a = some j.v ∧ script C.arch P j.r.im n j.r.t j.r.a = some j.sc

def Job.shapes (P : Prog) (j : Job) : List Shape := rootShapes (P.layout j.r.t) j.sc

def jobsIdeal (A : Arch) (va : Nat) (md : Mode) (P : Prog) : List Job → Mem × Nat → Mem × Nat
  | [], st => st
  | j :: js, st => jobsIdeal A va md P js (rootIdeal A va md (P.layout j.r.t) j.r.im j.r.a j.sc st)

/-- Each job with the end of the output before it. -/
def jobsAt (P : Prog) (va : Nat) : Nat → List Job → List (Job × Nat)
  | _, [] => []
  | p, j :: js => (j, p) :: jobsAt P va (placeEnd va p (j.shapes P)) js

def jobsShapes (P : Prog) (js : List Job) : List Shape := js.flatMap (Job.shapes P)

def jobPos (P : Prog) (x : Job × Nat) : Nat := rootPos (P.layout x.1.r.t) x.2

theorem jobsIdeal_end {A : Arch} {va : Nat} {md : Mode} (js : List Job) {st : Mem × Nat} :
    (jobsIdeal A va md P js st).2 = placeEnd va st.2 (jobsShapes P js) := by
  induction js generalizing st with
  | nil => rfl
  | cons j js ih =>
    rw [jobsIdeal, ih, rootIdeal_end]
    simp only [jobsShapes, List.flatMap_cons, placeEnd_append, Job.shapes]

theorem Job.OK.align {n : Nat} (hW : 0 < C.arch.ptrBytes) (hP : P.WF C.arch) (hacc : P.Accepted C) {j : Job} (h : j.OK C P fl n) :
    ∀ x ∈ j.shapes P, 0 < x.L.align := by
  intro x hx
  unfold Job.shapes rootShapes at hx
  split at hx
  · cases hx
  · rcases List.mem_cons.1 hx with rfl | hx
    · obtain ⟨e, he⟩ := (hP j.r.t).1
      simp only [he]; exact Nat.two_pow_pos _
    · exact pushes_align j.sc (script_wf hW hP hacc n _ _ _ _ _ h.1 h.2 (placed_root (decode_guard h.1).1)).1 x hx

theorem jobs_align {n : Nat} (hW : 0 < C.arch.ptrBytes) (hP : P.WF C.arch) (hacc : P.Accepted C) {js : List Job}
    (h : ∀ j ∈ js, j.OK C P fl n) : ∀ x ∈ jobsShapes P js, 0 < x.L.align := by
  intro x hx
  obtain ⟨j, hj, hx⟩ := List.mem_flatMap.1 hx
  exact (h j hj).align hW hP hacc x hx

structure JobsPost (C : Cfg) (k : Kind) (P : Prog) (js : List Job) (s : Ser) (m : Nat → Mem) (ps : List Nat) (s' : Ser) : Prop where
  ps : ps = (jobsAt P C.valueAlign s.sto.vec.pos js).map (jobPos P)
  rel : RelAll C k s' fun B => (jobsIdeal C.arch C.valueAlign (k.mode B) P js (m B, s.sto.vec.pos)).1
  pos : s'.sto.vec.pos = placeEnd C.valueAlign s.sto.vec.pos (jobsShapes P js)
  cap : s.sto.vec.capacity ≤ s'.sto.vec.capacity
  nz : ∀ j ∈ js, (P.layout j.r.t).size ≠ 0 → 0 < s'.sto.vec.capacity
  kept : ∀ B, Kept C B s.sto.vec.pos s (m B) s' (jobsIdeal C.arch C.valueAlign (k.mode B) P js (m B, s.sto.vec.pos)).1

theorem serValues_sat (hC : C.OK) (hP : P.WF C.arch) (hacc : P.Accepted C) (k : Kind) {n : Nat} (js : List Job)
    (hj : ∀ j ∈ js, j.OK C P fl n) {s : Ser} {m : Nat → Mem} (h : RelAll C k s m) :
    (serValues C k P n (js.map (·.r)) s).Sat (fun ps s' => JobsPost C k P js s m ps s')
      (RootStop C k (placeEnd C.valueAlign s.sto.vec.pos (jobsShapes P js)) s m) (¬ C.NeverFails) := by
  have hW := hC.arch.ptr_pos
  have F := hC.facts
  induction js generalizing s m with
  | nil => exact ⟨rfl, h, rfl, Nat.le_refl _, by simp, fun B => Kept.refl (h.1 B)⟩
  | cons j js ih =>
    have hjo := hj j (by simp)
    have hjs : ∀ x ∈ js, x.OK C P fl n := fun x hx => hj x (by simp [hx])
    have hend : placeEnd C.valueAlign s.sto.vec.pos (jobsShapes P (j :: js)) =
        placeEnd C.valueAlign (placeEnd C.valueAlign s.sto.vec.pos (j.shapes P)) (jobsShapes P js) := by
      simp only [jobsShapes, List.flatMap_cons, placeEnd_append]
    simp only [List.map_cons, serValues]
    rw [sat_bind]
    refine (serValue_sat hC hP hacc k hjo.1 hjo.2 h).mono ?_ ?_ id
    · intro p s1 h1
      rw [sat_bind]
      have hp1 : s1.sto.vec.pos = placeEnd C.valueAlign s.sto.vec.pos (j.shapes P) := h1.pos
      refine (ih hjs h1.rel).mono ?_ ?_ id
      · intro ps s2 h2
        rw [pure_run, sat_ok]
        have e : ∀ B, rootIdeal C.arch C.valueAlign (k.mode B) (P.layout j.r.t) j.r.im j.r.a j.sc (m B, s.sto.vec.pos) =
            ((rootIdeal C.arch C.valueAlign (k.mode B) (P.layout j.r.t) j.r.im j.r.a j.sc (m B, s.sto.vec.pos)).1, s1.sto.vec.pos) :=
          fun B => Prod.ext rfl (by rw [h1.pos, rootIdeal_end])
        refine ⟨?_, ⟨fun B => ?_, h2.rel.2⟩, ?_, Nat.le_trans h1.cap h2.cap, ?_, fun B => ?_⟩
        · rw [h1.at_, h2.ps, hp1]; rfl
        · have := h2.rel.1 B
          simp only [jobsIdeal]
          rw [e]; exact this
        · rw [h2.pos, hp1, hend]
        · intro x hx hz
          rcases List.mem_cons.1 hx with rfl | hx
          · exact Nat.lt_of_lt_of_le (h1.nz hz) h2.cap
          · exact h2.nz x hx hz
        · have := (h1.kept B).trans ((h2.kept B).lower (h1.kept B).pos)
          simp only [jobsIdeal]
          rw [e]; exact this
      · intro k' s2 hk
        refine hk.from h1.kept ?_
        rw [hend, hp1]
    · intro k' s1 hk
      refine hk.from (fun B => Kept.refl (h.1 B)) ?_
      rw [hend]
      exact le_placeEnd F.va.pos (jobs_align hW hP hacc hjs) _

/-- Outcome of `serialize_value` on each job, then `finalize`. -/
structure SessionPost (C : Cfg) (k : Kind) (P : Prog) (js : List Job) (s : Ser) (m : Nat → Mem) (ps : List Nat) (s' : Ser) : Prop where
  ps : ps = (jobsAt P C.valueAlign s.sto.vec.pos js).map (jobPos P)
  inv : s'.sto.Inv C
  view : s'.sto.view = (jobsIdeal C.arch C.valueAlign (k.mode s'.sto.vec.ptr) P js (m s'.sto.vec.ptr, s.sto.vec.pos)).1
  pos : s'.sto.vec.pos = placeEnd C.valueAlign s.sto.vec.pos (jobsShapes P js)
  cap : s.sto.vec.capacity ≤ s'.sto.vec.capacity
  nz : ∀ j ∈ js, (P.layout j.r.t).size ≠ 0 → 0 < s'.sto.vec.capacity
  stay : Stays C s.sto s'.sto

theorem session_sat (hC : C.OK) (hP : P.WF C.arch) (hacc : P.Accepted C) (k : Kind) {n : Nat} (js : List Job)
    (hj : ∀ j ∈ js, j.OK C P fl n) {s : Ser} {m : Nat → Mem} (h : RelAll C k s m) :
    (session C k P n (js.map (·.r)) s).Sat (fun ps s' => SessionPost C k P js s m ps s')
      (RootStop C k (placeEnd C.valueAlign s.sto.vec.pos (jobsShapes P js)) s m) (¬ C.NeverFails) := by
  unfold session
  rw [sat_bind]
  refine (serValues_sat hC hP hacc k js hj h).imp ?_
  intro ps s1 h1
  obtain ⟨s2, e1, e2, e3, e4, _, _⟩ := finalize_ok hC k (h1.rel.1 s1.sto.vec.ptr) h1.rel.2
  rw [sat_bind, e1, sat_ok, pure_run, sat_ok]
  exact ⟨h1.ps, e3, by rw [e4, e2], by rw [e2]; exact h1.pos, by rw [e2]; exact h1.cap, fun j hj hz => by rw [e2]; exact h1.nz j hj hz,
    (h1.kept 0).stay.congr e2 (finalize_calls e1)⟩

/-! ### What the output means -/

theorem rootIdeal_frame {va : Nat} (hva : 0 < va) (hW : 0 < C.arch.ptrBytes) (hP : P.WF C.arch) (hacc : P.Accepted C) {md : Mode} {n : Nat}
    {j : Job} (hj : j.OK C P fl n) {st : Mem × Nat} {i : Nat} (hi : i < st.2) :
    (rootIdeal C.arch va md (P.layout j.r.t) j.r.im j.r.a j.sc st).1 i = st.1 i := by
  unfold rootIdeal
  split
  · rfl
  · have hap : 0 < (P.layout j.r.t).align := by
      obtain ⟨e, he⟩ := (hP j.r.t).1
      simp only [he]; exact Nat.two_pow_pos _
    have h1 := le_roundUp st.2 hap
    have h2 := le_roundUp (roundUp st.2 (P.layout j.r.t).align + (P.layout j.r.t).size) hva
    rw [ideal_frame hva j.sc (script_wf hW hP hacc n _ _ _ _ _ hj.1 hj.2 (placed_root (decode_guard hj.1).1)).1 _ _ _ (by simp only; omega)]
    · simp only; exact blit_out (by omega)
    · intro t _
      have := outPos_ge j.r.a (roundUp st.2 (P.layout j.r.t).align) t.1
      left; omega

theorem jobsIdeal_frame {va : Nat} (hva : 0 < va) (hW : 0 < C.arch.ptrBytes) (hP : P.WF C.arch) (hacc : P.Accepted C) {md : Mode} {n : Nat}
    {js : List Job} (hj : ∀ j ∈ js, j.OK C P fl n) {st : Mem × Nat} {i : Nat} (hi : i < st.2) :
    (jobsIdeal C.arch va md P js st).1 i = st.1 i := by
  induction js generalizing st with
  | nil => rfl
  | cons j js ih =>
    have hj0 := hj j (by simp)
    rw [jobsIdeal, ih (fun x hx => hj x (by simp [hx])), rootIdeal_frame hva hW hP hacc hj0 hi]
    rw [rootIdeal_end]
    exact Nat.lt_of_lt_of_le hi (le_placeEnd hva (hj0.align hW hP hacc) _)

/-- Where the blocks owned by a job's value start. -/
def bodyAt (P : Prog) (va : Nat) (x : Job × Nat) : Nat :=
  if (P.layout x.1.r.t).size = 0 then x.2 else roundUp (jobPos P x + (P.layout x.1.r.t).size) va

theorem jobsAt_mem_le {va : Nat} (hva : 0 < va) (hW : 0 < C.arch.ptrBytes) (hP : P.WF C.arch) (hacc : P.Accepted C) {n : Nat}
    {js : List Job} (hj : ∀ j ∈ js, j.OK C P fl n) {p : Nat} : ∀ x ∈ jobsAt P va p js, x.1 ∈ js ∧ p ≤ x.2 ∧
      placeEnd va x.2 (x.1.shapes P) ≤ placeEnd va p (jobsShapes P js) := by
  induction js generalizing p with
  | nil => intro x hx; cases hx
  | cons j js ih =>
    intro x hx
    have hj0 := hj j (by simp)
    have hjs : ∀ x ∈ js, x.OK C P fl n := fun x hx => hj x (by simp [hx])
    have hle := le_placeEnd hva (hj0.align hW hP hacc) p
    have hend : placeEnd va p (jobsShapes P (j :: js)) =
        placeEnd va (placeEnd va p (j.shapes P)) (jobsShapes P js) := by
      simp only [jobsShapes, List.flatMap_cons, placeEnd_append]
    rw [hend]
    rcases List.mem_cons.1 hx with rfl | hx
    · exact ⟨by simp, Nat.le_refl _, le_placeEnd hva (jobs_align hW hP hacc hjs) _⟩
    · obtain ⟨h1, h2, h3⟩ := ih hjs x hx
      exact ⟨by simp [h1], by omega, h3⟩

/-- Reading one job's output through pointers relative to `D`. -/
theorem root_read {md : Mode} {va D : Nat} (hva : 0 < va) (hW : 0 < C.arch.ptrBytes) (hP : P.WF C.arch) (hacc : P.Accepted C)
    (hD : md.ptrBase = some D) {n : Nat} {j : Job} (hj : j.OK C P fl n)
    (hDz : (P.layout j.r.t).size = 0 → (P.layout j.r.t).align ∣ D)
    (hDal : (P.layout j.r.t).size ≠ 0 → ∀ u, (P.layout u).size ≠ 0 → (P.layout u).align ∣ D) {m : Mem} {p : Nat}
    (hb : D + placeEnd va p (j.shapes P) < C.arch.usizeMod) {dm : Mem}
    (hdm : ∀ i, p ≤ i → i < placeEnd va p (j.shapes P) →
      dm (D + i) = (rootIdeal C.arch va md (P.layout j.r.t) j.r.im j.r.a j.sc (m, p)).1 i) :
    decode C.arch P ⟨fl.canon, md.fixup⟩ dm n j.r.t (D + jobPos P (j, p)) = some j.v ∧
    ∃ as, owned C.arch P dm n j.r.t (D + jobPos P (j, p)) = some as ∧ OwnOut C.arch va D j.r.a (jobPos P (j, p)) (bodyAt P va (j, p)) j.sc as := by
  obtain ⟨hd, hs⟩ := hj
  have hap : 0 < (P.layout j.r.t).align := by
    obtain ⟨e, he⟩ := (hP j.r.t).1
    simp only [he]; exact Nat.two_pow_pos _
  obtain ⟨hal, hlt⟩ := decode_guard hd
  by_cases hz : (P.layout j.r.t).size = 0
  · have hsc := script_zst hW hP hz hs
    have hpos : jobPos P (j, p) = 0 := by simp [jobPos, rootPos, hz]
    have hDlt : D < C.arch.usizeMod := by omega
    have key := (script_decode (md := ⟨some 0, md.fixup⟩) (D := 0) (fl := fl) (im := j.r.im) hva hW hP hacc rfl
      (fun _ _ => Nat.dvd_zero _) n j.r.t j.r.a j.v j.sc ⟨j.r.a, (P.layout j.r.t).size, (P.layout j.r.t).align⟩
      D m D m D hd hs (placed_root hal) (by simp only [hz]; omega)
      (by rw [outPos_self]; exact hDz hz) (Nat.dvd_zero _)
      (by intro i hi; omega) (by rw [hsc]; rfl) (by omega)).2 dm (by intro i hi; rw [hz, outPos_self] at hi; omega)
    rw [outPos_self, Nat.zero_add] at key
    rw [hpos, Nat.add_zero]
    obtain ⟨k1, as, k2, k3⟩ := key
    refine ⟨k1, as, k2, ?_⟩
    have : as = [] := by
      have := k3.shapes; rw [hsc] at this
      exact List.map_eq_nil_iff.1 this
    rw [this, hsc]; exact OwnOut.nil _ _ _ _ _ _
  · have hpos : jobPos P (j, p) = roundUp p (P.layout j.r.t).align := by simp [jobPos, rootPos, hz]
    have hbody : bodyAt P va (j, p) = roundUp (roundUp p (P.layout j.r.t).align + (P.layout j.r.t).size) va := by
      simp [bodyAt, hz, hpos]
    rw [hpos, hbody]
    have hend := rootIdeal_end (A := C.arch) (va := va) (md := md) (L := P.layout j.r.t) (im := j.r.im) (a := j.r.a) (sc := j.sc) (st := (m, p))
    simp only [rootIdeal, if_neg hz] at hdm hend
    have h1 := le_roundUp p hap
    have h2 := le_roundUp (roundUp p (P.layout j.r.t).align + (P.layout j.r.t).size) hva
    have h3 := le_placeEnd hva (pushes_align j.sc (script_wf hW hP hacc n _ _ _ _ _ hd hs (placed_root hal)).1)
      (roundUp (roundUp p (P.layout j.r.t).align + (P.layout j.r.t).size) va)
    have h4 : placeEnd va p (j.shapes P) = placeEnd va (roundUp (roundUp p (P.layout j.r.t).align + (P.layout j.r.t).size) va) j.sc.shapes := by
      simp [Job.shapes, rootShapes, hz, placeEnd, Shape.bytes]
    have key := (script_decode (fl := fl) (im := j.r.im) hva hW hP hacc hD (hDal hz) n j.r.t j.r.a j.v j.sc ⟨j.r.a, (P.layout j.r.t).size, (P.layout j.r.t).align⟩
      (roundUp p (P.layout j.r.t).align) (m.blit (roundUp p (P.layout j.r.t).align) (P.layout j.r.t).size fun i => j.r.im (j.r.a + i)) _ _ _ hd hs (placed_root hal) h2
      (by rw [outPos_self]; exact dvd_roundUp _ _) (hDal hz _ hz)
      (by intro i hi; rw [outPos_self]; exact blit_at hi) (Prod.mk.eta).symm (by rw [hend]; exact hb)).2 dm
    rw [outPos_self] at key
    apply key
    intro i hi
    apply hdm
    · omega
    · rw [hend] at hi
      rw [h4]
      simp only [Job.shapes] at h4
      rw [h4] at hi
      omega

/-- The contents below the end of a job are those the job left. -/
theorem jobs_at_cells {md : Mode} {va : Nat} (hva : 0 < va) (hW : 0 < C.arch.ptrBytes) (hP : P.WF C.arch) (hacc : P.Accepted C)
    {n : Nat} {js : List Job} (hj : ∀ j ∈ js, j.OK C P fl n) {m : Mem} {p : Nat} :
    ∀ x ∈ jobsAt P va p js, ∃ m0, ∀ i < placeEnd va x.2 (x.1.shapes P),
      (jobsIdeal C.arch va md P js (m, p)).1 i =
        (rootIdeal C.arch va md (P.layout x.1.r.t) x.1.r.im x.1.r.a x.1.sc (m0, x.2)).1 i := by
  induction js generalizing m p with
  | nil => intro x hx; cases hx
  | cons j js ih =>
    intro x hx
    have hj0 := hj j (by simp)
    have hjs : ∀ x ∈ js, x.OK C P fl n := fun x hx => hj x (by simp [hx])
    rcases List.mem_cons.1 hx with rfl | hx
    · refine ⟨m, fun i hi => ?_⟩
      rw [jobsIdeal, jobsIdeal_frame hva hW hP hacc hjs]
      rw [rootIdeal_end]; exact hi
    · have e : rootIdeal C.arch va md (P.layout j.r.t) j.r.im j.r.a j.sc (m, p) =
          ((rootIdeal C.arch va md (P.layout j.r.t) j.r.im j.r.a j.sc (m, p)).1, placeEnd va p (j.shapes P)) :=
        Prod.ext rfl rootIdeal_end
      rw [jobsIdeal, e]
      exact ih hjs x hx

/-- Every job's value can be read back through pointers relative to `D`. -/
theorem jobs_read {md : Mode} {va D : Nat} (hva : 0 < va) (hW : 0 < C.arch.ptrBytes) (hP : P.WF C.arch) (hacc : P.Accepted C)
    (hD : md.ptrBase = some D) {n : Nat} {js : List Job} (hj : ∀ j ∈ js, j.OK C P fl n) {m : Mem} {p : Nat}
    (hb : D + placeEnd va p (jobsShapes P js) < C.arch.usizeMod) {dm : Mem}
    (hdm : ∀ i, p ≤ i → i < placeEnd va p (jobsShapes P js) → dm (D + i) = (jobsIdeal C.arch va md P js (m, p)).1 i) :
    ∀ x ∈ jobsAt P va p js,
      ((P.layout x.1.r.t).size = 0 → (P.layout x.1.r.t).align ∣ D) →
      ((P.layout x.1.r.t).size ≠ 0 → ∀ u, (P.layout u).size ≠ 0 → (P.layout u).align ∣ D) →
      decode C.arch P ⟨fl.canon, md.fixup⟩ dm n x.1.r.t (D + jobPos P x) = some x.1.v ∧
      ∃ as, owned C.arch P dm n x.1.r.t (D + jobPos P x) = some as ∧ OwnOut C.arch va D x.1.r.a (jobPos P x) (bodyAt P va x) x.1.sc as := by
  intro x hx hz hnz
  obtain ⟨hm, hle, hend⟩ := jobsAt_mem_le hva hW hP hacc hj x hx
  obtain ⟨m0, hcells⟩ := jobs_at_cells (md := md) (m := m) hva hW hP hacc hj x hx
  refine root_read (p := x.2) (m := m0) hva hW hP hacc hD (hj _ hm) hz hnz (by omega) ?_
  intro i h1 h2
  rw [hdm i (by omega) (by omega), hcells i h2]

/-- Every job's value can be read in order from a plain copy. -/
theorem jobs_seq {va : Nat} (hva : 0 < va) (hW : 0 < C.arch.ptrBytes) (hP : P.WF C.arch) (hacc : P.Accepted C)
    {n : Nat} {js : List Job} (hj : ∀ j ∈ js, j.OK C P fl n) {m : Mem} {p : Nat} {dm : Mem}
    (hdm : ∀ i, p ≤ i → i < placeEnd va p (jobsShapes P js) → dm i = (jobsIdeal C.arch va Mode.plain P js (m, p)).1 i) :
    ∀ x ∈ jobsAt P va p js,
      decodeSeq C.arch P va dm n x.1.r.t (jobPos P x) (bodyAt P va x) = some (x.1.v, placeEnd va x.2 (x.1.shapes P)) := by
  intro x hx
  obtain ⟨hm, hle, hend⟩ := jobsAt_mem_le hva hW hP hacc hj x hx
  obtain ⟨m0, hcells⟩ := jobs_at_cells (md := Mode.plain) (m := m) hva hW hP hacc hj x hx
  obtain ⟨hd, hs⟩ := hj _ hm
  by_cases hz : (P.layout x.1.r.t).size = 0
  · rw [seq_zst hW hP hz hd]
    simp [bodyAt, Job.shapes, rootShapes, hz, placeEnd]
  · have hap : 0 < (P.layout x.1.r.t).align := by
      obtain ⟨e, he⟩ := (hP x.1.r.t).1
      simp only [he]; exact Nat.two_pow_pos _
    have hpos : jobPos P x = roundUp x.2 (P.layout x.1.r.t).align := by simp [jobPos, rootPos, hz]
    have hbody : bodyAt P va x = roundUp (roundUp x.2 (P.layout x.1.r.t).align + (P.layout x.1.r.t).size) va := by
      simp [bodyAt, hz, hpos]
    rw [hpos, hbody]
    have h1 := le_roundUp x.2 hap
    have h2 := le_roundUp (roundUp x.2 (P.layout x.1.r.t).align + (P.layout x.1.r.t).size) hva
    have h3 := le_placeEnd hva (pushes_align x.1.sc (script_wf hW hP hacc n _ _ _ _ _ hd hs (placed_root (decode_guard hd).1)).1)
      (roundUp (roundUp x.2 (P.layout x.1.r.t).align + (P.layout x.1.r.t).size) va)
    have h4 : placeEnd va x.2 (x.1.shapes P) = placeEnd va (roundUp (roundUp x.2 (P.layout x.1.r.t).align + (P.layout x.1.r.t).size) va) x.1.sc.shapes := by
      simp [Job.shapes, rootShapes, hz, placeEnd, Shape.bytes]
    have hcells' := hcells
    simp only [rootIdeal, if_neg hz] at hcells'
    rw [h4]
    refine seq_decode (fl := fl) (im := x.1.r.im) hva hW hP hacc n x.1.r.t x.1.r.a x.1.v x.1.sc x.1.r.a (roundUp x.2 (P.layout x.1.r.t).align)
      (roundUp x.2 (P.layout x.1.r.t).align) (m0.blit (roundUp x.2 (P.layout x.1.r.t).align) (P.layout x.1.r.t).size fun i => x.1.r.im (x.1.r.a + i))
      _ (Script.ideal C.arch va Mode.plain x.1.r.im x.1.sc x.1.r.a (roundUp x.2 (P.layout x.1.r.t).align)
        (m0.blit (roundUp x.2 (P.layout x.1.r.t).align) (P.layout x.1.r.t).size fun i => x.1.r.im (x.1.r.a + i), roundUp (roundUp x.2 (P.layout x.1.r.t).align + (P.layout x.1.r.t).size) va)).1
      (placeEnd va (roundUp (roundUp x.2 (P.layout x.1.r.t).align + (P.layout x.1.r.t).size) va) x.1.sc.shapes) hd hs h2 (fun i hi => blit_at hi) (Prod.ext rfl (by rw [ideal_end])) dm ?_
    intro i hi
    rw [hdm i (by omega) (by omega), hcells' i (by omega)]

/-- In a plain copy, every block (root and owned allocations) is verbatim at its place. -/
theorem jobs_verbatim {va : Nat} (hva : 0 < va) (hW : 0 < C.arch.ptrBytes) (hP : P.WF C.arch) (hacc : P.Accepted C)
    {n : Nat} {js : List Job} (hj : ∀ j ∈ js, j.OK C P fl n) {m : Mem} {p : Nat} :
    ∀ x ∈ jobsAt P va p js,
      (∀ i < (P.layout x.1.r.t).size, (jobsIdeal C.arch va Mode.plain P js (m, p)).1 (jobPos P x + i) = x.1.r.im (x.1.r.a + i)) ∧
      ∀ z ∈ x.1.sc.pushes.zip (place va (bodyAt P va x) x.1.sc.shapes), ∀ i < z.1.1.bytes,
        (jobsIdeal C.arch va Mode.plain P js (m, p)).1 (z.2 + i) = x.1.r.im (z.1.2 + i) := by
  intro x hx
  obtain ⟨hm, hle, hend⟩ := jobsAt_mem_le hva hW hP hacc hj x hx
  obtain ⟨m0, hcells⟩ := jobs_at_cells (md := Mode.plain) (m := m) hva hW hP hacc hj x hx
  obtain ⟨hd, hs⟩ := hj _ hm
  by_cases hz : (P.layout x.1.r.t).size = 0
  · refine ⟨fun i hi => by omega, ?_⟩
    rw [script_zst hW hP hz hs]; simp [Script.pushes]
  · have hap : 0 < (P.layout x.1.r.t).align := by
      obtain ⟨e, he⟩ := (hP x.1.r.t).1
      simp only [he]; exact Nat.two_pow_pos _
    have hwf := (script_wf hW hP hacc n _ _ _ _ _ hd hs (placed_root (decode_guard hd).1)).1
    have hpos : jobPos P x = roundUp x.2 (P.layout x.1.r.t).align := by simp [jobPos, rootPos, hz]
    have hbody : bodyAt P va x = roundUp (roundUp x.2 (P.layout x.1.r.t).align + (P.layout x.1.r.t).size) va := by
      simp [bodyAt, hz, hpos]
    rw [hpos, hbody]
    have h1 := le_roundUp x.2 hap
    have h2 := le_roundUp (roundUp x.2 (P.layout x.1.r.t).align + (P.layout x.1.r.t).size) hva
    have h3 := le_placeEnd hva (pushes_align x.1.sc hwf)
      (roundUp (roundUp x.2 (P.layout x.1.r.t).align + (P.layout x.1.r.t).size) va)
    have h4 : placeEnd va x.2 (x.1.shapes P) = placeEnd va (roundUp (roundUp x.2 (P.layout x.1.r.t).align + (P.layout x.1.r.t).size) va) x.1.sc.shapes := by
      simp [Job.shapes, rootShapes, hz, placeEnd, Shape.bytes]
    simp only [rootIdeal, if_neg hz] at hcells
    constructor
    · intro i hi
      rw [hcells _ (by omega), plain_frame hva _ hwf _ _ _ (by simp only; omega)]
      simp only; exact blit_at hi
    · intro z hz' i hi
      have hb := (place_bounds hva (pushes_align x.1.sc hwf) _ _ (mem_zip_shapes hz')).2.2
      rw [hcells _ (by simp only at hb; omega)]
      exact plain_copies hva _ hwf _ _ (_, _) z hz' i hi

end
end SerRaw
