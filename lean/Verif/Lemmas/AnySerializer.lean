import Verif.Spec.CallTree
import Verif.Lemmas.TypedScript
/-
`aData` on a valid value makes a definite tree of calls, whatever the serializer.
-/
namespace SerRaw

def CallTree.app : CallTree → CallTree → CallTree
  | .done, y => y
  | .process L target a inner rest, y => .process L target a inner (rest.app y)
  | .processSlice L len src a off inner rest, y => .processSlice L len src a off inner (rest.app y)
  | .pushSlice L len src a off rest, y => .pushSlice L len src a off (rest.app y)
  | .overwriteWith cs rest, y => .overwriteWith cs (rest.app y)

theorem CallTree.run_app {τ α : Type} (S : SerializerImpl τ α) (im : Mem) (x y : CallTree) :
    (x.app y).run S im = (x.run S im >>= fun _ => y.run S im) := by
  induction x with
  | done => rfl
  | process L target a inner rest _ ih => simp only [CallTree.app, CallTree.run, ih, bind_assoc_M]
  | processSlice L len src a off inner rest _ ih => simp only [CallTree.app, CallTree.run, ih, bind_assoc_M]
  | pushSlice L len src a off rest ih => simp only [CallTree.app, CallTree.run, ih, bind_assoc_M]
  | overwriteWith cs rest ih => simp only [CallTree.app, CallTree.run, ih, bind_assoc_M]

theorem CallTree.inRange_app {A : Arch} (x y : CallTree) (hx : x.InRange A) (hy : y.InRange A) : (x.app y).InRange A := by
  induction x with
  | done => exact hy
  | process L target a inner rest _ ih => exact ⟨hx.1, ih hx.2⟩
  | processSlice L len src a off inner rest _ ih => exact ⟨hx.1, hx.2.1, ih hx.2.2⟩
  | pushSlice L len src a off rest ih => exact ⟨hx.1, ih hx.2⟩
  | overwriteWith cs rest ih => exact ⟨hx.1, ih hx.2⟩

theorem CallTree.toScript_app (x y : CallTree) : (x.app y).toScript = x.toScript.app y.toScript := by
  induction x with
  | done => rfl
  | process L target a inner rest _ ih => simp only [CallTree.app, CallTree.toScript, ih, Script.app]
  | processSlice L len src a off inner rest _ ih => simp only [CallTree.app, CallTree.toScript, ih, Script.app]
  | pushSlice L len src a off rest ih => simp only [CallTree.app, CallTree.toScript, ih, Script.app]
  | overwriteWith cs rest ih =>
    simp only [CallTree.app, CallTree.toScript, ih]
    induction cs with
    | nil => rfl
    | cons c cs ihc => simp only [List.foldr_cons, ihc, Script.app]

/-- The corrections made to an empty `Vec`/`String` with spare capacity. -/
def emptyCorr (A : Arch) (o : Order) (dangle a : Nat) : List Correction :=
  let two (x y : Nat) (off : Option Nat) : Correction := ⟨a, off, ⟨2 * A.ptrBytes, A.ptrBytes⟩, wordsCells A [x, y]⟩
  let one (x : Nat) (off : Nat) : Correction := ⟨a, some off, ⟨A.ptrBytes, A.ptrBytes⟩, wordsCells A [x]⟩
  match o with
  | .cpl => [two 0 dangle none]
  | .pcl => [two dangle 0 none]
  | .lcp => [two 0 dangle (some A.ptrBytes)]
  | .lpc => [two dangle 0 (some A.ptrBytes)]
  | .plc => [one 0 (2 * A.ptrBytes), one dangle 0]
  | .clp => [one 0 0, one dangle (2 * A.ptrBytes)]

/-- The calls for a header; `body` pushes the contents. -/
def headCalls (A : Arch) (o : Order) (dangle a : Nat) (h : Header) (body : CallTree) : CallTree :=
  if h.len = 0 then .overwriteWith (if h.cap ≠ 0 then emptyCorr A o dangle a else []) .done
  else .overwriteWith (if h.cap ≠ h.len then
    [⟨a, some (o.capIx * A.ptrBytes), ⟨A.ptrBytes, A.ptrBytes⟩, wordsCells A [h.len]⟩] else []) body

theorem headCalls_toScript (A : Arch) (o : Order) (dangle a : Nat) (h : Header) (body : CallTree) :
    (headCalls A o dangle a h body).toScript = headScript A o dangle a h body.toScript := by
  unfold headCalls headScript
  by_cases hl : h.len = 0
  · simp only [hl, if_true]
    by_cases hc : h.cap = 0
    · simp only [hc, ne_eq, not_true_eq_false, if_false]; rfl
    · simp only [hc, ne_eq, not_false_eq_true, if_true]
      cases o <;>
        simp [CallTree.toScript, emptyCorr, fixEmpty, Script.words, Correction.addr]
  · simp only [hl, if_false]
    by_cases hc : h.cap = h.len
    · simp only [hc, ne_eq, not_true_eq_false, if_false]; rfl
    · simp only [hc, ne_eq, not_false_eq_true, if_true]
      simp [CallTree.toScript, Script.words, Correction.addr]

theorem headCalls_inRange {A : Arch} (o : Order) (dangle : Nat) {a : Nat} (h : Header) {body : CallTree}
    (ha : a + 3 * A.ptrBytes < A.usizeMod) (hb : body.InRange A) : (headCalls A o dangle a h body).InRange A := by
  unfold headCalls
  split
  · refine ⟨fun c hc => ?_, trivial⟩
    split at hc
    · cases o <;> simp only [emptyCorr, List.mem_cons, List.mem_nil_iff, or_false, List.mem_singleton] at hc <;>
        (first | (rcases hc with rfl | rfl) | subst hc) <;>
        simp only [Correction.addr, Option.getD_none, Option.getD_some] <;> omega
    · cases hc
  · refine ⟨fun c hc => ?_, hb⟩
    split at hc
    · simp only [List.mem_singleton] at hc
      subst hc
      have hc3 : o.capIx * A.ptrBytes ≤ 2 * A.ptrBytes := by cases o <;> simp [Order.capIx] <;> omega
      simp only [Correction.addr, Option.getD_some]
      omega
    · cases hc

theorem ptrIx_le (o : Order) (W : Nat) : o.ptrIx * W ≤ 2 * W := by cases o <;> simp [Order.ptrIx] <;> omega

section
variable {A : Arch} {P : Prog} {im : Mem} {fl : Flags}

/-- `x` makes the calls `c` on every serializer for the architecture, given enough fuel, and they are the script `sc`. -/
def IsCalls (A : Arch) (im : Mem) (n : Nat) (x : ∀ {τ α : Type}, Nat → SerializerImpl τ α → M τ Unit) (c : CallTree) (sc : Option Script) :
    Prop :=
  sc = some c.toScript ∧ c.InRange A ∧ ∀ m, n ≤ m → ∀ (τ α : Type) (S : SerializerImpl τ α), S.A = A → x m S = c.run S im

theorem aEach_calls {n : Nat} {rs : ∀ {τ α : Type}, Nat → SerializerImpl τ α → TyId → Nat → M τ Unit} {rd : TyId → Nat → Option Val}
    {rc : TyId → Nat → Option Script}
    (h : ∀ t a v, rd t a = some v → ∃ c, IsCalls A im n (fun m S => rs m S t a) c (rc t a)) (a : Nat) (fs : List Field) {vs : List Val}
    (hd : decodeEach rd a fs = some vs) :
    ∃ c, IsCalls A im n (fun m S => aEach (rs m S) a fs) c (scriptEach rc a fs) := by
  induction fs generalizing vs with
  | nil => exact ⟨.done, rfl, trivial, fun _ _ _ _ _ _ => rfl⟩
  | cons f fs ih =>
    simp only [decodeEach, Option.bind_eq_bind, Option.bind_eq_some_iff, Option.pure_def, Option.some.injEq] at hd
    obtain ⟨v, h1, ws, h2, _⟩ := hd
    obtain ⟨c1, e1, i1, e2⟩ := h _ _ _ h1
    obtain ⟨c2, e3, i2, e4⟩ := ih h2
    refine ⟨c1.app c2, ?_, CallTree.inRange_app _ _ i1 i2, fun m hm τ α S hS => ?_⟩
    · simp [scriptEach, e1, e3, CallTree.toScript_app]
    · rw [CallTree.run_app, ← e2 m hm τ α S hS, ← e4 m hm τ α S hS]; rfl

theorem aFixEmpty_run {τ α : Type} (S : SerializerImpl τ α) (hW : 0 < S.A.ptrBytes) (o : Order) (dangle a : Nat) :
    aFixEmpty S ⟨o.ptrIx * S.A.ptrBytes, o.capIx * S.A.ptrBytes, o.lenIx * S.A.ptrBytes⟩ dangle a =
      corrections S (emptyCorr S.A o dangle a) := by
  have h0 : S.A.ptrBytes ≠ 0 := by omega
  have h2 : S.A.ptrBytes ≠ 2 * S.A.ptrBytes := by omega
  have h2' : 2 * S.A.ptrBytes ≠ S.A.ptrBytes := by omega
  cases o <;>
    simp [aFixEmpty, emptyCorr, corrections, Correction.run, Order.ptrIx, Order.capIx, h0, Ne.symm h0, h2, h2',
      Nat.mul_comm S.A.ptrBytes 2, bind_pure_unit, twoWords_eq, oneWord_eq, bind_assoc_M]

theorem headCalls_run {τ α : Type} (S : SerializerImpl τ α) (hW : 0 < S.A.ptrBytes) (o : Order) {dangle a : Nat} (hd : dangle ≠ 0)
    {h : Header} {body : CallTree} {x : Nat → M τ Unit}
    (hh : readHeader S.A im o a = some h) (hbody : h.len ≠ 0 → x (o.ptrIx * S.A.ptrBytes) = body.run S im) :
    (do
      let len ← readIn S.A im (a + o.lenIx * S.A.ptrBytes)
      let cap ← readIn S.A im (a + o.capIx * S.A.ptrBytes)
      let _ ← readIn S.A im (a + o.ptrIx * S.A.ptrBytes)
      let off ← constEval (vecOffsets S.A.ptrBytes o dangle)
      if len = 0 then
        S.overwriteWith (if cap ≠ 0 then aFixEmpty S off dangle a else pure ())
      else do
        S.overwriteWith (aFixCap S off cap len a)
        x off.ptr : M τ Unit) = (headCalls S.A o dangle a h body).run S im := by
  simp only [readHeader, Option.bind_eq_bind, Option.bind_eq_some_iff, Option.pure_def, Option.some.injEq] at hh
  obtain ⟨ptr, h1, cap, h2, len, h3, rfl⟩ := hh
  simp only [readIn, h1, h2, h3, pure_bind_M, vecOffsets_eq _ _ hd, constEval]
  unfold headCalls
  by_cases hl : len = 0
  · simp only [hl, if_true]
    by_cases hc : cap = 0
    · simp only [hc, ne_eq, not_true_eq_false, if_false, CallTree.run, corrections, bind_pure_unit]
    · simp only [hc, ne_eq, not_false_eq_true, if_true, CallTree.run, bind_pure_unit, aFixEmpty_run S hW]
  · simp only [hl, if_false]
    rw [hbody hl]
    by_cases hc : cap = len
    · simp only [hc, ne_eq, not_true_eq_false, if_false, CallTree.run, corrections, aFixCap]
    · simp only [hc, ne_eq, not_false_eq_true, if_true, CallTree.run, corrections, aFixCap, Correction.run, oneWord_eq, bind_pure_unit]

theorem aVec_calls (hW : 0 < A.ptrBytes) (hP : P.WF A)
    {n : Nat} {rs : ∀ {τ α : Type}, Nat → SerializerImpl τ α → TyId → Nat → M τ Unit} {rd : TyId → Nat → Option Val} {rc : TyId → Nat → Option Script}
    (h : ∀ t a v, rd t a = some v → ∃ c, IsCalls A im n (fun m S => rs m S t a) c (rc t a)) {u : TyId} {a : Nat} {v : Val}
    (ha : a + 3 * A.ptrBytes < A.usizeMod) (hd : decodeVec A P fl im rd u a = some v) :
    ∃ c, IsCalls A im n (fun m S => aVec S P im (rs m S) u a) c (scriptVec A P im rc u a) := by
  unfold scriptVec
  by_cases hz : (P.layout u).size = 0
  · exact ⟨.done, by rw [if_pos hz]; rfl, trivial, fun _ _ _ _ S _ => by unfold aVec; simp only [if_pos hz]; rfl⟩
  · simp only [decodeVec, Option.bind_eq_bind, Option.bind_eq_some_iff, Option.pure_def, Option.some.injEq,
      Option.ite_none_right_eq_some] at hd
    obtain ⟨hh, h1, hval, vs, h2, _⟩ := hd
    obtain ⟨inner, e1, i1, e2⟩ := aEach_calls h hh.ptr (elems P u hh.len) h2
    have hal : (P.layout u).align ≠ 0 := by
      obtain ⟨⟨e, he⟩, _⟩ := hP u
      rw [he]; exact Nat.ne_of_gt (Nat.two_pow_pos e)
    refine ⟨headCalls A (P.vecOrder u) (P.layout u).align a hh
      (.processSlice (P.layout u) hh.len hh.ptr a ((P.vecOrder u).ptrIx * A.ptrBytes) inner .done), ?_,
      headCalls_inRange _ _ _ ha ⟨by have := ptrIx_le (P.vecOrder u) A.ptrBytes; omega, i1, trivial⟩, fun m hm τ α S hS => ?_⟩
    · rw [if_neg hz]
      simp only [h1, e1, Option.bind_eq_bind, Option.bind_some, headCalls_toScript]; rfl
    · subst hS
      have h1' := h1
      simp only [readHeader, Option.bind_eq_bind, Option.bind_eq_some_iff, Option.pure_def, Option.some.injEq] at h1'
      obtain ⟨ptr, r1, cap, r2, len, r3, rfl⟩ := h1'
      rw [← headCalls_run S hW (P.vecOrder u) hal h1 (x := fun off => do
        let ptrAddr ← S.fromRefOffset a off
        let _ ← S.pushAndProcessSlice ⟨P.layout u, len, ptr, inputAt im ptr⟩ ptrAddr (aEach (rs m S) ptr (elems P u len))
        pure ())]
      · unfold aVec
        simp only [if_neg hz, readIn, r1, r2, r3, pure_bind_M]
      · intro _
        simp only [CallTree.run]
        have := e2 m hm τ α S rfl
        simp only at this
        rw [this]
        rfl

theorem aString_calls (hW : 0 < A.ptrBytes) {a : Nat} {v : Val} (ha : a + 3 * A.ptrBytes < A.usizeMod)
    (hd : decodeStr A P fl im a = some v) (n : Nat) :
    ∃ c, IsCalls A im n (fun _ S => aString S P im a) c (do
      let h ← readHeader A im P.stringOrder a
      pure (headScript A P.stringOrder 1 a h (.push ⟨1, 1⟩ h.len h.ptr (a + P.stringOrder.ptrIx * A.ptrBytes) .done))) := by
  simp only [decodeStr, Option.bind_eq_bind, Option.bind_eq_some_iff, Option.pure_def, Option.some.injEq,
    Option.ite_none_right_eq_some] at hd
  obtain ⟨hh, h1, _⟩ := hd
  refine ⟨headCalls A P.stringOrder 1 a hh (.pushSlice ⟨1, 1⟩ hh.len hh.ptr a (P.stringOrder.ptrIx * A.ptrBytes) .done), ?_,
    headCalls_inRange _ _ _ ha ⟨by have := ptrIx_le P.stringOrder A.ptrBytes; omega, trivial⟩, fun m hm τ α S hS => ?_⟩
  · simp only [h1, Option.bind_eq_bind, Option.bind_some, headCalls_toScript]; rfl
  · subst hS
    have h1' := h1
    simp only [readHeader, Option.bind_eq_bind, Option.bind_eq_some_iff, Option.pure_def, Option.some.injEq] at h1'
    obtain ⟨ptr, r1, cap, r2, len, r3, rfl⟩ := h1'
    rw [← headCalls_run S hW P.stringOrder (by omega) h1 (x := fun off => do
      let ptrAddr ← S.fromRefOffset a off
      let _ ← S.pushSlice ⟨⟨1, 1⟩, len, ptr, inputAt im ptr⟩ ptrAddr
      pure ())]
    · unfold aString
      simp only [readIn, r1, r2, r3, pure_bind_M]
    · intro _
      simp only [CallTree.run]
      rfl

theorem IsCalls.step {n : Nat} {x : ∀ {τ α : Type}, Nat → SerializerImpl τ α → M τ Unit} {c : CallTree} {sc : Option Script}
    (h : IsCalls A im n (fun m S => x (m + 1) S) c sc) : IsCalls A im (n + 1) (fun m S => x m S) c sc := by
  refine ⟨h.1, h.2.1, fun m hm τ α S hS => ?_⟩
  obtain ⟨m, rfl⟩ : ∃ m', m = m' + 1 := ⟨m - 1, by omega⟩
  exact h.2.2 m (by omega) τ α S hS

theorem aData_calls (hW : 0 < A.ptrBytes) (hP : P.WF A) {n t a : Nat} {v : Val} (hd : decode A P fl im n t a = some v) :
    ∃ c, IsCalls A im n (fun m S => aData S P im m t a) c (script A P im n t a) := by
  induction n generalizing t a v with
  | zero => simp [decode] at hd
  | succ n ih =>
    suffices h : ∃ c, IsCalls A im n (fun m S => aData S P im (m + 1) t a) c (script A P im (n + 1) t a) by
      obtain ⟨c, hc⟩ := h
      exact ⟨c, hc.step (x := fun m S => aData S P im m t a)⟩
    have hw := hP t
    unfold TyWF at hw
    obtain ⟨_, _, _, hw⟩ := hw
    unfold IsCalls
    simp only [script, aData]
    rw [decode] at hd
    split at hd
    · rename_i hg
      cases hdef : P.defn t <;> simp only [hdef] at hd hw ⊢
      case prim => exact ⟨.done, rfl, trivial, fun _ _ _ _ _ _ => rfl⟩
      case box u =>
        simp only [Option.bind_eq_bind, Option.bind_eq_some_iff, Option.pure_def, Option.some.injEq,
          Option.ite_none_right_eq_some] at hd
        obtain ⟨p, h1, h2, v', h3, _⟩ := hd
        by_cases hz : (P.layout u).size = 0
        · exact ⟨.done, by rw [if_pos hz]; rfl, trivial, fun _ _ _ _ S _ => by unfold aBox; rw [if_pos hz]; rfl⟩
        · obtain ⟨inner, e1, i1, e2⟩ := ih h3
          refine ⟨.process (P.layout u) p a inner .done, by rw [if_neg hz]; simp only [h1, e1, Option.bind_eq_bind, Option.bind_some]; rfl,
            ⟨i1, trivial⟩, fun m hm τ α S hS => ?_⟩
          have := e2 m hm τ α S hS
          simp only at this
          unfold aBox
          rw [if_neg hz]
          subst hS
          simp only [readIn, h1, pure_bind_M, this, CallTree.run]
          rfl
      case vec u =>
        exact aVec_calls (rs := fun m S => aData S P im m) hW hP (fun t a v => ih) (by have := hg.2; rw [hw] at this; exact this) hd
      case string => exact aString_calls hW (by have := hg.2; rw [hw] at this; exact this) hd n
      case array u cnt =>
        simp only [Option.bind_eq_bind, Option.bind_eq_some_iff] at hd
        obtain ⟨vs, h1, _⟩ := hd
        exact aEach_calls (rs := fun m S => aData S P im m) (fun t a v => ih) a _ h1
      case struct fs =>
        simp only [Option.bind_eq_bind, Option.bind_eq_some_iff] at hd
        obtain ⟨vs, h1, _⟩ := hd
        exact aEach_calls (rs := fun m S => aData S P im m) (fun t a v => ih) a _ h1
      case enum tag vs =>
        simp only [Option.bind_eq_bind, Option.bind_eq_some_iff] at hd
        obtain ⟨i, h1, fs, h2, xs, h3, _⟩ := hd
        obtain ⟨c, e1, i1, e2⟩ := aEach_calls (rs := fun m S => aData S P im m) (fun t a v => ih) a _ h3
        refine ⟨c, by simp [h1, h2, e1], i1, fun m hm τ α S hS => ?_⟩
        have := e2 m hm τ α S hS
        unfold aEnum
        subst hS
        simp only [h1, h2]
        exact this
      case bigUint u =>
        exact aVec_calls (rs := fun m S => aData S P im m) hW hP (fun t a v => ih) (by have := hg.2; rw [hw.1] at this; exact this) hd
      case bigInt u =>
        simp only [Option.bind_eq_bind, Option.bind_eq_some_iff] at hd
        obtain ⟨_, _, v', h2, _⟩ := hd
        obtain ⟨c, e1, i1, e2⟩ := ih h2
        refine ⟨c, e1, i1, fun m hm τ α S hS => ?_⟩
        obtain ⟨_, ⟨d, hu⟩, _⟩ := hw
        unfold aBigInt
        subst hS
        simp only [hu]
        funext s
        rw [bind_ok (bigintDataOffset_ok hW P d s)]
        have := e2 m hm τ α S rfl
        simp only at this
        rw [this]
    · cases hd

end

end SerRaw
