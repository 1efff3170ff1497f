import Verif.Model.Impls
import Verif.Model.Script
import Verif.Lemmas.Basic
import Verif.Lemmas.Decode
/-
The crate's own `Serialize` implementations are scripts: `serData` on a valid input value makes a definite sequence of
serializer calls, which does not depend on the serializer.
-/
namespace SerRaw

/-- The calls made for each field in turn. -/
def scriptEach (rec : TyId → Nat → Option Script) (a : Nat) : List Field → Option Script
  | [] => some .done
  | f :: fs => do
    let s ← rec f.2 (a + f.1)
    let r ← scriptEach rec a fs
    pure (s.app r)

/-- Overwriting `usize` words. -/
def Script.words (A : Arch) (a : Nat) (ws : List Nat) (rest : Script) : Script :=
  .overwrite a ⟨ws.length * A.ptrBytes, A.ptrBytes⟩ (wordsCells A ws) rest

/-- The correction made to an empty `Vec`/`String` with spare capacity. -/
def fixEmpty (A : Arch) (o : Order) (dangle a : Nat) : Script :=
  match o with
  | .cpl => .words A a [0, dangle] .done
  | .pcl => .words A a [dangle, 0] .done
  | .lcp => .words A (a + A.ptrBytes) [0, dangle] .done
  | .lpc => .words A (a + A.ptrBytes) [dangle, 0] .done
  | .plc => .words A (a + 2 * A.ptrBytes) [0] (.words A (a + 0 * A.ptrBytes) [dangle] .done)
  | .clp => .words A (a + 0 * A.ptrBytes) [0] (.words A (a + 2 * A.ptrBytes) [dangle] .done)

/-- The calls made for a `Vec`/`String` header; `body` pushes the contents. -/
def headScript (A : Arch) (o : Order) (dangle a : Nat) (h : Header) (body : Script) : Script :=
  if h.len = 0 then (if h.cap ≠ 0 then fixEmpty A o dangle a else .done)
  else if h.cap ≠ h.len then .words A (a + o.capIx * A.ptrBytes) [h.len] body
  else body

def scriptVec (A : Arch) (P : Prog) (im : Mem) (rec : TyId → Nat → Option Script) (u : TyId) (a : Nat) : Option Script :=
  if (P.layout u).size = 0 then some .done
  else do
    let h ← readHeader A im (P.vecOrder u) a
    let inner ← scriptEach rec h.ptr (elems P u h.len)
    pure (headScript A (P.vecOrder u) (P.layout u).align a h
      (.pushProcess (P.layout u) h.len h.ptr (a + (P.vecOrder u).ptrIx * A.ptrBytes) inner .done))

/-- The calls made by `serialize_data` for the value of type `t` at `a`. -/
def script (A : Arch) (P : Prog) (im : Mem) : Nat → TyId → Nat → Option Script
  | 0, _, _ => none
  | n + 1, t, a =>
    match P.defn t with
    | .prim => some .done
    | .box u =>
      if (P.layout u).size = 0 then some .done
      else do
        let p ← readWord A im a
        let inner ← script A P im n u p
        pure (.pushProcess (P.layout u) 1 p a inner .done)
    | .vec u => scriptVec A P im (script A P im n) u a
    | .string => do
      let h ← readHeader A im P.stringOrder a
      pure (headScript A P.stringOrder 1 a h
        (.push ⟨1, 1⟩ h.len h.ptr (a + P.stringOrder.ptrIx * A.ptrBytes) .done))
    | .array u k => scriptEach (script A P im n) a (elems P u k)
    | .struct fs => scriptEach (script A P im n) a fs
    | .enum tag vs => do
      let i ← activeVariant A im a tag
      let fs ← vs[i]?
      scriptEach (script A P im n) a fs
    | .bigUint u => scriptVec A P im (script A P im n) u a
    | .bigInt u => script A P im n u (a + P.bigIntDataOff A)

/-! ### Sequencing -/

theorem run_app {C : Cfg} {k : Kind} {im : Mem} (x y : Script) :
    (x.app y).run C k im = (x.run C k im >>= fun _ => y.run C k im) := by
  induction x with
  | done => rfl
  | pushProcess L len src ptr inner rest _ ih => simp only [Script.app, Script.run, ih, bind_assoc_M]
  | push L len src ptr rest ih => simp only [Script.app, Script.run, ih, bind_assoc_M]
  | pushRaw L len src rest ih => simp only [Script.app, Script.run, ih, bind_assoc_M]
  | overwrite a L data rest ih => simp only [Script.app, Script.run, ih, bind_assoc_M]

theorem serEach_eq {C : Cfg} {k : Kind} {im : Mem} {rs : TyId → Nat → M Ser Unit} {rd : TyId → Nat → Option Val}
    {rc : TyId → Nat → Option Script}
    (h : ∀ t a v, rd t a = some v → ∃ sc, rc t a = some sc ∧ rs t a = sc.run C k im) (a : Nat) (fs : List Field) {vs : List Val}
    (hd : decodeEach rd a fs = some vs) : ∃ sc, scriptEach rc a fs = some sc ∧ serEach rs a fs = sc.run C k im := by
  induction fs generalizing vs with
  | nil => exact ⟨.done, rfl, rfl⟩
  | cons f fs ih =>
    simp only [decodeEach, Option.bind_eq_bind, Option.bind_eq_some_iff, Option.pure_def, Option.some.injEq] at hd
    obtain ⟨v, h1, ws, h2, _⟩ := hd
    obtain ⟨s1, e1, e2⟩ := h _ _ _ h1
    obtain ⟨s2, e3, e4⟩ := ih h2
    refine ⟨s1.app s2, ?_, ?_⟩
    · simp [scriptEach, e1, e3]
    · rw [serEach, e2, e4, run_app]

/-! ### Compile-time offsets -/

theorem vecOffsets_eq (W : Nat) (o : Order) {dangle : Nat} (hd : dangle ≠ 0) :
    vecOffsets W o dangle = some ⟨o.ptrIx * W, o.capIx * W, o.lenIx * W⟩ := by
  have hd' : ¬ (0 = dangle) := fun h => hd h.symm
  cases o <;>
    simp [vecOffsets, ptrIndex, offsetsWords, Order.words, Order.ptrIx, Order.capIx, Order.lenIx, nth3, hd', Nat.mul_comm]

theorem addrOff_eq {σ} {A : Arch} {k : Kind} {a off : Nat} (h : a + off < A.usizeMod) :
    (addrFromRefOffset A k a off : M σ Nat) = pure (addrFromRef k (a + off)) := by
  funext s
  unfold addrFromRefOffset addrFromRef
  split
  · rw [uadd_ok _ h]; rfl
  · rfl

/-- `[usize; 2]` as words. -/
theorem twoWords_eq (A : Arch) (x y : Nat) : twoWords A x y = wordsCells A [x, y] := by
  funext i; simp [twoWords, wordsCells]

theorem oneWord_eq (A : Arch) (x : Nat) : wordCells A x = wordsCells A [x] := by
  funext i; simp [wordCells, wordsCells]

theorem fixEmpty_eq {C : Cfg} {k : Kind} {im : Mem} (o : Order) {dangle a : Nat} (hW : 0 < C.arch.ptrBytes)
    (ha : a + 3 * C.arch.ptrBytes < C.arch.usizeMod) :
    overwriteWith k (overwriteCapAndPtrForEmpty C k
      ⟨o.ptrIx * C.arch.ptrBytes, o.capIx * C.arch.ptrBytes, o.lenIx * C.arch.ptrBytes⟩ dangle a) =
      (fixEmpty C.arch o dangle a).run C k im := by
  have h0 : C.arch.ptrBytes ≠ 0 := by omega
  have h2 : C.arch.ptrBytes ≠ 2 * C.arch.ptrBytes := by omega
  have h2' : 2 * C.arch.ptrBytes ≠ C.arch.ptrBytes := by omega
  cases k <;> cases o <;>
    simp [overwriteWith, Complete.doOverwriteWith, overwriteCapAndPtrForEmpty, fixEmpty, Script.words, Script.run, Order.ptrIx, Order.capIx, h0, Ne.symm h0, h2, h2',
      Nat.mul_comm C.arch.ptrBytes 2, bind_pure_unit, twoWords_eq, oneWord_eq,
      addrOff_eq (show a + C.arch.ptrBytes < C.arch.usizeMod by omega),
      addrOff_eq (show a + 2 * C.arch.ptrBytes < C.arch.usizeMod by omega),
      addrOff_eq (show a + 0 < C.arch.usizeMod by omega)] <;> rfl

theorem headScript_eq {C : Cfg} {k : Kind} {im : Mem} (o : Order) {dangle a : Nat} (hW : 0 < C.arch.ptrBytes)
    (ha : a + 3 * C.arch.ptrBytes < C.arch.usizeMod) (hd : dangle ≠ 0) {h : Header} {body : Script}
    {x : Nat → M Ser Unit}
    (hh : readHeader C.arch im o a = some h)
    (hbody : h.len ≠ 0 → x (addrFromRef k (a + o.ptrIx * C.arch.ptrBytes)) = body.run C k im) :
    (do
      let len ← readIn C.arch im (a + o.lenIx * C.arch.ptrBytes)
      let cap ← readIn C.arch im (a + o.capIx * C.arch.ptrBytes)
      let _ ← readIn C.arch im (a + o.ptrIx * C.arch.ptrBytes)
      let off ← constEval (vecOffsets C.arch.ptrBytes o dangle)
      if len = 0 then
        overwriteWith k (if cap ≠ 0 then overwriteCapAndPtrForEmpty C k off dangle a else pure ())
      else do
        overwriteWith k (if cap ≠ len then do
            let capAddr ← addrFromRefOffset C.arch k a off.cap
            overwrite C k capAddr ⟨C.arch.ptrBytes, C.arch.ptrBytes⟩ (wordCells C.arch len)
          else pure ())
        let ptrAddr ← addrFromRefOffset C.arch k a off.ptr
        x ptrAddr : M Ser Unit) = (headScript C.arch o dangle a h body).run C k im := by
  simp only [readHeader, Option.bind_eq_bind, Option.bind_eq_some_iff, Option.pure_def, Option.some.injEq] at hh
  obtain ⟨ptr, h1, cap, h2, len, h3, rfl⟩ := hh
  simp only [readIn, h1, h2, h3, pure_bind_M, vecOffsets_eq _ _ hd, constEval]
  have hp3 : o.ptrIx * C.arch.ptrBytes ≤ 2 * C.arch.ptrBytes := by cases o <;> simp [Order.ptrIx] <;> omega
  have hc3 : o.capIx * C.arch.ptrBytes ≤ 2 * C.arch.ptrBytes := by cases o <;> simp [Order.capIx] <;> omega
  rw [addrOff_eq (show a + o.ptrIx * C.arch.ptrBytes < _ by omega), addrOff_eq (show a + o.capIx * C.arch.ptrBytes < _ by omega)]
  simp only [pure_bind_M]
  unfold headScript
  by_cases hl : len = 0
  · simp only [hl, if_true]
    by_cases hc : cap = 0
    · simp only [hc]; cases k <;> rfl
    · simp only [hc, ne_eq, not_false_eq_true, if_true]
      exact fixEmpty_eq o hW ha
  · simp only [hl, if_false]
    rw [hbody hl]
    by_cases hc : cap = len
    · simp only [hc, ne_eq, not_true_eq_false, if_false]
      cases k <;> rfl
    · simp only [hc, ne_eq, not_false_eq_true, if_true, Script.words, Script.run, List.length_singleton, Nat.one_mul, oneWord_eq]

theorem serVec_eq {C : Cfg} (hW : 0 < C.arch.ptrBytes) {k : Kind} {P : Prog} (hP : P.WF C.arch) {im : Mem} {fl : Flags}
    {rs : TyId → Nat → M Ser Unit} {rd : TyId → Nat → Option Val} {rc : TyId → Nat → Option Script}
    (h : ∀ t a v, rd t a = some v → ∃ sc, rc t a = some sc ∧ rs t a = sc.run C k im) {u : TyId} {a : Nat} {v : Val}
    (ha : a + 3 * C.arch.ptrBytes < C.arch.usizeMod)
    (hd : decodeVec C.arch P fl im rd u a = some v) :
    ∃ sc, scriptVec C.arch P im rc u a = some sc ∧ serVec C k P im rs u a = sc.run C k im := by
  unfold scriptVec serVec
  by_cases hz : (P.layout u).size = 0
  · exact ⟨.done, by rw [if_pos hz], by simp only [if_pos hz]; rfl⟩
  · simp only [decodeVec, Option.bind_eq_bind, Option.bind_eq_some_iff, Option.pure_def, Option.some.injEq,
      Option.ite_none_right_eq_some] at hd
    obtain ⟨hh, h1, hval, vs, h2, _⟩ := hd
    obtain ⟨inner, e1, e2⟩ := serEach_eq h hh.ptr (elems P u hh.len) h2
    have hal : (P.layout u).align ≠ 0 := by
      obtain ⟨⟨e, he⟩, _⟩ := hP u
      rw [he]; exact Nat.ne_of_gt (Nat.two_pow_pos e)
    refine ⟨_, by rw [if_neg hz]; simp only [h1, e1, Option.bind_eq_bind, Option.bind_some]; rfl, ?_⟩
    simp only [if_neg hz]
    have h1' := h1
    simp only [readHeader, Option.bind_eq_bind, Option.bind_eq_some_iff, Option.pure_def, Option.some.injEq] at h1'
    obtain ⟨ptr, r1, cap, r2, len, r3, rfl⟩ := h1'
    rw [← headScript_eq (P.vecOrder u) hW ha hal h1 (x := fun ptrAddr => do
      let _ ← pushAndProcessSlice C k ⟨P.layout u, len, ptr, inputAt im ptr⟩ ptrAddr (serEach rs ptr (elems P u len))
      pure ())]
    · simp only [readIn, r1, r2, r3, pure_bind_M]
    · intro _
      simp only [Script.run, e2]
      rfl

theorem serString_eq {C : Cfg} (hW : 0 < C.arch.ptrBytes) {k : Kind} {P : Prog} {im : Mem} {fl : Flags}
    {a : Nat} {v : Val} (ha : a + 3 * C.arch.ptrBytes < C.arch.usizeMod) (hd : decodeStr C.arch P fl im a = some v) :
    ∃ h, readHeader C.arch im P.stringOrder a = some h ∧
      serString C k P im a = (headScript C.arch P.stringOrder 1 a h
        (.push ⟨1, 1⟩ h.len h.ptr (a + P.stringOrder.ptrIx * C.arch.ptrBytes) .done)).run C k im := by
  simp only [decodeStr, Option.bind_eq_bind, Option.bind_eq_some_iff, Option.pure_def, Option.some.injEq,
    Option.ite_none_right_eq_some] at hd
  obtain ⟨hh, h1, _⟩ := hd
  refine ⟨hh, h1, ?_⟩
  have h1' := h1
  simp only [readHeader, Option.bind_eq_bind, Option.bind_eq_some_iff, Option.pure_def, Option.some.injEq] at h1'
  obtain ⟨ptr, r1, cap, r2, len, r3, rfl⟩ := h1'
  rw [← headScript_eq P.stringOrder hW ha (by omega) h1 (x := fun ptrAddr => do
    let _ ← pushSlice C k ⟨⟨1, 1⟩, len, ptr, inputAt im ptr⟩ ptrAddr
    pure ())]
  · unfold serString
    simp only [readIn, r1, r2, r3, pure_bind_M]
  · intro _
    simp only [Script.run]
    rfl

/-! ### `BigInt` offset -/

theorem lenSet (W : Nat) (hW : 0 < W) (o : Order) (x : Nat) :
    nth3 (let w0 := o.words x 0 0
      (if 0 = o.lenIx * W / W then 1 else w0.1, if 1 = o.lenIx * W / W then 1 else w0.2.1,
        if 2 = o.lenIx * W / W then 1 else w0.2.2)) o.lenIx = 1 := by
  rw [Nat.mul_div_cancel _ hW]
  cases o <;> rfl

theorem bigintDataOffset_ok {σ} {A : Arch} (hW : 0 < A.ptrBytes) (P : Prog) (usize : TyId) (s : σ) :
    bigintDataOffset A P usize s = .ok (P.bigIntDataOff A) s := by
  have hlen : ∀ (x y z : Nat), (encWord A x ++ encWord A y ++ encWord A z).length = 3 * A.ptrBytes := by
    intro x y z; simp only [List.length_append, encWord_length]; omega
  -- both byte arrays: same data bytes, and the sign byte as given
  obtain ⟨d, hdl, hd⟩ : ∃ d : List UInt8, d.length = 3 * A.ptrBytes ∧ ∀ sign : UInt8, createBigIntBytes A P usize sign = some fun i =>
      if P.bigIntDataOff A ≤ i ∧ i < P.bigIntDataOff A + 3 * A.ptrBytes then d[i - P.bigIntDataOff A]?
      else if i = P.bigIntSignOff A then some sign else none := by
    let w0 := (P.vecOrder usize).words A.ptrBytes 0 0
    let ix := (P.vecOrder usize).lenIx * A.ptrBytes / A.ptrBytes
    refine ⟨encWord A (if 0 = ix then 1 else w0.1) ++ encWord A (if 1 = ix then 1 else w0.2.1) ++
      encWord A (if 2 = ix then 1 else w0.2.2), hlen _ _ _, fun sign => ?_⟩
    · unfold createBigIntBytes
      simp only [vecOffsets_eq _ (P.vecOrder usize) (show A.ptrBytes ≠ 0 by omega), Option.bind_eq_bind, Option.bind_some,
        Option.pure_def]
      have := lenSet A.ptrBytes hW (P.vecOrder usize) A.ptrBytes
      simp only at this
      rw [this]
      simp only [Nat.one_ne_zero, if_false]
      rfl
  unfold bigintDataOffset
  simp only [hd, constEval, pure_bind_M]
  have h0 : 0 < d.length := by omega
  cases hf : P.bigIntDataFirst with
  | true =>
    simp only [Prog.bigIntDataOff, Prog.bigIntSignOff, hf, if_true]
    have c1 : (0 ≤ 0 ∧ 0 < 0 + 3 * A.ptrBytes) := by omega
    have c2 : ¬ (0 ≤ A.ptrBytes * 3 ∧ A.ptrBytes * 3 < 0 + 3 * A.ptrBytes) := by omega
    have c3 : A.ptrBytes * 3 = 3 * A.ptrBytes := by omega
    simp only [if_pos c1, if_neg c2, if_pos c3, Nat.sub_self, List.getElem?_eq_getElem h0, beq_self_eq_true, if_true]
    rfl
  | false =>
    simp only [Prog.bigIntDataOff, Prog.bigIntSignOff, hf, Bool.false_eq_true, if_false]
    have c1 : ¬ (A.ptrBytes ≤ 0 ∧ 0 < A.ptrBytes + 3 * A.ptrBytes) := by omega
    have c2 : (A.ptrBytes ≤ A.ptrBytes * 3 ∧ A.ptrBytes * 3 < A.ptrBytes + 3 * A.ptrBytes) := by omega
    have h3 : A.ptrBytes * 3 - A.ptrBytes < d.length := by omega
    simp only [if_neg c1, if_pos c2, if_true, List.getElem?_eq_getElem h3]
    rfl

/-! ### All types -/

theorem serData_eq {C : Cfg} (hW : 0 < C.arch.ptrBytes) (k : Kind) {P : Prog} (hP : P.WF C.arch) {im : Mem} {fl : Flags}
    {n t a : Nat} {v : Val} (hd : decode C.arch P fl im n t a = some v) :
    ∃ sc, script C.arch P im n t a = some sc ∧ serData C k P im n t a = sc.run C k im := by
  induction n generalizing t a v with
  | zero => simp [decode] at hd
  | succ n ih =>
    have hw := hP t
    unfold TyWF at hw
    obtain ⟨_, _, _, hw⟩ := hw
    rw [script, serData]
    rw [decode] at hd
    split at hd
    · rename_i hg
      cases hdef : P.defn t <;> simp only [hdef] at hd hw ⊢
      case prim => exact ⟨_, rfl, rfl⟩
      case box u =>
        simp only [Option.bind_eq_bind, Option.bind_eq_some_iff, Option.pure_def, Option.some.injEq,
          Option.ite_none_right_eq_some] at hd
        obtain ⟨p, h1, h2, v', h3, _⟩ := hd
        unfold serBox
        by_cases hz : (P.layout u).size = 0
        · exact ⟨.done, by rw [if_pos hz], by rw [if_pos hz]; rfl⟩
        · obtain ⟨inner, e1, e2⟩ := ih h3
          refine ⟨_, by rw [if_neg hz]; simp only [h1, e1, Option.bind_eq_bind, Option.bind_some]; rfl, ?_⟩
          rw [if_neg hz]
          simp only [readIn, h1, pure_bind_M, e2, pushAndProcess, Slice.fromRef, Script.run]
          rfl
      case vec u =>
        exact serVec_eq hW hP (fun t a v => ih) (by have := hg.2; rw [hw] at this; exact this) hd
      case string =>
        obtain ⟨h, h1, h2⟩ := serString_eq (k := k) hW (by have := hg.2; rw [hw] at this; exact this) hd
        exact ⟨_, by rw [h1]; rfl, h2⟩
      case array u cnt =>
        simp only [Option.bind_eq_bind, Option.bind_eq_some_iff] at hd
        obtain ⟨vs, h1, _⟩ := hd
        exact serEach_eq (fun t a v => ih) a _ h1
      case struct fs =>
        simp only [Option.bind_eq_bind, Option.bind_eq_some_iff] at hd
        obtain ⟨vs, h1, _⟩ := hd
        exact serEach_eq (fun t a v => ih) a _ h1
      case enum tag vs =>
        simp only [Option.bind_eq_bind, Option.bind_eq_some_iff] at hd
        obtain ⟨i, h1, fs, h2, xs, h3, _⟩ := hd
        obtain ⟨sc, e1, e2⟩ := serEach_eq (fun t a v => ih) a _ h3
        refine ⟨sc, by simp [h1, h2, e1], ?_⟩
        unfold serEnum
        simp only [h1, h2, e2]
      case bigUint u =>
        exact serVec_eq hW hP (fun t a v => ih) (by have := hg.2; rw [hw.1] at this; exact this) hd
      case bigInt u =>
        simp only [Option.bind_eq_bind, Option.bind_eq_some_iff] at hd
        obtain ⟨_, _, v', h2, _⟩ := hd
        obtain ⟨sc, e1, e2⟩ := ih h2
        refine ⟨sc, e1, ?_⟩
        obtain ⟨_, ⟨d, hu⟩, _⟩ := hw
        unfold serBigInt
        simp only [hu]
        funext s
        rw [bind_ok (bigintDataOffset_ok hW P d s), e2]
    · cases hd

end SerRaw
