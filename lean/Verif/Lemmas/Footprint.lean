import Verif.Spec.Footprint
import Verif.Lemmas.TypedDecode
import Verif.Lemmas.TypedScript
/-
`serialize_data` depends on memory only through the bytes which belong to the value.
-/
namespace SerRaw

/-! ### Serializers which look at no more than they are given -/

section
variable {d d' : Nat → Cell} {n : Nat}

theorem blit_congr_src (m : Mem) (p : Nat) (h : ∀ i < n, d' i = d i) : m.blit p n d' = m.blit p n d := by
  funext i
  unfold Mem.blit
  split
  · rename_i hi; rw [h _ (by omega)]
  · rfl

theorem writeLive_congr_src (a : Nat) (h : ∀ i < n, d' i = d i) (bs : List Block) : writeLive a n d' bs = writeLive a n d bs := by
  induction bs with
  | nil => rfl
  | cons b bs ih => rw [writeLive, writeLive, ih, blit_congr_src _ _ h]

theorem memWrite_congr_src (a al : Nat) (h : ∀ i < n, d' i = d i) : memWrite a al n d' = memWrite a al n d := by
  funext s
  unfold memWrite
  rw [writeLive_congr_src a h]

end

section
variable {C : Cfg} {d d' : Nat → Cell} {L : Layout} {len : Nat}

theorem writeSlice_congr_src (p : Nat) (h : ∀ i < L.size * len, d' i = d i) : Sto.writeSlice C p L len d' = Sto.writeSlice C p L len d := by
  unfold Sto.writeSlice
  simp only [fun a => memWrite_congr_src a L.align h]

theorem stoPush_congr_src (h : ∀ i < L.size * len, d' i = d i) : Sto.pushSlice C L len d' = Sto.pushSlice C L len d := by
  unfold Sto.pushSlice Sto.pushSliceUnchecked
  simp only [fun p => writeSlice_congr_src (C := C) p h]

end

theorem own_local (C : Cfg) (k : Kind) : (ownSerializer C k).Local where
  serializeValue L a d d' x h := by
    have h1 : Sto.pushSlice C L 1 d' = Sto.pushSlice C L 1 d := stoPush_congr_src (by simpa using h)
    cases k <;> simp only [ownSerializer, SerRaw.serializeValue, PosTracking.doSerializeValue, SerRaw.pushRaw, SerRaw.pushRawSlice, Slice.fromRef, h1]
  pushSlice L len a d d' p h := by
    have h1 : Sto.pushSlice C L len d' = Sto.pushSlice C L len d := stoPush_congr_src h
    cases k <;> simp only [ownSerializer, SerRaw.pushSlice, SerRaw.pushAndProcessSlice, PosTracking.doPushSlice, PtrWriting.doPushSlice, SerRaw.pushRaw, SerRaw.pushRawSlice, h1]
  pushAndProcess L a d d' p x h := by
    have h1 : Sto.pushSlice C L 1 d' = Sto.pushSlice C L 1 d := stoPush_congr_src (by simpa using h)
    cases k <;> simp only [ownSerializer, SerRaw.pushAndProcess, SerRaw.pushAndProcessSlice, PosTracking.doPushAndProcessSlice, PtrWriting.doPushAndProcessSlice, SerRaw.pushRawSlice, Slice.fromRef, h1]
  pushAndProcessSlice L len a d d' p x h := by
    have h1 : Sto.pushSlice C L len d' = Sto.pushSlice C L len d := stoPush_congr_src h
    cases k <;> simp only [ownSerializer, SerRaw.pushAndProcessSlice, PosTracking.doPushAndProcessSlice, PtrWriting.doPushAndProcessSlice, SerRaw.pushRawSlice, h1]
  pushRawSlice L len a d d' h := by
    have h1 : Sto.pushSlice C L len d' = Sto.pushSlice C L len d := stoPush_congr_src h
    simp only [ownSerializer, SerRaw.pushRawSlice, h1]
  overwrite p L d d' h := by
    have h1 : ∀ q, Sto.writeSlice C q L 1 d' = Sto.writeSlice C q L 1 d := fun q => writeSlice_congr_src q (by simpa using h)
    cases k <;> simp only [ownSerializer, SerRaw.overwrite, Writable.doOverwrite, Sto.write, h1]

theorem StorageImpl.Local.pushSlice {σ : Type} {I : StorageImpl σ} (hI : I.Local) {L : Layout} {len : Nat} {d d' : Nat → Cell}
    (h : ∀ i < L.size * len, d' i = d i) : I.pushSlice L len d' = I.pushSlice L len d := by
  unfold StorageImpl.pushSlice
  simp only [fun sz => hI L len d d' sz h]

theorem derived_local {σ : Type} {I : RandomImpl σ} (hI : I.toStorageImpl.Local) (k : DKind) : (derivedSerializer I k).Local where
  serializeValue L a d d' x h := by
    have h1 := hI.pushSlice (L := L) (len := 1) (d := d) (d' := d') (by simpa using h)
    cases k <;> simp only [derivedSerializer, GSer.serializeValue, GSer.pushRawSlice, Slice.fromRef, h1]
  pushSlice L len a d d' p h := by
    have h1 := hI.pushSlice (L := L) (len := len) (d := d) (d' := d') h
    cases k <;> simp only [derivedSerializer, GSer.pushSlice, GSer.pushAndProcessSlice, GSer.pushRawSlice, h1]
  pushAndProcess L a d d' p x h := by
    have h1 := hI.pushSlice (L := L) (len := 1) (d := d) (d' := d') (by simpa using h)
    cases k <;> simp only [derivedSerializer, GSer.pushAndProcessSlice, GSer.pushRawSlice, Slice.fromRef, h1]
  pushAndProcessSlice L len a d d' p x h := by
    have h1 := hI.pushSlice (L := L) (len := len) (d := d) (d' := d') h
    cases k <;> simp only [derivedSerializer, GSer.pushAndProcessSlice, GSer.pushRawSlice, h1]
  pushRawSlice L len a d d' h := by
    have h1 := hI.pushSlice (L := L) (len := len) (d := d) (d' := d') h
    simp only [derivedSerializer, GSer.pushRawSlice, h1]
  overwrite p L d d' h := rfl

theorem derivedComplete_local {σ : Type} {I : ContigImpl σ} (hI : I.toStorageImpl.Local)
    (hw : ∀ p L d d', (∀ i < L.size, d' i = d i) → I.writeSlice p L 1 d' = I.writeSlice p L 1 d) : (derivedComplete I).Local where
  serializeValue L a d d' x h := by
    have h1 := hI.pushSlice (L := L) (len := 1) (d := d) (d' := d') (by simpa using h)
    simp only [derivedComplete, CSer.serializeValue, CSer.pushRawSlice, Slice.fromRef, h1]
  pushSlice L len a d d' p h := by
    have h1 := hI.pushSlice (L := L) (len := len) (d := d) (d' := d') h
    simp only [derivedComplete, CSer.pushSlice, CSer.pushAndProcessSlice, CSer.pushRawSlice, h1]
  pushAndProcess L a d d' p x h := by
    have h1 := hI.pushSlice (L := L) (len := 1) (d := d) (d' := d') (by simpa using h)
    simp only [derivedComplete, CSer.pushAndProcessSlice, CSer.pushRawSlice, Slice.fromRef, h1]
  pushAndProcessSlice L len a d d' p x h := by
    have h1 := hI.pushSlice (L := L) (len := len) (d := d) (d' := d') h
    simp only [derivedComplete, CSer.pushAndProcessSlice, CSer.pushRawSlice, h1]
  pushRawSlice L len a d d' h := by
    have h1 := hI.pushSlice (L := L) (len := len) (d := d) (d' := d') h
    simp only [derivedComplete, CSer.pushRawSlice, h1]
  overwrite p L d d' h := by
    simp only [derivedComplete, CSer.overwrite, RandomImpl.write, fun q => hw q L d d' h]

theorem manual_local {τ σ α : Type} {I : StorageImpl σ} (hI : I.Local) (F : StorageField τ σ) (fromRef : Nat → α)
    (fromRefOffset : Nat → Nat → M τ α) : (manualSerializer I F fromRef fromRefOffset).Local where
  serializeValue L a d d' x h := by
    have h1 := hI.pushSlice (L := L) (len := 1) (d := d) (d' := d') (by simpa using h)
    simp only [manualSerializer, Slice.fromRef, h1]
  pushSlice L len a d d' p h := by
    have h1 := hI.pushSlice (L := L) (len := len) (d := d) (d' := d') h
    simp only [manualSerializer, h1]
  pushAndProcess L a d d' p x h := by
    have h1 := hI.pushSlice (L := L) (len := 1) (d := d) (d' := d') (by simpa using h)
    simp only [manualSerializer, Slice.fromRef, h1]
  pushAndProcessSlice L len a d d' p x h := by
    have h1 := hI.pushSlice (L := L) (len := len) (d := d) (d' := d') h
    simp only [manualSerializer, h1]
  pushRawSlice L len a d d' h := by
    have h1 := hI.pushSlice (L := L) (len := len) (d := d) (d' := d') h
    simp only [manualSerializer, h1]
  overwrite p L d d' h := rfl

/-! ### The implementations of `serialize_data` -/

/-- Both memories hold the same elements of every allocation in the list. -/
def SameOwn (im im' : Mem) (as : List Own) : Prop := ∀ o ∈ as, SameAt im im' o.ptr (o.L.size * o.len)

section
variable {im im' : Mem}

theorem SameAt.sub {a n b k : Nat} (h : SameAt im im' a n) (h1 : a ≤ b) (h2 : b + k ≤ a + n) : SameAt im im' b k := by
  intro i hi
  have := h (b - a + i) (by omega)
  rwa [show a + (b - a + i) = b + i by omega] at this

theorem SameAt.word {A : Arch} {a : Nat} (h : SameAt im im' a A.ptrBytes) : readWord A im' a = readWord A im a := readWord_congr h

variable {τ α : Type} {S : SerializerImpl τ α} {P : Prog}

theorem SameAt.readIn {A : Arch} {a : Nat} (h : SameAt im im' a A.ptrBytes) : (SerRaw.readIn A im' a : M τ Nat) = SerRaw.readIn A im a := by
  unfold SerRaw.readIn; rw [h.word]

theorem aEach_same {rec rec' : TyId → Nat → M τ Unit} {own : TyId → Nat → Option (List Own)}
    (hrec : ∀ t a as, own t a = some as → SameAt im im' a (P.layout t).size → SameOwn im im' as → rec' t a = rec t a)
    {a : Nat} {fs : List Field} {as : List Own} (ho : ownEach own a fs = some as)
    (hin : ∀ f ∈ fs, SameAt im im' (a + f.1) (P.layout f.2).size) (hs : SameOwn im im' as) : aEach rec' a fs = aEach rec a fs := by
  induction fs generalizing as with
  | nil => rfl
  | cons f fs ih =>
    simp only [ownEach, Option.bind_eq_bind, Option.bind_eq_some_iff, Option.pure_def, Option.some.injEq] at ho
    obtain ⟨x, h1, y, h2, rfl⟩ := ho
    rw [aEach, aEach, hrec _ _ _ h1 (hin f (by simp)) (fun o h => hs o (by simp [h])),
      ih h2 (fun f h => hin f (by simp [h])) (fun o h => hs o (by simp [h]))]

theorem aEach_elems_same {rec rec' : TyId → Nat → M τ Unit} {own : TyId → Nat → Option (List Own)}
    (hrec : ∀ t a as, own t a = some as → SameAt im im' a (P.layout t).size → SameOwn im im' as → rec' t a = rec t a)
    {a : Nat} {u : TyId} {k : Nat} {as : List Own} (ho : ownEach own a (elems P u k) = some as)
    (hin : SameAt im im' a ((P.layout u).size * k)) (hs : SameOwn im im' as) :
    aEach rec' a (elems P u k) = aEach rec a (elems P u k) := by
  refine aEach_same hrec ho (fun f hf => ?_) hs
  simp only [elems, List.mem_map, List.mem_range] at hf
  obtain ⟨i, hi, rfl⟩ := hf
  refine hin.sub (by omega) ?_
  have : (i + 1) * (P.layout u).size ≤ k * (P.layout u).size := Nat.mul_le_mul_right _ hi
  simp only [Nat.add_mul, Nat.one_mul] at this
  rw [Nat.mul_comm (P.layout u).size k]
  simp only; omega

/-- The three words of a header. -/
theorem header_same {A : Arch} {o : Order} {a : Nat} (h : SameAt im im' a (3 * A.ptrBytes)) :
    (SerRaw.readIn A im' (a + o.lenIx * A.ptrBytes) : M τ Nat) = SerRaw.readIn A im (a + o.lenIx * A.ptrBytes) ∧
    (SerRaw.readIn A im' (a + o.capIx * A.ptrBytes) : M τ Nat) = SerRaw.readIn A im (a + o.capIx * A.ptrBytes) ∧
    (SerRaw.readIn A im' (a + o.ptrIx * A.ptrBytes) : M τ Nat) = SerRaw.readIn A im (a + o.ptrIx * A.ptrBytes) := by
  obtain ⟨h1, h2, h3⟩ := o.ix_le A.ptrBytes
  exact ⟨(h.sub (by omega) (by omega)).readIn, (h.sub (by omega) (by omega)).readIn, (h.sub (by omega) (by omega)).readIn⟩

theorem readIn_of_header {A : Arch} {m : Mem} {o : Order} {a : Nat} {h : Header} (hr : readHeader A m o a = some h) :
    (SerRaw.readIn A m (a + o.lenIx * A.ptrBytes) : M τ Nat) = pure h.len ∧
    (SerRaw.readIn A m (a + o.capIx * A.ptrBytes) : M τ Nat) = pure h.cap ∧
    (SerRaw.readIn A m (a + o.ptrIx * A.ptrBytes) : M τ Nat) = pure h.ptr := by
  obtain ⟨h1, h2, h3⟩ := readHeader_iff.mp hr
  unfold SerRaw.readIn
  rw [h1, h2, h3]
  exact ⟨rfl, rfl, rfl⟩

theorem aVec_same (hS : S.Local) {rec rec' : TyId → Nat → M τ Unit} {own : TyId → Nat → Option (List Own)}
    (hrec : ∀ t a as, own t a = some as → SameAt im im' a (P.layout t).size → SameOwn im im' as → rec' t a = rec t a)
    {u : TyId} {a : Nat} {as : List Own} (ho : ownVec S.A P im own u a = some as)
    (hin : SameAt im im' a (3 * S.A.ptrBytes)) (hs : SameOwn im im' as) : aVec S P im' rec' u a = aVec S P im rec u a := by
  unfold aVec
  obtain ⟨e1, e2, e3⟩ := header_same (τ := τ) (o := P.vecOrder u) hin
  simp only [e1, e2, e3]
  unfold ownVec at ho
  by_cases hz : (P.layout u).size = 0
  · simp only [if_pos hz]
  · simp only [if_neg hz] at ho ⊢
    simp only [Option.bind_eq_bind, Option.bind_eq_some_iff, Option.pure_def] at ho
    obtain ⟨h, hh, ho⟩ := ho
    obtain ⟨r1, r2, r3⟩ := readIn_of_header (τ := τ) hh
    simp only [r1, r2, r3, pure_bind_M]
    by_cases hl : h.len = 0
    · simp only [if_pos hl]
    · simp only [if_neg hl, Option.bind_eq_some_iff, Option.some.injEq] at ho ⊢
      obtain ⟨x, hx, rfl⟩ := ho
      have hb : SameAt im im' h.ptr ((P.layout u).size * h.len) := hs _ List.mem_cons_self
      rw [aEach_elems_same (rec := rec) hrec hx hb (fun o ho => hs o (List.mem_cons_of_mem _ ho))]
      simp only [fun p x => hS.pushAndProcessSlice (P.layout u) h.len h.ptr (inputAt im h.ptr) (inputAt im' h.ptr) p x hb]

theorem aData_same (hS : S.Local) (hW : 0 < S.A.ptrBytes) (hP : P.WF S.A) (n : Nat) : ∀ (f t a : Nat) (as : List Own), owned S.A P im n t a = some as →
    SameAt im im' a (P.layout t).size → SameOwn im im' as → aData S P im' f t a = aData S P im f t a := by
  induction n with
  | zero => intro f t a as h; simp [owned] at h
  | succ n ih =>
    intro f t a as ho hin hs
    cases f with
    | zero => rfl
    | succ f =>
      have hwf := (hP t).2.2.2
      rw [owned] at ho
      rw [aData, aData]
      cases hdef : P.defn t <;> simp only [hdef] at ho hwf ⊢
      case box u =>
        rw [hwf] at hin
        unfold aBox
        by_cases hz : (P.layout u).size = 0
        · simp only [if_pos hz]
        · simp only [if_neg hz, Option.bind_eq_bind, Option.bind_eq_some_iff, Option.pure_def, Option.some.injEq] at ho ⊢
          obtain ⟨p, h1, x, h2, rfl⟩ := ho
          have hb : SameAt im im' p (P.layout u).size := by simpa using hs _ List.mem_cons_self
          have hr : (SerRaw.readIn S.A im a : M τ Nat) = pure p := by unfold SerRaw.readIn; rw [h1]
          rw [SameAt.readIn hin, hr, pure_bind_M, pure_bind_M, ih f u p x h2 hb (fun o h => hs o (by simp [h])),
            hS.pushAndProcess _ _ (inputAt im p) (inputAt im' p) _ _ hb]
      case vec u => rw [hwf] at hin; exact aVec_same hS (ih f) ho hin hs
      case string =>
        rw [hwf] at hin
        simp only [Option.bind_eq_bind, Option.bind_eq_some_iff, Option.pure_def] at ho
        obtain ⟨h, hh, ho⟩ := ho
        unfold aString
        obtain ⟨e1, e2, e3⟩ := header_same (τ := τ) (o := P.stringOrder) hin
        obtain ⟨r1, r2, r3⟩ := readIn_of_header (τ := τ) hh
        simp only [e1, e2, e3, r1, r2, r3, pure_bind_M]
        by_cases hl : h.len = 0
        · simp only [if_pos hl]
        · simp only [if_neg hl, Option.some.injEq] at ho ⊢
          subst ho
          have hb : SameAt im im' h.ptr (1 * h.len) := hs _ List.mem_cons_self
          simp only [fun p => hS.pushSlice ⟨1, 1⟩ h.len h.ptr (inputAt im h.ptr) (inputAt im' h.ptr) p hb]
      case array u k =>
        refine aEach_elems_same (ih f) ho ?_ hs
        rw [Nat.mul_comm, ← hwf.1]; exact hin
      case struct fs => exact aEach_same (ih f) ho (fun g hg => hin.sub (by omega) (by have := hwf.inBounds g hg; omega)) hs
      case enum tag vs =>
        simp only [Option.bind_eq_bind, Option.bind_eq_some_iff] at ho
        obtain ⟨i, h1, fs, h2, h3⟩ := ho
        have hv : activeVariant S.A im' a tag = activeVariant S.A im a tag := by
          cases tag with
          | single => rfl
          | bytes off len sel =>
            have hb : off + len ≤ (P.layout t).size := hwf.2.1
            simp only [activeVariant]; rw [readBytes_congr (hin.sub (by omega) (by omega))]
          | word off sel =>
            have hb : off + S.A.ptrBytes ≤ (P.layout t).size := hwf.2.1
            simp only [activeVariant]; rw [SameAt.word (hin.sub (by omega) (by omega))]
        unfold aEnum
        simp only [hv, h1, h2]
        have hf := hwf.1 fs (List.mem_of_getElem? h2)
        exact aEach_same (ih f) h3 (fun g hg => hin.sub (by omega) (by have := hf.inBounds g hg; omega)) hs
      case bigUint u => rw [hwf.1] at hin; exact aVec_same hS (ih f) ho hin hs
      case bigInt u =>
        obtain ⟨hl, ⟨d, hd⟩, hu⟩ := hwf
        have hoff : P.bigIntDataOff S.A + 3 * S.A.ptrBytes ≤ 4 * S.A.ptrBytes := by unfold Prog.bigIntDataOff; split <;> omega
        have hsub : SameAt im im' (a + P.bigIntDataOff S.A) (P.layout u).size := by
          rw [hl] at hin; rw [hu]; exact hin.sub (by omega) (by simp only; omega)
        have e := ih f u _ as ho hsub hs
        unfold aBigInt
        simp only [hd]
        funext s
        rw [bind_ok (bigintDataOffset_ok hW P d s), bind_ok (bigintDataOffset_ok hW P d s), e]

end
end SerRaw
