import Verif.Model.CustomStorage
import Verif.Spec.Basic
/-
What the author of a `Storage` implementation has to guarantee: the contract stated (partly in passing) by the documentation of the trait,
ser_raw/src/storage/mod.rs.
-/
namespace SerRaw

/-- `I` implements `Storage` correctly. `Inv` is the implementation's own invariant, `content s i` the byte stored at position `i`.

Clauses, with their sources in storage/mod.rs:
* `const`s valid on a 32- or 64-bit target (140-183);
* `capacity()` is at most `MAX_CAPACITY` and "will always be a multiple of" `MAX_VALUE_ALIGNMENT` (39); `pos() ≤ capacity()` (449-451);
* `new`: "no pre-allocated capacity" is not required, only position 0 (185); `with_capacity_unchecked` gives the capacity (217-228);
* `set_pos` within its safety contract sets the position and nothing else (236-246);
* `push_slice_unchecked` within its safety contract writes the bytes at the position and advances it by `size` (301-326);
* `reserve` makes room, or panics because of `MAX_CAPACITY` (365-372); it "is allowed to alter `pos`" (276), but only forwards and to
  a multiple of `MAX_VALUE_ALIGNMENT` — otherwise the alignment established before it is lost and "alignment requirements" are not
  "satisfied by the above" (321-322); what is stored stays;
* `shrink_to_fit` keeps position and contents (465-466). Like an allocation, it may abort the process. -/
structure StorageImpl.Conforms {σ : Type} (I : StorageImpl σ) (Inv : σ → Prop) (content : σ → Mem) : Prop where
  arch : I.C.arch.Valid
  consts : I.C.assertAlignmentsValid = true
  pos_le : ∀ s, Inv s → I.pos s ≤ I.capacity s
  cap_le : ∀ s, Inv s → I.capacity s ≤ I.C.maxCapacity
  cap_dvd : ∀ s, Inv s → I.C.maxValueAlign ∣ I.capacity s
  new : Inv I.new ∧ I.pos I.new = 0
  withCapacity : ∀ c, 0 < c → c ≤ I.C.maxCapacity → I.C.maxValueAlign ∣ c →
    (∃ s', I.withCapacityUnchecked c I.new = .ok () s' ∧ Inv s' ∧ I.pos s' = 0 ∧ c ≤ I.capacity s') ∨
    I.withCapacityUnchecked c I.new = .abort
  setPos : ∀ s p, Inv s → p ≤ I.capacity s → I.C.valueAlign ∣ p →
    ∃ s', I.setPos p s = .ok () s' ∧ Inv s' ∧ I.pos s' = p ∧ I.capacity s' = I.capacity s ∧ content s' = content s
  pushSliceUnchecked : ∀ s L len data, Inv s → L.OK → L.size ≠ 0 → L.align ≤ I.C.maxValueAlign →
    I.pos s + L.size * len ≤ I.capacity s → L.align ∣ I.pos s → (0 < len ∨ 0 < I.capacity s ∨ L.align = 1) →
    ∃ s', I.pushSliceUnchecked L len data (L.size * len) s = .ok () s' ∧ Inv s' ∧
      I.pos s' = I.pos s + L.size * len ∧ I.capacity s' = I.capacity s ∧
      (∀ i < L.size * len, content s' (I.pos s + i) = data i) ∧
      (∀ i < I.pos s, content s' i = content s i)
  reserve : ∀ s n, Inv s →
    (∃ s', I.reserve n s = .ok () s' ∧ Inv s' ∧ I.pos s' + n ≤ I.capacity s' ∧ I.capacity s ≤ I.capacity s' ∧
      (I.pos s' = I.pos s ∨ I.pos s ≤ I.pos s' ∧ I.C.maxValueAlign ∣ I.pos s') ∧
      (∀ i < I.pos s, content s' i = content s i)) ∨
    (∃ s', I.reserve n s = .panic .capacity s' ∧ Inv s' ∧ I.pos s' = I.pos s ∧ I.capacity s ≤ I.capacity s' ∧
      (∀ i < I.pos s, content s' i = content s i)) ∨
    I.reserve n s = .abort
  shrinkToFit : ∀ s, Inv s → I.C.valueAlign ∣ I.pos s →
    (∃ s', I.shrinkToFit s = .ok () s' ∧ Inv s' ∧ I.pos s' = I.pos s ∧ I.capacity s' ≤ I.capacity s ∧
      (∀ i < I.pos s, content s' i = content s i)) ∨
    I.shrinkToFit s = .abort

end SerRaw
