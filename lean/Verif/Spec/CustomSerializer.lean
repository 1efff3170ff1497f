import Verif.Model.CustomSerializer
import Verif.Spec.CustomStorage
/-
What the storage under a derived serializer has to guarantee (ser_raw/src/storage/mod.rs).
-/
namespace SerRaw

/-- `I` implements `RandomAccessStorage` correctly, and `reserve` leaves the position where it is:
* `write_slice` within its safety contract (inside the allocation, aligned) writes the values there and changes nothing else that has been
  stored (ser_raw/src/storage/mod.rs:488-502);
* `reserve` "is allowed to alter `pos`" (276), but a storage that does so lays out its contents differently; C61 covers those. -/
structure RandomImpl.Conforms {σ : Type} (I : RandomImpl σ) (Inv : σ → Prop) (content : σ → Mem) : Prop where
  storage : I.toStorageImpl.Conforms Inv content
  inPlace : ∀ s n s', Inv s → I.reserve n s = .ok () s' → I.pos s' = I.pos s
  writeSlice : ∀ s p L len data, Inv s → L.OK → L.size ≠ 0 → L.align ≤ I.C.maxValueAlign → 0 < len →
    p + L.size * len ≤ I.capacity s → L.align ∣ p →
    ∃ s', I.writeSlice p L len data s = .ok () s' ∧ Inv s' ∧ I.pos s' = I.pos s ∧ I.capacity s' = I.capacity s ∧
      (∀ i < L.size * len, content s' (p + i) = data i) ∧
      (∀ i < I.pos s, i < p ∨ p + L.size * len ≤ i → content s' i = content s i)

/-- `reserve` panics only if the storage cannot hold `n` more bytes within `MAX_CAPACITY` — ser_raw/src/storage/mod.rs:370-371: "Panics if this reservation
would cause the `Storage` to exceed `MAX_CAPACITY`". -/
def RandomImpl.Exact {σ : Type} (I : RandomImpl σ) (Inv : σ → Prop) : Prop :=
  ∀ s n, Inv s → I.pos s + n ≤ I.C.maxCapacity → ∀ k s', I.reserve n s ≠ .panic k s'

/-- `reserve` never aborts the process: the storage allocates nothing, or its allocator does not fail. -/
def RandomImpl.NeverAborts {σ : Type} (I : RandomImpl σ) (Inv : σ → Prop) : Prop := ∀ s n, Inv s → I.reserve n s ≠ .abort

/-- Every slice a script pushes is a slice of a real Rust type: the alignment is a power of two and divides the size. -/
def Script.RealTypes : Script → Prop
  | .done => True
  | .pushProcess L _ _ _ inner rest => L.OK ∧ inner.RealTypes ∧ rest.RealTypes
  | .push L _ _ _ rest => L.OK ∧ rest.RealTypes
  | .pushRaw L _ _ rest => L.OK ∧ rest.RealTypes
  | .overwrite _ _ _ rest => rest.RealTypes

end SerRaw
