import Verif.Model.CustomComplete
import Verif.Spec.CustomSerializer
/-
What the storage under a derived serializer of kind `complete` has to guarantee (ser_raw/src/storage/mod.rs).
-/
namespace SerRaw

/-- `I` implements `ContiguousStorage` correctly:
* `as_ptr` is the start of a buffer of `capacity()` bytes (ser_raw/src/storage/mod.rs:553-560), aligned to `STORAGE_ALIGNMENT` ("Alignment of storage's
  memory buffer", 115-120), which like every Rust allocation does not reach the end of the address space;
* position `p` of the storage is the memory at `as_ptr() + p`: a `usize` read there is what is stored, a `usize` written there is stored, and
  such a write changes nothing else.

The address may change in any method call that takes `&mut self`. It is *not* allowed to change when the storage value itself is moved:
`finalize` returns the storage by value (ser_raw/src/serializer.rs:491-493), and a move runs no code. (A storage that keeps its bytes inside the value
therefore has to be used through `&mut`, `BorrowMut<Storage>`, ser_raw/src/serializer.rs:180-184, 191-192.) -/
structure ContigImpl.Conforms {σ : Type} (I : ContigImpl σ) (Inv : σ → Prop) (content : σ → Mem) : Prop where
  random : I.toRandomImpl.Conforms Inv content
  nonNull : ∀ s, Inv s → 0 < I.capacity s → 0 < I.asPtr s
  aligned : ∀ s, Inv s → 0 < I.capacity s → I.C.storageAlign ∣ I.asPtr s
  fits : ∀ s, Inv s → I.asPtr s + I.capacity s < I.C.arch.usizeMod
  rawAdd : ∀ s p, Inv s → p < I.capacity s → I.rawAdd (I.asPtr s) p s = .ok (I.asPtr s + p) s
  rawLoad : ∀ s p w, Inv s → p + I.C.arch.ptrBytes ≤ I.pos s → I.C.arch.ptrBytes ∣ p → I.C.arch.ptrBytes ≤ I.C.maxValueAlign →
    readWord I.C.arch (content s) p = some w → I.rawLoad (I.asPtr s + p) s = .ok w s
  rawStore : ∀ s p w, Inv s → p + I.C.arch.ptrBytes ≤ I.pos s → I.C.arch.ptrBytes ∣ p → I.C.arch.ptrBytes ≤ I.C.maxValueAlign →
    ∃ s', I.rawStore (I.asPtr s + p) w s = .ok () s' ∧ Inv s' ∧ I.pos s' = I.pos s ∧ I.capacity s' = I.capacity s ∧
      I.asPtr s' = I.asPtr s ∧ (∀ i < I.C.arch.ptrBytes, content s' (p + i) = wordCells I.C.arch w i) ∧
      (∀ i < I.pos s, i < p ∨ p + I.C.arch.ptrBytes ≤ i → content s' i = content s i)

/-- The only memory a consumer of the storage may touch: the addresses `as_ptr() .. as_ptr() + pos()`. -/
def ContigImpl.buffer {σ : Type} (I : ContigImpl σ) (content : σ → Mem) (s : σ) : Mem := fun addr =>
  if I.asPtr s ≤ addr ∧ addr < I.asPtr s + I.pos s then content s (addr - I.asPtr s) else none

/-- Every correction a script makes is a value of a real Rust type: the alignment is a power of two and divides the size. -/
def Script.RealOverwrites : Script → Prop
  | .done => True
  | .pushProcess _ _ _ _ inner rest => inner.RealOverwrites ∧ rest.RealOverwrites
  | .push _ _ _ _ rest => rest.RealOverwrites
  | .pushRaw _ _ _ rest => rest.RealOverwrites
  | .overwrite _ L _ rest => L.OK ∧ rest.RealOverwrites

end SerRaw
