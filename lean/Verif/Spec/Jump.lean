import Verif.Spec.Ideal
import Verif.Spec.CustomSerializer
import Verif.Spec.Layout
/-
What a derived serializer may write to a storage whose `reserve` moves the position (ser_raw/src/storage/mod.rs:276), for example one that keeps its
contents in chunks: the allocations are in order and aligned, but where exactly each is placed is up to the storage.
-/
namespace SerRaw

/-- `I` implements `RandomAccessStorage` correctly: `RandomImpl.Conforms` without the requirement that `reserve` stays in place
(ser_raw/src/storage/mod.rs:276, 488-502). -/
structure RandomImpl.Lawful {σ : Type} (I : RandomImpl σ) (Inv : σ → Prop) (content : σ → Mem) : Prop where
  storage : I.toStorageImpl.Conforms Inv content
  writeSlice : ∀ s p L len data, Inv s → L.OK → L.size ≠ 0 → L.align ≤ I.C.maxValueAlign → 0 < len →
    p + L.size * len ≤ I.capacity s → L.align ∣ p →
    ∃ s', I.writeSlice p L len data s = .ok () s' ∧ Inv s' ∧ I.pos s' = I.pos s ∧ I.capacity s' = I.capacity s ∧
      (∀ i < L.size * len, content s' (p + i) = data i) ∧
      (∀ i < I.pos s, i < p ∨ p + L.size * len ≤ i → content s' i = content s i)

theorem RandomImpl.Conforms.lawful {σ : Type} {I : RandomImpl σ} {Inv : σ → Prop} {content : σ → Mem} (h : I.Conforms Inv content) : I.Lawful Inv content :=
  ⟨h.storage, h.writeSlice⟩

/-- `sc.Laid … st st'`: from contents and end `st`, running the script in the context of an allocation with input address `ia` and output position `op`
can give `st'`, each allocation being placed anywhere at or after the current end that suits its alignment. Pointers are written as positions
if `w`; corrections (`overwrite`) are not applied. -/
def Script.Laid (A : Arch) (w : Bool) (im : Mem) : Script → (ia op : Nat) → Mem × Nat → Mem × Nat → Prop
  | .done, _, _, st, st' => st' = st
  | .pushProcess L len src ptr inner rest, ia, op, st, st' =>
    ∃ pos e st3, st.2 ≤ pos ∧ L.align ∣ pos ∧ pos + L.size * len ≤ e ∧
      inner.Laid A w im src pos ((Mode.mk (if w then some 0 else none) false).putPtr A (st.1.blit pos (L.size * len) fun i => im (src + i)) (outPos ia op ptr) pos, e) st3 ∧
      rest.Laid A w im ia op st3 st'
  | .push L len src ptr rest, ia, op, st, st' =>
    ∃ pos e, st.2 ≤ pos ∧ L.align ∣ pos ∧ pos + L.size * len ≤ e ∧
      rest.Laid A w im ia op ((Mode.mk (if w then some 0 else none) false).putPtr A (st.1.blit pos (L.size * len) fun i => im (src + i)) (outPos ia op ptr) pos, e) st'
  | .pushRaw L len src rest, ia, op, st, st' =>
    ∃ pos e, st.2 ≤ pos ∧ L.align ∣ pos ∧ pos + L.size * len ≤ e ∧
      rest.Laid A w im ia op (st.1.blit pos (L.size * len) fun i => im (src + i), e) st'
  | .overwrite _ _ _ rest, ia, op, st, st' => rest.Laid A w im ia op st st'

/-- One `serialize_value`: the value is copied to `p`, then its script runs. A zero-sized value is not stored and gets position 0. -/
def RootLaid (A : Arch) (w : Bool) (v : UserRoot) (p : Nat) (st st' : Mem × Nat) : Prop :=
  if v.L.size = 0 then p = 0 ∧ st' = st
  else ∃ e, st.2 ≤ p ∧ v.L.align ∣ p ∧ p + v.L.size ≤ e ∧
    v.sc.Laid A w v.im v.a p (st.1.blit p v.L.size fun i => v.im (v.a + i), e) st'

/-- Several values, at positions `ps`. -/
def RootsLaid (A : Arch) (w : Bool) : List UserRoot → List Nat → Mem × Nat → Mem × Nat → Prop
  | [], ps, st, st' => ps = [] ∧ st' = st
  | v :: vs, ps, st, st' => ∃ p qs st1, ps = p :: qs ∧ RootLaid A w v p st st1 ∧ RootsLaid A w vs qs st1 st'

/-- The blocks found by a reader: each is between `p` and `p'`, aligned, after the pointer to it, and they are in order without overlap. -/
structure OwnIn (p p' : Nat) (as : List Own) : Prop where
  lo : ∀ o ∈ as, p ≤ o.ptr
  hi : ∀ o ∈ as, o.ptr + o.L.size * o.len ≤ p'
  al : ∀ o ∈ as, o.L.align ∣ o.ptr
  fwd : ∀ o ∈ as, o.slot < o.ptr
  ord : as.Pairwise fun x y => x.ptr + x.L.size * x.len ≤ y.ptr

/-- The blocks `xs` (shape and address in `im`) are copied to the positions `qs`: one by one in order between `lo` and `hi`, each aligned, every
initialised byte the same. -/
inductive Copied (im m : Mem) : Nat → Nat → List (Shape × Nat) → List Nat → Prop
  | nil {lo hi} : lo ≤ hi → Copied im m lo hi [] []
  | cons {lo mid hi x xs q qs} : lo ≤ q → x.1.L.align ∣ q → q + x.1.bytes ≤ mid → (∀ i < x.1.bytes, ∀ b, im (x.2 + i) = some b → m (q + i) = some b) →
      Copied im m mid hi xs qs → Copied im m lo hi (x :: xs) (q :: qs)

end SerRaw
