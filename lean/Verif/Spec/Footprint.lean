import Verif.Model.AnySerializer
import Verif.Spec.Layout
/-
The bytes of memory which belong to a value, and serializers which look at no more of their arguments than they are given.
-/
namespace SerRaw

/-- The `n` bytes at `a` are the same in both memories. -/
def SameAt (im im' : Mem) (a n : Nat) : Prop := ∀ i < n, im' (a + i) = im (a + i)

/-- The byte at address `x` belongs to the value of type `t` at `a`: it is in the value itself (`size_of::<T>()` bytes, padding included), or
in one of the elements (not the spare capacity) of an allocation the value owns, directly or through other allocations. -/
def BelongsTo (A : Arch) (P : Prog) (im : Mem) (t a x : Nat) : Prop :=
  (a ≤ x ∧ x < a + (P.layout t).size) ∨
  ∃ n as, owned A P im n t a = some as ∧ ∃ o ∈ as, o.ptr ≤ x ∧ x < o.ptr + o.L.size * o.len

/-- The value can be walked to its end: every pointer, length and tag in it can be read. -/
def Walkable (A : Arch) (P : Prog) (im : Mem) (t a : Nat) : Prop := ∃ n as, owned A P im n t a = some as

/-- The memory holding nothing but the value: every other byte is uninitialised, so that reading it is undefined behaviour. -/
def IsolatedIn (A : Arch) (P : Prog) (im : Mem) (t a : Nat) (im' : Mem) : Prop :=
  (∀ x, BelongsTo A P im t a x → im' x = im x) ∧ ∀ x, ¬ BelongsTo A P im t a x → im' x = none

/-- A serializer whose methods depend on a value or slice passed to them only through the `size_of` · `len` bytes it occupies. -/
structure SerializerImpl.Local {τ α : Type} (S : SerializerImpl τ α) : Prop where
  serializeValue : ∀ L a d d' x, (∀ i < L.size, d' i = d i) → S.serializeValue L a d' x = S.serializeValue L a d x
  pushSlice : ∀ L len a d d' p, (∀ i < L.size * len, d' i = d i) → S.pushSlice ⟨L, len, a, d'⟩ p = S.pushSlice ⟨L, len, a, d⟩ p
  pushAndProcess : ∀ L a d d' p x, (∀ i < L.size, d' i = d i) → S.pushAndProcess L a d' p x = S.pushAndProcess L a d p x
  pushAndProcessSlice : ∀ L len a d d' p x, (∀ i < L.size * len, d' i = d i) →
    S.pushAndProcessSlice ⟨L, len, a, d'⟩ p x = S.pushAndProcessSlice ⟨L, len, a, d⟩ p x
  pushRawSlice : ∀ L len a d d', (∀ i < L.size * len, d' i = d i) → S.pushRawSlice ⟨L, len, a, d'⟩ = S.pushRawSlice ⟨L, len, a, d⟩
  overwrite : ∀ p L d d', (∀ i < L.size, d' i = d i) → S.overwrite p L d' = S.overwrite p L d

/-- A storage whose `push_slice_unchecked` looks only at the bytes of the slice. -/
def StorageImpl.Local {σ : Type} (I : StorageImpl σ) : Prop :=
  ∀ L len d d' size, (∀ i < L.size * len, d' i = d i) → I.pushSliceUnchecked L len d' size = I.pushSliceUnchecked L len d size

end SerRaw
