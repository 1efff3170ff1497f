import Verif.Spec.Decode
import Verif.Model.Serializer
/-
Which words of the input are *not* copied verbatim: pointers to data that is serialized, and (for serializers which correct
`Vec` headers) the capacity of `Vec`s/`String`s with spare capacity, including the pointer if they are empty.
Of the serializers, only the names of the kinds are used.
-/
namespace SerRaw

/-- What a serializer edits: pointers, and/or `Vec`/`String` headers with spare capacity. -/
structure EditKind where
  ptrs : Bool
  caps : Bool

/-- Edited words of a `Vec`/`String` header at `a` whose elements are not zero-sized. -/
def editHeader (A : Arch) (e : EditKind) (o : Order) (a : Nat) (h : Header) : List Nat :=
  if h.len = 0 then (if e.caps ∧ h.cap ≠ 0 then [a + o.capIx * A.ptrBytes, a + o.ptrIx * A.ptrBytes] else [])
  else (if e.ptrs then [a + o.ptrIx * A.ptrBytes] else []) ++
    (if e.caps ∧ h.cap ≠ h.len then [a + o.capIx * A.ptrBytes] else [])

def editEach (rec : TyId → Nat → Option (List Nat)) (a : Nat) : List Field → Option (List Nat)
  | [] => some []
  | f :: fs => do
    let x ← rec f.2 (a + f.1)
    let y ← editEach rec a fs
    pure (x ++ y)

def editVec (A : Arch) (P : Prog) (m : Mem) (e : EditKind) (rec : TyId → Nat → Option (List Nat)) (u : TyId) (a : Nat) : Option (List Nat) :=
  if (P.layout u).size = 0 then some []
  else do
    let h ← readHeader A m (P.vecOrder u) a
    let x ← editEach rec h.ptr (elems P u h.len)
    pure (editHeader A e (P.vecOrder u) a h ++ x)

/-- Addresses of the edited words of the value of type `t` at `a` and of everything it owns. -/
def edited (A : Arch) (P : Prog) (m : Mem) (e : EditKind) : Nat → TyId → Nat → Option (List Nat)
  | 0, _, _ => none
  | n + 1, t, a =>
    match P.defn t with
    | .prim => some []
    | .box u =>
      if (P.layout u).size = 0 then some []
      else do
        let p ← readWord A m a
        let x ← edited A P m e n u p
        pure ((if e.ptrs then [a] else []) ++ x)
    | .vec u => editVec A P m e (edited A P m e n) u a
    | .string => do
      let h ← readHeader A m P.stringOrder a
      pure (editHeader A e P.stringOrder a h)
    | .array u k => editEach (edited A P m e n) a (elems P u k)
    | .struct fs => editEach (edited A P m e n) a fs
    | .enum tag vs => do
      let i ← activeVariant A m a tag
      let fs ← vs[i]?
      editEach (edited A P m e n) a fs
    | .bigUint u => editVec A P m e (edited A P m e n) u a
    | .bigInt u => edited A P m e n u (a + P.bigIntDataOff A)

/-- The byte at `x` belongs to one of the words `ws`. -/
def InWords (A : Arch) (ws : List Nat) (x : Nat) : Prop := ∃ w ∈ ws, w ≤ x ∧ x < w + A.ptrBytes

/-- What each kind of serializer edits: `PureCopySerializer` nothing, `PtrOffsetSerializer` pointers, `CompleteSerializer` also
`Vec`/`String` headers with spare capacity. -/
def Kind.edits : Kind → EditKind
  | .pureCopy | .posTracking => ⟨false, false⟩
  | .ptrOffset => ⟨true, false⟩
  | .complete => ⟨true, true⟩

end SerRaw
