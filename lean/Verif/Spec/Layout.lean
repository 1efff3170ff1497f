import Verif.Spec.Basic
import Verif.Spec.Decode
/-
Which heap allocations a value owns, in depth-first pre-order, and where a serializer should place them.
Also the in-order reader of plain copies. Nothing here refers to serializers or scripts.
-/
namespace SerRaw

/-- An allocation owned by a value: where the pointer to it is stored, layout of its elements, how many there are,
and its address. -/
structure Own where
  slot : Nat
  L : Layout
  len : Nat
  ptr : Nat

def ownEach (rec : TyId → Nat → Option (List Own)) (a : Nat) : List Field → Option (List Own)
  | [] => some []
  | f :: fs => do
    let x ← rec f.2 (a + f.1)
    let y ← ownEach rec a fs
    pure (x ++ y)

def ownVec (A : Arch) (P : Prog) (m : Mem) (rec : TyId → Nat → Option (List Own)) (u : TyId) (a : Nat) : Option (List Own) :=
  if (P.layout u).size = 0 then some []
  else do
    let h ← readHeader A m (P.vecOrder u) a
    if h.len = 0 then pure []
    else
      let x ← ownEach rec h.ptr (elems P u h.len)
      pure (⟨a + (P.vecOrder u).ptrIx * A.ptrBytes, P.layout u, h.len, h.ptr⟩ :: x)

/-- The allocations owned by the value of type `t` at `a`, in depth-first pre-order. `Box`es and `Vec`s of zero-sized
types and empty `Vec`s and `String`s own nothing. -/
def owned (A : Arch) (P : Prog) (m : Mem) : Nat → TyId → Nat → Option (List Own)
  | 0, _, _ => none
  | n + 1, t, a =>
    match P.defn t with
    | .prim => some []
    | .box u =>
      if (P.layout u).size = 0 then some []
      else do
        let p ← readWord A m a
        let x ← owned A P m n u p
        pure (⟨a, P.layout u, 1, p⟩ :: x)
    | .vec u => ownVec A P m (owned A P m n) u a
    | .string => do
      let h ← readHeader A m P.stringOrder a
      if h.len = 0 then pure []
      else pure [⟨a + P.stringOrder.ptrIx * A.ptrBytes, ⟨1, 1⟩, h.len, h.ptr⟩]
    | .array u k => ownEach (owned A P m n) a (elems P u k)
    | .struct fs => ownEach (owned A P m n) a fs
    | .enum tag vs => do
      let i ← activeVariant A m a tag
      let fs ← vs[i]?
      ownEach (owned A P m n) a fs
    | .bigUint u => ownVec A P m (owned A P m n) u a
    | .bigInt u => owned A P m n u (a + P.bigIntDataOff A)

/-- A block to be placed in the output: layout of its elements, and how many. -/
structure Shape where
  L : Layout
  len : Nat
  deriving DecidableEq, Repr

def Own.shape (o : Own) : Shape := ⟨o.L, o.len⟩

/-- Size in bytes. -/
def Shape.bytes (x : Shape) : Nat := x.L.size * x.len

/-- Where each block goes when the output ends at `p`: at the current end rounded up to the block's alignment; the end is
then rounded up to `va`. -/
def place (va : Nat) : Nat → List Shape → List Nat
  | _, [] => []
  | p, x :: xs => roundUp p x.L.align :: place va (roundUp (roundUp p x.L.align + x.bytes) va) xs

/-- The end of the output after the blocks have been placed. -/
def placeEnd (va : Nat) : Nat → List Shape → Nat
  | p, [] => p
  | p, x :: xs => placeEnd va (roundUp (roundUp p x.L.align + x.bytes) va) xs

/-! ### In-order reader -/

/-- Read fields in order, threading the end of the blocks consumed so far. -/
def seqEach (rec : TyId → Nat → Nat → Option (Val × Nat)) (a p : Nat) : List Field → Option (List Val × Nat)
  | [] => some ([], p)
  | f :: fs => do
    let (v, p1) ← rec f.2 (a + f.1) p
    let (vs, p2) ← seqEach rec a p1 fs
    pure (v :: vs, p2)

/-- Next block of `len` elements of layout `L`. -/
def nextBlock (va : Nat) (p : Nat) (x : Shape) : Nat × Nat :=
  (roundUp p x.L.align, roundUp (roundUp p x.L.align + x.bytes) va)

/-- A `Vec`: only its length word is read; the elements are in the next block. -/
def seqVec (A : Arch) (P : Prog) (va : Nat) (m : Mem) (rec : TyId → Nat → Nat → Option (Val × Nat)) (u : TyId) (a p : Nat) :
    Option (Val × Nat) := do
  let len ← readWord A m (a + (P.vecOrder u).lenIx * A.ptrBytes)
  if (P.layout u).size = 0 ∨ len = 0 then
    let (vs, _) ← seqEach rec 0 p (elems P u len)
    pure (.vec vs, p)
  else
    let (b, p1) := nextBlock va p ⟨P.layout u, len⟩
    let (vs, p2) ← seqEach rec b p1 (elems P u len)
    pure (.vec vs, p2)

/-- A reader that never looks at a pointer or a capacity: the value of type `t` at position `a`, when the blocks it owns
start at `p`; returns the value and the end of its blocks. (Zero-sized values behind a `Box` or in a `Vec` are not stored
and are read at address 0.) -/
def decodeSeq (A : Arch) (P : Prog) (va : Nat) (m : Mem) : Nat → TyId → Nat → Nat → Option (Val × Nat)
  | 0, _, _, _ => none
  | n + 1, t, a, p =>
    match P.defn t with
    | .prim => (readBytes m a (P.layout t).size).map fun b => (.prim b, p)
    | .box u =>
      if (P.layout u).size = 0 then do
        let (v, _) ← decodeSeq A P va m n u 0 p
        pure (.box v, p)
      else do
        let (b, p1) := nextBlock va p ⟨P.layout u, 1⟩
        let (v, p2) ← decodeSeq A P va m n u b p1
        pure (.box v, p2)
    | .vec u => seqVec A P va m (decodeSeq A P va m n) u a p
    | .string => do
      let len ← readWord A m (a + P.stringOrder.lenIx * A.ptrBytes)
      if len = 0 then pure (.str [], p)
      else
        let (b, p1) := nextBlock va p ⟨⟨1, 1⟩, len⟩
        let bs ← readBytes m b len
        pure (.str bs, p1)
    | .array u k => do
      let (vs, p1) ← seqEach (decodeSeq A P va m n) a p (elems P u k)
      pure (.struct vs, p1)
    | .struct fs => do
      let (vs, p1) ← seqEach (decodeSeq A P va m n) a p fs
      pure (.struct vs, p1)
    | .enum tag vs => do
      let i ← activeVariant A m a tag
      let fs ← vs[i]?
      let (xs, p1) ← seqEach (decodeSeq A P va m n) a p fs
      pure (.enum i xs, p1)
    | .bigUint u => seqVec A P va m (decodeSeq A P va m n) u a p
    | .bigInt u => do
      let s ← m (a + P.bigIntSignOff A)
      let (v, p1) ← decodeSeq A P va m n u (a + P.bigIntDataOff A) p
      pure (.bigInt s v, p1)

end SerRaw
