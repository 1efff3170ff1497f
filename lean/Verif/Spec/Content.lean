import Verif.Spec.Size
/-
The plain bytes of an output, computed from the abstract value alone: which positions hold data of the value (and not padding,
pointers, spare capacities or enum discriminants), and which byte is there. No memory, no addresses, no serializer.
-/
namespace SerRaw

/-- The bytes `bs` at positions `x`, `x + 1`, … -/
def bytesAt (x : Nat) (bs : List UInt8) : List (Nat × UInt8) := bs.mapIdx fun i b => (x + i, b)

/-- The header words of a `Vec`/`String` of `len` elements at position `op` that are data: the length; if `caps` (output of a
serializer that makes vectors tight) also the capacity, equal to the length, and, for an empty one, the canonical dangling pointer. -/
def headContent (A : Arch) (caps : Bool) (o : Order) (align len op : Nat) : List (Nat × UInt8) :=
  bytesAt (op + o.lenIx * A.ptrBytes) (encWord A len) ++
  (if caps then bytesAt (op + o.capIx * A.ptrBytes) (encWord A len) else []) ++
  (if caps ∧ len = 0 then bytesAt (op + o.ptrIx * A.ptrBytes) (encWord A align) else [])

mutual
/-- The data bytes of the abstract value `v` of type `t` whose copy is at position `op`, when the allocations it owns are placed
from position `p` on (in depth-first order, as in `Val.pointers`). -/
def Val.content (A : Arch) (P : Prog) (va : Nat) (caps : Bool) : Val → TyId → (op p : Nat) → List (Nat × UInt8)
  | .prim bs, _, op, _ => bytesAt op bs
  | .box v, t, _, p =>
    match P.defn t with
    | .box u =>
      if (P.layout u).size = 0 then []
      else
        let q := roundUp p (P.layout u).align
        v.content A P va caps u q (roundUp (q + (P.layout u).size) va)
    | _ => []
  | .vec vs, t, op, p =>
    match P.defn t with
    | .vec u | .bigUint u =>
      if (P.layout u).size = 0 then headContent A false (P.vecOrder u) (P.layout u).align vs.length op
      else
        let q := roundUp p (P.layout u).align
        headContent A caps (P.vecOrder u) (P.layout u).align vs.length op ++
          contentEach A P va caps vs (elems P u vs.length) q (roundUp (q + (P.layout u).size * vs.length) va)
    | _ => []
  | .str bs, _, op, p => headContent A caps P.stringOrder 1 bs.length op ++ bytesAt p bs
  | .struct vs, t, op, p =>
    match P.defn t with
    | .array u k => contentEach A P va caps vs (elems P u k) op p
    | .struct fs => contentEach A P va caps vs fs op p
    | _ => []
  | .enum i vs, t, op, p =>
    match P.defn t with
    | .enum _ vars => contentEach A P va caps vs (vars.getD i []) op p
    | _ => []
  | .bigInt s v, t, op, p =>
    match P.defn t with
    | .bigInt u => (op + P.bigIntSignOff A, s) :: v.content A P va caps u (op + P.bigIntDataOff A) p
    | _ => []

/-- The same for fields / elements. -/
def contentEach (A : Arch) (P : Prog) (va : Nat) (caps : Bool) : List Val → List Field → (op p : Nat) → List (Nat × UInt8)
  | v :: vs, f :: fs, op, p =>
    v.content A P va caps f.2 (op + f.1) p ++ contentEach A P va caps vs fs op (placeEnd va p (v.allocs P f.2))
  | _, _, _, _ => []
end

/-- The data bytes of a value of type `t` stored at position `q`. -/
def Val.contentAt (A : Arch) (P : Prog) (va : Nat) (caps : Bool) (v : Val) (t : TyId) (q : Nat) : List (Nat × UInt8) :=
  if (P.layout t).size = 0 then [] else v.content A P va caps t q (roundUp (q + (P.layout t).size) va)

end SerRaw
