import Verif.Spec.Layout
/-
The allocations a value owns, computed from the abstract value alone: no memory, no addresses, no capacities, no serializer.
-/
namespace SerRaw

mutual
/-- The allocations owned by the abstract value `v` of type `t`, in depth-first pre-order. -/
def Val.allocs (P : Prog) : Val → TyId → List Shape
  | .prim _, _ => []
  | .box v, t =>
    match P.defn t with
    | .box u => if (P.layout u).size = 0 then [] else ⟨P.layout u, 1⟩ :: v.allocs P u
    | _ => []
  | .vec vs, t =>
    match P.defn t with
    | .vec u | .bigUint u =>
      if (P.layout u).size = 0 ∨ vs.length = 0 then []
      else ⟨P.layout u, vs.length⟩ :: allocsEach P vs (List.replicate vs.length u)
    | _ => []
  | .str bs, _ => if bs.length = 0 then [] else [⟨⟨1, 1⟩, bs.length⟩]
  | .struct vs, t =>
    match P.defn t with
    | .array u k => allocsEach P vs (List.replicate k u)
    | .struct fs => allocsEach P vs (fs.map Prod.snd)
    | _ => []
  | .enum i vs, t =>
    match P.defn t with
    | .enum _ vars => allocsEach P vs ((vars.getD i []).map Prod.snd)
    | _ => []
  | .bigInt _ v, t =>
    match P.defn t with
    | .bigInt u => v.allocs P u
    | _ => []

/-- The same for several values. -/
def allocsEach (P : Prog) : List Val → List TyId → List Shape
  | v :: vs, t :: ts => v.allocs P t ++ allocsEach P vs ts
  | _, _ => []
end

/-- The blocks a value of type `t` is serialized to: itself unless zero-sized, then its allocations. -/
def Val.blocks (P : Prog) (v : Val) (t : TyId) : List Shape :=
  (if (P.layout t).size = 0 then [] else [⟨P.layout t, 1⟩]) ++ v.allocs P t

/-- The positions of several values serialized one after the other when the output ends at `p` (a zero-sized value is not
stored: its position is 0). -/
def valuePositions (P : Prog) (va : Nat) : Nat → List (TyId × Val) → List Nat
  | _, [] => []
  | p, (t, v) :: xs =>
    (if (P.layout t).size = 0 then 0 else roundUp p (P.layout t).align) :: valuePositions P va (placeEnd va p (v.blocks P t)) xs

/-- The end of the output after several values. -/
def valuesEnd (P : Prog) (va p : Nat) (xs : List (TyId × Val)) : Nat := placeEnd va p (xs.flatMap fun x => x.2.blocks P x.1)

/-! ### Where the pointers are and what they point to -/

mutual
/-- The pointer words of the abstract value `v` of type `t` whose copy is at position `op`, when the allocations it owns are placed
from position `p` on: for each, the position of the word and the position of the allocation it refers to. -/
def Val.pointers (A : Arch) (P : Prog) (va : Nat) : Val → TyId → (op p : Nat) → List (Nat × Nat)
  | .prim _, _, _, _ => []
  | .box v, t, op, p =>
    match P.defn t with
    | .box u =>
      if (P.layout u).size = 0 then []
      else
        let q := roundUp p (P.layout u).align
        (op, q) :: v.pointers A P va u q (roundUp (q + (P.layout u).size) va)
    | _ => []
  | .vec vs, t, op, p =>
    match P.defn t with
    | .vec u | .bigUint u =>
      if (P.layout u).size = 0 ∨ vs.length = 0 then []
      else
        let q := roundUp p (P.layout u).align
        (op + (P.vecOrder u).ptrIx * A.ptrBytes, q) ::
          pointersEach A P va vs (elems P u vs.length) q (roundUp (q + (P.layout u).size * vs.length) va)
    | _ => []
  | .str bs, _, op, p => if bs.length = 0 then [] else [(op + P.stringOrder.ptrIx * A.ptrBytes, p)]
  | .struct vs, t, op, p =>
    match P.defn t with
    | .array u k => pointersEach A P va vs (elems P u k) op p
    | .struct fs => pointersEach A P va vs fs op p
    | _ => []
  | .enum i vs, t, op, p =>
    match P.defn t with
    | .enum _ vars => pointersEach A P va vs (vars.getD i []) op p
    | _ => []
  | .bigInt _ v, t, op, p =>
    match P.defn t with
    | .bigInt u => v.pointers A P va u (op + P.bigIntDataOff A) p
    | _ => []

/-- The same for fields / elements. -/
def pointersEach (A : Arch) (P : Prog) (va : Nat) : List Val → List Field → (op p : Nat) → List (Nat × Nat)
  | v :: vs, f :: fs, op, p =>
    v.pointers A P va f.2 (op + f.1) p ++ pointersEach A P va vs fs op (placeEnd va p (v.allocs P f.2))
  | _, _, _, _ => []
end

/-- The pointer words of a value of type `t` stored at position `q`. -/
def Val.pointersAt (A : Arch) (P : Prog) (va : Nat) (v : Val) (t : TyId) (q : Nat) : List (Nat × Nat) :=
  if (P.layout t).size = 0 then [] else v.pointers A P va t q (roundUp (q + (P.layout t).size) va)

end SerRaw
