import Verif.Model.HandNested
import Verif.Lemmas.TypedDecode
/-
What is required of hand-written implementations that call the `serialize_data` of other types (and are called by them), and what a
memory means that contains values of such types.
-/
namespace SerRaw

/-! ### What memory means -/

/-- What the author of a type takes a value of it to be: read off the memory, given the meaning of the other typed addresses. -/
abbrev HandView := (TyId → Nat → Option Val) → Mem → Nat → Option Val

/-- One level of `decode` (Spec/Decode.lean), after the check of the address; `rec` is the meaning of other typed addresses. -/
def decodeStep (A : Arch) (P : Prog) (fl : Flags) (m : Mem) (rec : TyId → Nat → Option Val) (t : TyId) (a : Nat) : Option Val :=
  match P.defn t with
  | .prim => (readBytes m a (P.layout t).size).map .prim
  | .box u => do
    let p ← readWord A m a
    if p ≠ 0 then
      let v ← rec u p
      pure (.box v)
    else none
  | .vec u => decodeVec A P fl m rec u a
  | .string => decodeStr A P fl m a
  | .array u k => do
    let vs ← decodeEach rec a (elems P u k)
    pure (.struct vs)
  | .struct fs => do
    let vs ← decodeEach rec a fs
    pure (.struct vs)
  | .enum tag vs => do
    let i ← activeVariant A m a tag
    let fs ← vs[i]?
    let xs ← decodeEach rec a fs
    pure (.enum i xs)
  | .bigUint u => decodeVec A P fl m rec u a
  | .bigInt u => do
    let s ← m (a + P.bigIntSignOff A)
    let v ← rec u (a + P.bigIntDataOff A)
    pure (.bigInt s v)

/-- The value of type `t` at address `a`, following pointers (at most `n` levels deep): as `decode` (Spec/Decode.lean), but the types
with a hand-written implementation are read by their views. -/
def decodeH (A : Arch) (P : Prog) (X : TyId → Option HandImpl) (V : TyId → HandView) (fl : Flags) (m : Mem) : Nat → TyId → Nat → Option Val
  | 0, _, _ => none
  | n + 1, t, a =>
    if a % (P.layout t).align = 0 ∧ a + (P.layout t).size < A.usizeMod then
      match X t with
      | some _ => V t (decodeH A P X V fl m n) m a
      | none => decodeStep A P fl m (decodeH A P X V fl m n) t a
    else none

/-- `v` is the value of type `t` at address `a` of memory `m`. -/
def DenotesH (A : Arch) (P : Prog) (X : TyId → Option HandImpl) (V : TyId → HandView) (fl : Flags) (m : Mem) (t : TyId) (a : Nat) (v : Val) : Prop :=
  ∃ n, decodeH A P X V fl m n t a = some v

/-- Typed addresses that mean something are aligned and inside the address space. -/
def Guarded (A : Arch) (P : Prog) (rd : TyId → Nat → Option Val) : Prop :=
  ∀ t a v, rd t a = some v → (P.layout t).align ∣ a ∧ a + (P.layout t).size < A.usizeMod

/-! ### The rules -/

/-- The byte ranges of the current allocation the calls rewrite (`serialize_data` of a value may rewrite any of its bytes). -/
def HCalls.touch (A : Arch) (P : Prog) : HCalls → List (Nat × Nat)
  | .done => []
  | .data t a rest => (a, (P.layout t).size) :: rest.touch A P
  | .pushProcess _ _ _ ptr _ rest => (ptr, A.ptrBytes) :: rest.touch A P
  | .push _ _ _ ptr rest => (ptr, A.ptrBytes) :: rest.touch A P
  | .pushRaw _ _ _ rest => rest.touch A P
  | .overwrite a L _ rest => (a, L.size) :: rest.touch A P

/-- The rules of `Script.WF` (Spec/Discipline.lean), and for `value.serialize_data(serializer)`: there is a value (`ok`), it is inside
the allocation being processed, and nothing in it is rewritten by later calls. -/
def HCalls.WF (C : Cfg) (P : Prog) (ok : TyId → Nat → Prop) : HCalls → Ctx → Prop
  | .done, _ => True
  | .data t a rest, c =>
    ok t a ∧ Placed c (P.layout t) a ∧
    (∀ r ∈ rest.touch C.arch P, DisjRange a (P.layout t).size r.1 r.2) ∧ rest.WF C P ok c
  | .pushProcess L len src ptr inner rest, c =>
    PushOK C L len src ∧ TouchOK C c ptr C.arch.ptrBytes ∧
    (∀ r ∈ rest.touch C.arch P, DisjRange ptr C.arch.ptrBytes r.1 r.2) ∧
    inner.WF C P ok ⟨src, L.size * len, L.align⟩ ∧ rest.WF C P ok c
  | .push L len src ptr rest, c =>
    PushOK C L len src ∧ TouchOK C c ptr C.arch.ptrBytes ∧
    (∀ r ∈ rest.touch C.arch P, DisjRange ptr C.arch.ptrBytes r.1 r.2) ∧ rest.WF C P ok c
  | .pushRaw L len src rest, c => PushOK C L len src ∧ rest.WF C P ok c
  | .overwrite a L _ rest, c => OverOK c a L ∧ rest.WF C P ok c

/-- The calls with those of nested `serialize_data`s (given by `rc`) in place. -/
def HCalls.script (rc : TyId → Nat → Option Script) : HCalls → Option Script
  | .done => some .done
  | .data t a rest => do
    let s ← rc t a
    let r ← rest.script rc
    pure (s.app r)
  | .pushProcess L len src ptr inner rest => do
    let i ← inner.script rc
    let r ← rest.script rc
    pure (.pushProcess L len src ptr i r)
  | .push L len src ptr rest => do
    let r ← rest.script rc
    pure (.push L len src ptr r)
  | .pushRaw L len src rest => do
    let r ← rest.script rc
    pure (.pushRaw L len src r)
  | .overwrite a L bytes rest => do
    let r ← rest.script rc
    pure (.overwrite a L bytes r)

/-! ### Reading back -/

/-- The value of type `t` at `a`, whose `serialize_data` makes the calls `sc`, is read back as `v` by `back`: wherever the value's
allocation `c` was copied to (`op`, below the end `p` of the output), if the copy of the value is intact before the calls, then after
them the copy differs from the original only in words that hold pointers or capacities, valid before and after, and any memory that
has the copy and the output of the calls at their positions plus `D` is read as `v`. -/
def ReadsBack (C : Cfg) (P : Prog) (im : Mem) (md : Mode) (va D : Nat) (t : TyId) (a : Nat) (v : Val) (sc : Script)
    (back : Mem → Nat → Option Val) : Prop :=
  ∀ c op m p m' p', Placed c (P.layout t) a → op + c.sz ≤ p →
    (P.layout t).align ∣ outPos c.ia op a → (P.layout t).align ∣ D →
    (∀ i < (P.layout t).size, m (outPos c.ia op a + i) = im (a + i)) →
    sc.ideal C.arch va md im c.ia op (m, p) = (m', p') → D + p' < C.arch.usizeMod →
    SlotOK C.arch P im m' t a (outPos c.ia op a) ∧
    ∀ dm : Mem, (∀ i, (outPos c.ia op a ≤ i ∧ i < outPos c.ia op a + (P.layout t).size) ∨ (p ≤ i ∧ i < p') → dm (D + i) = m' i) →
      back dm (D + outPos c.ia op a) = some v

/-- Every value is read back. -/
def RClaim (C : Cfg) (P : Prog) (im : Mem) (md : Mode) (va D : Nat)
    (rd : TyId → Nat → Option Val) (rc : TyId → Nat → Option Script) (rd' : Mem → TyId → Nat → Option Val) : Prop :=
  ∀ t a v sc, rd t a = some v → rc t a = some sc → ReadsBack C P im md va D t a v sc fun dm => rd' dm t

/-- What is required of a hand-written implementation `I` for type `t`, values of which are read by `V` in the input and by `V'` in the
output (the output may represent them differently: ser_raw/src/serializer.rs:385-387). -/
structure HandOK (C : Cfg) (P : Prog) (t : TyId) (I : HandImpl) (V V' : HandView) : Prop where
  /-- values occupy memory -/
  sized : (P.layout t).size ≠ 0
  /-- knowing more about other values does not change the meaning of this one -/
  mono : ∀ {r1 r2 : TyId → Nat → Option Val} {m a v}, (∀ u b w, r1 u b = some w → r2 u b = some w) → V r1 m a = some v → V r2 m a = some v
  /-- the calls follow the rules, with the values `serialize_data` is called on being among those the meaning of this value refers to -/
  rules : ∀ {rd : TyId → Nat → Option Val} {im a v}, Guarded C.arch P rd → (P.layout t).align ∣ a → a + (P.layout t).size < C.arch.usizeMod →
    V rd im a = some v →
    ∃ cs, I im a = some cs ∧ cs.WF C P (fun u b => ∃ w, rd u b = some w) ⟨a, (P.layout t).size, (P.layout t).align⟩
  /-- if the other values are read back, so is this one -/
  back : ∀ {rd : TyId → Nat → Option Val} {rc : TyId → Nat → Option Script} {rd' : Mem → TyId → Nat → Option Val} {im md D a v cs sc},
    md.ptrBase = some D → (∀ u, (P.layout u).size ≠ 0 → (P.layout u).align ∣ D) →
    Guarded C.arch P rd → (∀ u b w, (P.layout u).size = 0 → rd u b = some w → ∀ dm, rd' dm u b = some w) →
    WFClaim C P rd rc → RClaim C P im md C.valueAlign D rd rc rd' →
    (P.layout t).align ∣ a → a + (P.layout t).size < C.arch.usizeMod →
    V rd im a = some v → I im a = some cs → cs.script rc = some sc →
    ReadsBack C P im md C.valueAlign D t a v sc fun dm => V' (rd' dm) dm

/-- All hand-written implementations are OK. -/
def AllHandOK (C : Cfg) (P : Prog) (X : TyId → Option HandImpl) (V V' : TyId → HandView) : Prop :=
  ∀ t I, X t = some I → HandOK C P t I (V t) (V' t)

end SerRaw
