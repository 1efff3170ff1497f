import Verif.Model.Adaptive
import Verif.Spec.Temporaries
/-
The calls an adaptive implementation makes: those recorded in a run, and those it makes according to the placement rules alone.
-/
namespace SerRaw

/-! ### Recording a run -/

/-- The serializer as a closure finds it: `call` gets a closure that stops the program at once. -/
def startOf {α : Type} (call : M Ser Unit → M Ser α) (s : Ser) : Option Ser :=
  match call (M.throw .user) s with
  | .panic _ s1 => some s1
  | _ => none

/-- The calls made in a run that starts in `s`, up to the end or the point where it is stopped by a panic. -/
def Adaptive.made (C : Cfg) (k : Kind) : Adaptive → Ser → TCalls
  | .done _, _ => .done
  | .look f, s => (f s).made C k s
  | .lookPos f, s => (f s.sto.vec.pos).made C k s
  | .lookFor x f, s => (match s.map.posForAddr C.arch x s with
      | .ok p _ => (f p).made C k s
      | _ => .done)
  | .pushProcess L len src data ptr inner rest, s =>
    .pushProcess L len src data ptr
      (match startOf (pushAndProcessSlice C k ⟨L, len, src, data⟩ (addrFromRef k ptr)) s with
        | some s1 => inner.made C k s1
        | none => .done)
      (match pushAndProcessCapturing C k ⟨L, len, src, data⟩ (addrFromRef k ptr) (inner.run C k) s with
        | .ok r s1 => (rest r.1 r.2).made C k s1
        | _ => .done)
  | .push L len src data ptr rest, s =>
    .push L len src data ptr (match pushSlice C k ⟨L, len, src, data⟩ (addrFromRef k ptr) s with
      | .ok p s1 => (rest p).made C k s1
      | _ => .done)
  | .pushRaw L len src data rest, s =>
    .pushRaw L len src data (match pushRawSlice C ⟨L, len, src, data⟩ s with
      | .ok p s1 => (rest p).made C k s1
      | _ => .done)
  | .pushRawBytes len data rest, s =>
    .pushRawBytes len data (match SerRaw.pushRawBytes C len data s with
      | .ok p s1 => (rest p).made C k s1
      | _ => .done)
  | .overwrite addr L data rest, s =>
    .overwrite addr L data (match overwriteWith k (SerRaw.overwrite C k (addrFromRef k addr) L data) s with
      | .ok _ s1 => rest.made C k s1
      | _ => .done)

/-- The values serialized in a run that starts in `s`, each with the calls made for it. -/
def Caller.made (C : Cfg) (k : Kind) : Caller → Ser → List TRoot
  | .finish, _ => []
  | .value L a data body rest, s =>
    ⟨L, a, data, match startOf (serializeValue C k L a data) s with
      | some s1 => body.made C k s1
      | none => .done⟩ ::
    (match serializeValue C k L a data (do let _ ← body.run C k; pure ()) s with
      | .ok p s1 => (rest p).made C k s1
      | _ => [])

/-- It does not use `pos_for`. -/
def Adaptive.NoPosFor : Adaptive → Prop
  | .done _ => True
  | .look f => ∀ s, (f s).NoPosFor
  | .lookPos f => ∀ p, (f p).NoPosFor
  | .lookFor _ _ => False
  | .pushProcess _ _ _ _ _ inner rest => inner.NoPosFor ∧ ∀ p r, (rest p r).NoPosFor
  | .push _ _ _ _ _ rest => ∀ p, (rest p).NoPosFor
  | .pushRaw _ _ _ _ rest => ∀ p, (rest p).NoPosFor
  | .pushRawBytes _ _ rest => ∀ p, (rest p).NoPosFor
  | .overwrite _ _ _ rest => rest.NoPosFor

/-- None of its values does. -/
def Caller.NoPosFor : Caller → Prop
  | .finish => True
  | .value _ _ _ body rest => body.NoPosFor ∧ ∀ p, (rest p).NoPosFor

/-! ### Implementations that only look at positions -/

/-- It looks at nothing but positions. -/
def Adaptive.Blind : Adaptive → Prop
  | .done _ => True
  | .look _ => False
  | .lookPos f => ∀ p, (f p).Blind
  | .lookFor _ f => ∀ p, (f p).Blind
  | .pushProcess _ _ _ _ _ inner rest => inner.Blind ∧ ∀ p r, (rest p r).Blind
  | .push _ _ _ _ _ rest => ∀ p, (rest p).Blind
  | .pushRaw _ _ _ _ rest => ∀ p, (rest p).Blind
  | .pushRawBytes _ _ rest => ∀ p, (rest p).Blind
  | .overwrite _ _ _ rest => rest.Blind

/-- All its values are such. -/
def Caller.Blind : Caller → Prop
  | .finish => True
  | .value _ _ _ body rest => body.Blind ∧ ∀ p, (rest p).Blind

/-- The calls made while a value at input address `ia` and output position `op` is processed, when the end of the output is at `p`, where
the end is afterwards, and what is left in captured variables: every slice is put at the next multiple of its alignment, and the end is rounded up to `va`. No serializer is
involved. -/
def Adaptive.plan (va : Nat) : Adaptive → (ia op p : Nat) → TCalls × Nat × List Nat
  | .done out, _, _, p => (.done, p, out)
  | .look _, _, _, p => (.done, p, [])
  | .lookPos f, ia, op, p => (f p).plan va ia op p
  | .lookFor x f, ia, op, p => (f (outPos ia op x)).plan va ia op p
  | .pushProcess L len src data ptr inner rest, ia, op, p =>
    let i := inner.plan va src (roundUp p L.align) (roundUp (roundUp p L.align + L.size * len) va)
    let r := (rest (roundUp p L.align) i.2.2).plan va ia op i.2.1
    (.pushProcess L len src data ptr i.1 r.1, r.2)
  | .push L len src data ptr rest, ia, op, p =>
    let r := (rest (roundUp p L.align)).plan va ia op (roundUp (roundUp p L.align + L.size * len) va)
    (.push L len src data ptr r.1, r.2)
  | .pushRaw L len src data rest, ia, op, p =>
    let r := (rest (roundUp p L.align)).plan va ia op (roundUp (roundUp p L.align + L.size * len) va)
    (.pushRaw L len src data r.1, r.2)
  | .pushRawBytes len data rest, ia, op, p =>
    let r := (rest p).plan va ia op (roundUp (p + len) va)
    (.pushRawBytes len data r.1, r.2)
  | .overwrite addr L data rest, ia, op, p =>
    let r := rest.plan va ia op p
    (.overwrite addr L data r.1, r.2)

/-- `pos_for` is asked only about addresses in the value being processed, which has `sz` bytes. -/
def Adaptive.Inside (va : Nat) : Adaptive → (ia sz op p : Nat) → Prop
  | .done _, _, _, _, _ => True
  | .look _, _, _, _, _ => True
  | .lookPos f, ia, sz, op, p => (f p).Inside va ia sz op p
  | .lookFor x f, ia, sz, op, p => ia ≤ x ∧ x ≤ ia + sz ∧ (f (outPos ia op x)).Inside va ia sz op p
  | .pushProcess L len src _ _ inner rest, ia, sz, op, p =>
    inner.Inside va src (L.size * len) (roundUp p L.align) (roundUp (roundUp p L.align + L.size * len) va) ∧
    let i := inner.plan va src (roundUp p L.align) (roundUp (roundUp p L.align + L.size * len) va)
    (rest (roundUp p L.align) i.2.2).Inside va ia sz op i.2.1
  | .push L len _ _ _ rest, ia, sz, op, p => (rest (roundUp p L.align)).Inside va ia sz op (roundUp (roundUp p L.align + L.size * len) va)
  | .pushRaw L len _ _ rest, ia, sz, op, p => (rest (roundUp p L.align)).Inside va ia sz op (roundUp (roundUp p L.align + L.size * len) va)
  | .pushRawBytes len _ rest, ia, sz, op, p => (rest p).Inside va ia sz op (roundUp (p + len) va)
  | .overwrite _ _ _ rest, ia, sz, op, p => rest.Inside va ia sz op p

/-- The values serialized when the end of the output is at `p`. -/
def Caller.plan (va : Nat) : Caller → Nat → List TRoot
  | .finish, _ => []
  | .value L a data body rest, p =>
    let b := body.plan va a (roundUp p L.align) (roundUp (roundUp p L.align + L.size) va)
    ⟨L, a, data, b.1⟩ :: (rest (roundUp p L.align)).plan va b.2.1

/-- `pos_for` is asked only about addresses in the value being processed. -/
def Caller.Inside (va : Nat) : Caller → Nat → Prop
  | .finish, _ => True
  | .value L a _ body rest, p =>
    body.Inside va a L.size (roundUp p L.align) (roundUp (roundUp p L.align + L.size) va) ∧
    (rest (roundUp p L.align)).Inside va (body.plan va a (roundUp p L.align) (roundUp (roundUp p L.align + L.size) va)).2.1

end SerRaw
