import Verif.Model.Attempt
import Verif.Spec.Ideal
import Verif.Spec.Discipline
/-
What the calls of an implementation that catches panics amount to, as plain calls that all return; and the reference output of
sessions of such values. A push that would go over the capacity limit panics and leaves nothing but alignment; a panic ends the calls up to the
next `catch_unwind`; what was pushed and what pointers were written before it stay.
-/
namespace SerRaw

/-- The calls made, the position at which they end, and whether they return (or else panic). -/
structure Trace where
  sc : Script
  pos : Nat
  returned : Bool

/-- A push that panics: it aligns the position for the type. -/
def Trace.full (L : Layout) (src p : Nat) : Trace := ⟨.pushRaw L 0 src .done, roundUp p L.align, false⟩

/-- What the calls amount to, starting at position `p` of a storage that holds at most `cap` bytes and aligns positions to `va`. -/
def ACalls.trace (va cap : Nat) : ACalls → Nat → Trace
  | .done, p => ⟨.done, p, true⟩
  | .panic, p => ⟨.done, p, false⟩
  | .pushProcess L len src ptr inner rest, p =>
    if roundUp p L.align + L.size * len ≤ cap then
      let t := inner.trace va cap (roundUp (roundUp p L.align + L.size * len) va)
      if t.returned then
        let u := rest.trace va cap t.pos
        ⟨.pushProcess L len src ptr t.sc u.sc, u.pos, u.returned⟩
      else ⟨.pushProcess L len src ptr t.sc .done, t.pos, false⟩
    else .full L src p
  | .push L len src ptr rest, p =>
    if roundUp p L.align + L.size * len ≤ cap then
      let u := rest.trace va cap (roundUp (roundUp p L.align + L.size * len) va)
      ⟨.push L len src ptr u.sc, u.pos, u.returned⟩
    else .full L src p
  | .pushRaw L len src rest, p =>
    if roundUp p L.align + L.size * len ≤ cap then
      let u := rest.trace va cap (roundUp (roundUp p L.align + L.size * len) va)
      ⟨.pushRaw L len src u.sc, u.pos, u.returned⟩
    else .full L src p
  | .overwrite a L data rest, p =>
    let u := rest.trace va cap p
    ⟨.overwrite a L data u.sc, u.pos, u.returned⟩
  | .attempt _ inner ifOk ifPanicked, p =>
    let t := inner.trace va cap p
    let u := if t.returned then ifOk.trace va cap t.pos else ifPanicked.trace va cap t.pos
    ⟨t.sc.app u.sc, u.pos, u.returned⟩

/-- Everything the calls would push is a real slice that the storage accepts. -/
def ACalls.Slices (C : Cfg) : ACalls → Prop
  | .done | .panic => True
  | .pushProcess L len src _ inner rest => PushOK C L len src ∧ inner.Slices C ∧ rest.Slices C
  | .push L len src _ rest => PushOK C L len src ∧ rest.Slices C
  | .pushRaw L len src rest => PushOK C L len src ∧ rest.Slices C
  | .overwrite _ _ _ rest => rest.Slices C
  | .attempt _ inner ifOk ifPanicked => inner.Slices C ∧ ifOk.Slices C ∧ ifPanicked.Slices C

/-- No `push_and_process*`. -/
def ACalls.flat : ACalls → Bool
  | .done | .panic => true
  | .pushProcess .. => false
  | .push _ _ _ _ rest => rest.flat
  | .pushRaw _ _ _ rest => rest.flat
  | .overwrite _ _ _ rest => rest.flat
  | .attempt _ inner ifOk ifPanicked => inner.flat && ifOk.flat && ifPanicked.flat

/-- A panic is caught only where the serializer still knows which value it is at: the implementation puts the position mapping back, or
there is none, or the calls attempted process nothing. -/
def ACalls.Restores (k : Kind) : ACalls → Prop
  | .done | .panic => True
  | .pushProcess _ _ _ _ inner rest => inner.Restores k ∧ rest.Restores k
  | .push _ _ _ _ rest => rest.Restores k
  | .pushRaw _ _ _ rest => rest.Restores k
  | .overwrite _ _ _ rest => rest.Restores k
  | .attempt restore inner ifOk ifPanicked => (restore = true ∨ k = .pureCopy ∨ inner.flat = true) ∧ inner.Restores k ∧
      ifOk.Restores k ∧ ifPanicked.Restores k

/-- Is there room for the value itself? -/
def ACall.fits (cap : Nat) (r : ACall) (p : Nat) : Prop := roundUp p r.L.align + r.L.size ≤ cap

instance (cap : Nat) (r : ACall) (p : Nat) : Decidable (r.fits cap p) := inferInstanceAs (Decidable (_ ≤ _))

/-- What the calls of the value's `serialize_data` amount to, if the value is put at the first aligned position from `p`. -/
def ACall.trace (va cap : Nat) (r : ACall) (p : Nat) : Trace := r.calls.trace va cap (roundUp (roundUp p r.L.align + r.L.size) va)

/-- What is required of the implementation: whatever fits, its calls follow the rules. -/
structure ACall.OK (C : Cfg) (k : Kind) (r : ACall) : Prop where
  value : PushOK C r.L 1 r.a
  slices : r.calls.Slices C
  restores : r.calls.Restores k
  wf : ∀ p, (r.calls.trace C.valueAlign C.maxCapacity p).sc.WF C ⟨r.a, r.L.size, r.L.align⟩

/-- Reference output of `serialize_value` on the value. -/
def ACall.ideal (A : Arch) (va cap : Nat) (md : Mode) (r : ACall) (st : Mem × Nat) : Mem × Nat :=
  if r.fits cap st.2 then rootIdeal A va md r.L r.im r.a (r.trace va cap st.2).sc st else (st.1, roundUp st.2 r.L.align)

/-- What the call returns, if it returns. -/
def ACall.result (va cap : Nat) (r : ACall) (p : Nat) : Option Nat :=
  if r.fits cap p ∧ (r.trace va cap p).returned = true then some (roundUp p r.L.align) else none

/-- The position after the call. -/
def ACall.endPos (va cap : Nat) (r : ACall) (p : Nat) : Nat := if r.fits cap p then (r.trace va cap p).pos else roundUp p r.L.align

/-- Reference output of `serialize_value` on each value in turn. -/
def attemptIdeal (A : Arch) (va cap : Nat) (md : Mode) : List ACall → Mem × Nat → Mem × Nat
  | [], st => st
  | r :: rs, st => attemptIdeal A va cap md rs (r.ideal A va cap md st)

/-- What the calls return. -/
def attemptResults (va cap : Nat) : List ACall → Nat → List (Option Nat)
  | [], _ => []
  | r :: rs, p => r.result va cap p :: attemptResults va cap rs (r.endPos va cap p)

/-- An implementation that neither panics nor catches. -/
def ACalls.ofScript : Script → ACalls
  | .done => .done
  | .pushProcess L len src ptr inner rest => .pushProcess L len src ptr (ofScript inner) (ofScript rest)
  | .push L len src ptr rest => .push L len src ptr (ofScript rest)
  | .pushRaw L len src rest => .pushRaw L len src (ofScript rest)
  | .overwrite a L data rest => .overwrite a L data (ofScript rest)

end SerRaw
