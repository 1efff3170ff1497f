import Verif.Model.Catching
/-
What is required of implementations that catch panics, look, panic and push temporaries.
-/
namespace SerRaw

/-- Whatever it is told, everything it tries to push is a real slice that the storage accepts. -/
def Catching.Real (C : Cfg) : Catching → Prop
  | .done _ | .panic => True
  | .look f => ∀ s, (f s).Real C
  | .lookPos f => ∀ p, (f p).Real C
  | .lookFor _ f => ∀ p, (f p).Real C
  | .pushProcess L len src _ _ inner rest => PushOK C L len src ∧ inner.Real C ∧ ∀ p r, (rest p r).Real C
  | .push L len src _ _ rest => PushOK C L len src ∧ ∀ p, (rest p).Real C
  | .pushRaw L len src _ rest => PushOK C L len src ∧ ∀ p, (rest p).Real C
  | .pushRawBytes len _ rest => len ≤ C.arch.isizeMax ∧ ∀ p, (rest p).Real C
  | .overwrite _ _ _ rest => rest.Real C
  | .attempt _ inner rest => inner.Real C ∧ ∀ r, (rest r).Real C

/-- No `push_and_process*`. -/
def Catching.Flat : Catching → Prop
  | .done _ | .panic => True
  | .look f => ∀ s, (f s).Flat
  | .lookPos f => ∀ p, (f p).Flat
  | .lookFor _ f => ∀ p, (f p).Flat
  | .pushProcess .. => False
  | .push _ _ _ _ _ rest => ∀ p, (rest p).Flat
  | .pushRaw _ _ _ _ rest => ∀ p, (rest p).Flat
  | .pushRawBytes _ _ rest => ∀ p, (rest p).Flat
  | .overwrite _ _ _ rest => rest.Flat
  | .attempt _ inner rest => inner.Flat ∧ ∀ r, (rest r).Flat

/-- A panic is caught only where the serializer still knows which value it is at: the implementation puts the position mapping back, or
there is none, or what is attempted processes nothing. -/
def Catching.Restores (k : Kind) : Catching → Prop
  | .done _ | .panic => True
  | .look f => ∀ s, (f s).Restores k
  | .lookPos f => ∀ p, (f p).Restores k
  | .lookFor _ f => ∀ p, (f p).Restores k
  | .pushProcess _ _ _ _ _ inner rest => inner.Restores k ∧ ∀ p r, (rest p r).Restores k
  | .push _ _ _ _ _ rest => ∀ p, (rest p).Restores k
  | .pushRaw _ _ _ _ rest => ∀ p, (rest p).Restores k
  | .pushRawBytes _ _ rest => ∀ p, (rest p).Restores k
  | .overwrite _ _ _ rest => rest.Restores k
  | .attempt restore inner rest => (restore = true ∨ k = .pureCopy ∨ inner.Flat) ∧ inner.Restores k ∧ ∀ r, (rest r).Restores k

/-! ### Implementations that only look at positions -/

/-- It looks at nothing but positions: `pos()`, and those that the `push*` methods return. -/
def Catching.Blind : Catching → Prop
  | .done _ | .panic => True
  | .look _ => False
  | .lookPos f => ∀ p, (f p).Blind
  | .lookFor _ _ => False
  | .pushProcess _ _ _ _ _ inner rest => inner.Blind ∧ ∀ p r, (rest p r).Blind
  | .push _ _ _ _ _ rest => ∀ p, (rest p).Blind
  | .pushRaw _ _ _ _ rest => ∀ p, (rest p).Blind
  | .pushRawBytes _ _ rest => ∀ p, (rest p).Blind
  | .overwrite _ _ _ rest => rest.Blind
  | .attempt _ inner rest => inner.Blind ∧ ∀ r, (rest r).Blind

/-- The calls it amounts to when the end of the output is at `p` and at most `cap` bytes are accepted, where the end is afterwards, and whether it returns and
with what (`none`: it panics). Every slice that fits is put at the next multiple of its alignment, and the end is rounded up to `va`; one that does not fit
panics; a panic goes up to the next `catch_unwind`. No serializer is involved. -/
def Catching.plan (va cap : Nat) : Catching → Nat → TCalls × Nat × Option (List Nat)
  | .done out, p => (.done, p, some out)
  | .panic, p => (.done, p, none)
  | .look _, p => (.done, p, none)
  | .lookPos f, p => (f p).plan va cap p
  | .lookFor _ _, p => (.done, p, none)
  | .pushProcess L len src data ptr inner rest, p =>
    if roundUp p L.align + L.size * len ≤ cap then
      let i := inner.plan va cap (roundUp (roundUp p L.align + L.size * len) va)
      match i.2.2 with
      | some out =>
        let r := (rest (roundUp p L.align) out).plan va cap i.2.1
        (.pushProcess L len src data ptr i.1 r.1, r.2)
      | none => (.pushProcess L len src data ptr i.1 .done, i.2.1, none)
    else (.pushRaw L 0 src data .done, roundUp p L.align, none)
  | .push L len src data ptr rest, p =>
    if roundUp p L.align + L.size * len ≤ cap then
      let r := (rest (roundUp p L.align)).plan va cap (roundUp (roundUp p L.align + L.size * len) va)
      (.push L len src data ptr r.1, r.2)
    else (.pushRaw L 0 src data .done, roundUp p L.align, none)
  | .pushRaw L len src data rest, p =>
    if roundUp p L.align + L.size * len ≤ cap then
      let r := (rest (roundUp p L.align)).plan va cap (roundUp (roundUp p L.align + L.size * len) va)
      (.pushRaw L len src data r.1, r.2)
    else (.pushRaw L 0 src data .done, roundUp p L.align, none)
  | .pushRawBytes len data rest, p =>
    if p + len ≤ cap then
      let r := (rest p).plan va cap (roundUp (p + len) va)
      (.pushRawBytes len data r.1, r.2)
    else (.done, p, none)
  | .overwrite addr L data rest, p =>
    let r := rest.plan va cap p
    (.overwrite addr L data r.1, r.2)
  | .attempt _ inner rest, p =>
    let i := inner.plan va cap p
    let r := (rest i.2.2).plan va cap i.2.1
    (i.1.app r.1, r.2)

/-- The same for the call of `serialize_value`: the calls of `serialize_data`, where the end is afterwards, and what is returned. -/
def Catching.planValue (va cap : Nat) (L : Layout) (b : Catching) (p : Nat) : TCalls × Nat × Option Nat :=
  if roundUp p L.align + L.size ≤ cap then
    let r := b.plan va cap (roundUp (roundUp p L.align + L.size) va)
    (r.1, r.2.1, r.2.2.map fun _ => roundUp p L.align)
  else (.done, roundUp p L.align, none)

/-! ### Implementations that follow the rules whatever they are told -/

/-- With some answers, it rewrites the `t.2` bytes at `t.1` of the value being processed. -/
def Catching.MayTouch (A : Arch) : Catching → Nat × Nat → Prop
  | .done _, _ => False
  | .panic, _ => False
  | .look f, t => ∃ s, (f s).MayTouch A t
  | .lookPos f, t => ∃ p, (f p).MayTouch A t
  | .lookFor _ f, t => ∃ p, (f p).MayTouch A t
  | .pushProcess _ _ _ _ ptr _ rest, t => t = (ptr, A.ptrBytes) ∨ ∃ p r, (rest p r).MayTouch A t
  | .push _ _ _ _ ptr rest, t => t = (ptr, A.ptrBytes) ∨ ∃ p, (rest p).MayTouch A t
  | .pushRaw _ _ _ _ rest, t => ∃ p, (rest p).MayTouch A t
  | .pushRawBytes _ _ rest, t => ∃ p, (rest p).MayTouch A t
  | .overwrite a L _ rest, t => t = (a, L.size) ∨ rest.MayTouch A t
  | .attempt _ inner rest, t => inner.MayTouch A t ∨ ∃ r, (rest r).MayTouch A t

/-- With some answers, it writes the pointer at `x` of the value being processed. -/
def Catching.MayPoint : Catching → Nat → Prop
  | .done _, _ => False
  | .panic, _ => False
  | .look f, x => ∃ s, (f s).MayPoint x
  | .lookPos f, x => ∃ p, (f p).MayPoint x
  | .lookFor _ f, x => ∃ p, (f p).MayPoint x
  | .pushProcess _ _ _ _ ptr _ rest, x => x = ptr ∨ ∃ p r, (rest p r).MayPoint x
  | .push _ _ _ _ ptr rest, x => x = ptr ∨ ∃ p, (rest p).MayPoint x
  | .pushRaw _ _ _ _ rest, x => ∃ p, (rest p).MayPoint x
  | .pushRawBytes _ _ rest, x => ∃ p, (rest p).MayPoint x
  | .overwrite _ _ _ rest, x => rest.MayPoint x
  | .attempt _ inner rest, x => inner.MayPoint x ∨ ∃ r, (rest r).MayPoint x

/-- The rules of Spec/Temporaries.lean (`TCalls.WF`), whatever the answers are and wherever a panic is caught. -/
def Catching.Follows (C : Cfg) : Catching → Ctx → Prop
  | .done _, _ => True
  | .panic, _ => True
  | .look f, c => ∀ s, (f s).Follows C c
  | .lookPos f, c => ∀ p, (f p).Follows C c
  | .lookFor _ f, c => ∀ p, (f p).Follows C c
  | .pushProcess L len src _ ptr inner rest, c =>
    PushOK C L len src ∧ TouchOK C c ptr C.arch.ptrBytes ∧
    (∀ p r t, (rest p r).MayTouch C.arch t → DisjRange ptr C.arch.ptrBytes t.1 t.2) ∧
    inner.Follows C ⟨src, L.size * len, L.align⟩ ∧ ∀ p r, (rest p r).Follows C c
  | .push L len src _ ptr rest, c =>
    PushOK C L len src ∧ TouchOK C c ptr C.arch.ptrBytes ∧
    (∀ p t, (rest p).MayTouch C.arch t → DisjRange ptr C.arch.ptrBytes t.1 t.2) ∧ ∀ p, (rest p).Follows C c
  | .pushRaw L len src _ rest, c => PushOK C L len src ∧ ∀ p, (rest p).Follows C c
  | .pushRawBytes len _ rest, c => len ≤ C.arch.isizeMax ∧ ∀ p, (rest p).Follows C c
  | .overwrite a L _ rest, c => OverOK c a L ∧ rest.Follows C c
  | .attempt _ inner rest, c => inner.Follows C c ∧ (∀ r, (rest r).Follows C c) ∧
    ∀ x r t, inner.MayPoint x → (rest r).MayTouch C.arch t → DisjRange x C.arch.ptrBytes t.1 t.2

end SerRaw
