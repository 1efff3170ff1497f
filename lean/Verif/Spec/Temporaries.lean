import Verif.Model.Temporaries
import Verif.Spec.Ideal
import Verif.Spec.Discipline
/-
What is required of implementations that push temporaries, and their reference output: the rules of Spec/Discipline.lean and the
placement of Spec/Ideal.lean, with the bytes each slice has when it is pushed. Nothing is required of the addresses of the slices,
except that pointers and corrections are inside the value being processed.
-/
namespace SerRaw

/-- The byte ranges of the current allocation the calls rewrite. -/
def TCalls.touch (A : Arch) : TCalls → List (Nat × Nat)
  | .done => []
  | .pushProcess _ _ _ _ ptr _ rest => (ptr, A.ptrBytes) :: rest.touch A
  | .push _ _ _ _ ptr rest => (ptr, A.ptrBytes) :: rest.touch A
  | .pushRaw _ _ _ _ rest => rest.touch A
  | .pushRawBytes _ _ rest => rest.touch A
  | .overwrite a L _ rest => (a, L.size) :: rest.touch A

/-- The rules: slices are real, pointers and overwrites are inside the current allocation, and no pointer is rewritten after it was
written. -/
def TCalls.WF (C : Cfg) : TCalls → Ctx → Prop
  | .done, _ => True
  | .pushProcess L len src _ ptr inner rest, c =>
    PushOK C L len src ∧ TouchOK C c ptr C.arch.ptrBytes ∧
    (∀ t ∈ rest.touch C.arch, DisjRange ptr C.arch.ptrBytes t.1 t.2) ∧
    inner.WF C ⟨src, L.size * len, L.align⟩ ∧ rest.WF C c
  | .push L len src _ ptr rest, c =>
    PushOK C L len src ∧ TouchOK C c ptr C.arch.ptrBytes ∧
    (∀ t ∈ rest.touch C.arch, DisjRange ptr C.arch.ptrBytes t.1 t.2) ∧ rest.WF C c
  | .pushRaw L len src _ rest, c => PushOK C L len src ∧ rest.WF C c
  | .pushRawBytes len _ rest, c => len ≤ C.arch.isizeMax ∧ rest.WF C c
  | .overwrite a L _ rest, c => OverOK c a L ∧ rest.WF C c

/-- Reference output of the calls in the context of an allocation with input address `ia` and output position `op`, from contents
and end position `st`. -/
def TCalls.ideal (A : Arch) (va : Nat) (md : Mode) : TCalls → (ia op : Nat) → Mem × Nat → Mem × Nat
  | .done, _, _, st => st
  | .pushProcess L len src data ptr inner rest, ia, op, st =>
    let pos := roundUp st.2 L.align
    let m1 := st.1.blit pos (L.size * len) data
    let m2 := md.putPtr A m1 (outPos ia op ptr) pos
    rest.ideal A va md ia op (inner.ideal A va md src pos (m2, roundUp (pos + L.size * len) va))
  | .push L len _ data ptr rest, ia, op, st =>
    let pos := roundUp st.2 L.align
    let m1 := st.1.blit pos (L.size * len) data
    let m2 := md.putPtr A m1 (outPos ia op ptr) pos
    rest.ideal A va md ia op (m2, roundUp (pos + L.size * len) va)
  | .pushRaw L len _ data rest, ia, op, st =>
    let pos := roundUp st.2 L.align
    rest.ideal A va md ia op (st.1.blit pos (L.size * len) data, roundUp (pos + L.size * len) va)
  | .pushRawBytes len data rest, ia, op, st =>
    rest.ideal A va md ia op (st.1.blit st.2 len data, roundUp (st.2 + len) va)
  | .overwrite a L data rest, ia, op, st =>
    rest.ideal A va md ia op (md.putValue st.1 (outPos ia op a) L.size data, st.2)

/-- The value is real (non-zero-sized, accepted by the storage) and its `serialize_data` follows the rules. -/
def TRoot.OK (C : Cfg) (r : TRoot) : Prop := PushOK C r.L 1 r.a ∧ r.calls.WF C ⟨r.a, r.L.size, r.L.align⟩

/-- Reference output of one `serialize_value`. -/
def TRoot.ideal (A : Arch) (va : Nat) (md : Mode) (r : TRoot) (st : Mem × Nat) : Mem × Nat :=
  r.calls.ideal A va md r.a (roundUp st.2 r.L.align)
    (st.1.blit (roundUp st.2 r.L.align) r.L.size r.data, roundUp (roundUp st.2 r.L.align + r.L.size) va)

/-- Reference output of `serialize_value` on each value in turn. -/
def tempIdeal (A : Arch) (va : Nat) (md : Mode) : List TRoot → Mem × Nat → Mem × Nat
  | [], st => st
  | r :: rs, st => tempIdeal A va md rs (r.ideal A va md st)

/-- Positions at which the values themselves are put. -/
def tempPositions (A : Arch) (va : Nat) : List TRoot → Nat → List Nat
  | [], _ => []
  | r :: rs, p => roundUp p r.L.align :: tempPositions A va rs (r.ideal A va ⟨none, false⟩ (fun _ => none, p)).2

/-- `c'` makes the calls of `c` on the same data, with everything elsewhere in memory: the value being processed is at `ia'` instead of `ia`,
pointers and corrections are at the same offsets in it, and the slices pushed are anywhere. -/
inductive TCalls.Moved : (ia ia' : Nat) → (c c' : TCalls) → Prop
  | done {ia ia'} : Moved ia ia' .done .done
  | pushProcess {ia ia' L len src src' data ptr ptr' inner inner' rest rest'} : ptr' + ia = ptr + ia' → Moved src src' inner inner' →
      Moved ia ia' rest rest' → Moved ia ia' (.pushProcess L len src data ptr inner rest) (.pushProcess L len src' data ptr' inner' rest')
  | push {ia ia' L len src src' data ptr ptr' rest rest'} : ptr' + ia = ptr + ia' →
      Moved ia ia' rest rest' → Moved ia ia' (.push L len src data ptr rest) (.push L len src' data ptr' rest')
  | pushRaw {ia ia' L len src src' data rest rest'} : Moved ia ia' rest rest' → Moved ia ia' (.pushRaw L len src data rest) (.pushRaw L len src' data rest')
  | pushRawBytes {ia ia' len data rest rest'} : Moved ia ia' rest rest' → Moved ia ia' (.pushRawBytes len data rest) (.pushRawBytes len data rest')
  | overwrite {ia ia' a a' L data rest rest'} : a' + ia = a + ia' →
      Moved ia ia' rest rest' → Moved ia ia' (.overwrite a L data rest) (.overwrite a' L data rest')

/-- The same value, elsewhere in memory. -/
structure TRoot.Moved (r r' : TRoot) : Prop where
  L : r'.L = r.L
  data : r'.data = r.data
  calls : r.calls.Moved r.a r'.a r'.calls

/-- Calls whose slices are all parts of the memory `im`. -/
def TCalls.ofScript (im : Mem) : Script → TCalls
  | .done => .done
  | .pushProcess L len src ptr inner rest => .pushProcess L len src (fun i => im (src + i)) ptr (ofScript im inner) (ofScript im rest)
  | .push L len src ptr rest => .push L len src (fun i => im (src + i)) ptr (ofScript im rest)
  | .pushRaw L len src rest => .pushRaw L len src (fun i => im (src + i)) (ofScript im rest)
  | .overwrite a L data rest => .overwrite a L data (ofScript im rest)

end SerRaw
