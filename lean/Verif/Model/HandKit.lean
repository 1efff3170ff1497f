import Verif.Model.HandNested
/-
Hand-written implementations users would write, following the crate's documentation.
-/
namespace SerRaw

/-- `self.f1.serialize_data(serializer); self.f2.serialize_data(serializer); ..` for the fields at the listed offsets of the value at
`a` — the example of ser_raw/src/serialize.rs:83-86. -/
def HCalls.each (a : Nat) : List Field → HCalls
  | [] => .done
  | f :: fs => .data f.2 (a + f.1) (HCalls.each a fs)

/-- A struct whose implementation calls `serialize_data` of the fields `gs` (it need not mention the others) — `Foo` in
ser_raw/src/serialize.rs:75-88. -/
def delegate (gs : List Field) : HandImpl := fun _ a => some (HCalls.each a gs)

/-- The implementation a user writes for a boxed slice, a pointer followed by a length, after the one of `Box` (the crate has none for
slices; ser_raw/src/serialize.rs:65-69 refers to ser_raw/src/serialize_impls/ptrs.rs:7-74):
`serializer.push_and_process_slice(&**self, ptr_addr, |s| for item in self.iter() { item.serialize_data(s) })`. -/
def boxSlice (A : Arch) (P : Prog) (u : TyId) : HandImpl := fun m a => do
  let ptr ← readWord A m a
  let len ← readWord A m (a + A.ptrBytes)
  pure (.pushProcess (P.layout u) len ptr a (HCalls.each ptr (elems P u len)) .done)

/-- `MyStringProxy`, the example of ser_raw/src/serializer.rs:385-404 (with the address of the pointer inside the `String`, as the comment there
asks for): `serializer.push(&my_str.inner.len(), ptr_addr); serializer.push_raw_bytes(my_str.inner.as_bytes());`. -/
def myString (A : Arch) (P : Prog) : HandImpl := fun m a => do
  let ptr ← readWord A m (a + P.stringOrder.ptrIx * A.ptrBytes)
  let len ← readWord A m (a + P.stringOrder.lenIx * A.ptrBytes)
  pure (.push ⟨A.ptrBytes, A.ptrBytes⟩ 1 (a + P.stringOrder.lenIx * A.ptrBytes) (a + P.stringOrder.ptrIx * A.ptrBytes)
    (.pushRaw ⟨1, 1⟩ len ptr .done))

end SerRaw
