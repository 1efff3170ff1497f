import Verif.Model.Storage
/-
The const parameters of `AlignedVec` when the last ones are left out: `AlignedVec`, `AlignedVec<32>`, `AlignedVec<16, 8>`, ….
-/
namespace SerRaw

/-- `DEFAULT_STORAGE_ALIGNMENT` — ser_raw/src/storage/aligned_vec.rs:16. -/
def defaultStorageAlign : Nat := 16

/-- `DEFAULT_VALUE_ALIGNMENT` — ser_raw/src/storage/aligned_vec.rs:15, 17. -/
def defaultValueAlign (A : Arch) : Nat := A.ptrBytes

/-- `DEFAULT_MAX_CAPACITY`, evaluated at compile time (`none`: compilation fails) — ser_raw/src/storage/aligned_vec.rs:18. -/
def defaultMaxCapacity (A : Arch) : Option Nat :=
  match alignedMaxCapacity A defaultStorageAlign () with
  | .ok m _ => some m
  | _ => none

/-- The type `AlignedVec<args…>`, with any number of the four arguments given (`none`: there is no such type, or its constants cannot be evaluated) —
ser_raw/src/storage/aligned_vec.rs:62-67. -/
def alignedVecType (A : Arch) (o : Oracle) (args : List Nat) : Option Cfg :=
  match args with
  | [] => (defaultMaxCapacity A).map fun m => ⟨A, defaultStorageAlign, defaultStorageAlign, defaultValueAlign A, m, o⟩
  | [sa] => (defaultMaxCapacity A).map fun m => ⟨A, sa, sa, defaultValueAlign A, m, o⟩
  | [sa, mva] => (defaultMaxCapacity A).map fun m => ⟨A, sa, mva, defaultValueAlign A, m, o⟩
  | [sa, mva, va] => (defaultMaxCapacity A).map fun m => ⟨A, sa, mva, va, m, o⟩
  | [sa, mva, va, max] => some ⟨A, sa, mva, va, max, o⟩
  | _ => none

/-- A storage of this type can be made: the type exists, and `new`, `with_capacity` and `with_capacity_unchecked`, each of which evaluates
`ASSERT_ALIGNMENTS_VALID`, compile — ser_raw/src/storage/aligned_vec.rs:102-130, ser_raw/src/storage/mod.rs:140-183. -/
def alignedVecCompiles (A : Arch) (args : List Nat) : Bool :=
  match alignedVecType A (fun _ _ => 0) args with
  | some C => C.assertAlignmentsValid
  | none => false

end SerRaw
