import Verif.Model.Storage
/-
Model of ser_raw/src/pos.rs: position mapping, addresses, pointer records.
-/
namespace SerRaw

/-- `PosMapping` — ser_raw/src/pos.rs:13-17. -/
structure PosMapping where
  inputAddr : Nat
  outputPos : Nat
  deriving DecidableEq, Repr

/-- `PosMapping::dummy` — ser_raw/src/pos.rs:32-37. -/
def PosMapping.dummy : PosMapping := ⟨0, 0⟩

/-- `PosMapping::pos_for_addr` — ser_raw/src/pos.rs:43-45 (and `pos_for`, 51-53, with the address of the value). -/
def PosMapping.posForAddr {σ} (A : Arch) (m : PosMapping) (addr : Nat) : M σ Nat := do
  let d ← usub A addr m.inputAddr
  uadd A d m.outputPos

/-- `PtrGroup` — ser_raw/src/pos.rs:167-172. -/
structure PtrGroup where
  addr : Nat
  positions : List Nat
  deriving DecidableEq, Repr

/-- `PtrGroup::new` — ser_raw/src/pos.rs:178-184. -/
def PtrGroup.new (addr : Nat) : PtrGroup := ⟨addr, []⟩
/-- `PtrGroup::dummy` — ser_raw/src/pos.rs:188-190. -/
def PtrGroup.dummy : PtrGroup := PtrGroup.new 0
/-- `PtrGroup::is_empty` — ser_raw/src/pos.rs:194-196. -/
def PtrGroup.isEmpty (g : PtrGroup) : Bool := g.positions.length == 0
/-- `PtrGroup::set_addr` — ser_raw/src/pos.rs:206-208. -/
def PtrGroup.setAddr (g : PtrGroup) (a : Nat) : PtrGroup := { g with addr := a }
/-- `PtrGroup::push_pos` — ser_raw/src/pos.rs:212-214. -/
def PtrGroup.pushPos (g : PtrGroup) (p : Nat) : PtrGroup := { g with positions := g.positions ++ [p] }

/-- One iteration of the loop of `correct_ptrs` — ser_raw/src/pos.rs:232-236: read the `usize` at `storage_ptr + ptr_pos`
(undefined behaviour if out of bounds, misaligned or uninitialised), add the shift, write it back. -/
def correctPtr (A : Arch) (storagePtr shiftBy ptrPos : Nat) : M Sto Unit := do
  let a ← ptrAdd storagePtr ptrPos
  let cells ← memRef a A.ptrBytes A.ptrBytes
  match readWord A cells 0 with
  | none => M.ub
  | some w => memWrite a A.ptrBytes A.ptrBytes (wordCells A (wrappingAdd A w shiftBy))

/-- The loop of `correct_ptrs` — ser_raw/src/pos.rs:232-236. -/
def correctLoop (A : Arch) (storagePtr shiftBy : Nat) : List Nat → M Sto Unit
  | [] => pure ()
  | p :: ps => do
    correctPtr A storagePtr shiftBy p
    correctLoop A storagePtr shiftBy ps

/-- `PtrGroup::correct_ptrs` — ser_raw/src/pos.rs:222-237. -/
def PtrGroup.correctPtrs (A : Arch) (g : PtrGroup) (storagePtr : Nat) : M Sto Unit :=
  correctLoop A storagePtr (wrappingSub A storagePtr g.addr) g.positions

/-- `Ptrs` — ser_raw/src/pos.rs:148-151. -/
structure Ptrs where
  current : PtrGroup
  past : List PtrGroup
  deriving DecidableEq, Repr

/-- `Ptrs::new` — ser_raw/src/pos.rs:154-159. -/
def Ptrs.new : Ptrs := ⟨PtrGroup.dummy, []⟩

end SerRaw
