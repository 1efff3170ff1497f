import Verif.Model.Arch
/-
Model of ser_raw/src/util.rs.
-/
namespace SerRaw

/-- `align_up_to` — ser_raw/src/util.rs:15-18. -/
def alignUpTo {σ} (A : Arch) (pos alignment : Nat) : M σ Nat := do
  M.debugAssert A (isPow2 alignment)
  let x ← uadd A pos alignment
  let y ← usub A x 1
  let z ← usub A alignment 1
  pure (y &&& unot A z)

/-- `is_aligned_to` — ser_raw/src/util.rs:24-27. -/
def isAlignedTo {σ} (A : Arch) (pos alignment : Nat) : M σ Bool := do
  M.debugAssert A (isPow2 alignment)
  let z ← usub A alignment 1
  pure ((pos &&& z) == 0)

/-- `aligned_max_capacity` — ser_raw/src/util.rs:46-57. -/
def alignedMaxCapacity {σ} (A : Arch) (alignment : Nat) : M σ Nat := do
  M.assert .assertion (alignment != 0)
  M.assert .assertion (isPow2 alignment)
  M.assert .assertion (decide (alignment < A.isizeMax))
  let z ← usub A alignment 1
  usub A A.isizeMax z

/-- `aligned_max_u32_capacity` — ser_raw/src/util.rs:83-102. -/
def alignedMaxU32Capacity {σ} (A : Arch) (alignment : Nat) : M σ Nat := do
  M.assert .assertion (alignment != 0)
  M.assert .assertion (isPow2 alignment)
  M.assert .assertion (decide (alignment < u32Max) && decide (alignment < A.isizeMax))
  if A.ptrBytes ≥ 8 then
    uadd A u32Max 1
  else
    let z ← usub A alignment 1
    usub A A.isizeMax z

end SerRaw
