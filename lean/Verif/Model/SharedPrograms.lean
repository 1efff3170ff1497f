import Verif.Model.SharedHeap
import Verif.Model.Programs
/-
Several storages and serializers on one heap (Model/SharedHeap.lean), where values may have any program as `serialize_data` (Model/Programs.lean): one that
decides by what it is told, looks at the serializer, pushes temporaries, panics and catches panics.
-/
namespace SerRaw

/-- A variable, as `Owner` (Model/SharedHeap.lean), with a record of what was done with the serializer, programs among it —
ser_raw/src/serializers/complete.rs:63-79. -/
inductive POwner
  | absent
  | storage (v : AVec)
  | serializer (k : Kind) (v : AVec) (map : PosMapping) (ptrs : Ptrs) (log : List XEv)

/-- Without the record — ser_raw/src/serializers/complete.rs:63-79. -/
def POwner.bare : POwner → Owner
  | .absent => .absent
  | .storage v => .storage v
  | .serializer k v m p _ => .serializer k v m p []

/-- Its `AlignedVec` — ser_raw/src/storage/aligned_vec.rs:62-71. -/
def POwner.vec : POwner → AVec
  | .absent => Sto.newVec
  | .storage v => v
  | .serializer _ v _ _ _ => v

/-- The block is the one the storage has allocated — ser_raw/src/storage/aligned_vec.rs:68-69. -/
def POwner.Owns (w : POwner) (b : Block) : Prop := 0 < w.vec.capacity ∧ b.addr = w.vec.ptr

/-- The program: its variables, and all live blocks of the heap — ser_raw/src/storage/aligned_vec.rs:319-355. -/
structure SharedP where
  owners : Nat → POwner
  live : List Block

/-- Variable `i` and the heap have changed — ser_raw/src/storage/aligned_vec.rs:319-355. -/
def SharedP.put (H : SharedP) (i : Nat) (w : POwner) (live : List Block) : SharedP :=
  ⟨fun j => if j = i then w else H.owners j, live⟩

/-- Without the records — ser_raw/src/serializers/complete.rs:63-79. -/
def SharedP.bare (H : SharedP) : Shared := ⟨fun i => (H.owners i).bare, H.live⟩

/-- A storage on the heap of the program — ser_raw/src/storage/aligned_vec.rs:62-71. -/
def SharedP.sto (H : SharedP) (v : AVec) : Sto := ⟨v, ⟨H.live, 0⟩⟩

/-- One step of the program: of the rest of the program (`none`), or a method call on variable `i` (`some i`) that returned, or panicked
and the panic was caught; the allocator answers as in Model/SharedHeap.lean — ser_raw/src/storage/mod.rs:186-520, ser_raw/src/serializer.rs:260-520. -/
inductive SharedP.Step (C : Nat → Cfg) (P : Prog) : Option Nat → SharedP → SharedP → Prop
  /-- anything else: it may allocate, free and write its own blocks -/
  | other {H live} : (∀ b ∈ live, 0 < b.size) → live.Pairwise Block.Apart →
      (∀ i, ∀ b ∈ H.live, (H.owners i).Owns b → b ∈ live) → Step C P none H { H with live := live }
  /-- `AlignedVec::new()` — ser_raw/src/storage/aligned_vec.rs:102-111 -/
  | new {H i} : H.owners i = .absent → Step C P (some i) H (H.put i (.storage Sto.newVec) H.live)
  /-- `AlignedVec::with_capacity(c)` — ser_raw/src/storage/mod.rs:196-215 -/
  | withCapacity {H i c o s} : H.owners i = .absent → c < (C i).arch.usizeMod → H.bare.Answers C i o →
      Sto.withCapacity ((C i).withAlloc o) c (H.sto Sto.newVec) = .ok () s → Step C P (some i) H (H.put i (.storage s.vec) s.w.live)
  /-- a storage method — ser_raw/src/storage/mod.rs:249-500 -/
  | op {H i v a o r s} : H.owners i = .storage v → SOp.Legal (C i) (H.sto v) a → H.bare.Answers C i o →
      M.caught (a.run ((C i).withAlloc o)) (H.sto v) = .ok r s → Step C P (some i) H (H.put i (.storage s.vec) s.w.live)
  /-- `drop(storage)` — ser_raw/src/storage/aligned_vec.rs:516-520 -/
  | drop {H i v s} : H.owners i = .storage v → Sto.drop (C i) (H.sto v) = .ok () s → Step C P (some i) H (H.put i .absent s.w.live)
  /-- `from_storage(storage)` — ser_raw/src/serializers/complete.rs:138-144 -/
  | from {H i v k} : H.owners i = .storage v → Step C P (some i) H (H.put i (.serializer k v PosMapping.dummy Ptrs.new []) H.live)
  /-- anything done with a serializer (Model/Programs.lean). A program may look at the whole heap, and its calls may depend
      on the answers of the allocator — ser_raw/src/serializer.rs:260-436, 511 -/
  | act {H i k v m p xs a fuel o r s} : H.owners i = .serializer k v m p xs → XAct.Legal ((C i).withAlloc o) k P xs ⟨H.sto v, m, p⟩ a → H.bare.Answers C i o →
      M.caught (a.run ((C i).withAlloc o) k P fuel) ⟨H.sto v, m, p⟩ = .ok r s →
      Step C P (some i) H (H.put i (.serializer k s.sto.vec s.map s.ptrs
        (xs ++ [⟨a, a.callsFrom ((C i).withAlloc o) k ⟨H.sto v, m, p⟩, r, v.pos, s.sto.vec.pos⟩])) s.sto.w.live)
  /-- `serializer.finalize()` — ser_raw/src/serializer.rs:491-493 -/
  | finalize {H i k v m p xs s} : H.owners i = .serializer k v m p xs → SerRaw.finalize (C i) k ⟨H.sto v, m, p⟩ = .ok () s →
      Step C P (some i) H (H.put i (.storage s.sto.vec) s.sto.w.live)
  /-- a serializer on a borrowed storage dropped without `finalize` -/
  | leave {H i k v m p xs} : H.owners i = .serializer k v m p xs → Step C P (some i) H (H.put i (.storage v) H.live)

/-- Reachable: a program that starts with no storage, on any heap — ser_raw/src/storage/mod.rs:186-520, ser_raw/src/serializer.rs:260-520. -/
inductive SharedPReach (C : Nat → Cfg) (P : Prog) : SharedP → Prop
  | start {live} : (∀ b ∈ live, 0 < b.size) → live.Pairwise Block.Apart → SharedPReach C P ⟨fun _ => .absent, live⟩
  | step {i H H'} : SharedPReach C P H → SharedP.Step C P i H H' → SharedPReach C P H'

end SerRaw
