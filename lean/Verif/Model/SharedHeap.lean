import Verif.Model.Mixed
/-
Several storages and serializers in one program, which allocate from one heap, among the allocations of the rest of the program. Their methods
are called in any order (each is `&mut self` on its own object, so that calls on different objects do not overlap in effect; `unsafe impl Send`,
`Sync`, ser_raw/src/storage/aligned_vec.rs:522-541, let them be on different threads).
-/
namespace SerRaw

/-- The same storage type, and what the allocator answers — ser_raw/src/storage/aligned_vec.rs:319, 338. -/
def Cfg.withAlloc (C : Cfg) (o : Oracle) : Cfg := { C with alloc := o }

/-- The blocks have no byte in common — what `std::alloc` guarantees for live blocks, ser_raw/src/storage/aligned_vec.rs:319, 338. -/
def Block.Apart (b c : Block) : Prop := b.addr + b.size ≤ c.addr ∨ c.addr + c.size ≤ b.addr

/-- A variable: nothing (yet, or any more), an `AlignedVec` (ser_raw/src/storage/aligned_vec.rs:62-71), or a serializer that owns one
(ser_raw/src/serializers/complete.rs:63-79), with a record of what was done with it. -/
inductive Owner
  | absent
  | storage (v : AVec)
  | serializer (k : Kind) (v : AVec) (map : PosMapping) (ptrs : Ptrs) (log : List Ev)

/-- Its `AlignedVec` — ser_raw/src/storage/aligned_vec.rs:62-71. -/
def Owner.vec : Owner → AVec
  | .absent => Sto.newVec
  | .storage v => v
  | .serializer _ v _ _ _ => v

/-- The block is the one the storage has allocated — ser_raw/src/storage/aligned_vec.rs:68-69. -/
def Owner.Owns (w : Owner) (b : Block) : Prop := 0 < w.vec.capacity ∧ b.addr = w.vec.ptr

/-- The program: its variables, and all live blocks of the heap — ser_raw/src/storage/aligned_vec.rs:319-355. -/
structure Shared where
  owners : Nat → Owner
  live : List Block

/-- Variable `i` and the heap have changed — ser_raw/src/storage/aligned_vec.rs:319-355. -/
def Shared.put (H : Shared) (i : Nat) (w : Owner) (live : List Block) : Shared :=
  ⟨fun j => if j = i then w else H.owners j, live⟩

/-- A storage on the heap of the program — ser_raw/src/storage/aligned_vec.rs:62-71. -/
def Shared.sto (H : Shared) (v : AVec) : Sto := ⟨v, ⟨H.live, 0⟩⟩

/-- The answers of the allocator during a call made on variable `i`: as `std::alloc` promises, non-null results are aligned, inside the
address space (`Cfg.AllocOK`), and share no byte with live blocks, other than, for `realloc`, that of `i` itself —
ser_raw/src/storage/aligned_vec.rs:319, 338. -/
def Shared.Answers (H : Shared) (C : Nat → Cfg) (i : Nat) (o : Oracle) : Prop :=
  ((C i).withAlloc o).AllocOK ∧
  ∀ n L, o n L ≠ 0 → ∀ b ∈ H.live, ¬ (H.owners i).Owns b → Block.Apart ⟨o n L, L.size, L.align, fun _ => none⟩ b

/-- One step of the program: of the rest of the program (`none`), or a method call on variable `i` (`some i`) that returned, or panicked
and the panic was caught — ser_raw/src/storage/mod.rs:186-520, ser_raw/src/serializer.rs:260-520. -/
inductive Shared.Step (C : Nat → Cfg) (P : Prog) : Option Nat → Shared → Shared → Prop
  /-- anything else: it may allocate, free and write its own blocks -/
  | other {H live} : (∀ b ∈ live, 0 < b.size) → live.Pairwise Block.Apart →
      (∀ i, ∀ b ∈ H.live, (H.owners i).Owns b → b ∈ live) → Step C P none H { H with live := live }
  /-- `AlignedVec::new()` — ser_raw/src/storage/aligned_vec.rs:102-111 -/
  | new {H i} : H.owners i = .absent → Step C P (some i) H (H.put i (.storage Sto.newVec) H.live)
  /-- `AlignedVec::with_capacity(c)` — ser_raw/src/storage/mod.rs:196-215 -/
  | withCapacity {H i c o s} : H.owners i = .absent → c < (C i).arch.usizeMod → H.Answers C i o →
      Sto.withCapacity ((C i).withAlloc o) c (H.sto Sto.newVec) = .ok () s → Step C P (some i) H (H.put i (.storage s.vec) s.w.live)
  /-- a storage method — ser_raw/src/storage/mod.rs:249-500 -/
  | op {H i v a o r s} : H.owners i = .storage v → SOp.Legal (C i) (H.sto v) a → H.Answers C i o →
      M.caught (a.run ((C i).withAlloc o)) (H.sto v) = .ok r s → Step C P (some i) H (H.put i (.storage s.vec) s.w.live)
  /-- `drop(storage)` — ser_raw/src/storage/aligned_vec.rs:516-520 -/
  | drop {H i v s} : H.owners i = .storage v → Sto.drop (C i) (H.sto v) = .ok () s → Step C P (some i) H (H.put i .absent s.w.live)
  /-- `from_storage(storage)` — ser_raw/src/serializers/complete.rs:138-144 -/
  | from {H i v k} : H.owners i = .storage v → Step C P (some i) H (H.put i (.serializer k v PosMapping.dummy Ptrs.new []) H.live)
  /-- anything done with a serializer (Model/Mixed.lean) — ser_raw/src/serializer.rs:260-436, 511 -/
  | act {H i k v m p es a fuel o r s} : H.owners i = .serializer k v m p es → Act.Legal (C i) P es ⟨H.sto v, m, p⟩ a → H.Answers C i o →
      M.caught (a.run ((C i).withAlloc o) k P fuel) ⟨H.sto v, m, p⟩ = .ok r s →
      Step C P (some i) H (H.put i (.serializer k s.sto.vec s.map s.ptrs (es ++ [⟨a, r, v.pos, s.sto.vec.pos⟩])) s.sto.w.live)
  /-- `serializer.finalize()` — ser_raw/src/serializer.rs:491-493 -/
  | finalize {H i k v m p es s} : H.owners i = .serializer k v m p es → SerRaw.finalize (C i) k ⟨H.sto v, m, p⟩ = .ok () s →
      Step C P (some i) H (H.put i (.storage s.sto.vec) s.sto.w.live)
  /-- a serializer on a borrowed storage dropped without `finalize` -/
  | leave {H i k v m p es} : H.owners i = .serializer k v m p es → Step C P (some i) H (H.put i (.storage v) H.live)

/-- Reachable: a program that starts with no storage, on any heap — ser_raw/src/storage/mod.rs:186-520, ser_raw/src/serializer.rs:260-520. -/
inductive SharedReach (C : Nat → Cfg) (P : Prog) : Shared → Prop
  | start {live} : (∀ b ∈ live, 0 < b.size) → live.Pairwise Block.Apart → SharedReach C P ⟨fun _ => .absent, live⟩
  | step {i H H'} : SharedReach C P H → Shared.Step C P i H H' → SharedReach C P H'

end SerRaw
