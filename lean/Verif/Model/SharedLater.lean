import Verif.Model.SharedPrograms
/-
A program as in Model/SharedPrograms.lean at one moment and at a later one, where one of its storages is kept: it is neither dropped nor cleared, and no
random-access write goes to a given set of its bytes.
-/
namespace SerRaw

/-- `SharedP.Later C P i K H H'`: the program goes from `H` to `H'`; everything else may do anything, and so may variable `i`, except that its storage is not
dropped and not cleared, and that nobody writes to a byte of the set `K` with `write`, `write_slice`, `write_bytes` — ser_raw/src/storage/mod.rs:186-520, ser_raw/src/serializer.rs:217-520. -/
inductive SharedP.Later (C : Nat → Cfg) (P : Prog) (i : Nat) (K : Nat → Prop) (H : SharedP) : SharedP → Prop
  | now : Later C P i K H H
  /-- a step of another variable, or of the rest of the program -/
  | others {x H1 H2} : Later C P i K H H1 → x ≠ some i → SharedP.Step C P x H1 H2 → Later C P i K H H2
  /-- a storage method — ser_raw/src/storage/mod.rs:249-500 -/
  | op {H1 v a o r s} : Later C P i K H H1 → H1.owners i = .storage v → SOp.Legal (C i) (H1.sto v) a → a ≠ .clear →
      (∀ p L len d, a = .writeSlice p L len d → ∀ j, K j → ¬ (p ≤ j ∧ j < p + L.size * len)) → H1.bare.Answers C i o →
      M.caught (a.run ((C i).withAlloc o)) (H1.sto v) = .ok r s → Later C P i K H (H1.put i (.storage s.vec) s.w.live)
  /-- `from_storage(storage)` — ser_raw/src/serializers/complete.rs:138-144 -/
  | from {H1 v k} : Later C P i K H H1 → H1.owners i = .storage v →
      Later C P i K H (H1.put i (.serializer k v PosMapping.dummy Ptrs.new []) H1.live)
  /-- anything done with a serializer — ser_raw/src/serializer.rs:260-436, 511 -/
  | act {H1 k v m p xs a fuel o r s} : Later C P i K H H1 → H1.owners i = .serializer k v m p xs →
      XAct.Legal ((C i).withAlloc o) k P xs ⟨H1.sto v, m, p⟩ a →
      (∀ q L len d, a = .plain (.sto (.writeSlice q L len d)) → ∀ j, K j → ¬ (q ≤ j ∧ j < q + L.size * len)) → H1.bare.Answers C i o →
      M.caught (a.run ((C i).withAlloc o) k P fuel) ⟨H1.sto v, m, p⟩ = .ok r s →
      Later C P i K H (H1.put i (.serializer k s.sto.vec s.map s.ptrs
        (xs ++ [⟨a, a.callsFrom ((C i).withAlloc o) k ⟨H1.sto v, m, p⟩, r, v.pos, s.sto.vec.pos⟩])) s.sto.w.live)
  /-- `serializer.finalize()` — ser_raw/src/serializer.rs:491-493 -/
  | finalize {H1 k v m p xs s} : Later C P i K H H1 → H1.owners i = .serializer k v m p xs → SerRaw.finalize (C i) k ⟨H1.sto v, m, p⟩ = .ok () s →
      Later C P i K H (H1.put i (.storage s.sto.vec) s.sto.w.live)
  /-- a serializer on a borrowed storage dropped without `finalize` -/
  | leave {H1 k v m p xs} : Later C P i K H H1 → H1.owners i = .serializer k v m p xs → Later C P i K H (H1.put i (.storage v) H1.live)

end SerRaw
