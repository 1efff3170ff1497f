import Verif.Props.Mixed
import Verif.Props.Layouts
import Verif.Props.PosEx
/-
C20 and C39 for the states a program can be in: the storage is any storage reached by any operations and serializer sessions
(`GReach`, Model/Mixed.lean; a storage in the middle of a serialization is one of them, because every serializer method works on the
storage through its operations), and nothing is assumed of the rest of the serializer but what the statement says.
-/
namespace SerRaw

variable {C : Cfg} {P : Prog}

/-- C20 for every storage a program can have. `push_and_process_slice` on a serializer that tracks positions, called within the
contents of an allocation of `size` bytes and alignment `al` that starts at input address `s.map.inputAddr` and whose copy is at
`s.map.outputPos`: either the closure is not reached, or in the state in which it is called the position reported for every address
of the slice is that of a copy of that byte. -/
theorem C20_position_of_copy_reachable (hC : C.OK) (hP : P.WF C.arch) (hacc : P.Accepted C) {k : Kind} (hk : k ≠ .pureCopy) {s : Ser}
    (hs : GReach C P s.sto) {sl : Slice} (hsl : PushOK C sl.L sl.len sl.addr) (hne : 0 < sl.len ∨ 0 < s.sto.vec.pos)
    {ptrAddr size al : Nat}
    (hin : k.tracking = true → TouchOK C ⟨s.map.inputAddr, size, al⟩ ptrAddr C.arch.ptrBytes ∧
      s.map.outputPos + size ≤ s.sto.vec.pos ∧ al ∣ s.map.outputPos ∧ 0 < al ∧ al ≤ C.maxValueAlign) :
    (∃ o : Out Ser Nat, (∀ p s', o ≠ .ok p s') ∧ ∀ f, pushAndProcessSlice C k sl ptrAddr f s = o) ∨
    (∃ pos s1, (∀ f, pushAndProcessSlice C k sl ptrAddr f s = (do f; Ser.setMap s.map; pure pos : M Ser Nat) s1) ∧
      ∀ x, sl.addr ≤ x → x < sl.addr + sl.L.size * sl.len →
        s1.map.posForAddr C.arch x s1 = .ok (pos + (x - sl.addr)) s1 ∧
        pos + (x - sl.addr) < s1.sto.vec.pos ∧
        s1.sto.view (pos + (x - sl.addr)) = sl.data (x - sl.addr)) :=
  C20_position_of_copy hC hk (hs.inv hC hP hacc) hsl hne hin

/-- C39 for every storage a program can have: correction of an empty `Vec`/`String` with spare capacity at input address `a`. -/
theorem C39_empty_vec_reachable (hC : C.OK) (hP : P.WF C.arch) (hacc : P.Accepted C) (o : Order) {dangle : Nat} (hd : dangle ≠ 0)
    {off : VecOffsets} (hoff : vecOffsets C.arch.ptrBytes o dangle = some off) {s : Ser} (hs : GReach C P s.sto) {a : Nat}
    (hia : s.map.inputAddr ≤ a) (ha : a + 3 * C.arch.ptrBytes < C.arch.usizeMod)
    {x : Nat} (hx : x = s.map.outputPos + (a - s.map.inputAddr)) (hfit : x + 3 * C.arch.ptrBytes ≤ s.sto.vec.pos)
    (hxd : C.arch.ptrBytes ∣ x) (hpm : C.arch.ptrBytes ≤ C.maxValueAlign) :
    ∃ t, overwriteWith .complete (overwriteCapAndPtrForEmpty C .complete off dangle a) s = .ok () { s with sto := t } ∧
      t.vec = s.sto.vec ∧ ∀ i, t.view i =
        if x + o.ptrIx * C.arch.ptrBytes ≤ i ∧ i < x + o.ptrIx * C.arch.ptrBytes + C.arch.ptrBytes then
          wordCells C.arch dangle (i - (x + o.ptrIx * C.arch.ptrBytes))
        else if x + o.capIx * C.arch.ptrBytes ≤ i ∧ i < x + o.capIx * C.arch.ptrBytes + C.arch.ptrBytes then
          wordCells C.arch 0 (i - (x + o.capIx * C.arch.ptrBytes))
        else s.sto.view i := by
  obtain ⟨t, h1, h2, _, h4⟩ := C39_empty_vec hC o hd hoff (hs.inv hC hP hacc).toWInv hia ha hx hfit hxd hpm
  exact ⟨t, h1, h2, h4⟩

/-- Both apply: 32 bytes copied from address 4096 to position 0, with an empty `Vec` at 4104. -/
example : ∃ s : Ser, (∀ P, GReach cfg64 P s.sto) ∧ PushOK cfg64 ⟨8, 8⟩ 3 8192 ∧
    TouchOK cfg64 ⟨s.map.inputAddr, 32, 8⟩ 4104 8 ∧ s.map.outputPos + 32 ≤ s.sto.vec.pos ∧ 8 ∣ s.map.outputPos ∧
    s.map.outputPos + (4104 - s.map.inputAddr) + 3 * 8 ≤ s.sto.vec.pos := by
  have hl : (SOp.pushSlice ⟨32, 8⟩ 1 (fun _ => some 0)).Legal cfg64 Sto.new :=
    ⟨⟨⟨3, rfl⟩, by decide⟩, fun _ => by decide, by decide, Or.inr (Or.inl (by decide))⟩
  have hp := (pushSlice_sat cfg64_ok (Sto.new_inv cfg64) (L := ⟨32, 8⟩) (len := 1) (fun _ => some 0) (by decide) ⟨3, rfl⟩ (by decide)
    (Or.inl (by decide)) (by decide))
  cases e : Sto.pushSlice cfg64 ⟨32, 8⟩ 1 (fun _ => some 0) Sto.new with
  | ok p t =>
    rw [e] at hp
    have e2 : t.vec.pos = 32 := by rw [hp.end_eq, hp.pos_eq]; decide
    refine ⟨⟨t, ⟨4096, 0⟩, Ptrs.new⟩, fun P => .op .new hl e, ⟨by decide, ⟨3, rfl⟩, by decide, by decide⟩,
      ⟨show 4096 ≤ 4104 by decide, show 4104 + 8 ≤ 4096 + 32 by decide, show 8 ∣ 8 by decide, show 8 ∣ 4104 - 4096 by decide⟩,
      by simp only; omega, Nat.dvd_zero _, by simp only; omega⟩
  | panic k t => rw [e] at hp; obtain ⟨_, _, hp⟩ := hp; exact absurd hp (by decide)
  | abort => rw [e] at hp; exact (hp cfg64_never).elim
  | ub => rw [e] at hp; exact hp.elim
  | fuel => rw [e] at hp; exact hp.elim

end SerRaw
