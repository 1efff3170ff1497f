import Verif.Props.Agree
import Verif.Props.SerEx
/-
Concrete sessions meeting the hypotheses of C31: a storage that grows as it goes against one with other alignment parameters
and capacity for everything, at another address.
-/
namespace SerRaw

/-- `AlignedVec<32, 16, 8, 2^20>` on x86-64, debug. -/
def cfgOther : Cfg := mkCfg x64 32 16 8 (2 ^ 20)
theorem cfgOther_ok : cfgOther.OK := ⟨⟨Or.inr rfl⟩, by decide, moving_ok ⟨Or.inr rfl⟩⟩
theorem exP_accepted_other : exP.Accepted cfgOther := exP_accepted

theorem exRun_new (k : Kind) : ∃ s', session cfg64 k exP 6 (exRoots.map Prod.fst) (Ser.fromStorage Sto.new) = .ok [0, 0, 136, 184] s' ∧
    s'.sto.vec.pos = 200 ∧ s'.sto.vec.ptr = 3 * 2 ^ 20 := by
  have h : (session cfg64 k exP 6 (exRoots.map Prod.fst) (Ser.fromStorage Sto.new)).result = some ([0, 0, 136, 184], 200, 3 * 2 ^ 20) := by
    cases k <;> decide +kernel
  exact Out.result_ok h

theorem exRun_other (k : Kind) : ∃ t s', Reach cfgOther exP t ∧ t.vec.pos = 0 ∧
    session cfgOther k exP 6 (exRoots.map Prod.fst) (Ser.fromStorage t) = .ok [0, 0, 136, 184] s' ∧ s'.sto.vec.pos = 200 ∧ s'.sto.vec.ptr = 2 ^ 20 := by
  obtain ⟨t, ht⟩ : ∃ t, Sto.withCapacity cfgOther 1000 Sto.new = .ok () t := ⟨_, rfl⟩
  have h : ((do let _ ← Ser.lift (Sto.withCapacity cfgOther 1000)
                session cfgOther k exP 6 (exRoots.map Prod.fst)) (Ser.fromStorage Sto.new)).result = some ([0, 0, 136, 184], 200, 2 ^ 20) := by
    cases k <;> decide +kernel
  have e : Ser.lift (Sto.withCapacity cfgOther 1000) (Ser.fromStorage Sto.new) = .ok () (Ser.fromStorage t) := by
    simp only [Ser.lift, Ser.fromStorage, ht]
  rw [bind_ok e] at h
  obtain ⟨s', h1, h2, h3⟩ := Out.result_ok h
  refine ⟨t, s', .withCapacity (c := 1000) (by decide) ht, ?_, h1, h2, h3⟩
  cases ht; rfl

/-- The blocks of the four values. -/
theorem exAllBlocks : ∃ bs : List (List Shape), bs.length = exRoots.length ∧ bs.flatten = [⟨⟨40, 8⟩, 1⟩, ⟨⟨40, 8⟩, 1⟩, ⟨⟨24, 8⟩, 2⟩, ⟨⟨1, 1⟩, 5⟩, ⟨⟨32, 8⟩, 1⟩, ⟨⟨8, 8⟩, 2⟩, ⟨⟨16, 8⟩, 1⟩] ∧
    ∀ (i : Nat) (x : Root × Val) (xs : List Shape), exRoots[i]? = some x → bs[i]? = some xs → Blocks x64 exP x.1.im x.1.t x.1.a xs := by
  refine ⟨[[⟨⟨40, 8⟩, 1⟩, ⟨⟨40, 8⟩, 1⟩, ⟨⟨24, 8⟩, 2⟩, ⟨⟨1, 1⟩, 5⟩], [], [⟨⟨32, 8⟩, 1⟩, ⟨⟨8, 8⟩, 2⟩], [⟨⟨16, 8⟩, 1⟩]], rfl, rfl, ?_⟩
  intro i x xs h1 h2
  match i with
  | 0 => cases h1; cases h2; exact exBlocks
  | 1 => cases h1; cases h2; exact ⟨6, _, rfl, rfl⟩
  | 2 => cases h1; cases h2; exact ⟨6, _, rfl, rfl⟩
  | 3 => cases h1; cases h2; exact ⟨6, _, rfl, rfl⟩
  | n + 4 => cases h1

/-- C31 applies to two `PtrOffset` sessions: byte 57, inside the second node's tag pointer, is the same. -/
example : ∃ s1 s2 : Ser, s1.sto.vec.ptr ≠ s2.sto.vec.ptr ∧ s1.sto.bytes 57 = s2.sto.bytes 57 := by
  obtain ⟨s1, r1, _, e1⟩ := exRun_new .ptrOffset
  obtain ⟨t2, s2, h2, hp, r2, _, e2⟩ := exRun_other .ptrOffset
  obtain ⟨bs, hl, hf, hb⟩ := exAllBlocks
  refine ⟨s1, s2, by rw [e1, e2]; decide, ?_⟩
  refine (C31_same_bytes cfg64_ok cfgOther_ok rfl rfl exP_wf exP_accepted exP_accepted_other (k1 := .ptrOffset) (k2 := .ptrOffset) trivial .new h2 hp.symm
    exInputs r1 r2 hl hb 57 ?_).2
  rw [hf]
  exact ⟨(⟨⟨40, 8⟩, 1⟩, 40), by decide, by decide, by decide⟩

/-- C31 applies to two `Complete` sessions: byte 0 belongs to a pointer word in both. -/
example : ∃ s1 s2 : Ser, s1.sto.vec.ptr ≠ s2.sto.vec.ptr ∧ (s1.sto.bytes 0 = s2.sto.bytes 0 ∨ ∃ t, t < 200 ∧
    readWord x64 s1.sto.bytes 0 = some (s1.sto.vec.ptr + t) ∧ readWord x64 s2.sto.bytes 0 = some (s2.sto.vec.ptr + t)) := by
  obtain ⟨s1, r1, l1, e1⟩ := exRun_new .complete
  obtain ⟨t2, s2, h2, hp, r2, _, e2⟩ := exRun_other .complete
  obtain ⟨bs, hl, hf, hb⟩ := exAllBlocks
  refine ⟨s1, s2, by rw [e1, e2]; decide, ?_⟩
  rcases (C31_complete cfg64_ok cfgOther_ok rfl rfl exP_wf exP_accepted exP_accepted_other .new h2 hp.symm
    exInputs r1 r2 hl hb 0 (by rw [hf]; exact ⟨(⟨⟨40, 8⟩, 1⟩, 0), by decide, by decide, by decide⟩)).2 with h | ⟨q, t, hq, _, _, ht, w1, w2⟩
  · exact Or.inl h
  · obtain rfl : q = 0 := by omega
    exact Or.inr ⟨t, l1 ▸ ht, w1, w2⟩

end SerRaw
