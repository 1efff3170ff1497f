import Verif.Props.Build
import Verif.Props.PosEx
/-
A concrete program, input memory and sessions that meet the hypotheses of C24–C37: a recursive type with `Box`, `Option`
(null niche), `Vec<String>` with spare capacity, an empty `Vec` with spare capacity, uninitialised padding, a `BigInt`, a
tagged enum, a zero-sized type. The buffer moves at every allocator call.
-/
namespace SerRaw

/-- `struct Node { id: u32, next: Option<Box<Node>>, tags: Vec<String> }` and companions, laid out for x86-64. -/
def exDefn : TyId → TyDef × Layout
  | 0 => (.prim, ⟨8, 8⟩)                                       -- usize
  | 1 => (.struct [(32, 2), (0, 3), (8, 5)], ⟨40, 8⟩)          -- Node
  | 2 => (.prim, ⟨4, 4⟩)                                       -- u32
  | 3 => (.enum (.word 0 fun w => if w = 0 then some 0 else some 1) [[], [(0, 4)]], ⟨8, 8⟩) -- Option<Box<Node>>
  | 4 => (.box 1, ⟨8, 8⟩)                                      -- Box<Node>
  | 5 => (.vec 6, ⟨24, 8⟩)                                     -- Vec<String>
  | 6 => (.string, ⟨24, 8⟩)                                    -- String
  | 7 => (.bigUint 0, ⟨24, 8⟩)                                 -- BigUint
  | 8 => (.bigInt 7, ⟨32, 8⟩)                                  -- BigInt
  | 9 => (.enum (.bytes 0 1 fun b => if b = [0] then some 0 else if b = [1] then some 1 else none) [[], [(8, 0)]], ⟨16, 8⟩)
  | 10 => (.prim, ⟨0, 8⟩)                                      -- #[repr(align(8))] struct Zst;
  | _ => (.prim, ⟨0, 1⟩)

def exP : Prog where
  defn t := (exDefn t).1
  layout t := (exDefn t).2
  vecOrder t := if t = 6 then .cpl else .lcp
  stringOrder := .plc
  bigIntDataFirst := false

theorem slot_enum {A : Arch} {P : Prog} {t : TyId} {tag : Tag} {vs : List (List Field)} (ht : P.defn t = .enum tag vs) {k : SlotKind} {o : Nat}
    (h : P.Slot A t k o) : ∃ fs ∈ vs, ∃ f ∈ fs, ∃ o', P.Slot A f.2 k o' ∧ o = f.1 + o' := by
  cases h with
  | variant hd hf hm hs =>
    rw [ht] at hd; cases hd
    exact ⟨_, hf, _, hm, _, hs, rfl⟩
  | _ => simp_all

theorem slot_box {A : Arch} {P : Prog} {t u : TyId} (ht : P.defn t = .box u) {k : SlotKind} {o : Nat} (h : P.Slot A t k o) : o = 0 ∧ k = .ptr := by
  cases h <;> simp_all

theorem slot_prim {A : Arch} {P : Prog} {t : TyId} (ht : P.defn t = .prim) {k : SlotKind} {o : Nat} (h : P.Slot A t k o) : False := by
  cases h <;> simp_all

theorem exP_wf : exP.WF x64 := by
  have slot3 : ∀ k o, exP.Slot x64 3 k o → o = 0 ∧ k = .ptr := by
    intro k o h
    obtain ⟨fs, hf, f, hm, o', hs, rfl⟩ := slot_enum (t := 3) rfl h
    simp only [List.mem_cons, List.not_mem_nil, or_false] at hf
    rcases hf with rfl | rfl
    · cases hm
    · obtain rfl := List.mem_singleton.1 hm
      obtain ⟨rfl, rfl⟩ := slot_box (t := 4) rfl hs
      exact ⟨rfl, rfl⟩
  have slot9 : ∀ k o, ¬ exP.Slot x64 9 k o := by
    intro k o h
    obtain ⟨fs, hf, f, hm, o', hs, rfl⟩ := slot_enum (t := 9) rfl h
    simp only [List.mem_cons, List.not_mem_nil, or_false] at hf
    rcases hf with rfl | rfl
    · cases hm
    · obtain rfl := List.mem_singleton.1 hm
      exact slot_prim (t := 0) rfl hs
  intro t
  match t with
  | 0 => exact ⟨⟨3, rfl⟩, by decide, by decide, trivial⟩
  | 1 => exact ⟨⟨3, rfl⟩, by decide, by decide, ⟨by decide, by decide, by decide, by unfold DisjRange; decide⟩⟩
  | 2 => exact ⟨⟨2, rfl⟩, by decide, by decide, trivial⟩
  | 3 =>
    refine ⟨⟨3, rfl⟩, by decide, by decide, ⟨?_, by decide, ?_⟩⟩
    · intro fs hf
      simp only [List.mem_cons, List.not_mem_nil, or_false] at hf
      rcases hf with rfl | rfl
      · exact ⟨by simp, by simp, by simp, by simp⟩
      · exact ⟨by decide, by decide, by decide, by simp⟩
    · intro k o h
      obtain ⟨rfl, rfl⟩ := slot3 k o h
      refine Or.inr ⟨rfl, fun w w' h1 h2 => ?_⟩
      simp only [SlotKind.valid] at h1 h2
      simp [h1, h2]
  | 4 => exact ⟨⟨3, rfl⟩, by decide, by decide, rfl⟩
  | 5 => exact ⟨⟨3, rfl⟩, by decide, by decide, rfl⟩
  | 6 => exact ⟨⟨3, rfl⟩, by decide, by decide, rfl⟩
  | 7 => exact ⟨⟨3, rfl⟩, by decide, by decide, rfl, rfl, rfl⟩
  | 8 => exact ⟨⟨3, rfl⟩, by decide, by decide, rfl, ⟨0, rfl⟩, rfl⟩
  | 9 =>
    refine ⟨⟨3, rfl⟩, by decide, by decide, ⟨?_, by decide, ?_⟩⟩
    · intro fs hf
      simp only [List.mem_cons, List.not_mem_nil, or_false] at hf
      rcases hf with rfl | rfl
      · exact ⟨by simp, by simp, by simp, by simp⟩
      · exact ⟨by decide, by decide, by decide, by simp⟩
    · intro k o h; exact absurd h (slot9 k o)
  | 10 => exact ⟨⟨3, rfl⟩, by decide, by decide, trivial⟩
  | n + 11 => exact ⟨⟨0, rfl⟩, Nat.one_dvd _, Nat.zero_le _, trivial⟩

theorem exP_accepted : exP.Accepted cfg64 := by
  intro t
  match t with
  | 0 | 1 | 2 | 3 | 4 | 5 | 6 | 7 | 8 | 9 => decide
  | 10 => intro h; exact absurd rfl h
  | n + 11 => intro h; exact absurd rfl h

/-- Words and loose bytes of the example memory. -/
def exCells : List Cell :=
  let w (n : Nat) : List Cell := (encWord x64 n).map some
  let pad (n : Nat) : List Cell := List.replicate n none
  -- 4096: Node { id: 7, next: Some(Box(4136)), tags: cap 4, ptr 4176, len 2 }
  w 4136 ++ w 4 ++ w 4176 ++ w 2 ++ [some 7, some 0, some 0, some 0] ++ pad 4 ++
  -- 4136: Node { id: 9, next: None, tags: cap 3, ptr 4232, len 0 }
  w 0 ++ w 3 ++ w 4232 ++ w 0 ++ [some 9, some 0, some 0, some 0] ++ pad 4 ++
  -- 4176: two Strings: ptr 4224, len 5, cap 8; and an empty one
  w 4224 ++ w 5 ++ w 8 ++ w 1 ++ w 0 ++ w 0 ++
  -- 4224: "hello"
  [some 104, some 101, some 108, some 108, some 111] ++ pad 11 ++
  -- 4240: BigInt { sign: Plus, data: len 2, cap 2, ptr 4272 }
  [some 2] ++ pad 7 ++ w 2 ++ w 2 ++ w 4272 ++
  -- 4272: its digits
  w 11 ++ w 12 ++
  -- 4288: enum in variant 1
  [some 1] ++ pad 7 ++ w 99

def exIm : Mem := fun a => if a < 4096 then none else (exCells[a - 4096]?).join

def exNode : Val := .struct [.prim [7, 0, 0, 0],
  .enum 1 [.box (.struct [.prim [9, 0, 0, 0], .enum 0 [], .vec []])],
  .vec [.str [104, 101, 108, 108, 111], .str []]]

def exBig : Val := .bigInt 2 (.vec [.prim [11, 0, 0, 0, 0, 0, 0, 0], .prim [12, 0, 0, 0, 0, 0, 0, 0]])

def exEnum : Val := .enum 1 [.prim [99, 0, 0, 0, 0, 0, 0, 0]]

/-- The values serialized in the examples. -/
def exRoots : List (Root × Val) :=
  [(⟨exIm, 1, 4096⟩, exNode), (⟨exIm, 10, 4096⟩, .prim []), (⟨exIm, 8, 4240⟩, exBig), (⟨exIm, 9, 4288⟩, exEnum)]

theorem exInputs : Inputs x64 exP ⟨true, false⟩ exRoots := by
  intro x hx
  simp only [exRoots, List.mem_cons, List.not_mem_nil, or_false] at hx
  rcases hx with rfl | rfl | rfl | rfl
  · exact ⟨6, rfl⟩
  · exact ⟨6, rfl⟩
  · exact ⟨6, rfl⟩
  · exact ⟨6, rfl⟩

/-- A storage that already holds 3 bytes. -/
theorem exStart : ∃ t, Reach cfg64 exP t ∧ Sto.pushSlice cfg64 ⟨1, 1⟩ 3 (fun i => some (UInt8.ofNat i)) Sto.new = .ok 0 t :=
  ⟨_, .op (o := .pushSlice ⟨1, 1⟩ 3 (fun i => some (UInt8.ofNat i))) .new
    ⟨⟨⟨0, rfl⟩, by decide⟩, by decide, by decide, Or.inr (Or.inl (by decide))⟩ rfl, rfl⟩

/-- What a session returned: positions, end of the output, buffer address. -/
def Out.result {α} (o : Out Ser α) : Option (α × Nat × Nat) :=
  match o with
  | .ok a s => some (a, s.sto.vec.pos, s.sto.vec.ptr)
  | _ => none

theorem Out.result_ok {α} {o : Out Ser α} {r : α × Nat × Nat} (h : o.result = some r) :
    ∃ s, o = .ok r.1 s ∧ s.sto.vec.pos = r.2.1 ∧ s.sto.vec.ptr = r.2.2 := by
  cases o with
  | ok a s => simp only [Out.result, Option.some.injEq] at h; subst h; exact ⟨s, rfl, rfl, rfl⟩
  | _ => cases h

/-- Every kind of serializer, starting after those 3 bytes, returns; the buffer ends at its fourth address. -/
theorem exRun (k : Kind) : ∃ t s', Reach cfg64 exP t ∧ t.vec.pos = 8 ∧
    session cfg64 k exP 6 (exRoots.map Prod.fst) (Ser.fromStorage t) = .ok [8, 0, 144, 192] s' ∧ s'.sto.vec.pos = 208 ∧ s'.sto.vec.ptr = 4 * 2 ^ 20 := by
  obtain ⟨t, ht, he⟩ := exStart
  have h : ((do let _ ← Ser.lift (Sto.pushSlice cfg64 ⟨1, 1⟩ 3 (fun i => some (UInt8.ofNat i)))
                session cfg64 k exP 6 (exRoots.map Prod.fst)) (Ser.fromStorage Sto.new)).result = some ([8, 0, 144, 192], 208, 4 * 2 ^ 20) := by
    cases k <;> decide +kernel
  have e : Ser.lift (Sto.pushSlice cfg64 ⟨1, 1⟩ 3 (fun i => some (UInt8.ofNat i))) (Ser.fromStorage Sto.new) = .ok 0 (Ser.fromStorage t) := by
    simp only [Ser.lift, Ser.fromStorage, he]
  rw [bind_ok e] at h
  obtain ⟨s', h1, h2, h3⟩ := Out.result_ok h
  refine ⟨t, s', ht, ?_, h1, h2, h3⟩
  cases he; rfl

/-- C24/C26/C34 apply: the node can be read at `as_ptr() + 8` after four values were serialized and the buffer moved. -/
example : ∃ s' : Ser, s'.sto.vec.ptr = 4 * 2 ^ 20 ∧ Denotes x64 exP ⟨true, true⟩ s'.sto.buffer 1 (4 * 2 ^ 20 + 8) exNode ∧
    Denotes x64 exP ⟨true, true⟩ s'.sto.buffer 8 (4 * 2 ^ 20 + 144) exBig := by
  obtain ⟨t, s', h0, _, hr, _, hp⟩ := exRun .complete
  have h := (C34_complete cfg64_ok exP_wf exP_accepted h0 exInputs hr).2
  exact ⟨s', hp, hp ▸ h 0 _ _ _ rfl rfl (Or.inl (by decide)), hp ▸ h 2 _ _ _ rfl rfl (Or.inl (by decide))⟩

/-- C27 applies. -/
example : ∃ s' : Ser, Denotes x64 exP ⟨true, false⟩ s'.sto.bytes 1 8 exNode := by
  obtain ⟨t, s', h0, _, hr, _⟩ := exRun .ptrOffset
  exact ⟨s', (C27_offset_roundtrip cfg64_ok exP_wf exP_accepted h0 exInputs hr).2 0 _ _ _ rfl rfl⟩

/-- C29 applies. -/
example : ∃ (s' : Ser) (n : Nat), seqRoots x64 exP 8 s'.sto.bytes n [1, 10, 8, 9] 8 = some ([exNode, .prim [], exBig, exEnum], 208) := by
  obtain ⟨t, s', h0, ht, hr, hp, _⟩ := exRun .pureCopy
  obtain ⟨n, h⟩ := C29_in_order cfg64_ok exP_wf exP_accepted h0 (Or.inl rfl) exInputs hr
  rw [ht, hp] at h
  exact ⟨s', n, h⟩

/-- The allocations of the node: the boxed node, the strings, "hello". -/
theorem exBlocks : Blocks x64 exP exIm 1 4096 [⟨⟨40, 8⟩, 1⟩, ⟨⟨40, 8⟩, 1⟩, ⟨⟨24, 8⟩, 2⟩, ⟨⟨1, 1⟩, 5⟩] :=
  ⟨6, _, rfl, rfl⟩

/-- C32 applies, on both sides of the limit: serializing the node takes 136 bytes. -/
example : ∃ fuel ps s', session cfg64 .complete exP fuel [⟨exIm, 1, 4096⟩] (Ser.fromStorage Sto.new) = .ok ps s' ∧ s'.sto.vec.pos = 136 := by
  obtain ⟨N, h⟩ := C32_fits_iff cfg64_ok cfg64_never exP_wf exP_accepted (.new) .complete
    (rs := [(⟨exIm, 1, 4096⟩, exNode)]) (one_input (exInputs _ (List.mem_cons_self ..))) (bs := [_]) rfl
    (fun i x xs h1 h2 => by
      cases i with
      | zero => simp at h1 h2; subst h1; subst h2; exact exBlocks
      | succ i => simp at h1)
  obtain ⟨ps, s', h1, h2⟩ := (h N (Nat.le_refl _)).1 (by decide)
  exact ⟨N, ps, s', h1, h2⟩

/-- `AlignedVec<16, 16, 8, 128>`: the node does not fit. -/
def cfgTiny : Cfg := mkCfg x64 16 16 8 128
theorem cfgTiny_ok : cfgTiny.OK := ⟨⟨Or.inr rfl⟩, by decide, moving_ok ⟨Or.inr rfl⟩⟩
theorem exP_accepted_tiny : exP.Accepted cfgTiny := exP_accepted

example : ∃ fuel s', session cfgTiny .complete exP fuel [⟨exIm, 1, 4096⟩] (Ser.fromStorage Sto.new) = .panic .capacity s' := by
  obtain ⟨N, h⟩ := C32_fits_iff cfgTiny_ok (moving_never (by decide) (by decide)) exP_wf exP_accepted_tiny (.new) .complete
    (rs := [(⟨exIm, 1, 4096⟩, exNode)]) (one_input (exInputs _ (List.mem_cons_self ..))) (bs := [_]) rfl
    (fun i x xs h1 h2 => by
      cases i with
      | zero => simp at h1 h2; subst h1; subst h2; exact exBlocks
      | succ i => simp at h1)
  obtain ⟨s', h1⟩ := (h N (Nat.le_refl _)).2 (by decide)
  exact ⟨N, s', h1⟩

/-! ### Outside the hypotheses -/

/-- Finding F3. A zero-sized value with alignment 8 serialized into a storage that has never allocated: `serialize` returns
position 0 and a storage whose `as_ptr()` is 1, so `storage.read::<T>(pos)` is a misaligned reference, although the value was
accepted. This is the exception in C24 and C36. -/
theorem C36_zst_unallocated_ub : ∃ s', serTop cfg64 .complete exP exIm 6 10 4096 (Ser.fromStorage Sto.new) = .ok 0 s' ∧
    Denotes x64 exP ⟨true, false⟩ exIm 10 4096 (.prim []) ∧ s'.sto.vec.ptr = 1 ∧
    Sto.read cfg64 0 (exP.layout 10) s'.sto = .ub := ⟨_, rfl, ⟨1, rfl⟩, rfl, rfl⟩

end SerRaw
