import Verif.Props.HandNested
import Verif.Lemmas.HandKit
import Verif.Props.SerEx
/-
A concrete program for C74: hand-written implementations inside the crate's ones, derived ones and each other.

    struct Top { outer: Box<Outer>, n: u32 }                                              // derived
    struct Outer { v: Vec<Slice>, s: MyString, o: Option<Slice>, k: u32 }                 // hand-written, like `Foo` (serialize.rs:75-88)
    struct Slice(Box<[String]>);                                                          // hand-written
    struct MyString { inner: String }                                                     // the example of serializer.rs:385-404
-/
namespace SerRaw

def haDefn : TyId → TyDef × Layout
  | 0 => (.prim, ⟨8, 8⟩)                                       -- usize
  | 1 => (.prim, ⟨4, 4⟩)                                       -- u32
  | 2 => (.string, ⟨24, 8⟩)                                    -- String
  | 3 => (.box 2, ⟨8, 8⟩)                                      -- the pointer in `Slice`
  | 4 => (.struct [(0, 3), (8, 0)], ⟨16, 8⟩)                   -- Slice
  | 5 => (.vec 4, ⟨24, 8⟩)                                     -- Vec<Slice>
  | 6 => (.string, ⟨24, 8⟩)                                    -- MyString
  | 7 => (.enum (.word 0 fun w => if w = 0 then some 0 else some 1) [[], [(0, 4)]], ⟨16, 8⟩) -- Option<Slice>
  | 8 => (.struct [(0, 5), (24, 6), (48, 7), (64, 1)], ⟨72, 8⟩) -- Outer
  | 9 => (.box 8, ⟨8, 8⟩)                                      -- Box<Outer>
  | 10 => (.struct [(0, 9), (8, 1)], ⟨16, 8⟩)                  -- Top
  | _ => (.prim, ⟨0, 1⟩)

def haP : Prog where
  defn t := (haDefn t).1
  layout t := (haDefn t).2
  vecOrder _ := .cpl
  stringOrder := .plc
  bigIntDataFirst := false

/-- The hand-written implementations. -/
def haX : TyId → Option HandImpl
  | 4 => some (boxSlice x64 haP 2)
  | 6 => some (myString x64 haP)
  | 8 => some (delegate [(0, 5), (24, 6), (48, 7)])
  | _ => none

/-- Their values in the input .. -/
def haV : TyId → HandView
  | 4 => sliceView x64 haP 2
  | 6 => fun _ m a => decodeStr x64 haP ⟨true, false⟩ m a
  | _ => fieldsView [(0, 5), (24, 6), (48, 7)]

/-- .. and in the output. -/
def haV' : TyId → HandView
  | 4 => sliceView x64 haP 2
  | 6 => inlineStrView x64 haP
  | _ => fieldsView [(0, 5), (24, 6), (48, 7)]

theorem slot_struct {A : Arch} {P : Prog} {t : TyId} {fs : List Field} (ht : P.defn t = .struct fs) {k : SlotKind} {o : Nat}
    (h : P.Slot A t k o) : ∃ f ∈ fs, ∃ o', P.Slot A f.2 k o' ∧ o = f.1 + o' := by
  cases h with
  | field hd hf hs =>
    rw [ht] at hd; cases hd
    exact ⟨_, hf, _, hs, rfl⟩
  | _ => simp_all

theorem haP_wf : haP.WF x64 := by
  have slot7 : ∀ k o, haP.Slot x64 7 k o → o = 0 ∧ k = .ptr := by
    intro k o h
    obtain ⟨fs, hf, f, hm, o', hs, rfl⟩ := slot_enum (t := 7) rfl h
    simp only [List.mem_cons, List.not_mem_nil, or_false] at hf
    rcases hf with rfl | rfl
    · cases hm
    · obtain rfl := List.mem_singleton.1 hm
      obtain ⟨g, hg, o'', hs', rfl⟩ := slot_struct (t := 4) rfl hs
      simp only [List.mem_cons, List.not_mem_nil, or_false] at hg
      rcases hg with rfl | rfl
      · obtain ⟨rfl, rfl⟩ := slot_box (t := 3) rfl hs'
        exact ⟨rfl, rfl⟩
      · exact (slot_prim (t := 0) rfl hs').elim
  intro t
  match t with
  | 0 => exact ⟨⟨3, rfl⟩, by decide, by decide, trivial⟩
  | 1 => exact ⟨⟨2, rfl⟩, by decide, by decide, trivial⟩
  | 2 => exact ⟨⟨3, rfl⟩, by decide, by decide, rfl⟩
  | 3 => exact ⟨⟨3, rfl⟩, by decide, by decide, rfl⟩
  | 4 => exact ⟨⟨3, rfl⟩, by decide, by decide, ⟨by decide, by decide, by decide, by unfold DisjRange; decide⟩⟩
  | 5 => exact ⟨⟨3, rfl⟩, by decide, by decide, rfl⟩
  | 6 => exact ⟨⟨3, rfl⟩, by decide, by decide, rfl⟩
  | 7 =>
    refine ⟨⟨3, rfl⟩, by decide, by decide, ⟨?_, by decide, ?_⟩⟩
    · intro fs hf
      simp only [List.mem_cons, List.not_mem_nil, or_false] at hf
      rcases hf with rfl | rfl
      · exact ⟨by simp, by simp, by simp, by simp⟩
      · exact ⟨by decide, by decide, by decide, by simp⟩
    · intro k o h
      obtain ⟨rfl, rfl⟩ := slot7 k o h
      refine Or.inr ⟨rfl, fun w w' h1 h2 => ?_⟩
      simp only [SlotKind.valid] at h1 h2
      simp [h1, h2]
  | 8 => exact ⟨⟨3, rfl⟩, by decide, by decide, ⟨by decide, by decide, by decide, by unfold DisjRange; decide⟩⟩
  | 9 => exact ⟨⟨3, rfl⟩, by decide, by decide, rfl⟩
  | 10 => exact ⟨⟨3, rfl⟩, by decide, by decide, ⟨by decide, by decide, by decide, by unfold DisjRange; decide⟩⟩
  | n + 11 => exact ⟨⟨0, rfl⟩, Nat.one_dvd _, Nat.zero_le _, trivial⟩

theorem haP_accepted : haP.Accepted cfg64 := by
  intro t
  match t with
  | 0 | 1 | 2 | 3 | 4 | 5 | 6 | 7 | 8 | 9 | 10 => decide
  | n + 11 => intro h; exact absurd rfl h

/-- The three implementations meet their requirements. -/
theorem haX_ok : AllHandOK cfg64 haP haX haV haV' := by
  intro t I h
  match t with
  | 4 => cases h; exact boxSlice_ok (b := 3) (w := 0) cfg64_ok haP_wf haP_accepted rfl rfl rfl (by decide)
  | 6 => cases h; exact myString_ok cfg64_ok haP_wf haP_accepted rfl (by decide)
  | 8 => cases h; exact delegate_ok (fs := [(0, 5), (24, 6), (48, 7), (64, 1)]) cfg64_ok haP_wf rfl (by decide) (by decide)
  | 0 | 1 | 2 | 3 | 5 | 7 | 9 | 10 => cases h
  | n + 11 => cases h

def haCells : List Cell :=
  let w (n : Nat) : List Cell := (encWord x64 n).map some
  let pad (n : Nat) : List Cell := List.replicate n none
  -- 4096: Top { outer: 4112, n: 5 }
  w 4112 ++ [some 5, some 0, some 0, some 0] ++ pad 4 ++
  -- 4112: Outer { v: cap 3, ptr 4184, len 2; s: ptr 4295, len 3, cap 4; o: Some(ptr 4264, len 1); k: 3 }
  w 3 ++ w 4184 ++ w 2 ++ w 4295 ++ w 3 ++ w 4 ++ w 4264 ++ w 1 ++ [some 3, some 0, some 0, some 0] ++ pad 4 ++
  -- 4184: two slices, of two strings and of none
  w 4216 ++ w 2 ++ w 8 ++ w 0 ++
  -- 4216: two strings
  w 4288 ++ w 5 ++ w 5 ++ w 1 ++ w 0 ++ w 0 ++
  -- 4264: one string
  w 4293 ++ w 2 ++ w 2 ++
  -- 4288: "hello", "hi", "abc"
  [some 104, some 101, some 108, some 108, some 111, some 104, some 105, some 97, some 98, some 99, none]

def haIm : Mem := fun a => if a < 4096 then none else (haCells[a - 4096]?).join

def haVal : Val := .struct [.box (.struct [.vec [.vec [.str [104, 101, 108, 108, 111], .str []], .vec []], .str [97, 98, 99],
  .enum 1 [.vec [.str [104, 105]]]]), .prim [5, 0, 0, 0]]

def haRoots : List (Root × Val) := [(⟨haIm, 10, 4096⟩, haVal), (⟨haIm, 6, 4136⟩, .str [97, 98, 99])]

theorem haRoots_valid : ∀ x ∈ haRoots, DenotesH cfg64.arch haP haX haV ⟨true, false⟩ x.1.im x.1.t x.1.a x.2 ∧ (haP.layout x.1.t).size ≠ 0 := by
  intro x hx
  simp only [haRoots, List.mem_cons, List.not_mem_nil, or_false] at hx
  rcases hx with rfl | rfl
  · exact ⟨⟨8, rfl⟩, by decide⟩
  · exact ⟨⟨8, rfl⟩, by decide⟩

/-- Every kind of serializer returns, with the values at 0 and 224. -/
theorem haRun (k : Kind) : ∃ s', hSession cfg64 k haP haX 8 (haRoots.map Prod.fst) (Ser.fromStorage Sto.new) = .ok [0, 224] s' ∧
    s'.sto.vec.pos = 264 := by
  have h : (hSession cfg64 k haP haX 8 (haRoots.map Prod.fst) (Ser.fromStorage Sto.new)).result = some ([0, 224], 264, 4 * 2 ^ 20) := by
    cases k <;> decide +kernel
  obtain ⟨s', h1, h2, _⟩ := Out.result_ok h
  exact ⟨s', h1, h2⟩

/-- C74 on it. -/
example : ∃ n, ∀ fuel, n ≤ fuel →
    (∃ ps s', hSession cfg64 .complete haP haX fuel (haRoots.map Prod.fst) (Ser.fromStorage Sto.new) = .ok ps s' ∧
      ∀ p, ps[0]? = some p → DenotesH x64 haP haX haV' ⟨true, true⟩ s'.sto.buffer 10 (s'.sto.vec.ptr + p) haVal) ∨
    ∃ s', hSession cfg64 .complete haP haX fuel (haRoots.map Prod.fst) (Ser.fromStorage Sto.new) = .panic .capacity s' := by
  obtain ⟨n, hn⟩ := C74_hand_nested cfg64_ok haP_wf haP_accepted haX_ok .new haRoots_valid
  refine ⟨n, fun fuel hf => ?_⟩
  rcases hn fuel hf .complete with ⟨ps, s', h1, _, _, _, h2, _⟩ | ⟨s', h, _⟩ | ⟨_, h⟩
  · exact Or.inl ⟨ps, s', h1, fun p hp => h2 rfl 0 _ _ p rfl hp⟩
  · exact Or.inr ⟨s', h⟩
  · exact absurd cfg64_never h

end SerRaw
