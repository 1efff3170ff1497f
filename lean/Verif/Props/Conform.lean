import Verif.Props.SerEx
import Verif.Props.Util
/-
Conformance: the model is run on the inputs of the crate's own tests (ser_raw/tests/common/mod.rs:41-607, all but the generated
Minecraft data) and doc examples, and gives the results those tests assert (ser_raw/tests/ptr_offset.rs:27-57,
pure_copy.rs:26-56, complete.rs:29-188). These are tests of the model, not properties; the kernel evaluates them.

The input memories are made by `enc`, which lays a value out as rustc does (`Vec` and `String` are capacity, pointer, length: the
order the crate's tests observe, complete.rs:48), with `extra` elements of spare capacity in every `Vec` and `String`.
-/
namespace SerRaw.Conform

/-- The types of the tests — tests/common/mod.rs. -/
def defn : TyId → TyDef × Layout
  | 0 => (.prim, ⟨8, 8⟩)
  | 1 => (.prim, ⟨1, 1⟩)
  | 2 => (.prim, ⟨2, 2⟩)
  | 3 => (.prim, ⟨4, 4⟩)
  | 4 => (.prim, ⟨8, 8⟩)
  | 5 => (.prim, ⟨16, 8⟩)                      -- u128 (alignment 8 with the pinned toolchain)
  | 6 => (.struct [(92, 1), (88, 2), (72, 3), (0, 4), (8, 5), (93, 1), (90, 2), (76, 3), (24, 4), (32, 5), (48, 0), (56, 0), (80, 3), (64, 4),
      (94, 1), (84, 3)], ⟨96, 8⟩)              -- primitives
  | 7 => (.struct [(76, 1), (72, 2), (64, 3), (0, 4), (8, 5), (48, 0), (77, 1), (74, 2), (68, 3), (24, 4), (32, 5), (56, 0)], ⟨80, 8⟩)
  | 8 => (.array 1 0, ⟨0, 1⟩)
  | 9 => (.array 1 1, ⟨1, 1⟩)
  | 10 => (.array 2 2, ⟨4, 2⟩)
  | 11 => (.array 3 3, ⟨12, 4⟩)
  | 12 => (.struct [(0, 8), (16, 9), (12, 10), (0, 11)], ⟨20, 4⟩)
  | 13 => (.box 1, ⟨8, 8⟩)
  | 14 => (.box 2, ⟨8, 8⟩)
  | 15 => (.box 3, ⟨8, 8⟩)
  | 16 => (.array 13 0, ⟨0, 8⟩)
  | 17 => (.array 13 1, ⟨8, 8⟩)
  | 18 => (.array 14 2, ⟨16, 8⟩)
  | 19 => (.array 15 3, ⟨24, 8⟩)
  | 20 => (.struct [(0, 16), (40, 17), (24, 18), (0, 19)], ⟨48, 8⟩)
  | 21 => (.struct [(6, 1), (4, 2), (0, 3)], ⟨8, 4⟩)
  | 22 => (.struct [(0, 13), (8, 14), (16, 15)], ⟨24, 8⟩)
  | 23 => (.struct [(24, 21), (0, 22)], ⟨32, 8⟩)
  | 24 => (.enum (.bytes 0 1 fun b => if b = [0] then some 0 else if b = [1] then some 1 else if b = [2] then some 2 else none) [[], [], []], ⟨1, 1⟩)
  | 25 => (.struct [(4, 1), (0, 3)], ⟨8, 4⟩)   -- Bar { small: u8, big: u32 }
  | 26 => (.enum (.bytes 0 1 fun b => if b = [0] then some 0 else if b = [1] then some 1 else none) [[(1, 1)], [(2, 2)]], ⟨4, 2⟩)
  | 27 => (.enum (.bytes 0 1 fun b => if b = [0] then some 0 else if b = [1] then some 1 else none) [[(4, 25)], [(4, 26)]], ⟨12, 4⟩)
  | 28 => (.box 4, ⟨8, 8⟩)
  | 29 => (.box 5, ⟨8, 8⟩)
  | 30 => (.struct [(0, 13), (8, 14), (16, 15), (24, 28), (32, 29), (40, 13), (48, 14), (56, 15), (64, 28), (72, 29), (80, 28), (88, 28),
      (96, 15), (104, 28), (112, 13), (120, 15)], ⟨128, 8⟩)
  | 31 => (.struct [(8, 1), (0, 15)], ⟨16, 8⟩)
  | 32 => (.box 31, ⟨8, 8⟩)
  | 33 => (.struct [(0, 32), (8, 32)], ⟨16, 8⟩)
  | 34 => (.vec 1, ⟨24, 8⟩)
  | 35 => (.vec 2, ⟨24, 8⟩)
  | 36 => (.vec 3, ⟨24, 8⟩)
  | 37 => (.struct [(0, 34), (24, 35), (48, 36)], ⟨72, 8⟩)
  | 38 => (.vec 34, ⟨24, 8⟩)
  | 39 => (.string, ⟨24, 8⟩)
  | 40 => (.enum (.bytes 0 1 fun b => if b = [0] then some 0 else if b = [1] then some 1 else none) [[], [(4, 25)]], ⟨12, 4⟩)
  | 41 => (.box 25, ⟨8, 8⟩)
  | 42 => (.enum (.word 0 fun w => if w = 0 then some 0 else some 1) [[], [(0, 41)]], ⟨8, 8⟩)
  | 43 => (.vec 25, ⟨24, 8⟩)
  | 44 => (.enum (.word 8 fun w => if w = 0 then some 0 else some 1) [[], [(0, 43)]], ⟨24, 8⟩)
  | 45 => (.enum (.word 8 fun w => if w = 0 then some 0 else some 1) [[], [(0, 39)]], ⟨24, 8⟩)
  | 46 => (.struct [(56, 40), (48, 42), (0, 44), (24, 45)], ⟨72, 8⟩)
  | 47 => (.bigUint 0, ⟨24, 8⟩)
  | 48 => (.array 47 4, ⟨96, 8⟩)
  | 49 => (.bigInt 47, ⟨32, 8⟩)
  | 50 => (.array 49 7, ⟨224, 8⟩)
  | 51 => (.struct [(0, 15), (8, 34), (32, 39), (56, 13)], ⟨64, 8⟩)
  | _ => (.prim, ⟨0, 1⟩)

def P : Prog where
  defn t := (defn t).1
  layout t := (defn t).2
  vecOrder _ := .cpl
  stringOrder := .cpl
  bigIntDataFirst := true

/-- What rustc stores for variant `i` of the enums above (the data-carrying variants of the niche types store nothing). -/
def tagWrites (t i a : Nat) : List (Nat × List UInt8) :=
  if t = 24 ∨ t = 26 ∨ t = 27 ∨ t = 40 then [(a, [UInt8.ofNat i])]
  else if t = 42 ∧ i = 0 then [(a, encWord x64 0)]
  else if (t = 44 ∨ t = 45) ∧ i = 0 then [(a + 8, encWord x64 0)]
  else []

/-- The three words of a `Vec`/`String`, and the address after its allocation. -/
def header (extra : Nat) (L : Layout) (len a free : Nat) : List (Nat × List UInt8) × Nat × Nat :=
  let q := if len + extra = 0 then L.align else roundUp free L.align
  ([(a, encWord x64 (len + extra)), (a + 8, encWord x64 q), (a + 16, encWord x64 len)], q,
    if len + extra = 0 then free else q + (len + extra) * L.size)

mutual
/-- The writes that lay out `v : t` at address `a`, with allocations from `free` on. -/
def enc (extra : Nat) : Val → TyId → Nat → Nat → List (Nat × List UInt8) × Nat
  | .prim bs, _, a, free => ([(a, bs)], free)
  | .box v, t, a, free =>
    match P.defn t with
    | .box u =>
      let q := roundUp free (P.layout u).align
      let r := enc extra v u q (q + (P.layout u).size)
      ((a, encWord x64 q) :: r.1, r.2)
    | _ => ([], free)
  | .vec vs, t, a, free =>
    match P.defn t with
    | .vec u | .bigUint u =>
      let h := header extra (P.layout u) vs.length a free
      let r := encEach extra vs (elems P u vs.length) h.2.1 h.2.2
      (h.1 ++ r.1, r.2)
    | _ => ([], free)
  | .str bs, _, a, free =>
    let h := header extra ⟨1, 1⟩ bs.length a free
    (h.1 ++ [(h.2.1, bs)], h.2.2)
  | .struct vs, t, a, free =>
    match P.defn t with
    | .array u k => encEach extra vs (elems P u k) a free
    | .struct fs => encEach extra vs fs a free
    | _ => ([], free)
  | .enum i vs, t, a, free =>
    match P.defn t with
    | .enum _ vars =>
      let r := encEach extra vs (vars.getD i []) a free
      (tagWrites t i a ++ r.1, r.2)
    | _ => ([], free)
  | .bigInt s v, t, a, free =>
    match P.defn t with
    | .bigInt u =>
      let r := enc extra v u a free
      ((a + 24, [s]) :: r.1, r.2)
    | _ => ([], free)
def encEach (extra : Nat) : List Val → List Field → Nat → Nat → List (Nat × List UInt8) × Nat
  | v :: vs, f :: fs, a, free =>
    let r := enc extra v f.2 (a + f.1) free
    let r' := encEach extra vs fs a r.2
    (r.1 ++ r'.1, r'.2)
  | _, _, _, free => ([], free)
end

/-- The input memory holding `v : t` at address 4096. -/
def memOf (extra : Nat) (v : Val) (t : TyId) : Mem :=
  let ws := (enc extra v t 4096 (4096 + (P.layout t).size)).1
  fun x => ws.findSome? fun w => if w.1 ≤ x ∧ x < w.1 + w.2.length then w.2[x - w.1]? else none

mutual
/-- Equality of values. -/
def same : Val → Val → Bool
  | .prim a, .prim b => a == b
  | .box a, .box b => same a b
  | .vec a, .vec b => sameAll a b
  | .str a, .str b => a == b
  | .struct a, .struct b => sameAll a b
  | .enum i a, .enum j b => i == j && sameAll a b
  | .bigInt s a, .bigInt s' b => s == s' && same a b
  | _, _ => false
def sameAll : List Val → List Val → Bool
  | [], [] => true
  | a :: as, b :: bs => same a b && sameAll as bs
  | _, _ => false
end

/-- The test: serialize with a new serializer of the kind; the position is 0 and `storage.pos()` the expected one. In addition the
input is a valid value; `CompleteSerializer`: reading the output gives the value, tightly; `PtrOffsetSerializer`: reading it by offsets does. -/
def ok (extra : Nat) (t : TyId) (v : Val) (expected : Nat) (k : Kind) : Bool :=
  let im := memOf extra v t
  (match decode x64 P ⟨true, false⟩ im 8 t 4096 with | some v' => same v' v | none => false) &&
  match session cfg64 k P 8 [⟨im, t, 4096⟩] (Ser.fromStorage Sto.new) with
  | .ok [0] s => s.sto.vec.pos == expected &&
    match k with
    | .complete => (match decode x64 P ⟨true, true⟩ (fun x => s.sto.w.load x) 8 t s.sto.vec.ptr with | some v' => same v' v | none => false)
    | .ptrOffset => (match decode x64 P ⟨false, false⟩ s.sto.view 8 t 0 with | some v' => same v' v | none => false)
    | _ => true
  | _ => false

/-- With each kind of serializer, without and with spare capacity. -/
def passes (t : TyId) (v : Val) (expected : Nat) : Bool :=
  [0, 3].all fun extra => [Kind.pureCopy, .posTracking, .ptrOffset, .complete].all fun k => ok extra t v expected k

/-- Little-endian numbers. -/
def n (size x : Nat) : Val := .prim (encLE size x)

set_option maxRecDepth 100000

/-- `primitives` — tests/common/mod.rs:44-82; expected size tests/ptr_offset.rs:31. -/
def tPrimitives : Val := .struct [n 1 1, n 2 0x0203, n 4 0x04050607, n 8 0x08090a0b0c0d0e0f, n 16 0x101112131415161718191a1b1c1d1e1f,
  n 1 1, n 2 0x0203, n 4 0x04050607, n 8 0x08090a0b0c0d0e0f, n 16 0x101112131415161718191a1b1c1d1e1f, n 8 (2 ^ 64 - 1), n 8 (2 ^ 62 - 1),
  n 4 0x7f7fffff, n 8 0x7fdfffffffffffff, n 1 1, n 4 99]
example : passes 6 tPrimitives 96 = true := by decide +kernel

/-- `non_zero_numbers` — mod.rs:84-122. -/
example : passes 7 (.struct [n 1 1, n 2 0x0203, n 4 0x04050607, n 8 0x08090a0b0c0d0e0f, n 16 0x101112131415161718191a1b1c1d1e1f, n 8 (2 ^ 64 - 1),
  n 1 1, n 2 0x0203, n 4 0x04050607, n 8 0x08090a0b0c0d0e0f, n 16 0x101112131415161718191a1b1c1d1e1f, n 8 (2 ^ 62 - 1)]) 80 = true := by
  decide +kernel

/-- `arrays` — mod.rs:124-141. -/
example : passes 12 (.struct [.struct [], .struct [n 1 1], .struct [n 2 0x0203, n 2 0x0405], .struct [n 4 0x06070809, n 4 0x0a0b0c0d, n 4 0x0e0f1011]]) 24
    = true := by decide +kernel

/-- `arrays_of_boxes` — mod.rs:143-164. -/
example : passes 20 (.struct [.struct [], .struct [.box (n 1 1)], .struct [.box (n 2 0x0203), .box (n 2 0x0405)],
    .struct [.box (n 4 0x06070809), .box (n 4 0x0a0b0c0d), .box (n 4 0x0e0f1011)]]) 96 = true := by decide +kernel

/-- `tuples` — mod.rs:166-179. -/
example : passes 23 (.struct [.struct [n 1 1, n 2 0x0203, n 4 0x04050607], .struct [.box (n 1 8), .box (n 2 0x090a), .box (n 4 0x0b0c0d0e)]]) 56
    = true := by decide +kernel

/-- `enum_fieldless` — mod.rs:181-193. -/
example : (passes 24 (.enum 0 []) 8 && passes 24 (.enum 1 []) 8 && passes 24 (.enum 2 []) 8) = true := by decide +kernel

/-- `enum_with_fields` — mod.rs:195-226. -/
example : (passes 27 (.enum 0 [.struct [n 1 1, n 4 0x0203]]) 16 && passes 27 (.enum 1 [.enum 0 [n 1 4]]) 16 &&
    passes 27 (.enum 1 [.enum 1 [n 2 0x0506]]) 16) = true := by decide +kernel

/-- `boxed_primitives` — mod.rs:228-270. -/
example : passes 30 (match tPrimitives with | .struct vs => .struct (vs.map .box) | v => v) 272 = true := by decide +kernel

/-- `boxed_structs` — mod.rs:272-297. -/
example : passes 33 (.struct [.box (.struct [n 1 1, .box (n 4 0x02030405)]), .box (.struct [n 1 1, .box (n 4 0x0708090a)])]) 64 = true := by
  decide +kernel

/-- `vec_of_primitives` — mod.rs:299-339. -/
example : (passes 37 (.struct [.vec [], .vec [], .vec []]) 72 &&
    passes 37 (.struct [.vec [n 1 1], .vec [n 2 0x0203], .vec [n 4 0x04050607]]) 96 &&
    passes 37 (.struct [.vec [n 1 1, n 1 2, n 1 3], .vec [n 2 0x0405, n 2 0x0607, n 2 0x0809, n 2 0x0a0b, n 2 0x0c0d],
      .vec [n 4 0x0e0f1012, n 4 0x13141516, n 4 0x1718191a]]) 112) = true := by decide +kernel

/-- `vec_of_vecs` — mod.rs:341-353. -/
example : passes 38 (.vec [.vec [n 1 1, n 1 2, n 1 3], .vec [n 1 4, n 1 5, n 1 6, n 1 7, n 1 8, n 1 9], .vec [n 1 10], .vec [], .vec [n 1 11, n 1 12],
    .vec [n 1 13, n 1 14, n 1 15, n 1 16], .vec []]) 232 = true := by decide +kernel

/-- `vecs_with_*` — mod.rs:355-397; the expected sizes do not depend on the spare capacity. -/
example : (passes 34 (.vec []) 24 && passes 36 (.vec []) 24 && passes 34 (.vec [n 1 1]) 32 &&
    passes 36 (.vec [n 4 0x01020304, n 4 0x05060708, n 4 0x090a0b0c]) 40) = true := by decide +kernel

/-- `strings` and `strings_with_*` — mod.rs:399-443. -/
example : (passes 39 (.str [97, 98, 99]) 32 && passes 39 (.str [100]) 32 && passes 39 (.str [101, 102, 103, 104, 105, 106, 107, 108]) 32 &&
    passes 39 (.str [77, 78, 79, 80, 81, 82, 83, 84, 73, 86, 87, 88, 89, 90]) 40 && passes 39 (.str []) 24) = true := by decide +kernel

/-- `options` — mod.rs:445-526. -/
example : (passes 46 (.struct [.enum 0 [], .enum 0 [], .enum 0 [], .enum 0 []]) 72 &&
    passes 46 (.struct [.enum 1 [.struct [n 1 1, n 4 0x0203]], .enum 0 [], .enum 0 [], .enum 1 [.str []]]) 72 &&
    passes 46 (.struct [.enum 0 [], .enum 1 [.box (.struct [n 1 4, n 4 0x0506])],
      .enum 1 [.vec [.struct [n 1 7, n 4 0x0809], .struct [n 1 10, n 4 0x0b0c], .struct [n 1 13, n 4 0x0e0f]]], .enum 0 []]) 104 &&
    passes 46 (.struct [.enum 1 [.struct [n 1 0x10, n 4 0x1112]], .enum 1 [.box (.struct [n 1 0x13, n 4 0x1415])],
      .enum 1 [.vec [.struct [n 1 0x16, n 4 0x1718]]], .enum 1 [.str [100, 101, 102]]]) 96) = true := by decide +kernel

/-- `biguints` — mod.rs:528-548 (the digits are 32 bits wide in the source and stored in pairs). -/
example : passes 48 (.struct [.vec [], .vec [n 8 0x01020304], .vec [n 8 0x0506070805060708],
    .vec [n 8 0x0d0e0f10090a0b0c, n 8 0x1516171811121314, n 8 0x1d1e1f20191a1b1c, n 8 0x2526272821222324, n 8 0x292a2b2c]]) 152 = true := by
  decide +kernel

/-- `bigints` — mod.rs:550-585. -/
example : passes 50 (.struct [.bigInt 1 (.vec []), .bigInt 2 (.vec [n 8 0x01020304]), .bigInt 2 (.vec [n 8 0x0506070805060708]),
    .bigInt 2 (.vec [n 8 0x0d0e0f10090a0b0c, n 8 0x1516171811121314, n 8 0x1d1e1f20191a1b1c, n 8 0x2526272821222324, n 8 0x292a2b2c]),
    .bigInt 0 (.vec [n 8 0x31323334]), .bigInt 0 (.vec [n 8 0x3536373835363738]),
    .bigInt 0 (.vec [n 8 0x3d3e3f40393a3b3c, n 8 0x4546474841424344, n 8 0x4d4e4f50494a4b4c, n 8 0x5556575851525354, n 8 0x595a5b5c])]) 336 = true := by
  decide +kernel

/-- `structure_where_storage_grows_after_last_pointer_written` — mod.rs:587-611 (a `#[repr(C)]` struct; 43 characters). -/
example : passes 51 (.struct [.box (n 4 0x44332211), .vec ((List.range 8).map fun i => n 1 (128 + i)),
    .str ("well hello! blah blah blah blah blah flaps!".toList.map fun c => UInt8.ofNat c.toNat), .box (n 1 255)]) 136 = true := by decide +kernel

/-- The three words at the start of the output of `CompleteSerializer`. -/
def parts (extra t : Nat) (v : Val) : Option (List Nat) :=
  match session cfg64 .complete P 8 [⟨memOf extra v t, t, 4096⟩] (Ser.fromStorage Sto.new) with
  | .ok [0] s => (List.range 3).mapM fun i => readWord x64 s.sto.view (8 * i)
  | _ => none

/-- `vecs_with_zero_len_represented_correctly`, `strings_with_zero_len_represented_correctly` — tests/complete.rs:40-86, 114-161. -/
example : parts 0 34 (.vec []) = some [0, 1, 0] ∧ parts 5 34 (.vec []) = some [0, 1, 0] ∧ parts 4 36 (.vec []) = some [0, 4, 0] ∧
    parts 0 39 (.str []) = some [0, 1, 0] ∧ parts 5 39 (.str []) = some [0, 1, 0] := by decide +kernel

/-- `vecs_with_excess_capacity_represented_correctly`, `strings_…` — tests/complete.rs:88-112, 163-188: capacity and length are equal. -/
example : ((parts 4 34 (.vec [n 1 1])).map fun w => (w[0]?, w[2]?)) = some (some 1, some 1) ∧
    ((parts 1 36 (.vec [n 4 1, n 4 2, n 4 3])).map fun w => (w[0]?, w[2]?)) = some (some 3, some 3) ∧
    ((parts 1 39 (.str [97, 98, 99])).map fun w => (w[0]?, w[2]?)) = some (some 3, some 3) := by decide +kernel

/-! ### Doc examples -/

/-- `(pos(), capacity())` after each step, and whether `as_ptr()` is a multiple of 16. -/
def docSteps (ops : List SOp) : Option (List (Nat × Nat) × Bool) :=
  match Sto.withCapacity cfg64 8 Sto.new with
  | .ok _ s =>
    go s ops [(s.vec.pos, s.vec.capacity)]
  | _ => none
where
  go (s : Sto) : List SOp → List (Nat × Nat) → Option (List (Nat × Nat) × Bool)
    | [], acc => some (acc, s.vec.ptr % 16 == 0)
    | o :: os, acc =>
      match SOp.run cfg64 o s with
      | .ok _ s' => go s' os (acc ++ [(s'.vec.pos, s'.vec.capacity)])
      | _ => none

/-- `AlignedVec` — storage/aligned_vec.rs:32-57. -/
example : docSteps [.pushSlice ⟨4, 4⟩ 1 (fun i => (encLE 4 100)[i]?), .pushSlice ⟨8, 8⟩ 2 (fun i => (encLE 8 200 ++ encLE 8 300)[i]?)] =
    some ([(0, 16), (8, 16), (24, 32)], true) := by decide +kernel

/-- `Serializer::serialize` and `serialize_value` — serializer.rs:196-216, 236-257: `Foo { small: u8, big: u32 }` once and twice. -/
example : ((session cfg64 .pureCopy P 8 [⟨memOf 0 (.struct [n 1 1, n 4 2]) 25, 25, 4096⟩] (Ser.fromStorage Sto.new)).result.map
      fun r => (r.1, r.2.1)) = some ([0], 8) ∧
    ((session cfg64 .pureCopy P 8 [⟨memOf 0 (.struct [n 1 1, n 4 2]) 25, 25, 4096⟩, ⟨memOf 0 (.struct [n 1 3, n 4 4]) 25, 25, 4096⟩]
      (Ser.fromStorage Sto.new)).result.map fun r => (r.1, r.2.1)) = some ([0, 8], 16) := by decide +kernel

/-- `PtrOffsetSerializer` — serializers/ptr_offset.rs:20-39: `Box::new(123u8)`; the offset is 8 and the value there 123. -/
example : (match session cfg64 .ptrOffset P 8 [⟨memOf 0 (.box (n 1 123)) 13, 13, 4096⟩] (Ser.fromStorage Sto.new) with
    | .ok [0] s => (readWord x64 s.sto.view 0, s.sto.view 8)
    | _ => (none, none)) = (some 8, some 123) := by decide +kernel

/-- `aligned_max_capacity` and `aligned_max_u32_capacity` — util.rs:33-102: `isize::MAX` less 15, and `2^32`. -/
example : (match alignedMaxCapacity x64 16 () with | .ok m _ => some m | _ => none) = some (2 ^ 63 - 16) ∧
    (match alignedMaxU32Capacity x64 16 () with | .ok m _ => some m | _ => none) = some (2 ^ 32) := by decide +kernel

end SerRaw.Conform
