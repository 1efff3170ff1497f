import Verif.Lemmas.Adaptive
import Verif.Props.Temporaries
/-
C77: implementations and callers that decide by what they are told.
-/
namespace SerRaw

section
variable {C : Cfg}

/-- C77. A run of adaptive implementations, from any state, is the run of the calls it is recorded to have made: same result, same final state,
same panic at the same point — unless it was stopped by an overflow in `pos_for`, in a build that checks for it. -/
theorem C77_recorded (C : Cfg) (k : Kind) (c : Caller) (s : Ser)
    (h : C.arch.debug = false ∨ c.NoPosFor ∨ ∀ s', callerSession C k c s ≠ .panic .arith s') :
    tempSession C k (c.made C k s) s = callerSession C k c s := made_session c s h

/-- C77. `push_and_process_slice` with a closure that leaves something in captured variables is `push_and_process_slice` with that closure:
same state, same position, same panic. -/
theorem C77_captured (C : Cfg) (k : Kind) {α : Type} (sl : Slice) (ptrAddr : Nat) (process : M Ser α) (s : Ser) :
    (do let r ← pushAndProcessCapturing C k sl ptrAddr process; pure r.1) s =
      pushAndProcessSlice C k sl ptrAddr (do let _ ← process; pure ()) s := capturing_fst sl ptrAddr process s

/-- C77. What is left in the captured variables is what the closure left there, in the state in which it was called. -/
theorem C77_captured_value (C : Cfg) (k : Kind) {α : Type} (sl : Slice) (ptrAddr : Nat) (process : M Ser α) (s s' : Ser) (p : Nat) (r : α)
    (h : pushAndProcessCapturing C k sl ptrAddr process s = .ok (p, r) s') :
    ∃ s1 s2, startOf (pushAndProcessSlice C k sl ptrAddr) s = some s1 ∧ process s1 = .ok r s2 := by
  rw [capturing_steps] at h
  obtain ⟨p1, t1, h1, h⟩ := bind_eq_ok h
  obtain ⟨_, t2, h2, h⟩ := bind_eq_ok h
  obtain ⟨r', t3, h3, h⟩ := bind_eq_ok h
  obtain ⟨_, t4, h4, h⟩ := bind_eq_ok h
  cases h
  refine ⟨t2, t3, ?_, h3⟩
  unfold startOf
  rw [pushAndProcessSlice_steps, bind_ok h1, bind_ok h2]
  rfl

/-- C77. If the calls made in the run follow the rules, whatever they were chosen by, the run returns the positions of the reference
placement of these calls and the output is their reference output; or it stops because that output is too large, or the allocator fails, or
because `pos_for` was asked about an address outside of the value, in a build that checks for overflow. -/
theorem C77_adaptive (hC : C.OK) (k : Kind) {t : Sto} (ht : UReach C t) {c : Caller} (hr : ∀ r ∈ c.made C k (Ser.fromStorage t), r.OK C) :
    let rs := c.made C k (Ser.fromStorage t)
    let ref := fun B => tempIdeal C.arch C.valueAlign (k.mode B) rs (t.view, t.vec.pos)
    (∃ ps s', callerSession C k c (Ser.fromStorage t) = .ok ps s' ∧ ps = tempPositions C.arch C.valueAlign rs t.vec.pos ∧
      s'.sto.vec.pos = (ref 0).2 ∧ ∀ i < s'.sto.vec.pos, s'.sto.bytes i = (ref s'.sto.vec.ptr).1 i) ∨
    (∃ s', callerSession C k c (Ser.fromStorage t) = .panic .capacity s' ∧ C.maxCapacity < (ref 0).2) ∨
    (callerSession C k c (Ser.fromStorage t) = .abort ∧ ¬ C.NeverFails) ∨
    (C.arch.debug = true ∧ ¬ c.NoPosFor ∧ ∃ s', callerSession C k c (Ser.fromStorage t) = .panic .arith s') := by
  by_cases h : C.arch.debug = false ∨ c.NoPosFor ∨ ∀ s', callerSession C k c (Ser.fromStorage t) ≠ .panic .arith s'
  · rw [← C77_recorded C k c _ h]
    rcases C76_temporaries hC k ht hr with h | h | h
    · exact .inl h
    · exact .inr (.inl h)
    · exact .inr (.inr (.inl h))
  · refine .inr (.inr (.inr ⟨?_, fun h' => h (.inr (.inl h')), ?_⟩))
    · cases hd : C.arch.debug with
      | true => rfl
      | false => exact (h (.inl hd)).elim
    · exact Classical.byContradiction fun h' => h (.inr (.inr fun s' e => h' ⟨s', e⟩))

/-- C77. If they look at nothing but positions — where their slices were put, where the end is, and where fields of the value being processed
are (`pos_for`) — the calls made are those of `Caller.plan`, which is computed from the end position of the storage and `VALUE_ALIGNMENT`
alone: they do not depend on which serializer it is, on the allocator, on the capacity of the storage or its contents, nor on the build mode.
If these calls follow the rules, the positions returned and the output are their reference positions and output; or it stops because that
output is too large, or the allocator fails. -/
theorem C77_planned (hC : C.OK) (k : Kind) {t : Sto} (ht : UReach C t) {c : Caller} (hb : c.Blind) (hk : k = .pureCopy → c.NoPosFor)
    (hi : c.Inside C.valueAlign t.vec.pos) (hr : ∀ r ∈ c.plan C.valueAlign t.vec.pos, r.OK C) :
    let rs := c.plan C.valueAlign t.vec.pos
    let ref := fun B => tempIdeal C.arch C.valueAlign (k.mode B) rs (t.view, t.vec.pos)
    (∃ ps s', callerSession C k c (Ser.fromStorage t) = .ok ps s' ∧ ps = tempPositions C.arch C.valueAlign rs t.vec.pos ∧
      s'.sto.vec.pos = (ref 0).2 ∧ ∀ i < s'.sto.vec.pos, s'.sto.bytes i = (ref s'.sto.vec.ptr).1 i) ∨
    (∃ s', callerSession C k c (Ser.fromStorage t) = .panic .capacity s' ∧ C.maxCapacity < (ref 0).2) ∨
    (callerSession C k c (Ser.fromStorage t) = .abort ∧ ¬ C.NeverFails) := by
  have e := plan_session (k := k) hC c hb hk (s := Ser.fromStorage t) (ht.inv hC) hr hi
  rw [← e]
  exact C76_temporaries hC k ht hr

end

/-! ### Concrete case -/

/-- A 16-byte value at `a`, whose implementation pushes two strings and then the table of their positions, a temporary at `tmp`, to which the
first word of the value points. -/
def exIndex (a tmp : Nat) : Adaptive :=
  .pushRawBytes 3 (fun i => ([97, 98, 99] : List UInt8)[i]?) fun p =>
  .pushRawBytes 2 (fun i => ([100, 101] : List UInt8)[i]?) fun q =>
  .push ⟨8, 8⟩ 2 tmp (wordsCells x64 [p, q]) a fun _ => .done []

/-- A caller who serializes such values until one of them is at 64 or beyond. -/
def exCaller : Nat → Caller
  | 0 => .finish
  | n + 1 => .value ⟨16, 8⟩ 4096 (fun i => some (UInt8.ofNat i)) (exIndex 4096 32) fun p => if p < 64 then exCaller n else .finish

theorem exCaller_blind : ∀ n, (exCaller n).Blind
  | 0 => trivial
  | n + 1 => by
    refine ⟨fun p q r => trivial, fun p => ?_⟩
    show (if p < 64 then exCaller n else Caller.finish).Blind
    split
    · exact exCaller_blind n
    · trivial

/-- It does not use `pos_for`. -/
theorem exCaller_plain : ∀ n, (exCaller n).NoPosFor
  | 0 => trivial
  | n + 1 => by
    refine ⟨fun p q r => trivial, fun p => ?_⟩
    show (if p < 64 then exCaller n else Caller.finish).NoPosFor
    split
    · exact exCaller_plain n
    · trivial

theorem exCaller_inside : ∀ n p, (exCaller n).Inside 8 p
  | 0, _ => trivial
  | n + 1, p => by
    refine ⟨trivial, ?_⟩
    show (if roundUp p 8 < 64 then exCaller n else Caller.finish).Inside 8 _
    split
    · exact exCaller_inside n _
    · trivial

theorem exIndex_ok (op p : Nat) : (⟨⟨16, 8⟩, 4096, fun i => some (UInt8.ofNat i), ((exIndex 4096 32).plan 8 4096 op p).1⟩ : TRoot).OK cfg64 := by
  have e8 : Pow2 8 := ⟨3, rfl⟩
  have h1 : PushOK cfg64 ⟨16, 8⟩ 1 4096 := ⟨by decide, e8, by decide, by decide⟩
  have h2 : PushOK cfg64 ⟨8, 8⟩ 2 32 := ⟨by decide, e8, by decide, by decide⟩
  have h3 : TouchOK cfg64 ⟨4096, 16, 8⟩ 4096 cfg64.arch.ptrBytes := ⟨by decide, by decide, by decide, by decide⟩
  have h4 : 3 ≤ cfg64.arch.isizeMax ∧ 2 ≤ cfg64.arch.isizeMax := by decide
  refine ⟨h1, h4.1, h4.2, h2, h3, ?_, trivial⟩
  intro t ht
  cases ht

theorem exCaller_ok : ∀ (n p : Nat), ∀ r ∈ (exCaller n).plan 8 p, r.OK cfg64
  | 0, _, _, h => by cases h
  | n + 1, p, r, h => by
    rcases List.mem_cons.1 h with rfl | h
    · exact exIndex_ok _ _
    · change r ∈ Caller.plan 8 (if roundUp p 8 < 64 then exCaller n else .finish) _ at h
      by_cases hp : roundUp p 8 < 64
      · rw [if_pos hp] at h
        exact exCaller_ok n _ r h
      · rw [if_neg hp] at h
        cases h

/-- Of ten values allowed, three are serialized, because the third one is at 96 … -/
example : tempPositions x64 8 ((exCaller 10).plan 8 0) 0 = [0, 48, 96] := by decide +kernel

/-- … and the tables have the positions of the strings. -/
example : let r := tempIdeal x64 8 ⟨some 0x10000, true⟩ ((exCaller 10).plan 8 0) (fun _ => none, 0)
    r.2 = 144 ∧ readWord x64 r.1 0 = some (0x10000 + 32) ∧ readWord x64 r.1 32 = some 16 ∧ readWord x64 r.1 40 = some 24 ∧
    r.1 16 = some 97 ∧ r.1 25 = some 101 ∧ readWord x64 r.1 48 = some (0x10000 + 80) ∧ readWord x64 r.1 80 = some 64 ∧ r.1 64 = some 97 := by
  decide +kernel

example (k : Kind) : let rs := (exCaller 10).plan 8 0
    let ref := fun B => tempIdeal x64 8 (k.mode B) rs (Sto.new.view, 0)
    (∃ ps s', callerSession cfg64 k (exCaller 10) (Ser.fromStorage Sto.new) = .ok ps s' ∧ ps = tempPositions x64 8 rs 0 ∧
      s'.sto.vec.pos = (ref 0).2 ∧ ∀ i < s'.sto.vec.pos, s'.sto.bytes i = (ref s'.sto.vec.ptr).1 i) ∨
    (∃ s', callerSession cfg64 k (exCaller 10) (Ser.fromStorage Sto.new) = .panic .capacity s' ∧ cfg64.maxCapacity < (ref 0).2) ∨
    (callerSession cfg64 k (exCaller 10) (Ser.fromStorage Sto.new) = .abort ∧ ¬ cfg64.NeverFails) :=
  C77_planned cfg64_ok k .new (exCaller_blind 10) (fun _ => exCaller_plain 10) (exCaller_inside 10 0) (exCaller_ok 10 0)

/-- A 16-byte value at `a` whose implementation pushes a string and writes, in its second word, how far the string is from that word. -/
def exRelative (a : Nat) : Adaptive :=
  .lookFor (a + 8) fun q =>
  .pushRawBytes 5 (fun i => ([104, 101, 108, 108, 111] : List UInt8)[i]?) fun p =>
  .overwrite (a + 8) ⟨8, 8⟩ (wordsCells x64 [p - q]) (.done [])

/-- Two such values, at 4096 and 32. -/
def exTwo : Caller :=
  .value ⟨16, 8⟩ 4096 (fun i => some (UInt8.ofNat i)) (exRelative 4096) fun _ =>
  .value ⟨16, 8⟩ 32 (fun i => some (UInt8.ofNat i)) (exRelative 32) fun _ => .finish

theorem exRelative_ok (a op p : Nat) : (⟨⟨16, 8⟩, a, fun i => some (UInt8.ofNat i), ((exRelative a).plan 8 a op p).1⟩ : TRoot).OK cfg64 := by
  have e8 : Pow2 8 := ⟨3, rfl⟩
  have h1 : PushOK cfg64 ⟨16, 8⟩ 1 a := ⟨by decide, e8, by decide, by decide⟩
  have h2 : 5 ≤ cfg64.arch.isizeMax := by decide
  have h3 : 8 ∣ a + 8 - a := ⟨1, by omega⟩
  have h4 : OverOK ⟨a, 16, 8⟩ (a + 8) ⟨8, 8⟩ := ⟨by decide, e8, Nat.le_add_right _ _, Nat.le_refl _, Nat.dvd_refl _, h3⟩
  exact ⟨h1, h2, h4, trivial⟩

theorem exTwo_ok (p : Nat) : exTwo.Blind ∧ exTwo.Inside 8 p ∧ ∀ r ∈ exTwo.plan 8 p, r.OK cfg64 := by
  have inside : ∀ a op p, (exRelative a).Inside 8 a 16 op p := fun a op p => ⟨Nat.le_add_right _ _, by omega, trivial⟩
  refine ⟨⟨fun _ _ => trivial, fun _ => ⟨fun _ _ => trivial, fun _ => trivial⟩⟩, ⟨inside _ _ _, inside _ _ _, trivial⟩, fun r hr => ?_⟩
  rcases List.mem_cons.1 hr with rfl | hr
  · exact exRelative_ok _ _ _
  · rcases List.mem_cons.1 hr with rfl | hr
    · exact exRelative_ok _ _ _
    · cases hr

/-- The strings are at 16 and 40, 8 bytes behind the words at 8 and 32. -/
example : let r := tempIdeal x64 8 ⟨some 0x10000, true⟩ (exTwo.plan 8 0) (fun _ => none, 0)
    r.2 = 48 ∧ readWord x64 r.1 8 = some 8 ∧ r.1 16 = some 104 ∧ r.1 20 = some 111 ∧ readWord x64 r.1 32 = some 8 ∧ r.1 40 = some 104 := by
  decide +kernel

example (k : Kind) (hk : k ≠ .pureCopy) : let rs := exTwo.plan 8 0
    let ref := fun B => tempIdeal x64 8 (k.mode B) rs (Sto.new.view, 0)
    (∃ ps s', callerSession cfg64 k exTwo (Ser.fromStorage Sto.new) = .ok ps s' ∧ ps = tempPositions x64 8 rs 0 ∧
      s'.sto.vec.pos = (ref 0).2 ∧ ∀ i < s'.sto.vec.pos, s'.sto.bytes i = (ref s'.sto.vec.ptr).1 i) ∨
    (∃ s', callerSession cfg64 k exTwo (Ser.fromStorage Sto.new) = .panic .capacity s' ∧ cfg64.maxCapacity < (ref 0).2) ∨
    (callerSession cfg64 k exTwo (Ser.fromStorage Sto.new) = .abort ∧ ¬ cfg64.NeverFails) :=
  C77_planned cfg64_ok k .new (exTwo_ok 0).1 (fun h => (hk h).elim) (exTwo_ok 0).2.1 (exTwo_ok 0).2.2

/-- A 16-byte value at `a` that points to a boxed 8-byte value at `b`. While the boxed value is processed, two strings are pushed, and their
positions kept in captured variables; after it, the table of these positions is pushed from a temporary at `tmp`, with the second word as pointer. -/
def exCapture (a b tmp : Nat) : Adaptive :=
  .pushProcess ⟨8, 8⟩ 1 b (fun i => some (UInt8.ofNat i)) a
    (.pushRawBytes 3 (fun i => ([97, 98, 99] : List UInt8)[i]?) fun p =>
     .pushRawBytes 2 (fun i => ([100, 101] : List UInt8)[i]?) fun q => .done [p, q])
    fun _ out => .push ⟨8, 8⟩ out.length tmp (wordsCells x64 out) (a + 8) fun _ => .done []

/-- One such value. -/
def exCapturing : Caller := .value ⟨16, 8⟩ 4096 (fun i => some (UInt8.ofNat i)) (exCapture 4096 8192 32) fun _ => .finish

theorem exCapturing_ok : exCapturing.Blind ∧ exCapturing.NoPosFor ∧ exCapturing.Inside 8 0 ∧ ∀ r ∈ exCapturing.plan 8 0, r.OK cfg64 := by
  refine ⟨⟨⟨fun _ _ => trivial, fun _ _ _ => trivial⟩, fun _ => trivial⟩, ⟨⟨fun _ _ => trivial, fun _ _ _ => trivial⟩, fun _ => trivial⟩,
    ⟨⟨trivial, trivial⟩, trivial⟩, fun r hr => ?_⟩
  rcases List.mem_cons.1 hr with rfl | hr
  · have e8 : Pow2 8 := ⟨3, rfl⟩
    have h1 : PushOK cfg64 ⟨16, 8⟩ 1 4096 := ⟨by decide, e8, by decide, by decide⟩
    have h2 : PushOK cfg64 ⟨8, 8⟩ 1 8192 := ⟨by decide, e8, by decide, by decide⟩
    have h3 : PushOK cfg64 ⟨8, 8⟩ 2 32 := ⟨by decide, e8, by decide, by decide⟩
    have h4 : TouchOK cfg64 ⟨4096, 16, 8⟩ 4096 cfg64.arch.ptrBytes := ⟨by decide, by decide, by decide, by decide⟩
    have h5 : TouchOK cfg64 ⟨4096, 16, 8⟩ 4104 cfg64.arch.ptrBytes := ⟨by decide, by decide, by decide, by decide⟩
    have h6 : 3 ≤ cfg64.arch.isizeMax ∧ 2 ≤ cfg64.arch.isizeMax := by decide
    refine ⟨h1, h2, h4, ?_, ⟨h6.1, h6.2, trivial⟩, h3, h5, ?_, trivial⟩
    · intro t ht
      rcases List.mem_cons.1 ht with rfl | ht
      · left
        decide
      · cases ht
    · intro t ht
      cases ht
  · cases hr

/-- The boxed value is at 16, the strings at 24 and 32, their table at 40. -/
example : let r := tempIdeal x64 8 ⟨some 0x10000, true⟩ (exCapturing.plan 8 0) (fun _ => none, 0)
    r.2 = 56 ∧ readWord x64 r.1 0 = some (0x10000 + 16) ∧ readWord x64 r.1 8 = some (0x10000 + 40) ∧ r.1 24 = some 97 ∧ r.1 33 = some 101 ∧
    readWord x64 r.1 40 = some 24 ∧ readWord x64 r.1 48 = some 32 := by
  decide +kernel

example (k : Kind) : let rs := exCapturing.plan 8 0
    let ref := fun B => tempIdeal x64 8 (k.mode B) rs (Sto.new.view, 0)
    (∃ ps s', callerSession cfg64 k exCapturing (Ser.fromStorage Sto.new) = .ok ps s' ∧ ps = tempPositions x64 8 rs 0 ∧
      s'.sto.vec.pos = (ref 0).2 ∧ ∀ i < s'.sto.vec.pos, s'.sto.bytes i = (ref s'.sto.vec.ptr).1 i) ∨
    (∃ s', callerSession cfg64 k exCapturing (Ser.fromStorage Sto.new) = .panic .capacity s' ∧ cfg64.maxCapacity < (ref 0).2) ∨
    (callerSession cfg64 k exCapturing (Ser.fromStorage Sto.new) = .abort ∧ ¬ cfg64.NeverFails) :=
  C77_planned cfg64_ok k .new exCapturing_ok.1 (fun _ => exCapturing_ok.2.1) exCapturing_ok.2.2.1 exCapturing_ok.2.2.2

end SerRaw
