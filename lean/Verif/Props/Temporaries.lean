import Verif.Lemmas.Temporaries
import Verif.Props.UserImpl
/-
C76: hand-written implementations of `Serialize` may push temporaries, as the example of `SerializeWith` does. The output has the bytes
each slice had when it was pushed, whatever was at the same address before or after (`TRoot`, `TCalls`: Model/Temporaries.lean;
`tempIdeal`, `tempPositions`: Spec/Temporaries.lean).
-/
namespace SerRaw

section
variable {C : Cfg}

/-- C76. Values whose implementations push temporaries, serialized one after the other into any reachable storage `t` and finalized:
either everything is done, the values are at the positions the reference serializer gives them and the storage holds exactly
the reference output; or there is a panic because the reference output exceeds the maximum capacity; or the
allocator fails. Never undefined behaviour. -/
theorem C76_temporaries (hC : C.OK) (k : Kind) {t : Sto} (ht : UReach C t) {rs : List TRoot} (hr : ∀ r ∈ rs, r.OK C) :
    let ref := fun B => tempIdeal C.arch C.valueAlign (k.mode B) rs (t.view, t.vec.pos)
    (∃ ps s', tempSession C k rs (Ser.fromStorage t) = .ok ps s' ∧ ps = tempPositions C.arch C.valueAlign rs t.vec.pos ∧
      s'.sto.vec.pos = (ref 0).2 ∧ ∀ i < s'.sto.vec.pos, s'.sto.bytes i = (ref s'.sto.vec.ptr).1 i) ∨
    (∃ s', tempSession C k rs (Ser.fromStorage t) = .panic .capacity s' ∧ C.maxCapacity < (ref 0).2) ∨
    (tempSession C k rs (Ser.fromStorage t) = .abort ∧ ¬ C.NeverFails) := by
  intro ref
  have hv : ∀ r ∈ rs.map (TRoot.virt C.arch.usizeMod), r.OK C := by
    intro r h
    obtain ⟨x, hx, rfl⟩ := List.mem_map.1 h
    exact TRoot.virt_ok hC (hr x hx)
  have hl := temp_session (k := k) hC hr (Ser.fromStorage t) (Ser.fromStorage t) ⟨rfl, rfl⟩
  rcases C45_user_impls hC k ht hv with ⟨ps, s', e, h1, h2, h3⟩ | ⟨s', e, h1⟩ | ⟨e, h1⟩
  · simp only [temp_ideal hC hr, temp_positions hC hr] at h1 h2 h3
    rw [e] at hl
    cases hx : tempSession C k rs (Ser.fromStorage t) <;> rw [hx] at hl <;> first | exact hl.elim | skip
    rename_i qs s
    obtain ⟨rfl, hs, -⟩ := hl
    rw [hs] at h2 h3
    exact .inl ⟨_, s, rfl, h1, h2, h3⟩
  · simp only [temp_ideal hC hr] at h1
    rw [e] at hl
    cases hx : tempSession C k rs (Ser.fromStorage t) <;> rw [hx] at hl <;> first | exact hl.elim | skip
    rename_i pk s
    obtain ⟨rfl, hs, -⟩ := hl
    exact .inr (.inl ⟨s, rfl, h1⟩)
  · rw [e] at hl
    cases hx : tempSession C k rs (Ser.fromStorage t) <;> rw [hx] at hl <;> first | exact hl.elim | skip
    exact .inr (.inr ⟨rfl, h1⟩)

theorem TCalls.Moved.datas {ia ia' : Nat} {c c' : TCalls} (h : c.Moved ia ia' c') : c'.datas = c.datas := by
  induction h with
  | done => rfl
  | pushProcess _ _ _ ih1 ih2 => simp only [TCalls.datas, ih1, ih2]
  | push _ _ ih => simp only [TCalls.datas, ih]
  | pushRaw _ ih => simp only [TCalls.datas, ih]
  | pushRawBytes _ ih => simp only [TCalls.datas, ih]
  | overwrite _ _ ih => simp only [TCalls.datas, ih]

theorem TCalls.Moved.virt {U ia ia' : Nat} {c c' : TCalls} (h : c.Moved ia ia' c') {sz al sz' al' : Nat} (hw : c.WF C ⟨ia, sz, al⟩) (hw' : c'.WF C ⟨ia', sz', al'⟩)
    (j v : Nat) : c'.virt U j ia' v = c.virt U j ia v := by
  have key : ∀ {ia ia' p p' : Nat}, p' + ia = p + ia' → ia ≤ p → ia' ≤ p' → relocate ia' v p' = relocate ia v p := by
    intro ia ia' p p' h1 h2 h3
    unfold relocate
    omega
  induction h generalizing j v sz al sz' al' with
  | done => rfl
  | pushProcess h0 h1 h2 ih1 ih2 =>
    obtain ⟨a1, a2, -, a3, a4⟩ := hw
    obtain ⟨b1, b2, -, b3, b4⟩ := hw'
    simp only [TCalls.virt]
    rw [ih1 a3 b3, h1.datas, ih2 a4 b4 _ _ key, key h0 a2.lo b2.lo]
    intro ia ia' p p' h1 h2 h3
    unfold relocate
    omega
  | push h0 _ ih =>
    obtain ⟨a1, a2, -, a4⟩ := hw
    obtain ⟨b1, b2, -, b4⟩ := hw'
    simp only [TCalls.virt]
    rw [ih a4 b4 _ _ key, key h0 a2.lo b2.lo]
  | pushRaw _ ih => simp only [TCalls.virt]; rw [ih hw.2 hw'.2 _ _ key]
  | pushRawBytes _ ih => simp only [TCalls.virt]; rw [ih hw.2 hw'.2 _ _ key]
  | overwrite h0 _ ih => simp only [TCalls.virt]; rw [ih hw.2 hw'.2 _ _ key, key h0 hw.1.lo hw'.1.lo]

/-- C76, placement: where the values and the temporaries are in memory makes no difference. The same calls on the same data at other
addresses return the same positions and leave the same storage, byte for byte (and panic or fail in the same way). -/
theorem C76_anywhere (hC : C.OK) (k : Kind) {rs rs' : List TRoot} (hr : ∀ r ∈ rs, r.OK C) (hr' : ∀ r ∈ rs', r.OK C)
    (hm : List.Forall₂ TRoot.Moved rs rs') (t : Sto) :
    match tempSession C k rs (Ser.fromStorage t), tempSession C k rs' (Ser.fromStorage t) with
    | .ok ps s, .ok ps' s' => ps' = ps ∧ s'.sto = s.sto
    | .panic pk s, .panic pk' s' => pk' = pk ∧ s'.sto = s.sto
    | .abort, .abort => True
    | .ub, .ub => True
    | .fuel, .fuel => True
    | _, _ => False := by
  have e : rs'.map (TRoot.virt C.arch.usizeMod) = rs.map (TRoot.virt C.arch.usizeMod) := by
    induction hm with
    | nil => rfl
    | @cons r r' rs rs' h _ ih =>
      rw [List.map_cons, List.map_cons, ih (fun x hx => hr x (List.mem_cons_of_mem _ hx)) fun x hx => hr' x (List.mem_cons_of_mem _ hx)]
      congr 1
      have h1 := (hr r List.mem_cons_self).2
      have h2 := (hr' r' List.mem_cons_self).2
      unfold TRoot.virt
      rw [h.data, h.calls.datas, h.L, h.calls.virt h1 h2]
  have h1 := temp_session (k := k) hC hr (Ser.fromStorage t) (Ser.fromStorage t) ⟨rfl, rfl⟩
  have h2 := temp_session (k := k) hC hr' (Ser.fromStorage t) (Ser.fromStorage t) ⟨rfl, rfl⟩
  rw [e] at h2
  cases hx : tempSession C k rs (Ser.fromStorage t) <;> cases hz : userSession C k (rs.map (TRoot.virt C.arch.usizeMod)) (Ser.fromStorage t) <;>
    rw [hx, hz] at h1 <;> (try exact h1.elim) <;>
    cases hy : tempSession C k rs' (Ser.fromStorage t) <;> rw [hy, hz] at h2 <;> (try exact h2.elim) <;> (try trivial)
  · exact ⟨h2.1.symm.trans h1.1, h2.2.1.symm.trans h1.2.1⟩
  · exact ⟨h2.1.symm.trans h1.1, h2.2.1.symm.trans h1.2.1⟩

/-- C76, consistency: values without temporaries (C45) are the case in which all slices are parts of one memory. They run the
same and have the same reference output. -/
theorem C76_plain (C : Cfg) (k : Kind) (im : Mem) (sc : Script) :
    (TCalls.ofScript im sc).run C k = sc.run C k im ∧ (∀ c, (TCalls.ofScript im sc).WF C c ↔ sc.WF C c) ∧
    ∀ A va md ia op st, (TCalls.ofScript im sc).ideal A va md ia op st = sc.ideal A va md im ia op st := by
  have ht : ∀ A sc, (TCalls.ofScript im sc).touch A = sc.touch A := by
    intro A sc
    induction sc with
    | done => rfl
    | pushProcess _ _ _ _ _ _ _ ih => simp only [TCalls.ofScript, TCalls.touch, Script.touch, ih]
    | push _ _ _ _ _ ih => simp only [TCalls.ofScript, TCalls.touch, Script.touch, ih]
    | pushRaw _ _ _ _ ih => simp only [TCalls.ofScript, TCalls.touch, Script.touch, ih]
    | overwrite _ _ _ _ ih => simp only [TCalls.ofScript, TCalls.touch, Script.touch, ih]
  induction sc with
  | done => exact ⟨rfl, fun _ => Iff.rfl, fun _ _ _ _ _ _ => rfl⟩
  | pushProcess L len src ptr inner rest ih1 ih2 =>
    refine ⟨?_, fun c => ?_, fun A va md ia op st => ?_⟩
    · simp only [TCalls.ofScript, TCalls.run, Script.run, ih1.1, ih2.1]
    · simp only [TCalls.ofScript, TCalls.WF, Script.WF, ih1.2.1, ih2.2.1, ht]
    · simp only [TCalls.ofScript, TCalls.ideal, Script.ideal, ih1.2.2, ih2.2.2]
  | push L len src ptr rest ih =>
    refine ⟨?_, fun c => ?_, fun A va md ia op st => ?_⟩
    · simp only [TCalls.ofScript, TCalls.run, Script.run, ih.1]
    · simp only [TCalls.ofScript, TCalls.WF, Script.WF, ih.2.1, ht]
    · simp only [TCalls.ofScript, TCalls.ideal, Script.ideal, ih.2.2]
  | pushRaw L len src rest ih =>
    refine ⟨?_, fun c => ?_, fun A va md ia op st => ?_⟩
    · simp only [TCalls.ofScript, TCalls.run, Script.run, ih.1]
    · simp only [TCalls.ofScript, TCalls.WF, Script.WF, ih.2.1]
    · simp only [TCalls.ofScript, TCalls.ideal, Script.ideal, ih.2.2]
  | overwrite a L data rest ih =>
    refine ⟨?_, fun c => ?_, fun A va md ia op st => ?_⟩
    · simp only [TCalls.ofScript, TCalls.run, Script.run, ih.1]
    · simp only [TCalls.ofScript, TCalls.WF, Script.WF, ih.2.1]
    · simp only [TCalls.ofScript, TCalls.ideal, Script.ideal, ih.2.2]

end

/-! ### Concrete case -/

/-- What `BigUintProxy::serialize_data_with` of serialize.rs:127-134 does on a `BigUint` at `a` whose little-endian bytes are `bs`, with the
temporary `bytes.len()` at `tmp`. -/
def exProxy (a tmp : Nat) (bs : List UInt8) (rest : TCalls) : TCalls :=
  .push ⟨8, 8⟩ 1 tmp (wordCells x64 bs.length) a (.pushRawBytes bs.length (fun i => bs[i]?) rest)

/-- `struct Foo { big1: BigUint, big2: BigUint }` at `a`, both fields with `#[ser_with(BigUintProxy)]`: the two lengths are temporaries
at the same address. -/
def exFoo (a tmp : Nat) : TRoot where
  L := ⟨48, 8⟩
  a := a
  data := fun i => some (UInt8.ofNat (100 + i))
  calls := exProxy a tmp [1, 2, 3] (exProxy (a + 24) tmp [5, 6, 7, 8, 9] .done)

theorem exFoo_ok (a tmp : Nat) : (exFoo a tmp).OK cfg64 := by
  have e8 : Pow2 8 := ⟨3, rfl⟩
  have e48 : PushOK cfg64 ⟨48, 8⟩ 1 a := ⟨by decide, e8, by decide, by decide⟩
  have d8 : cfg64.arch.ptrBytes ∣ 8 := by decide
  refine ⟨e48, ⟨by decide, e8, by decide, by decide⟩, ⟨Nat.le_refl _, ?_, d8, ?_⟩, ?_, ?_,
    ⟨by decide, e8, by decide, by decide⟩, ⟨?_, ?_, d8, ?_⟩, by simp [TCalls.touch], ?_, trivial⟩
  · show a + 8 ≤ a + 48
    omega
  · show 8 ∣ a - a
    rw [Nat.sub_self]; exact Nat.dvd_zero _
  · intro t ht
    simp only [exProxy, TCalls.touch, List.mem_cons, List.not_mem_nil, or_false] at ht
    subst ht
    left
    show a + 8 ≤ a + 24
    omega
  · show 3 ≤ x64.isizeMax
    decide
  · show a ≤ a + 24
    omega
  · show a + 24 + 8 ≤ a + 48
    omega
  · show 8 ∣ a + 24 - a
    rw [Nat.add_sub_cancel_left]; decide
  · show 5 ≤ x64.isizeMax
    decide

/-- Two values, twice at the same place on the stack: every length is where its pointer says, and is the right one. -/
example : let r := tempIdeal x64 8 ⟨some 0x10000, true⟩ [exFoo 4096 32, exFoo 4096 32] (fun _ => none, 0)
    r.2 = 160 ∧ tempPositions x64 8 [exFoo 4096 32, exFoo 4096 32] 0 = [0, 80] ∧
    readWord x64 r.1 0 = some (0x10000 + 48) ∧ readWord x64 r.1 48 = some 3 ∧ r.1 56 = some 1 ∧ r.1 58 = some 3 ∧ r.1 59 = none ∧
    readWord x64 r.1 24 = some (0x10000 + 64) ∧ readWord x64 r.1 64 = some 5 ∧ r.1 76 = some 9 ∧
    readWord x64 r.1 80 = some (0x10000 + 128) ∧ readWord x64 r.1 128 = some 3 := by decide +kernel

example (k : Kind) : let ref := fun B => tempIdeal x64 8 (k.mode B) [exFoo 4096 32, exFoo 4096 32] (Sto.new.view, 0)
    (∃ ps s', tempSession cfg64 k [exFoo 4096 32, exFoo 4096 32] (Ser.fromStorage Sto.new) = .ok ps s' ∧ ps = [0, 80] ∧
      s'.sto.vec.pos = (ref 0).2 ∧ ∀ i < s'.sto.vec.pos, s'.sto.bytes i = (ref s'.sto.vec.ptr).1 i) ∨
    (∃ s', tempSession cfg64 k [exFoo 4096 32, exFoo 4096 32] (Ser.fromStorage Sto.new) = .panic .capacity s' ∧ cfg64.maxCapacity < (ref 0).2) ∨
    (tempSession cfg64 k [exFoo 4096 32, exFoo 4096 32] (Ser.fromStorage Sto.new) = .abort ∧ ¬ cfg64.NeverFails) :=
  C76_temporaries cfg64_ok k .new (rs := [exFoo 4096 32, exFoo 4096 32]) (by
    intro r hr
    simp only [List.mem_cons, List.not_mem_nil, or_false, or_self] at hr
    subst hr
    exact exFoo_ok _ _)

/-- The same two values in other places. -/
example : List.Forall₂ TRoot.Moved [exFoo 4096 32, exFoo 4096 32] [exFoo 8192 40, exFoo 16 4096] := by
  have h : ∀ a tmp a' tmp', (exFoo a tmp).Moved (exFoo a' tmp') := by
    intro a tmp a' tmp'
    refine ⟨rfl, rfl, .push ?_ (.pushRawBytes (.push ?_ (.pushRawBytes .done)))⟩
    · show a' + a = a + a'
      omega
    · show a' + 24 + a = a + 24 + a'
      omega
  exact .cons (h _ _ _ _) (.cons (h _ _ _ _) .nil)

end SerRaw
