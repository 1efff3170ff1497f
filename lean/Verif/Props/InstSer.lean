import Verif.Props.SerEx
import Verif.Props.Nested
import Verif.Props.Layouts
import Verif.Props.AnySerializer
/-
C20–C39 applied to concrete data: the session of Props/SerEx.lean (`exRun`), whose values are a recursive struct, a zero-sized value, a
`BigInt` and an enum.
-/
namespace SerRaw

-- C24: a single value
example : ∃ t s' p, Reach cfg64 exP t ∧ serTop cfg64 .complete exP exIm 6 1 4096 (Ser.fromStorage t) = .ok p s' ∧
    Denotes x64 exP ⟨true, true⟩ s'.sto.buffer 1 (s'.sto.vec.ptr + p) exNode := by
  obtain ⟨s', h1, _⟩ := Out.result_ok (o := serTop cfg64 .complete exP exIm 6 1 4096 (Ser.fromStorage Sto.new)) (r := (0, 136, 3 * 2 ^ 20))
    (by decide +kernel)
  exact ⟨_, s', _, .new, h1, C24_complete_roundtrip (fl := ⟨true, false⟩) cfg64_ok exP_wf exP_accepted .new (⟨6, rfl⟩ : Denotes x64 exP _ exIm 1 4096 exNode) h1
    (Or.inl (by decide))⟩

-- C25, C26: everything the first value owns is inside the buffer; its vectors have no spare capacity
example : ∃ t s', Reach cfg64 exP t ∧ session cfg64 .complete exP 6 (exRoots.map Prod.fst) (Ser.fromStorage t) = .ok [8, 0, 144, 192] s' ∧
    (∃ n as, owned x64 exP s'.sto.buffer n 1 (s'.sto.vec.ptr + 8) = some as ∧
      OwnedWithin x64 s'.sto.buffer s'.sto.vec.ptr (s'.sto.vec.ptr + s'.sto.vec.pos) as) ∧
    Denotes x64 exP ⟨true, true⟩ s'.sto.buffer 1 (s'.sto.vec.ptr + 8) exNode ∧
    Denotes x64 exP ⟨true, true⟩ s'.sto.buffer 8 (s'.sto.vec.ptr + 144) exBig := by
  obtain ⟨t, s', ht, _, h1, _⟩ := exRun .complete
  exact ⟨t, s', ht, h1, C25_self_contained cfg64_ok exP_wf exP_accepted ht exInputs h1 0 _ _ _ rfl rfl (Or.inl (by decide)),
    C26_shrunk cfg64_ok exP_wf exP_accepted ht exInputs h1 0 _ _ _ rfl rfl (Or.inl (by decide)),
    C26_shrunk cfg64_ok exP_wf exP_accepted ht exInputs h1 2 _ _ _ rfl rfl (Or.inl (by decide))⟩

-- C28: the offsets
example : ∃ t s', Reach cfg64 exP t ∧ session cfg64 .ptrOffset exP 6 (exRoots.map Prod.fst) (Ser.fromStorage t) = .ok [8, 0, 144, 192] s' ∧
    ∃ n as, owned x64 exP s'.sto.bytes n 1 8 = some as ∧ OwnedWithin x64 s'.sto.bytes 0 s'.sto.vec.pos as := by
  obtain ⟨t, s', ht, _, h1, _⟩ := exRun .ptrOffset
  exact ⟨t, s', ht, h1, C28_offsets cfg64_ok exP_wf exP_accepted ht exInputs h1 0 _ _ _ rfl rfl⟩

-- C35, C36 (zero-sized), C37
example (k : Kind) : ∃ t s', Reach cfg64 exP t ∧ session cfg64 k exP 6 (exRoots.map Prod.fst) (Ser.fromStorage t) = .ok [8, 0, 144, 192] s' ∧
    (∀ i < 8, s'.sto.bytes i = t.bytes i) ∧ (∃ cells, Sto.read cfg64 0 ⟨0, 8⟩ s'.sto = .ok cells s'.sto) ∧
    (∃ d xs, exEnum = .enum d xs ∧ activeVariant x64 s'.sto.bytes 192
      (.bytes 0 1 fun b => if b = [0] then some 0 else if b = [1] then some 1 else none) = some d) := by
  obtain ⟨t, s', ht, hp, h1, h2, h3⟩ := exRun k
  have hcap : 0 < s'.sto.vec.capacity := by
    have := ((ht.session exRoots_valid h1).inv cfg64_ok exP_wf exP_accepted).pos_le
    omega
  refine ⟨t, s', ht, h1, ?_, ?_, ?_⟩
  · have := (C35_appends cfg64_ok exP_wf exP_accepted ht exInputs h1).1
    rwa [hp] at this
  · exact (C36_zst cfg64_ok exP_wf exP_accepted ht exInputs h1 1 _ _ _ rfl rfl rfl).2 (by decide) (Or.inl hcap)
  · obtain ⟨d, xs, e1, _, e2⟩ := C37_variant cfg64_ok exP_wf exP_accepted ht exInputs h1 3 _ _ _ rfl rfl _ _ rfl
    exact ⟨d, xs, e1, e2⟩

-- C33: the debug and the release build of the session do the same; of one storage operation too, unless the debug build panics
example (k : Kind) : session (cfg64.build true) k exP 6 (exRoots.map Prod.fst) (Ser.fromStorage Sto.new) =
    session (cfg64.build false) k exP 6 (exRoots.map Prod.fst) (Ser.fromStorage Sto.new) :=
  C33_builds_agree (C := cfg64) cfg64_ok exP_wf exP_accepted .new k 6 exRoots_valid
example : (∃ pk s', (SOp.pushEmptySlice ⟨4, 4⟩ 1).run (cfg64.build true) Sto.new = .panic pk s' ∧ pk ≠ .capacity) ∨
    (SOp.pushEmptySlice ⟨4, 4⟩ 1).run (cfg64.build true) Sto.new = (SOp.pushEmptySlice ⟨4, 4⟩ 1).run (cfg64.build false) Sto.new :=
  C33_storage_builds cfg64 _ _
example : ∃ s, (SOp.pushEmptySlice ⟨4, 4⟩ 1).run (cfg64.build false) Sto.new = .ok 0 s := ⟨_, rfl⟩

-- C38: rustc's order `len, cap, ptr` on a 32-bit big-endian target; a dangling pointer 4
example : ∃ off, vecOffsets 4 .lcp 4 = some off ∧ off.ptr = 8 ∧ off.cap = 4 ∧ off.len = 0 ∧
    ∀ (m : Mem) (a : Nat) (h : Header), readHeader be32 m .lcp a = some h →
      readWord be32 m (a + off.ptr) = some h.ptr ∧ readWord be32 m (a + off.cap) = some h.cap ∧ readWord be32 m (a + off.len) = some h.len := by
  obtain ⟨off, h1, h2, _⟩ := C38_offsets be32 .lcp (dangle := 4) (by decide)
  refine ⟨off, h1, ?_, ?_, ?_, h2⟩ <;> (cases h1; rfl)
example : ptrIndex (0, 8, 0) 8 = some 1 ∧ nth3 (0, 8, 0) 1 = 8 := ⟨rfl, (C38_index_sound (w := (0, 8, 0)) (d := 8) (i := 1) rfl).2.1⟩
example {off : VecOffsets} (h : vecOffsets 8 .plc 1 = some off) : DisjRange off.ptr 8 off.cap 8 :=
  (C38_distinct 8 (by decide) .plc (by decide) h).2.2.2.1

-- C21, C23, C39: nothing is changed
example (f : M Ser Unit) {s s' : Ser} {p : Nat}
    (h : pushAndProcessSlice cfg64 .complete ⟨⟨8, 8⟩, 3, 4096, fun i => exIm (4096 + i)⟩ 4200 f s = .ok p s') : s'.map = s.map :=
  C21_process_restores (by decide) _ _ f h
example : RestoresMap (serData cfg64 .ptrOffset exP exIm 6 1 4096) := C21_serialize_data .ptrOffset exP exIm 6 1 4096
example (s : Ser) : finalize cfg64 .pureCopy s = .ok () s := C23_other_kinds (by decide) s
example (s : Ser) : overwriteWith .ptrOffset (overwriteCapAndPtrForEmpty cfg64 .ptrOffset ⟨0, 8, 16⟩ 8 4096) s = .ok () s :=
  C39_others (by decide) _ _ _ s

end SerRaw
