import Verif.Props.InstMore
import Verif.Props.CustomMixed
import Verif.Props.CustomMixedComplete
import Verif.Props.CustomFits
import Verif.Props.AnySerializer
import Verif.Props.Assembled
import Verif.Props.InOrder
import Verif.Props.Books
import Verif.Props.HandEx
/-
C61–C74, the remaining theorems applied to concrete data.
-/
namespace SerRaw

-- C61: the history of two pushes on the chunked storage, then more calls
example : ∃ s : Chunked, s.pos ≤ s.cap ∧ 16 ∣ s.cap ∧
    ((∃ p s', (KOp.pushEmptySlice ⟨16, 16⟩ 2).run (chunkedImpl cfg64) s = .ok p s' ∧ 16 ∣ p) ∨
      ∀ p s', (KOp.pushEmptySlice ⟨16, 16⟩ 2).run (chunkedImpl cfg64) s ≠ .ok p s') := by
  obtain ⟨s, hs⟩ := chunked_hist
  have hl : (KOp.pushEmptySlice ⟨16, 16⟩ 2).Legal (chunkedImpl cfg64) s := ⟨⟨⟨4, rfl⟩, by decide⟩, by decide, by decide⟩
  have h1 := C61_consistent (C61_chunked cfg64_ok) hs
  refine ⟨s, h1.1, h1.2.2.1, ?_⟩
  rcases C61_safe_calls (C61_chunked cfg64_ok) hs hl with ⟨p, s', h⟩ | ⟨k, s', h, _⟩ | h
  · exact Or.inl ⟨p, s', h, (C61_push_empty (C61_chunked cfg64_ok) hs hl (by decide) h).1⟩
  · exact Or.inr fun p s'' h' => by rw [h] at h'; cases h'
  · exact Or.inr fun p s'' h' => by rw [h] at h'; cases h'
example {s : Chunked} {es : List KEvent} (hs : KHist (chunkedImpl cfg64) es s) {k : PanicKind} {s' : Chunked}
    (hr : (KOp.pushEmptySlice ⟨16, 16⟩ (2 ^ 28)).run (chunkedImpl cfg64) s = .panic k s') : ∀ i < s.pos, s'.mem i = s.mem i :=
  (C61_panic_keeps (C61_chunked cfg64_ok) hs (op := .pushEmptySlice ⟨16, 16⟩ (2 ^ 28)) ⟨⟨⟨4, rfl⟩, by decide⟩, by decide, by decide⟩ hr (by simp)).1
example := C61_with_capacity (C61_chunked cfg64_ok) 1000
example := C61_aligned_vec_methods cfg64 ⟨8, 8⟩ 3 100 (fun _ => some 1) Sto.new

-- C62, C63, C67: `AlignedVec` is one of the storages
example := C63_aligned_vec cfg64_ok
example := (C67_aligned_vec cfg64_ok).2 cfg64_never

-- C64: the chunked storage
example (k : DKind) := C64_outcome (C64_chunked cfg64_ok) exP_wf exP_accepted (t := (chunkedRandom cfg64).new) .new k exRoots_valid
example (k : DKind) : ∃ s', gSession (chunkedRandom cfg64) k exP 6 (exRoots.map Prod.fst) (GSer.fromStorage (chunkedRandom cfg64).new) = .ok [0, 0, 160, 208] s' ∧
    s'.sto.pos ≤ s'.sto.cap := by
  obtain ⟨s', hr, _⟩ := chunkedRun k
  exact ⟨s', hr, (C64_keeps (C64_chunked cfg64_ok) exP_wf exP_accepted .new exRoots_valid (Or.inl ⟨_, hr⟩)).2.2.1⟩
example := C64_covers (C62_array cfg64_ok)

-- C65: the mixed session on a chunked storage of at most 416 bytes
example (k : DKind) {s : GSer Chunked} (hs : GSess (chunkedRandom cfgChunk) k exP (chunkedRandom cfgChunk).new exGEvs s) :=
  C65_safe (C64_chunked cfgChunk_ok) exP_wf exP_accepted_chunk .new hs (a := .user exPanic)
    ⟨exPanic_chunk, ⟨⟨3, rfl⟩, by decide⟩, ⟨⟨3, rfl⟩, by decide⟩, ⟨⟨⟨0, rfl⟩, by decide⟩, trivial⟩, trivial⟩
example (k : DKind) : ∃ s : Chunked, exGEvs.Pairwise (fun e e' => e.hi ≤ e'.lo) ∧ ∀ e ∈ exGEvs, e.hi ≤ s.pos := by
  obtain ⟨s, hs, _⟩ := exGSess k
  have h := C65_order (C64_chunked cfgChunk_ok) exP_wf exP_accepted_chunk .new hs
  exact ⟨s.sto, h.2.1, fun e he => (h.1 e he).2.2⟩
example (k : DKind) {s1 s : GSer Chunked} (hs1 : GSess (chunkedRandom cfgChunk) k exP (chunkedRandom cfgChunk).new exGEvs s1) {es : List GEv}
    (hs : GSess (chunkedRandom cfgChunk) .pureCopy exP s1.sto es s) :
    ∀ i < s1.sto.pos, (∀ e ∈ es, ¬ e.Writes i) → (chunkedRandom cfgChunk).bytes Chunked.mem s.sto i = (chunkedRandom cfgChunk).bytes Chunked.mem s1.sto i :=
  C65_before (C64_chunked cfgChunk_ok) exP_wf exP_accepted_chunk (.session .new hs1) hs
example (k : DKind) : ∃ s es, GSess (chunkedRandom cfg64) k exP (chunkedRandom cfg64).new es s ∧ es.length = 4 := by
  obtain ⟨s', hr, _⟩ := chunkedRun k
  obtain ⟨_, es, h, h1, _⟩ := C65_covers exRoots_valid hr .new
  exact ⟨s', es, h, by simpa [exRoots] using congrArg List.length h1⟩

-- C66: the mixed session on a storage that moves
example : ∃ s : MovingStorage, exCEvs.Pairwise (fun e e' => e.hi ≤ e'.lo) ∧ ∀ e ∈ exCEvs, e.hi ≤ s.pos := by
  obtain ⟨s, hs, _⟩ := exCSess
  have h := C66_order (C63_moving cfgMove_ok) exP_wf exP_accepted_move .new hs
  exact ⟨s.sto, h.2.1, fun e he => (h.1 e he).2.2⟩
example {s1 s s' : CSer MovingStorage} (hs1 : CSess (movingImpl cfgMove) exP (movingImpl cfgMove).new exCEvs s1) {es : List GEv}
    (hs : CSess (movingImpl cfgMove) exP s1.sto es s) (hf : CSer.finalize (movingImpl cfgMove) s = .ok () s') : s1.sto.pos ≤ s'.sto.pos :=
  (C66_before (C63_moving cfgMove_ok) exP_wf exP_accepted_move (.dropped .new hs1) hs hf).1
example : ∃ s s' es, CSess (movingImpl cfg64) exP (movingImpl cfg64).new es s ∧ CSer.finalize (movingImpl cfg64) s = .ok () s' ∧ es.length = 4 := by
  obtain ⟨s', hr, _⟩ := movingRun
  obtain ⟨_, es, s, h, hf, h1, _⟩ := C66_covers (C63_moving cfg64_ok) exP_wf exP_accepted exRoots_valid hr .new
  exact ⟨s, s', es, h, hf, by simpa [exRoots] using congrArg List.length h1⟩

-- C67, `complete`, with a hand-written implementation: 80 bytes each
example : ∃ ps s', cUserSession (movingImpl cfg64) [exUser, exUser] (CSer.fromStorage (movingImpl cfg64).new) = .ok ps s' ∧ s'.sto.pos = 160 := by
  have e8 : Pow2 8 := ⟨3, rfl⟩
  have e4 : Pow2 4 := ⟨2, rfl⟩
  have e2 : Pow2 2 := ⟨1, rfl⟩
  have e1 : Pow2 1 := ⟨0, rfl⟩
  obtain ⟨ps, s', h1, h2⟩ := (C67_complete_user_fits_iff (C63_moving cfg64_ok) (moving_exact _) (moving_never' _) exP_wf exP_accepted .new (rs := [exUser, exUser])
    (by intro r hr; simp only [List.mem_cons, List.not_mem_nil, or_false, or_self] at hr; subst hr; exact exUser_ok)
    (by
      intro r hr; simp only [List.mem_cons, List.not_mem_nil, or_false, or_self] at hr; subst hr
      exact ⟨⟨e8, by decide⟩, ⟨⟨e8, by decide⟩, ⟨⟨e1, by decide⟩, trivial⟩, ⟨e4, by decide⟩, ⟨e8, by decide⟩, trivial⟩,
        trivial, ⟨e2, by decide⟩, trivial⟩)).1 (by decide +kernel)
  exact ⟨ps, s', h1, h2.trans (by decide +kernel)⟩

-- C68, C69
example : ∀ r ∈ exRoots.map Prod.fst, ∃ (c : CallTree) (N : Nat), c.toScript.WF cfg64 ⟨r.a, (exP.layout r.t).size, (exP.layout r.t).align⟩ ∧
    ∀ fuel, N ≤ fuel → ∀ (τ α : Type) (S : SerializerImpl τ α), S.A = x64 → aData S exP r.im fuel r.t r.a = c.run S r.im :=
  fun r hr => C68_calls_wf (C := cfg64) (by decide) exP_wf exP_accepted (exRoots_valid r hr)
example (n : Nat) := C69_user (I := arrayImpl cfg64) (fromRef := fun _ => ()) (fromRefOffset := fun _ _ => pure ()) exField_lawful [exUser, exUser]
  ((arrayImpl cfg64).new, n)
example := C69_aligned_vec (C := cfg64) (F := (⟨Prod.fst, fun t s => (t, s.2)⟩ : StorageField (Sto × Nat) Sto)) (fromRef := fun a => a)
  (fromRefOffset := fun a off => pure (a + off)) ⟨fun _ _ => rfl, fun _ => rfl, fun _ _ _ => rfl⟩ (fun _ _ _ _ => ⟨_, rfl⟩) (by decide) exP_wf exRoots_valid

-- C70
example : ∃ s' : KSer ArrayStorage, s'.log.length = 3 ∧ s'.sto.pos ≤ 2 ^ 30 := by
  obtain ⟨s', hr, _, hl⟩ := recordRun
  have h := C70_keeps (C62_array cfg64_ok) exP_wf exP_accepted .new (K := ⟨true, .record⟩) exRoots_valid (Or.inl ⟨_, hr⟩)
  exact ⟨s', by simpa using congrArg List.length hl, Nat.le_trans h.2.2.1 (Nat.le_trans h.2.2.2.1 (by decide))⟩
example (K : Kit) : ∃ fuel ps s', aSession (kitSerializer (arrayImpl cfg64) K) exP fuel (exRoots.map Prod.fst) (KSer.fromStorage (arrayImpl cfg64).new) = .ok ps s' ∧
    s'.sto.pos = 200 := by
  obtain ⟨bs, hl, hf, hb⟩ := exAllBlocks
  obtain ⟨N, h⟩ := C70_fits_iff (C62_array cfg64_ok) (array_exact _) (array_never _) exP_wf exP_accepted .new K exInputs hl hb
  rw [hf] at h
  obtain ⟨ps, s', h1, h2⟩ := (h N (Nat.le_refl _)).1 (by decide)
  exact ⟨N, ps, s', h1, h2.trans (by decide)⟩
example := C70_derived (arrayImpl cfg64) exP 6 (exRoots.map Prod.fst) (arrayImpl cfg64).new

-- C71: read the first session again after a second one, of another kind
example : ∃ (t' : Sto) (n : Nat), t'.vec.pos = 400 ∧ seqRoots x64 exP 8 t'.bytes n [1, 10, 8, 9] 0 = some ([exNode, .prim [], exBig, exEnum], 200) := by
  have h : (session cfg64 .complete exP 6 (exRoots.map Prod.fst) (Ser.fromStorage Sto.new)).andThen (fun s =>
      (session cfg64 .ptrOffset exP 6 (exRoots.map Prod.fst) (Ser.fromStorage s.sto)).andThen fun s' => some (s.sto.vec.pos, s'.sto.vec.pos)) = some (200, 400) := by
    decide +kernel
  obtain ⟨ps, s', h1, h2⟩ := Out.andThen_some h
  obtain ⟨qs, u, h3, h4⟩ := Out.andThen_some h2
  simp only [Option.some.injEq, Prod.mk.injEq] at h4
  obtain ⟨n, hn⟩ := C71_later cfg64_ok exP_wf exP_accepted .new .complete exInputs h1 (.session .refl exRoots_valid h3)
  rw [h4.1] at hn
  exact ⟨u.sto, n, h4.2, hn⟩

-- C72
example : ∃ s, Sess cfg64 .ptrOffset exP Sto.new exEvs s ∧ s.ptrs.current.positions = [] ∧ s.ptrs.past = [] := by
  obtain ⟨s, hs, _⟩ := exSess .ptrOffset
  exact ⟨s, hs, C72_others cfg64_ok exP_wf exP_accepted .new hs (by decide)⟩
example : ∃ s', session cfg64 .complete exP 6 (exRoots.map Prod.fst) (Ser.fromStorage Sto.new) = .ok [0, 0, 136, 184] s' ∧
    s'.ptrs.past.length ≤ Nat.log2 s'.sto.vec.capacity + 2 := by
  obtain ⟨s', hr, _⟩ := exRun_new .complete
  exact ⟨s', hr, C72_logarithmic cfg64_ok exP_wf exP_accepted .new exRoots_valid (Or.inl ⟨_, hr⟩)⟩

-- C74
example := C74_calls cfg64_ok haP_wf haP_accepted haX_ok haRoots_valid

end SerRaw
