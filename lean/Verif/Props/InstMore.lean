import Verif.Props.InstStorage
import Verif.Props.InstSer
import Verif.Props.Nested
import Verif.Props.UserPanic
import Verif.Props.Caught
import Verif.Props.Cost
import Verif.Props.Batch
import Verif.Props.Ptr
import Verif.Props.Size
import Verif.Props.Mixed
import Verif.Props.Reused
import Verif.Props.AgreeEx
import Verif.Props.AnySerializer
/-
C11–C60, the remaining theorems applied to concrete data (the values of Props/SerEx.lean and the other example files).
-/
namespace SerRaw

-- C11: a push which uses all of the reserved capacity
example : ∃ s0 s, Sto.withCapacity cfg64 64 Sto.new = .ok () s0 ∧ Steps cfg64 s0 [⟨.pushSlice ⟨8, 8⟩ 8 (fun _ => some 1), some 0⟩] s ∧
    s.vec.pos = 64 ∧ s.vec.ptr = s0.vec.ptr ∧ s.vec.capacity = s0.vec.capacity ∧ s.w.calls = s0.w.calls := by
  obtain ⟨s0, h0, s, h1, hp⟩ : ∃ s0, Sto.withCapacity cfg64 64 Sto.new = .ok () s0 ∧
      ∃ s, (SOp.pushSlice ⟨8, 8⟩ 8 (fun _ => some 1)).run cfg64 s0 = .ok 0 s ∧ s.vec.pos = 64 := ⟨_, rfl, _, rfl, rfl⟩
  have hs : Steps cfg64 s0 ([] ++ [⟨.pushSlice ⟨8, 8⟩ 8 (fun _ => some 1), some 0⟩]) s :=
    .ok .nil (by cases h0; exact SOp.legal_of_legalB (by decide)) h1
  refine ⟨s0, s, h0, hs, hp, C11_no_realloc cfg64_ok (c := 64) (by decide) h0 hs ?_⟩
  intro e he
  simp only [List.nil_append, List.mem_cons, List.not_mem_nil, or_false] at he
  subst he
  exact ⟨_, _, _, _, rfl, by decide⟩

-- C12: the history of Props/StorageEx.lean before its `shrink_to_fit`: three allocator calls, at most 31 + 2 allowed; and one more push of 12 bytes
example : ∃ es s, Hist cfg64 es s ∧ es.length = 6 ∧ s.w.calls = 3 ∧ s.w.calls ≤ Nat.log2 cfg64.maxCapacity + 2 := by
  obtain ⟨r, hr, h1, h2, h3⟩ : ∃ r, runOps cfg64 (exOps.take 6) [] Sto.new = some r ∧ r.1.length = 6 ∧ r.2.w.calls = 3 ∧
      (r.1.all fun e => match e.op with | .shrinkToFit => false | _ => true) = true := ⟨_, rfl, rfl, rfl, rfl⟩
  have hh : Hist cfg64 r.1 r.2 := runOps_hist .new (by decide) hr
  refine ⟨r.1, r.2, hh, h1, h2, C12_log_growths cfg64_ok hh ?_⟩
  intro e he hc
  have := List.all_eq_true.1 h3 e he
  rw [hc] at this
  cases this
example {p : Nat} {s' : Sto} (hr : Sto.pushSlice cfg64 ⟨4, 4⟩ 3 (fun i => some (UInt8.ofNat (i + 7))) exH.2 = .ok p s') :
    s'.w.calls = 5 ∧ ∃ q, LeastPow2 60 q ∧ s'.vec.capacity = min cfg64.maxCapacity (max q cfg64.maxValueAlign) := by
  have h := C12_push_exact cfg64_ok exH_hist exPush_legal (by decide) (by decide) hr
  exact ⟨h.1.trans (by rw [exH_state.2.2.2]), h.2⟩

-- C20, C60, C39: 32 bytes copied from address 4096 to position 0, with an empty `Vec` at 4104
theorem exCopied : ∃ s : Ser, GReach cfg64 exP s.sto ∧ s.map = ⟨4096, 0⟩ ∧ s.sto.vec.pos = 32 := by
  have hl : (SOp.pushSlice ⟨32, 8⟩ 1 (fun _ => some 0)).Legal cfg64 Sto.new := SOp.legal_of_legalB (by decide)
  obtain ⟨t, h, hp⟩ : ∃ t, (SOp.pushSlice ⟨32, 8⟩ 1 (fun _ => some 0)).run cfg64 Sto.new = .ok 0 t ∧ t.vec.pos = 32 := ⟨_, rfl, rfl⟩
  exact ⟨⟨t, ⟨4096, 0⟩, Ptrs.new⟩, .op .new hl h, rfl, hp⟩

/-- Three `u64`s at 8192, owned through the pointer at 4104. -/
def exSlice : Slice := ⟨⟨8, 8⟩, 3, 8192, fun i => some (UInt8.ofNat i)⟩

theorem exSlice_ok : PushOK cfg64 exSlice.L exSlice.len exSlice.addr := ⟨by decide, ⟨3, rfl⟩, by decide, by decide⟩

theorem exTouch : TouchOK cfg64 ⟨4096, 32, 8⟩ 4104 8 := ⟨by decide, by decide, by decide, by decide⟩

example : ∃ s : Ser, s.sto.vec.pos = 32 ∧
    ((∃ o : Out Ser Nat, (∀ p s', o ≠ .ok p s') ∧ ∀ f, pushAndProcessSlice cfg64 .complete exSlice 4104 f s = o) ∨
    (∃ pos s1, (∀ f, pushAndProcessSlice cfg64 .complete exSlice 4104 f s = (do f; Ser.setMap s.map; pure pos : M Ser Nat) s1) ∧
      ∀ x, 8192 ≤ x → x < 8192 + 8 * 3 →
        s1.map.posForAddr x64 x s1 = .ok (pos + (x - 8192)) s1 ∧ pos + (x - 8192) < s1.sto.vec.pos ∧
        s1.sto.view (pos + (x - 8192)) = some (UInt8.ofNat (x - 8192)))) := by
  obtain ⟨s, hs, hm, hp⟩ := exCopied
  exact ⟨s, hp, C20_position_of_copy_reachable (C := cfg64) (sl := exSlice) (size := 32) (al := 8) cfg64_ok exP_wf exP_accepted (by decide) hs exSlice_ok
    (Or.inl (by decide)) fun _ => by
      rw [hm, hp]; exact ⟨exTouch, by decide, by decide, by decide, by decide⟩⟩
example : ∃ s : Ser, s.sto.vec.pos = 32 ∧
    ((∃ o : Out Ser Nat, (∀ p s', o ≠ .ok p s') ∧ ∀ f, pushAndProcessSlice cfg64 .ptrOffset exSlice 4104 f s = o) ∨
    (∃ pos s1, (∀ f, pushAndProcessSlice cfg64 .ptrOffset exSlice 4104 f s = (do f; Ser.setMap s.map; pure pos : M Ser Nat) s1) ∧
      ∀ x, 8192 ≤ x → x < 8192 + 8 * 3 →
        s1.map.posForAddr x64 x s1 = .ok (pos + (x - 8192)) s1 ∧ pos + (x - 8192) < s1.sto.vec.pos ∧
        s1.sto.view (pos + (x - 8192)) = some (UInt8.ofNat (x - 8192)))) := by
  obtain ⟨s, hs, hm, hp⟩ := exCopied
  exact ⟨s, hp, C60_position_of_copy (C := cfg64) (sl := exSlice) (size := 32) (al := 8) cfg64_ok exP_wf exP_accepted (by decide) hs exSlice_ok
    (Or.inl (by decide)) fun _ => by
      rw [hm, hp]; exact ⟨exTouch, by decide, by decide, by decide, by decide⟩⟩
example (o : Order) {off : VecOffsets} (hoff : vecOffsets 8 o 8 = some off) : ∃ (s : Ser) (t : Sto), s.sto.vec.pos = 32 ∧
    overwriteWith .complete (overwriteCapAndPtrForEmpty cfg64 .complete off 8 4104) s = .ok () { s with sto := t } := by
  obtain ⟨s, hs, hm, hp⟩ := exCopied
  obtain ⟨t, h, _⟩ := C39_empty_vec_reachable (C := cfg64) cfg64_ok exP_wf exP_accepted o (by decide) hoff hs (a := 4104) (by rw [hm]; decide) (by decide)
    (x := 8) (by rw [hm]; decide) (by rw [hp]; decide) (by decide) (by decide)
  exact ⟨s, t, hp, h⟩

-- C21
example (k : Kind) : RestoresMap (exUser.sc.run cfg64 k exUser.im) := C21_script k _ _

-- C45
example := C45_user_impls cfg64_ok .complete (t := Sto.new) .new (rs := [exUser]) (by intro r hr; cases List.mem_singleton.1 hr; exact exUser_ok)

-- C47, C49, C50, C53, C55: the example values on a storage of capacity 256, on a new one, in two sessions
theorem exRun_256 (k : Kind) : ∃ t0 s', Sto.withCapacity cfg64 256 Sto.new = .ok () t0 ∧ t0.vec.pos = 0 ∧ t0.vec.capacity = 256 ∧
    session cfg64 k exP 6 (exRoots.map Prod.fst) (Ser.fromStorage t0) = .ok [0, 0, 136, 184] s' ∧ s'.sto.vec.pos = 200 := by
  obtain ⟨t0, h0, h1, h2⟩ : ∃ t0, Sto.withCapacity cfg64 256 Sto.new = .ok () t0 ∧ t0.vec.pos = 0 ∧ t0.vec.capacity = 256 := ⟨_, rfl, rfl, rfl⟩
  have h : (session cfg64 k exP 6 (exRoots.map Prod.fst) (Ser.fromStorage t0)).result = some ([0, 0, 136, 184], 200, 2 ^ 20) := by
    cases h0; cases k <;> decide +kernel
  obtain ⟨s', h3, h4, _⟩ := Out.result_ok h
  exact ⟨t0, s', h0, h1, h2, h3, h4⟩
example (k : Kind) : ∃ t0 s', session cfg64 k exP 6 (exRoots.map Prod.fst) (Ser.fromStorage t0) = .ok [0, 0, 136, 184] s' ∧
    s'.sto.vec.capacity = t0.vec.capacity ∧ s'.sto.vec.ptr = t0.vec.ptr ∧ s'.sto.w.calls = t0.w.calls ∧ s'.sto.asPtr = t0.asPtr := by
  obtain ⟨t0, s', h0, hp, hc, hr, _⟩ := exRun_256 k
  obtain ⟨bs, hl, hf, hb⟩ := exAllBlocks
  have h0 : Reach cfg64 exP t0 := .withCapacity (by decide) h0
  have h := C47_presized cfg64_ok exP_wf exP_accepted h0 k exInputs hl hb (by rw [hf, hp, hc]; decide) hr
  exact ⟨t0, s', hr, h.1, h.2.1, h.2.2, C50_session_stable cfg64_ok exP_wf exP_accepted h0 exRoots_valid (Or.inl ⟨_, hr⟩) h.1⟩
example : Blocks x64 exP exIm 1 4096 (exNode.blocks exP 1) :=
  C49_blocks (C := cfg64) (fl := ⟨true, false⟩) cfg64_ok.arch exP_wf (exInputs (⟨exIm, 1, 4096⟩, exNode) (by simp [exRoots]))
example (k : Kind) : ∃ s', session cfg64 k exP 6 (exRoots.map Prod.fst) (Ser.fromStorage Sto.new) = .ok [0, 0, 136, 184] s' ∧
    0 + ((exRoots.flatMap fun x => x.2.blocks exP x.1.t).map fun x => x.bytes).sum ≤ s'.sto.vec.pos := by
  obtain ⟨s', hr, _⟩ := exRun_new k
  exact ⟨s', hr, (C49_overhead cfg64_ok exP_wf exP_accepted .new exInputs hr).1⟩
example (k : Kind) :=
  C55_success cfg64_ok cfg64_never exP_wf exP_accepted (t0 := Sto.new) .new k (rs1 := exRoots) (rs2 := exRoots) exInputs exInputs

-- C48, C53: the session of Props/Caught.lean with a caught panic
theorem exCaught_valid : ∀ r ∈ exCaughtRoots.map Prod.fst, Valid x64 exP r := by
  intro r hr
  obtain ⟨x, hx, rfl⟩ := List.mem_map.1 hr
  exact ⟨_, _, exCaughtInputs x hx⟩
example (k : Kind) := C48_caught_safe cfgTiny_ok exP_wf exP_accepted_tiny (t0 := Sto.new) .new k exCaught_valid
example : ∃ s' : Ser, ∀ j < (exP.layout 9).size, s'.sto.bytes (0 + j) = exCaughtRoots[0].1.im (exCaughtRoots[0].1.a + j) := by
  obtain ⟨s', hr, _⟩ := exCaught .posTracking
  exact ⟨s', (C48_caught_verbatim cfgTiny_ok exP_wf exP_accepted_tiny .new (Or.inr rfl) exCaughtInputs hr 0 _ _ 0 rfl rfl (by decide)).1⟩
example (k : Kind) : ∃ s' : Ser, s'.sto.vec.pos = 128 ∧
    ∀ xs, Blocks x64 exP exCaughtRoots[1].1.im exCaughtRoots[1].1.t exCaughtRoots[1].1.a xs → 128 < placeEnd 8 s'.sto.vec.pos xs := by
  obtain ⟨s', hr, hp, _⟩ := exCaught k
  exact ⟨s', hp, fun xs hb => (C48_caught_frame cfgTiny_ok exP_wf exP_accepted_tiny .new exCaughtInputs hr).2.2 1 _ xs rfl rfl hb⟩
example (k : Kind) : ∃ s' : Ser, s'.sto.vec.pos = 128 ∧ s'.sto.w.calls ≤ 0 + (Nat.log2 s'.sto.vec.capacity + 2) := by
  obtain ⟨s', hr, hp, _⟩ := exCaught k
  exact ⟨s', hp, (C53_caught_cost cfgTiny_ok exP_wf exP_accepted_tiny .new exCaught_valid hr).2.1⟩

-- C56: a call whose implementation panics, one which returns, one which panics
theorem exUserCalls_ok : ∀ r ∈ [exPanic, exReturns, exPanic], r.OK cfg64 := by
  intro r hr
  simp only [List.mem_cons, List.not_mem_nil, or_false] at hr
  rcases hr with rfl | rfl | rfl
  · exact exPanic_ok
  · exact exReturns_ok
  · exact exPanic_ok
example (k : Kind) := C56_safe cfg64_ok k (t := Sto.new) .new exUserCalls_ok
example (k : Kind) : ∃ s', userSessionCaught cfg64 k [exPanic, exReturns, exPanic] (Ser.fromStorage Sto.new) = .ok [none, some 64, none] s' ∧
    Intact cfg64 k 0 s' exReturns 64 := by
  obtain ⟨s', hr, _⟩ := exUserCaught k
  exact ⟨s', hr, (C56_completed cfg64_ok .new exUserCalls_ok hr).2.1 1 _ _ rfl rfl⟩

-- C59: the mixed session of Props/Mixed.lean
example (k : Kind) : ∃ s, Sess cfg64 k exP Sto.new exEvs s ∧ (∀ e ∈ exEvs, 0 ≤ e.lo ∧ e.lo ≤ e.hi ∧ e.hi ≤ s.sto.vec.pos) ∧
    exEvs.Pairwise fun e e' => e.hi ≤ e'.lo := by
  obtain ⟨s, hs, _⟩ := exSess k
  exact ⟨s, hs, C59_order cfg64_ok exP_wf exP_accepted .new hs⟩
example {s' : Ser} {s : Ser} (hs : Sess cfg64 .ptrOffset exP Sto.new exEvs s) (hf : finalize cfg64 .ptrOffset s = .ok () s') :
    Denotes x64 exP ⟨true, false⟩ s'.sto.bytes 1 8 exNode :=
  C59_offset cfg64_ok exP_wf exP_accepted .new hs hf ⟨.typed ⟨exIm, 1, 4096⟩, some 8, 8, 144⟩ (by simp [exEvs]) _ _ rfl rfl ⟨true, false⟩ _
    (exInputs (⟨exIm, 1, 4096⟩, exNode) (by simp [exRoots]))
example {s' : Ser} {s : Ser} (hs : Sess cfg64 .pureCopy exP Sto.new exEvs s) (hf : finalize cfg64 .pureCopy s = .ok () s') :
    ∃ n, seqRoots x64 exP 8 s'.sto.bytes n [1] 8 = some ([exNode], 144) :=
  C59_in_order cfg64_ok exP_wf exP_accepted .new (Or.inl rfl) hs hf ⟨.typed ⟨exIm, 1, 4096⟩, some 8, 8, 144⟩ (by simp [exEvs]) _ _ rfl rfl ⟨true, false⟩ _
    (exInputs (⟨exIm, 1, 4096⟩, exNode) (by simp [exRoots]))
/-- A second mixed session on the storage of the first one: the 304 bytes before it stay, but for the eight it writes at 0. -/
example (k : Kind) {s1 s s' : Ser} (hs1 : Sess cfg64 k exP Sto.new exEvs s1) {es : List Ev} (hs : Sess cfg64 .pureCopy exP s1.sto es s)
    (hf : finalize cfg64 .pureCopy s = .ok () s') : ∀ i < s1.sto.vec.pos, (∀ e ∈ es, ¬ e.Writes i) → s'.sto.bytes i = s1.sto.bytes i :=
  (C59_before cfg64_ok exP_wf exP_accepted (.dropped .new hs1) hs hf).2

-- C60: storage calls after the mixed session
example (k : Kind) : ∃ s : Sto, s.vec.pos = 304 ∧ 16 ∣ s.vec.capacity ∧ 8 ∣ s.vec.pos ∧
    (∃ s', Sto.reserve cfg64 1000 s = .ok () s' ∧ 1304 ≤ s'.vec.capacity) ∧
    (∃ s', Sto.shrinkToFit cfg64 s = .ok () s' ∧ 304 ≤ s'.vec.capacity ∧ ∀ m, 16 ∣ m → 304 ≤ m → s'.vec.capacity ≤ m) ∧
    (∃ s', Sto.writeSlice cfg64 8 ⟨8, 8⟩ 1 (fun _ => some 1) s = .ok () s' ∧ ∀ i < 8, s'.w.load (s'.vec.ptr + (8 + i)) = some 1) ∧
    (∃ v, Sto.read cfg64 8 ⟨8, 8⟩ s = .ok v s) ∧
    (∃ s', Sto.pushEmptySlice cfg64 ⟨8, 8⟩ 5 s = .ok 304 s') := by
  obtain ⟨s, hs, hp, _⟩ := exSess k
  have hg : GReach cfg64 exP s.sto := .dropped .new hs
  have hc := C60_consistent cfg64_ok exP_wf exP_accepted hg
  have hpos : 0 < s.sto.vec.capacity := by have := hc.1; omega
  refine ⟨s.sto, hp, hc.2.2.1, hc.2.2.2.1, ?_, ?_, ?_, ?_, ?_⟩
  · rcases (C60_reserve cfg64_ok exP_wf exP_accepted hg 1000).2 (by rw [hp]; decide) with ⟨s', h1, h2, _⟩ | ⟨_, h⟩
    · exact ⟨s', h1, by omega⟩
    · exact absurd cfg64_never h
  · rcases C60_shrink cfg64_ok exP_wf exP_accepted hg with ⟨s', h1, _, _, h2, _, h3, _⟩ | ⟨_, h⟩
    · exact ⟨s', h1, by omega, fun m hm hm' => h3 m hm (by omega)⟩
    · exact absurd cfg64_never h
  · obtain ⟨s', h1, _, h2, _⟩ := C60_write cfg64_ok exP_wf exP_accepted hg (p := 8) (L := ⟨8, 8⟩) (len := 1) (data := fun _ => some 1)
      ⟨⟨⟨3, rfl⟩, by decide⟩, by have := hc.1; simp only; omega, by decide, Or.inr ⟨by decide, Or.inl hpos⟩⟩
    exact ⟨s', h1, fun i hi => h2 i hi⟩
  · obtain ⟨v, h, _⟩ := C60_read cfg64_ok exP_wf exP_accepted hg (p := 8) (L := ⟨8, 8⟩) ⟨⟨3, rfl⟩, by decide⟩ (by rw [hp]; decide) (by decide) (by decide)
      (Or.inl (by decide))
    exact ⟨v, h⟩
  · have hq : 8 ∣ 304 ∧ s.sto.vec.pos ≤ 304 ∧ ∀ m, 8 ∣ m → s.sto.vec.pos ≤ m → 304 ≤ m := ⟨by decide, by omega, fun m _ hm => by omega⟩
    rcases (C60_push_empty cfg64_ok exP_wf exP_accepted hg (L := ⟨8, 8⟩) (len := 5) (q := 304) ⟨⟨⟨3, rfl⟩, by decide⟩, by decide, by decide⟩ (by decide) (by decide) hq).2 (by decide)
      with ⟨s', h, _⟩ | ⟨_, h⟩
    · exact ⟨s', h⟩
    · exact absurd cfg64_never h
example (k : Kind) {s : Ser} (hs : Sess cfg64 k exP Sto.new exEvs s) :=
  C60_no_ub (s := s.sto) (op := .reserve 1000) cfg64_ok exP_wf exP_accepted (.dropped .new hs) (show 1000 < 2 ^ 64 by decide)

end SerRaw
