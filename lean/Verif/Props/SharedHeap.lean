import Verif.Lemmas.SharedHeap
import Verif.Props.UserPanic
/-
C78: any number of storages and serializers, of any types, that allocate from one heap among the allocations of the rest of the program.
-/
namespace SerRaw

section
variable {C : Nat → Cfg} {P : Prog} (hC : ∀ i, (C i).OK) (hP : ∀ i, P.WF (C i).arch) (hacc : ∀ i, P.Accepted (C i))
include hC hP hacc

/-- C78. Whatever the others do, each storage and serializer is in a state, with contents, that it could also have reached on its own, with an
allocator of its own, by the same recorded uses. -/
theorem C78_alone {H : Shared} (h : SharedReach C P H) (i : Nat) :
    ∃ o t, ((C i).withAlloc o).OK ∧ (H.owners i).Alone ((C i).withAlloc o) P t ∧
      (H.sto (H.owners i).vec).buffer = t.buffer ∧ (H.sto (H.owners i).vec).bytes = t.bytes := by
  have hg := h.good hC hP hacc
  obtain ⟨o, t, hok, hal, hm⟩ := hg.alone i
  exact ⟨o, t, hok, hal, hg.contents hC hP hacc hok hal hm⟩

/-- C78. Live blocks never overlap; a storage that owns memory owns exactly one of them, of its capacity and alignment; and no two storages own
the same. -/
theorem C78_owned {H : Shared} (h : SharedReach C P H) :
    H.live.Pairwise Block.Apart ∧
    (∀ i, 0 < (H.owners i).vec.capacity → ∃ b ∈ H.live, (H.owners i).Owns b ∧ b.size = (H.owners i).vec.capacity ∧ b.align = (C i).storageAlign ∧
      ∀ c ∈ H.live, (H.owners i).Owns c → c = b) ∧
    ∀ i j b, (H.owners i).Owns b → (H.owners j).Owns b → i = j := by
  have hg := h.good hC hP hacc
  refine ⟨hg.apart, fun i h0 => ?_, fun i j b h1 h2 => ?_⟩
  · obtain ⟨d, hb⟩ := hg.block hC hP hacc h0
    refine ⟨_, hb, ⟨h0, rfl⟩, rfl, rfl, fun c hc ho => ?_⟩
    by_contra hne
    have hap : Block.Apart c ⟨(H.owners i).vec.ptr, (H.owners i).vec.capacity, (C i).storageAlign, d⟩ := by
      obtain ⟨l1, l2, e⟩ := List.append_of_mem hb
      have hp := hg.apart
      rw [e, List.pairwise_append, List.pairwise_cons] at hp
      rw [e] at hc
      rcases List.mem_append.1 hc with hc | hc
      · exact hp.2.2 c hc _ List.mem_cons_self
      · rcases List.mem_cons.1 hc with hc | hc
        · exact absurd hc hne
        · exact (hp.2.1.1 c hc).symm
    exact hap.addr (hg.size c hc) h0 ho.2
  · by_contra hne
    exact hg.distinct i j hne h1.1 h2.1 (h1.2.symm.trans h2.2)

/-- C78. A call on one storage or serializer leaves everything else alone: the other variables, and all blocks that are not its own (their
contents too); and what it allocates and keeps is its own: nothing leaks. -/
theorem C78_untouched {H H' : Shared} (h : SharedReach C P H) {i : Nat} (hs : Shared.Step C P (some i) H H') :
    (∀ j, j ≠ i → H'.owners j = H.owners j) ∧
    ∀ b, (b ∈ H'.live ∧ ¬ (H'.owners i).Owns b) ↔ (b ∈ H.live ∧ ¬ (H.owners i).Owns b) := by
  have hg := h.good hC hP hacc
  have hm := hg.move hC hP hacc hs
  refine ⟨fun j hj => ?_, hm.others hC hP hacc hg.size⟩
  obtain ⟨w, live, F, o, t, rfl, _⟩ := hm
  exact if_neg hj

/-- C78. So a storage and its contents stay as they are, however long only others (or the rest of the program) are active. -/
theorem C78_keeps {H H' : Shared} (h : SharedReach C P H) {i : Nat} {x : Option Nat} (hx : x ≠ some i) (hs : Shared.Step C P x H H') :
    H'.owners i = H.owners i ∧ (H'.sto (H'.owners i).vec).buffer = (H.sto (H.owners i).vec).buffer ∧
      (H'.sto (H'.owners i).vec).bytes = (H.sto (H.owners i).vec).bytes := by
  have hg := h.good hC hP hacc
  have hg' := (h.step hs).good hC hP hacc
  have e : H'.owners i = H.owners i := by
    cases x with
    | none => cases hs; rfl
    | some j => exact (C78_untouched hC hP hacc h hs).1 i fun he => hx (by rw [he])
  refine ⟨e, ?_⟩
  rw [e]
  have hp : (H.owners i).vec.pos ≤ (H.owners i).vec.capacity := by
    obtain ⟨o, t, hok, hal, _⟩ := hg.alone i
    obtain ⟨hI, hv⟩ := hal.inv hok (hP i) (hacc i)
    rw [← hv]; exact hI.pos_le
  refine buffer_congr rfl hp fun n hn => ?_
  obtain ⟨d, hb⟩ := hg.block hC hP hacc (show 0 < (H.owners i).vec.capacity by have : n < (H.owners i).vec.capacity := hn; omega)
  have ho : (H.owners i).Owns ⟨(H.owners i).vec.ptr, (H.owners i).vec.capacity, (C i).storageAlign, d⟩ :=
    ⟨by have : n < (H.owners i).vec.capacity := hn; omega, rfl⟩
  have hb' : (⟨(H.owners i).vec.ptr, (H.owners i).vec.capacity, (C i).storageAlign, d⟩ : Block) ∈ H'.live := by
    cases x with
    | none =>
      cases hs with
      | other _ _ h3 => exact h3 i _ hb ho
    | some j =>
      refine (((C78_untouched hC hP hacc h hs).2 _).2 ⟨hb, fun hj => hx ?_⟩).1
      rw [(C78_owned hC hP hacc h).2.2 i j _ ho hj]
  have hc : (⟨(H.owners i).vec.ptr, (H.owners i).vec.capacity, (C i).storageAlign, d⟩ : Block).contains ((H.owners i).vec.ptr + n) 1 = true := by
    have : n < (H.owners i).vec.capacity := hn
    simp only [Block.contains, Bool.and_eq_true, decide_eq_true_eq]; omega
  exact (load_of_mem (n := 0) hg'.apart hb' hc).trans (load_of_mem (n := 0) hg.apart hb hc).symm

/-- C78. A permitted storage method does, on the shared heap, what it would do alone: the same result, fields, panic or abort — and never undefined
behaviour. -/
theorem C78_op {H : Shared} (h : SharedReach C P H) {i : Nat} {v : AVec} (hv : H.owners i = .storage v) {a : SOp} (hl : a.Legal (C i) (H.sto v))
    {o : Oracle} (ho : H.Answers C i o) :
    ∃ o' t, ((C i).withAlloc o').OK ∧ GReach ((C i).withAlloc o') P t ∧ t.vec = v ∧
      SameOutcome Sto.vec (a.run ((C i).withAlloc o) (H.sto v)) (a.run ((C i).withAlloc o') t) := by
  obtain ⟨F, o', t, hok, hal, hF, ham, ha⟩ := (h.good hC hP hacc).ready hC hP hacc (i := i) ho.1
  rw [hv] at hal ham
  refine ⟨o', t, hok, hal.1, hal.2, iso_same (iso_sop (C := (C i).withAlloc o) (o' := o') (F := F) ?_ a) ham ha ?_ fun _ _ h => h.vec⟩
  · exact fun n L h0 f hf => ho.2 n L h0 f ((hF f).1 hf).1 ((hF f).1 hf).2
  · intro hu
    have := step_sat hok (hal.1.inv hok (hP i) (hacc i)) (sop_legal_alloc (o := o') hl (t' := t) hal.2)
    have hu : a.run ((C i).withAlloc o') t = .ub := hu
    rw [hu] at this
    exact this

/-- C78. The same for anything done with a serializer: values, hand-written implementations that return or panic, direct use of its storage. -/
theorem C78_act {H : Shared} (h : SharedReach C P H) {i : Nat} {k : Kind} {v : AVec} {m : PosMapping} {p : Ptrs} {es : List Ev}
    (hv : H.owners i = .serializer k v m p es) {a : Act} (hl : a.Legal (C i) P es ⟨H.sto v, m, p⟩) {o : Oracle} (ho : H.Answers C i o) (fuel : Nat) :
    ∃ o' t0 t, ((C i).withAlloc o').OK ∧ GReach ((C i).withAlloc o') P t0 ∧ Sess ((C i).withAlloc o') k P t0 es ⟨t, m, p⟩ ∧ t.vec = v ∧
      SameOutcome (fun s : Ser => (s.sto.vec, s.map, s.ptrs)) (M.caught (a.run ((C i).withAlloc o) k P fuel) ⟨H.sto v, m, p⟩)
        (M.caught (a.run ((C i).withAlloc o') k P fuel) ⟨t, m, p⟩) := by
  obtain ⟨F, o', t, hok, hal, hF, ham, ha⟩ := (h.good hC hP hacc).ready hC hP hacc (i := i) ho.1
  rw [hv] at hal ham
  obtain ⟨hv', t0, hg, hs⟩ := hal
  refine ⟨o', t0, t, hok, hg, hs, hv', iso_same (iso_caught (iso_act (C := (C i).withAlloc o) (o' := o') (F := F) ?_ fuel a))
    (show SerAmong F ⟨H.sto v, m, p⟩ ⟨t, m, p⟩ from ⟨ham, rfl, rfl⟩) ha ?_ fun _ _ h => by simp only [h.sto.vec, h.map, h.ptrs]⟩
  · exact fun n L h0 f hf => ho.2 n L h0 f ((hF f).1 hf).1 ((hF f).1 hf).2
  · exact (((C59_safe hok (hP i) (hacc i) hg hs).1 a (act_legal_alloc hl hv')).1 fuel).1

/-- C78. `with_capacity` never has undefined behaviour on a shared heap; `drop` and `finalize` always return. -/
theorem C78_safe {H : Shared} (h : SharedReach C P H) (i : Nat) :
    (H.owners i = .absent → ∀ c, ∀ o, H.Answers C i o → Sto.withCapacity ((C i).withAlloc o) c (H.sto Sto.newVec) ≠ .ub) ∧
    (∀ v, H.owners i = .storage v → ∃ s, Sto.drop (C i) (H.sto v) = .ok () s) ∧
    ∀ k v m p es, H.owners i = .serializer k v m p es → ∃ s, finalize (C i) k ⟨H.sto v, m, p⟩ = .ok () s ∧ s.sto.vec = v := by
  have hg := h.good hC hP hacc
  refine ⟨fun hv c o ho => ?_, fun v hv => ?_, fun k v m p es hv => ?_⟩
  · obtain ⟨F, o', t, hok, hal, hF, ham, ha⟩ := hg.ready hC hP hacc (i := i) ho.1
    rw [hv] at hal ham
    obtain rfl : t = Sto.new := hal
    have hu : Sto.withCapacity ((C i).withAlloc o') c Sto.new ≠ .ub := fun hu => by
      have := withCapacity_sat hok c; rw [hu] at this; exact this
    have := iso_same (iso_withCapacity (C := (C i).withAlloc o) (o' := o') (F := F)
      (fun n L h0 f hf => ho.2 n L h0 f ((hF f).1 hf).1 ((hF f).1 hf).2) c) ham ha hu (f := Sto.vec) fun _ _ h => h.vec
    intro he
    rw [show Sto.withCapacity ((C i).withAlloc o) c (H.sto Owner.absent.vec) = .ub from he] at this
    exact this
  · obtain ⟨F, o', t, hok, hal, hF, ham, ha⟩ := hg.ready hC hP hacc (i := i) (hC i).alloc
    rw [hv] at hal ham
    obtain ⟨t', e, hl⟩ := C60_drop hok (hP i) (hacc i) hal.1
    have := iso_same (iso_drop (C := C i) (o' := o') (F := F)) ham ha (by rw [e]; simp) (f := Sto.vec) fun _ _ h => h.vec
    rw [e] at this
    cases hd : Sto.drop (C i) (H.sto v) with
    | ok u s => exact ⟨s, rfl⟩
    | _ => rw [show Sto.drop (C i) (H.sto (Owner.storage v).vec) = _ from hd] at this; exact this.elim
  · obtain ⟨F, o', t, hok, hal, hF, ham, ha⟩ := hg.ready hC hP hacc (i := i) (hC i).alloc
    rw [hv] at hal ham
    obtain ⟨hv', t0, hg0, hs⟩ := hal
    obtain ⟨t', e, he⟩ := (C59_safe hok (hP i) (hacc i) hg0 hs).2
    have := iso_same (iso_finalize (k := k) (C := C i) (o' := o') (F := F)) (show SerAmong F ⟨H.sto v, m, p⟩ ⟨t, m, p⟩ from ⟨ham, rfl, rfl⟩) ha
      (by rw [e]; simp) (f := fun s => s.sto.vec) fun _ _ h => h.sto.vec
    rw [e] at this
    cases hd : finalize (C i) k ⟨H.sto v, m, p⟩ with
    | ok u s => rw [hd] at this; exact ⟨s, rfl, this.2.trans (he.trans hv')⟩
    | _ => rw [hd] at this; exact this.elim

/-- C78, C59 on a shared heap: after `finalize`, each value whose call returned a position is in the final buffer of a `CompleteSerializer` at that
position, whatever other storages and serializers did in between. -/
theorem C78_complete {H : Shared} (h : SharedReach C P H) {i : Nat} {v : AVec} {m : PosMapping} {p : Ptrs} {es : List Ev}
    (hv : H.owners i = .serializer .complete v m p es) {s : Ser} (hf : finalize (C i) .complete ⟨H.sto v, m, p⟩ = .ok () s) :
    ∀ e ∈ es, ∀ r q, e.act = .typed r → e.res = some q → ∀ fl x, Denotes (C i).arch P fl r.im r.t r.a x →
      ((P.layout r.t).size ≠ 0 ∨ (P.layout r.t).align ∣ s.sto.vec.ptr) →
      Denotes (C i).arch P ⟨fl.canon, true⟩ s.sto.buffer r.t (s.sto.vec.ptr + q) x := by
  obtain ⟨F, o', t, hok, hal, hF, ham, ha⟩ := (h.good hC hP hacc).ready hC hP hacc (i := i) (hC i).alloc
  rw [hv] at hal ham
  obtain ⟨hv', t0, hg0, hs⟩ := hal
  obtain ⟨t', e1, he⟩ := (C59_safe hok (hP i) (hacc i) hg0 hs).2
  obtain ⟨t2, h1, h2, _⟩ := iso_ok (iso_finalize (k := .complete) (C := C i) (o' := o')) (show SerAmong F ⟨H.sto v, m, p⟩ ⟨t, m, p⟩ from ⟨ham, rfl, rfl⟩) hf
    (fun n _ => ha n) (by rw [e1]; simp)
  have hinv := (GReach.finished hg0 hs h1).inv hok (hP i) (hacc i)
  have hb : s.sto.buffer = t2.sto.buffer := by
    refine (buffer_congr h2.sto.vec hinv.pos_le fun n hn => ?_).1
    refine h2.sto.load (n := t2.sto.vec.capacity) ?_ hn
    rcases hinv.mem with ⟨h3, _, _⟩ | ⟨_, _, _, _, d, e⟩
    · omega
    · rw [e]; simp [Block.contains]
  have := C59_complete hok (hP i) (hacc i) hg0 hs h1
  rw [← hb, ← h2.sto.vec] at this
  exact fun e he r q hr hq fl x hx hz => (this e he r q hr hq fl x hx hz).1

end

/-! ### Two variables -/

/-- An allocator that answers `a`, if it can. -/
def answerAt (a : Nat) : Oracle := fun _ L => if a % L.align = 0 ∧ L.size ≤ 2 ^ 16 then a else 0

/-- The address space from `a` on is free, except for the block of `i` (decided). -/
def Shared.freeAt (H : Shared) (i a : Nat) : Bool :=
  decide (a + 2 ^ 16 < 2 ^ 64) && H.live.all fun b => (decide (0 < (H.owners i).vec.capacity) && b.addr == (H.owners i).vec.ptr) ||
    decide (b.addr + b.size ≤ a) || decide (a + 2 ^ 16 ≤ b.addr)

theorem Shared.freeAt_ok {H : Shared} {i a : Nat} (h : H.freeAt i a = true) : H.Answers (fun _ => cfg64) i (answerAt a) := by
  simp only [Shared.freeAt, Bool.and_eq_true, List.all_eq_true, Bool.or_eq_true, decide_eq_true_eq, beq_iff_eq] at h
  constructor
  · intro n L h0
    show answerAt a n L % L.align = 0 ∧ answerAt a n L + L.size < 2 ^ 64
    replace h0 : answerAt a n L ≠ 0 := h0
    unfold answerAt at h0 ⊢
    split at h0
    · rename_i hc
      rw [if_pos hc]
      exact ⟨hc.1, by have := h.1; have := hc.2; omega⟩
    · exact absurd rfl h0
  · intro n L h0 b hb ho
    have := h.2 b hb
    unfold answerAt at h0 ⊢
    split at h0
    · rename_i hc
      rw [if_pos hc]
      rcases this with (h1 | h1) | h1
      · exact absurd h1 ho
      · exact .inr h1
      · left; show a + L.size ≤ b.addr; have := hc.2; omega
    · exact absurd rfl h0

/-- A serializer's next call. -/
def Shared.doAct (H : Shared) (i a0 : Nat) (a : Act) : Option Shared :=
  match H.owners i with
  | .serializer k v m p es =>
    match M.caught (a.run (cfg64.withAlloc (answerAt a0)) k exP 6) ⟨H.sto v, m, p⟩ with
    | .ok r s => some (H.put i (.serializer k s.sto.vec s.map s.ptrs (es ++ [⟨a, r, v.pos, s.sto.vec.pos⟩])) s.sto.w.live)
    | _ => none
  | _ => none

/-- A storage's next call. -/
def Shared.doOp (H : Shared) (i a0 : Nat) (a : SOp) : Option Shared :=
  match H.owners i with
  | .storage v =>
    match M.caught (a.run (cfg64.withAlloc (answerAt a0))) (H.sto v) with
    | .ok _ s => some (H.put i (.storage s.vec) s.w.live)
    | _ => none
  | _ => none

theorem Shared.doAct_step {H H' : Shared} {i a0 : Nat} {a : Act} (h : H.doAct i a0 a = some H') (hf : H.freeAt i a0 = true)
    (hl : ∀ k v m p es, H.owners i = .serializer k v m p es → a.Legal cfg64 exP es ⟨H.sto v, m, p⟩) :
    Shared.Step (fun _ => cfg64) exP (some i) H H' := by
  unfold Shared.doAct at h
  split at h
  · rename_i k v m p es hw
    split at h
    · rename_i r s hr
      cases h
      exact .act hw (hl _ _ _ _ _ hw) (Shared.freeAt_ok hf) hr
    · cases h
  · cases h

theorem Shared.doOp_step {H H' : Shared} {i a0 : Nat} {a : SOp} (h : H.doOp i a0 a = some H') (hf : H.freeAt i a0 = true)
    (hl : ∀ v, a.Legal cfg64 (H.sto v)) : Shared.Step (fun _ => cfg64) exP (some i) H H' := by
  unfold Shared.doOp at h
  split at h
  · rename_i v hw
    split at h
    · rename_i r s hr
      cases h
      exact .op hw (hl v) (Shared.freeAt_ok hf) hr
    · cases h
  · cases h

/-- A serializer `0` and a storage `1`, on a heap with a block of something else. -/
def exShared0 : Shared :=
  ⟨fun i => if i = 1 then .storage Sto.newVec else if i = 0 then .serializer .complete Sto.newVec PosMapping.dummy Ptrs.new [] else .absent,
   [⟨100, 50, 4, fun _ => some 1⟩]⟩

/-- The node to the serializer, bytes to the storage, and both again: both buffers move. -/
def exShared1 : Option Shared := exShared0.doAct 0 (2 ^ 20) (.typed ⟨exIm, 1, 4096⟩)
def exShared2 : Option Shared := exShared1.bind fun H => H.doOp 1 (2 ^ 21) (.pushSlice ⟨8, 8⟩ 2 fun _ => some 7)
def exShared3 : Option Shared := exShared2.bind fun H => H.doAct 0 (2 ^ 22) (.typed ⟨exIm, 1, 4096⟩)
def exShared4 : Option Shared := exShared3.bind fun H => H.doOp 1 (2 ^ 20) (.pushSlice ⟨8, 8⟩ 4 fun _ => some 8)

theorem exShared0_reach : SharedReach (fun _ => cfg64) exP exShared0 := by
  have r0 : SharedReach (fun _ => cfg64) exP ⟨fun _ => .absent, [⟨100, 50, 4, fun _ => some 1⟩]⟩ :=
    .start (by intro b hb; rw [List.mem_singleton.1 hb]; decide) (List.pairwise_singleton _ _)
  have r1 := (r0.step (.new (i := 0) rfl)).step (.from (i := 0) (v := Sto.newVec) (k := .complete) rfl)
  have r2 := r1.step (.new (i := 1) rfl)
  have : exShared0 = (((Shared.put ⟨fun _ => .absent, [⟨100, 50, 4, fun _ => some 1⟩]⟩ 0 (.storage Sto.newVec) [⟨100, 50, 4, fun _ => some 1⟩]).put 0
      (.serializer .complete Sto.newVec PosMapping.dummy Ptrs.new []) [⟨100, 50, 4, fun _ => some 1⟩]).put 1 (.storage Sto.newVec) [⟨100, 50, 4, fun _ => some 1⟩]) := by
    unfold exShared0 Shared.put
    congr 1
    funext j
    by_cases h1 : j = 1
    · simp [h1]
    · by_cases h0 : j = 0 <;> simp [h0, h1]
  rw [this]
  exact r2

/-- What was done with a serializer, and its kind. -/
def Shared.log (H : Shared) (i : Nat) : Option (Kind × List Ev) :=
  match H.owners i with
  | .serializer k _ _ _ es => some (k, es)
  | _ => none

theorem Shared.doAct_log {H H' : Shared} {i a0 : Nat} {a : Act} (h : H.doAct i a0 a = some H') :
    ∃ k es e, H.log i = some (k, es) ∧ H'.log i = some (k, es ++ [e]) ∧ e.act = a := by
  unfold Shared.doAct at h
  split at h
  · rename_i k v m p es hw
    split at h
    · rename_i r s hr
      cases h
      refine ⟨k, es, ⟨a, r, v.pos, s.sto.vec.pos⟩, by unfold Shared.log; rw [hw], ?_, rfl⟩
      unfold Shared.log Shared.put
      simp
    · cases h
  · cases h

theorem Shared.doOp_log {H H' : Shared} {i j a0 : Nat} {a : SOp} (h : H.doOp i a0 a = some H') (hj : j ≠ i) : H'.log j = H.log j := by
  unfold Shared.doOp at h
  split at h
  · split at h
    · cases h
      unfold Shared.log Shared.put
      simp [hj]
    · cases h
  · cases h

/-- The program runs: the serializer's buffer is where it moved while it processed the second node, the storage's is where the serializer's was. -/
theorem exShared_reach : ∃ H, exShared4 = some H ∧ SharedReach (fun _ => cfg64) exP H ∧
    (H.owners 0).vec = ⟨2 ^ 22, 512, 272⟩ ∧ (H.owners 1).vec = ⟨2 ^ 20, 64, 48⟩ ∧ H.live.map (·.addr) = [2 ^ 20, 2 ^ 22, 100] := by
  have e8 : Layout.OK ⟨8, 8⟩ := ⟨⟨3, rfl⟩, by decide⟩
  have hv : Valid cfg64.arch exP ⟨exIm, 1, 4096⟩ := ⟨⟨true, false⟩, exNode, exInputs (⟨exIm, 1, 4096⟩, exNode) (by simp [exRoots])⟩
  have f0 : exShared0.freeAt 0 (2 ^ 20) = true := by decide +kernel
  have f1 : exShared1.all (·.freeAt 1 (2 ^ 21)) = true := by decide +kernel
  have f2 : exShared2.all (·.freeAt 0 (2 ^ 22)) = true := by decide +kernel
  have f3 : exShared3.all (·.freeAt 1 (2 ^ 20)) = true := by decide +kernel
  have f4 : exShared4.map (fun H => ((H.owners 0).vec, (H.owners 1).vec, H.live.map (·.addr))) =
      some (⟨2 ^ 22, 512, 272⟩, ⟨2 ^ 20, 64, 48⟩, [2 ^ 20, 2 ^ 22, 100]) := by decide +kernel
  obtain ⟨H4, e4, h4⟩ := Option.map_eq_some_iff.1 f4
  obtain ⟨H3, e3, d4⟩ := Option.bind_eq_some_iff.1 e4
  obtain ⟨H2, e2, d3⟩ := Option.bind_eq_some_iff.1 e3
  obtain ⟨H1, e1, d2⟩ := Option.bind_eq_some_iff.1 e2
  rw [e1] at f1
  rw [e2] at f2
  rw [e3] at f3
  have r1 := exShared0_reach.step (Shared.doAct_step e1 f0 fun _ _ _ _ _ _ => hv)
  have r2 := r1.step (Shared.doOp_step d2 f1 fun v => ⟨e8, fun _ => rfl, by decide, .inr (.inl (by decide))⟩)
  have r3 := r2.step (Shared.doAct_step d3 f2 fun _ _ _ _ _ _ => hv)
  have r4 := r3.step (Shared.doOp_step d4 f3 fun v => ⟨e8, fun _ => rfl, by decide, .inr (.inl (by decide))⟩)
  simp only [Prod.mk.injEq] at h4
  exact ⟨H4, e4, r4, h4⟩

/-- C78 applies: after `finalize`, the second node is read from the final buffer, at 2²² + 136; the storage in between has 48 bytes of its own, and
the block of the rest of the program is untouched. -/
example : ∃ (H : Shared) (s : Ser), SharedReach (fun _ => cfg64) exP H ∧ (H.owners 1).vec = ⟨2 ^ 20, 64, 48⟩ ∧
    Shared.Step (fun _ => cfg64) exP (some 0) H (H.put 0 (.storage s.sto.vec) s.sto.w.live) ∧
    Denotes x64 exP ⟨true, true⟩ s.sto.buffer 1 (2 ^ 22 + 136) exNode ∧
    (∃ b ∈ (H.put 0 (.storage s.sto.vec) s.sto.w.live).live, b.addr = 100 ∧ b.size = 50) := by
  have hC : ∀ i : Nat, ((fun _ => cfg64) i : Cfg).OK := fun _ => cfg64_ok
  obtain ⟨H, e4, hr, h0, h1, h2⟩ := exShared_reach
  have hres : exShared4.map (fun H => (H.log 0).map fun x => x.2.map (·.res)) = some (some [some 0, some 136]) := by decide +kernel
  obtain ⟨H3, e3, d4⟩ := Option.bind_eq_some_iff.1 e4
  obtain ⟨H2, e2, d3⟩ := Option.bind_eq_some_iff.1 e3
  obtain ⟨H1, e1, d2⟩ := Option.bind_eq_some_iff.1 e2
  obtain ⟨k, es, a1, l1, l2, hx⟩ := Shared.doAct_log d3
  obtain ⟨k', es', a2, l1', l2', hx'⟩ := Shared.doAct_log e1
  rw [Shared.doOp_log d2 (by decide), l2'] at l1
  have lk : exShared0.log 0 = some (.complete, []) := rfl
  rw [l1'] at lk
  cases lk
  cases l1
  have l4 : H.log 0 = some (.complete, [a2] ++ [a1]) := by rw [Shared.doOp_log d4 (by decide), l2]; rfl
  rw [e4, Option.map_some, l4] at hres
  simp only [Option.map_some, Option.some.injEq, List.map_append, List.map_cons, List.map_nil, List.cons_append, List.nil_append, List.cons.injEq] at hres
  obtain ⟨v, m, p, hw⟩ : ∃ v m p, H.owners 0 = .serializer .complete v m p ([a2] ++ [a1]) := by
    unfold Shared.log at l4
    split at l4
    · rename_i k v m p es hw
      cases l4
      exact ⟨v, m, p, hw⟩
    · cases l4
  obtain ⟨s, hf, hv⟩ := (C78_safe hC (fun _ => exP_wf) (fun _ => exP_accepted) hr 0).2.2 _ _ _ _ _ hw
  have hst : Shared.Step (fun _ => cfg64) exP (some 0) H (H.put 0 (.storage s.sto.vec) s.sto.w.live) := .finalize hw hf
  refine ⟨H, s, hr, h1, hst, ?_, ?_⟩
  · have hd : Denotes cfg64.arch exP ⟨true, false⟩ exIm 1 4096 exNode := exInputs (⟨exIm, 1, 4096⟩, exNode) (by simp [exRoots])
    have := C78_complete hC (fun _ => exP_wf) (fun _ => exP_accepted) hr hw hf a1 (by simp) ⟨exIm, 1, 4096⟩ 136 hx hres.2.1 ⟨true, false⟩ exNode hd (.inl (by decide))
    rw [hw] at h0
    have h0 : v = ⟨2 ^ 22, 512, 272⟩ := h0
    rw [hv, h0] at this
    exact this
  · have hmem : ∃ b ∈ H.live, b.addr = 100 ∧ b.size = 50 := by
      have h3 : exShared4.map (fun H => H.live.map fun b => (b.addr, b.size)) = some [(2 ^ 20, 64), (2 ^ 22, 512), (100, 50)] := by decide +kernel
      rw [e4, Option.map_some, Option.some.injEq] at h3
      have : (100, 50) ∈ H.live.map fun b => (b.addr, b.size) := by rw [h3]; simp
      obtain ⟨b, hb, e⟩ := List.mem_map.1 this
      simp only [Prod.mk.injEq] at e
      exact ⟨b, hb, e⟩
    obtain ⟨b, hb, hb1, hb2⟩ := hmem
    refine ⟨b, (((C78_untouched hC (fun _ => exP_wf) (fun _ => exP_accepted) hr hst).2 b).2 ⟨hb, fun ho => ?_⟩).1, hb1, hb2⟩
    have := ho.2
    rw [h0, hb1] at this
    exact absurd this (by decide)

end SerRaw
