import Verif.Lemmas.Isolated
import Verif.Spec.SharedHeap
import Verif.Props.Mixed
import Verif.Props.Reused
/-
Storages and serializers that share a heap.
-/
namespace SerRaw

/-! ### An allocator that goes on differently -/

/-- `o` for the first `m` calls, then `o1`. -/
def Oracle.after (o : Oracle) (m : Nat) (o1 : Oracle) : Oracle := fun n => if n < m then o n else o1 (n - m)

section
variable {C : Cfg} {P : Prog} {o o' : Oracle}

theorem withAlloc_ok (h : C.OK) (ho : (C.withAlloc o).AllocOK) : (C.withAlloc o).OK := ⟨h.arch, h.valid, ho⟩

theorem after_ok {m : Nat} {o1 : Oracle} (h : (C.withAlloc o).OK) (h1 : (C.withAlloc o1).AllocOK) : (C.withAlloc (o.after m o1)).OK := by
  refine ⟨h.arch, h.valid, fun n L => ?_⟩
  show o.after m o1 n L ≠ 0 → o.after m o1 n L % L.align = 0 ∧ o.after m o1 n L + L.size < C.arch.usizeMod
  unfold Oracle.after
  split
  · exact h.alloc n L
  · exact h1 _ L

theorem after_lt {m : Nat} {o1 : Oracle} {n : Nat} (h : n < m) : o.after m o1 n = o n := if_pos h

theorem after_ge {m : Nat} {o1 : Oracle} (n : Nat) : o.after m o1 (m + n) = o1 n := by
  unfold Oracle.after
  rw [if_neg (by omega), Nat.add_sub_cancel_left]

/-- A related run that returns. -/
theorem iso_ok {σ α : Type} {R : σ → σ → Prop} {c : σ → Nat} {x y : M σ α} (h : (isoRel o o' R c).rel x y) {s t s' : σ} {a : α} (hr : R s t)
    (hx : x s = .ok a s') (ha : ∀ n, c s + n < c s' → o (c s + n) = o' (c t + n)) (hu : y t ≠ .ub) :
    ∃ t', y t = .ok a t' ∧ R s' t' ∧ c s' + c t = c t' + c s := by
  have h1 := h.2 s t hr (fun n hn => ha n (by rw [hx] at hn; exact hn))
  rw [hx] at h1
  cases hy : y t with
  | ub => exact absurd hy hu
  | ok b t' => rw [hy] at h1; obtain ⟨rfl, h2, h3⟩ := h1; exact ⟨t', rfl, h2, h3⟩
  | _ => rw [hy] at h1; exact h1.elim

theorem iso_le {σ α : Type} {R : σ → σ → Prop} {c : σ → Nat} {x y : M σ α} (h : (isoRel o o' R c).rel x y) {s s' : σ} {a : α}
    (hx : x s = .ok a s') : c s ≤ c s' := by
  rcases Nat.eq_zero_or_pos (c s) with h0 | h0
  · omega
  · have := h.1 s (c s - 1) (by omega)
    rw [hx] at this
    have : c s - 1 < c s' := this
    omega

theorem Sto.WInv.size {t : Sto} (h : t.WInv C) : ∀ b ∈ t.w.live, 0 < b.size := by
  intro b hb
  rcases h.mem with ⟨_, _, e⟩ | ⟨h0, _, _, _, d, e⟩ <;> rw [e] at hb
  · cases hb
  · rw [List.mem_singleton.1 hb]; exact h0

theorem Among.refl {t : Sto} (h : t.WInv C) : Among [] t t where
  vec := rfl
  mix := Mix.self _
  apart _ _ _ hf := nomatch hf
  size := h.size
  others _ hf := nomatch hf

theorem sop_legal_alloc {a : SOp} {t t' : Sto} (h : a.Legal C t) (hv : t'.vec = t.vec) : a.Legal (C.withAlloc o) t' := by
  have : a.Legal C t' := by cases a <;> simp only [SOp.Legal] at h ⊢ <;> first | exact h | (rw [hv]; exact h)
  exact this

theorem script_alloc {sc : Script} {c : Ctx} (h : sc.WF C c) : sc.WF (C.withAlloc o) c := by
  induction sc generalizing c with
  | done => trivial
  | pushProcess L len src ptr inner rest ih1 ih2 =>
    obtain ⟨h1, h2, h3, h4, h5⟩ := h
    exact ⟨⟨h1.1, h1.2, h1.3, h1.4⟩, ⟨h2.1, h2.2, h2.3, h2.4⟩, h3, ih1 h4, ih2 h5⟩
  | push L len src ptr rest ih =>
    obtain ⟨h1, h2, h3, h4⟩ := h
    exact ⟨⟨h1.1, h1.2, h1.3, h1.4⟩, ⟨h2.1, h2.2, h2.3, h2.4⟩, h3, ih h4⟩
  | pushRaw L len src rest ih => exact ⟨⟨h.1.1, h.1.2, h.1.3, h.1.4⟩, ih h.2⟩
  | overwrite a L d rest ih => exact ⟨h.1, ih h.2⟩

theorem act_legal_alloc {a : Act} {es : List Ev} {s s' : Ser} (h : a.Legal C P es s) (hv : s'.sto.vec = s.sto.vec) : a.Legal (C.withAlloc o) P es s' := by
  cases a with
  | typed r => exact h
  | user r => exact ⟨⟨h.1.1, h.1.2, h.1.3, h.1.4⟩, script_alloc h.2⟩
  | sto a => exact ⟨sop_legal_alloc h.1 hv, h.2⟩

theorem Among.eq {s t : Sto} (h : Among [] s t) (hc : s.w.calls = t.w.calls) : s = t := by
  obtain ⟨v, l, n⟩ := s
  obtain ⟨v', l', n'⟩ := t
  have h1 : v = v' := h.vec
  have h2 : l = l' := h.mix.none_iff
  have h3 : n = n' := hc
  rw [h1, h2, h3]

theorem freshFor_nil (o : Oracle) : FreshFor [] o := fun _ _ _ _ hf => nomatch hf

/-- The same run with an allocator that gives the same answers as long as it is asked. -/
theorem sto_agree {α : Type} {x y : M Sto α} (h : (stoIso C o' []).rel x y) {t t' : Sto} {a : α} (hI : t.WInv C) (hx : x t = .ok a t')
    (ha : ∀ n < t'.w.calls, C.alloc n = o' n) (hu : y t ≠ .ub) : y t = .ok a t' := by
  obtain ⟨u, h1, h2, h3⟩ := iso_ok h (Among.refl hI) hx (fun n hn => ha _ hn) hu
  rw [h1, h2.eq (by omega)]

theorem ser_agree {α : Type} {x y : M Ser α} (h : (serIso C o' []).rel x y) {s s' : Ser} {a : α} (hI : s.sto.WInv C) (hx : x s = .ok a s')
    (ha : ∀ n < s'.sto.w.calls, C.alloc n = o' n) (hu : y s ≠ .ub) : y s = .ok a s' := by
  obtain ⟨u, h1, h2, h3⟩ := iso_ok h (R := SerAmong []) ⟨Among.refl hI, rfl, rfl⟩ hx (fun n hn => ha _ hn) hu
  have h4 := h2.sto.eq (by omega)
  obtain ⟨x1, x2, x3⟩ := s'
  obtain ⟨y1, y2, y3⟩ := u
  have h5 : x1 = y1 := h4
  have h6 : x2 = y2 := h2.map
  have h7 : x3 = y3 := h2.ptrs
  rw [h1, h5, h6, h7]

theorem caught_ok {σ α : Type} {x : M σ α} {s s' : σ} {r : Option α} (h : M.caught x s = .ok r s') :
    (∃ a, r = some a ∧ x s = .ok a s') ∨ ∃ k, r = none ∧ x s = .panic k s' := by
  unfold M.caught at h
  cases hx : x s with
  | ok a s1 => rw [hx] at h; cases h; exact .inl ⟨a, rfl, rfl⟩
  | panic k s1 => rw [hx] at h; cases h; exact .inr ⟨k, rfl, rfl⟩
  | _ => rw [hx] at h; cases h

theorem caught_of_ok {σ α : Type} {x : M σ α} {s s' : σ} {a : α} (h : x s = .ok a s') : M.caught x s = .ok (some a) s' := by
  unfold M.caught; rw [h]

theorem caught_of_panic {σ α : Type} {x : M σ α} {s s' : σ} {k : PanicKind} (h : x s = .panic k s') : M.caught x s = .ok none s' := by
  unfold M.caught; rw [h]

theorem caught_ub {σ α : Type} {x : M σ α} {s : σ} (h : x s ≠ .ub) : M.caught x s ≠ .ub := by
  unfold M.caught
  cases hx : x s with
  | ub => exact absurd hx h
  | _ => simp

theorem GReach.caught {t t' : Sto} {a : SOp} {r : Option Nat} (h : GReach C P t) (hl : a.Legal C t) (hr : M.caught (a.run C) t = .ok r t') : GReach C P t' := by
  rcases caught_ok hr with ⟨x, _, hx⟩ | ⟨k, _, hx⟩
  · exact .op h hl hx
  · exact .opPanic h hl hx

theorem op_not_ub (hC : C.OK) (hP : P.WF C.arch) (hacc : P.Accepted C) {t : Sto} (h : GReach C P t) {a : SOp} (hl : a.Legal C t) :
    M.caught (a.run C) t ≠ .ub := by
  refine caught_ub fun hu => ?_
  have := step_sat hC (h.inv hC hP hacc) hl
  rw [hu] at this
  exact this

theorem Sess.calls {k : Kind} {t : Sto} {es : List Ev} {s : Ser} (h : Sess C k P t es s) : t.w.calls ≤ s.sto.w.calls := by
  induction h with
  | start => exact Nat.le_refl _
  | step _ _ hr ih => exact Nat.le_trans ih (iso_le (iso_caught (iso_act (C := C) (o' := C.alloc) (freshFor_nil _) _ _)) hr)

theorem Sess.agree (hC : C.OK) (hC' : (C.withAlloc o').OK) (hP : P.WF C.arch) (hacc : P.Accepted C) {k : Kind} {t : Sto} (ht : GReach C P t)
    (ht' : GReach (C.withAlloc o') P t) {es : List Ev} {s : Ser} (h : Sess C k P t es s) :
    (∀ n < s.sto.w.calls, C.alloc n = o' n) → Sess (C.withAlloc o') k P t es s := by
  induction h with
  | start => exact fun _ => .start
  | @step es s a fuel r s' h0 hl hr ih =>
    intro ha
    have hl' := act_legal_alloc (o := o') hl rfl
    have hrel := iso_caught (iso_act (k := k) (P := P) (C := C) (o' := o') (freshFor_nil _) fuel a)
    have hle := iso_le hrel hr
    have h1 := ih fun n hn => ha n (by omega)
    obtain ⟨m, hI⟩ := h0.inv hC hP hacc (ht.inv hC hP hacc)
    refine .step h1 hl' (ser_agree hrel (hI.rel.1 0).inv.toWInv hr ha ?_)
    exact (((C59_safe hC' hP hacc ht' h1).1 a hl').1 fuel).1

theorem GReach.agree (hC : C.OK) (hC' : (C.withAlloc o').OK) (hP : P.WF C.arch) (hacc : P.Accepted C) {t : Sto} (h : GReach C P t) :
    (∀ n < t.w.calls, C.alloc n = o' n) → GReach (C.withAlloc o') P t := by
  induction h with
  | new => exact fun _ => .new
  | withCapacity hc hr =>
    intro ha
    refine .withCapacity hc (sto_agree (iso_withCapacity (freshFor_nil _) _) (Sto.new_inv C).toWInv hr ha fun hu => ?_)
    have := withCapacity_sat hC' ‹_›
    rw [hu] at this
    exact this
  | @op t a p t' h0 hl hr ih =>
    intro ha
    have hrel := iso_caught (iso_sop (C := C) (o' := o') (freshFor_nil _) a)
    have hr := caught_of_ok hr
    have hle := iso_le hrel hr
    have h1 := ih fun n hn => ha n (by omega)
    exact h1.caught hl (sto_agree hrel (h0.inv hC hP hacc).toWInv hr ha (op_not_ub hC' hP hacc h1 hl))
  | @opPanic t a k t' h0 hl hr ih =>
    intro ha
    have hrel := iso_caught (iso_sop (C := C) (o' := o') (freshFor_nil _) a)
    have hr := caught_of_panic hr
    have hle := iso_le hrel hr
    have h1 := ih fun n hn => ha n (by omega)
    exact h1.caught hl (sto_agree hrel (h0.inv hC hP hacc).toWInv hr ha (op_not_ub hC' hP hacc h1 hl))
  | @finished t k es s s' h0 hs hf ih =>
    intro ha
    have hrel := iso_finalize (k := k) (C := C) (o' := o') (F := [])
    have hle := iso_le hrel hf
    have hle' := hs.calls
    have h1 := ih fun n hn => ha n (by omega)
    have h2 := hs.agree hC hC' hP hacc h0 h1 fun n hn => ha n (by omega)
    obtain ⟨m, hI⟩ := hs.inv hC hP hacc (h0.inv hC hP hacc)
    refine .finished h1 h2 (ser_agree hrel (hI.rel.1 0).inv.toWInv hf ha ?_)
    obtain ⟨s2, e, _⟩ := (C59_safe hC' hP hacc h1 h2).2
    rw [e]; simp
  | @dropped t k es s h0 hs ih =>
    intro ha
    have hle' := hs.calls
    have h1 := ih fun n hn => ha n (by omega)
    exact .dropped h1 (hs.agree hC hC' hP hacc h0 h1 ha)

theorem Owner.Alone.inv (hC : C.OK) (hP : P.WF C.arch) (hacc : P.Accepted C) {w : Owner} {t : Sto} (h : w.Alone C P t) : t.Inv C ∧ t.vec = w.vec := by
  cases w with
  | absent => rw [show t = Sto.new from h]; exact ⟨Sto.new_inv C, rfl⟩
  | storage v => exact ⟨h.1.inv hC hP hacc, h.2⟩
  | serializer k v m p es =>
    obtain ⟨h1, t0, h2, h3⟩ := h
    obtain ⟨m, hI⟩ := h3.inv hC hP hacc (h2.inv hC hP hacc)
    exact ⟨(hI.rel.1 0).inv, h1⟩

end

/-! ### The heap -/

theorem Block.Apart.symm {b c : Block} (h : b.Apart c) : c.Apart b := Or.symm h

theorem Block.Apart.addr {b c : Block} (h : b.Apart c) (hb : 0 < b.size) (hc : 0 < c.size) : b.addr ≠ c.addr := by
  rcases h with h | h <;> omega

theorem Mix.sub {w F l : List Block} (h : Mix w F l) : F.Sublist l := by
  induction h with
  | nil => exact .slnil
  | own _ ih => exact .cons _ ih
  | other _ ih => exact .cons_cons _ ih

theorem Mix.pairwise {w F l : List Block} (h : Mix w F l) (hw : w.Pairwise Block.Apart) (hF : F.Pairwise Block.Apart)
    (hx : ∀ b ∈ w, ∀ f ∈ F, b.Apart f) : l.Pairwise Block.Apart := by
  induction h with
  | nil => exact .nil
  | @own b w F l h ih =>
    obtain ⟨h1, h2⟩ := List.pairwise_cons.1 hw
    refine List.pairwise_cons.2 ⟨fun c hc => ?_, ih h2 hF fun c hc => hx c (List.mem_cons_of_mem _ hc)⟩
    rcases (h.mem_iff c).1 hc with hc | hc
    · exact h1 c hc
    · exact hx b List.mem_cons_self c hc
  | @other b w F l h ih =>
    obtain ⟨h1, h2⟩ := List.pairwise_cons.1 hF
    refine List.pairwise_cons.2 ⟨fun c hc => ?_, ih hw h2 fun c hc f hf => hx c hc f (List.mem_cons_of_mem _ hf)⟩
    rcases (h.mem_iff c).1 hc with hc | hc
    · exact (hx c hc b List.mem_cons_self).symm
    · exact h1 c hc

/-- What every reachable program satisfies. -/
structure Shared.Good (C : Nat → Cfg) (P : Prog) (H : Shared) : Prop where
  size : ∀ b ∈ H.live, 0 < b.size
  apart : H.live.Pairwise Block.Apart
  alone : ∀ i, ∃ o t, ((C i).withAlloc o).OK ∧ (H.owners i).Alone ((C i).withAlloc o) P t ∧ ∀ b ∈ t.w.live, b ∈ H.live
  distinct : ∀ i j, i ≠ j → 0 < (H.owners i).vec.capacity → 0 < (H.owners j).vec.capacity → (H.owners i).vec.ptr ≠ (H.owners j).vec.ptr

/-- The blocks of one variable and the rest. -/
theorem own_and_others {C : Cfg} {w : Owner} {t : Sto} (hI : t.WInv C) (hv : t.vec = w.vec) {l : List Block} (hs : ∀ b ∈ l, 0 < b.size)
    (hp : l.Pairwise Block.Apart) (hm : ∀ b ∈ t.w.live, b ∈ l) :
    ∃ F, (∀ b, b ∈ F ↔ b ∈ l ∧ ¬ w.Owns b) ∧ ∀ n, Among F ⟨w.vec, ⟨l, n⟩⟩ t := by
  unfold Owner.Owns
  rw [← hv]
  rcases hI.mem with ⟨h0, _, e⟩ | ⟨h0, _, _, _, d, e⟩
  · refine ⟨l, fun b => by simp [h0], fun n => ⟨rfl, by rw [e]; exact Mix.all_other _, fun b hb => ?_, hI.size, hs⟩⟩
    rw [e] at hb; cases hb
  · rw [e] at hm
    obtain ⟨l1, l2, rfl⟩ := List.append_of_mem (hm _ List.mem_cons_self)
    have hap : ∀ f ∈ l1 ++ l2, Block.Apart ⟨t.vec.ptr, t.vec.capacity, C.storageAlign, d⟩ f := by
      intro f hf
      rw [List.pairwise_append, List.pairwise_cons] at hp
      rcases List.mem_append.1 hf with hf | hf
      · exact (hp.2.2 f hf _ List.mem_cons_self).symm
      · exact hp.2.1.1 f hf
    have hs' : ∀ f ∈ l1 ++ l2, 0 < f.size := by
      intro f hf
      refine hs f ?_
      rcases List.mem_append.1 hf with hf | hf
      · exact List.mem_append_left _ hf
      · exact List.mem_append_right _ (List.mem_cons_of_mem _ hf)
    refine ⟨l1 ++ l2, fun b => ⟨fun hb => ⟨?_, fun ho => ?_⟩, fun ⟨hb, ho⟩ => ?_⟩, fun n => ⟨rfl, by rw [e]; exact Mix.split _ _ _, fun b hb f hf => ?_, hI.size, hs'⟩⟩
    · rcases List.mem_append.1 hb with hf | hf
      · exact List.mem_append_left _ hf
      · exact List.mem_append_right _ (List.mem_cons_of_mem _ hf)
    · exact (hap b hb).addr h0 (hs' b hb) ho.2.symm
    · rcases List.mem_append.1 hb with hf | hf
      · exact List.mem_append_left _ hf
      · rcases List.mem_cons.1 hf with rfl | hf
        · exact absurd ⟨h0, rfl⟩ ho
        · exact List.mem_append_right _ hf
    · rw [e, List.mem_singleton] at hb
      rw [hb]; exact hap f hf

section
variable {C : Nat → Cfg} {P : Prog}

/-- What a step on variable `i` does to the heap. -/
structure Shared.Moved (C : Nat → Cfg) (P : Prog) (H H' : Shared) (i : Nat) : Prop where
  ex : ∃ w live F o t, H' = H.put i w live ∧ (∀ b, b ∈ F ↔ b ∈ H.live ∧ ¬ (H.owners i).Owns b) ∧ F.Pairwise Block.Apart ∧
    ((C i).withAlloc o).OK ∧ w.Alone ((C i).withAlloc o) P t ∧ Mix t.w.live F live ∧ ∀ b ∈ t.w.live, ∀ f ∈ F, b.Apart f

variable (hC : ∀ i, (C i).OK) (hP : ∀ i, P.WF (C i).arch) (hacc : ∀ i, P.Accepted (C i))
include hC hP hacc

theorem Shared.Good.move {H H' : Shared} {i : Nat} (h : H.Good C P) (hs : Shared.Step C P (some i) H H') : H.Moved C P H' i := by
  obtain ⟨o, t, hok, hal, hm⟩ := h.alone i
  have hP' := hP i
  have hacc' := hacc i
  obtain ⟨hI, hv⟩ := hal.inv hok hP' hacc'
  obtain ⟨F, hF, ham⟩ := own_and_others hI.toWInv hv h.size h.apart hm
  have ham := ham 0
  have hFp : F.Pairwise Block.Apart := h.apart.sublist (ham.mix.sub)
  have fresh : ∀ o1, H.Answers C i o1 → FreshFor F o1 := fun o1 h1 n L h0 f hf => h1.2 n L h0 f ((hF f).1 hf).1 ((hF f).1 hf).2
  have agree : ∀ (o1 : Oracle) n, o1 (0 + n) = o.after t.w.calls o1 (t.w.calls + n) := fun o1 n => by rw [after_ge, Nat.zero_add]
  have hok2 : ∀ o1, ((C i).withAlloc o1).AllocOK → ((C i).withAlloc (o.after t.w.calls o1)).OK := fun o1 h1 => after_ok hok h1
  have greach : ∀ o1, ((C i).withAlloc o1).AllocOK → ∀ t0, t0.w.calls ≤ t.w.calls → GReach ((C i).withAlloc o) P t0 →
      GReach ((C i).withAlloc (o.after t.w.calls o1)) P t0 := fun o1 h1 t0 hle hg =>
    hg.agree (o' := o.after t.w.calls o1) hok (hok2 o1 h1) hP' hacc' fun n hn => (after_lt (by omega)).symm
  cases hs with
  | new h0 =>
    rw [h0] at hal
    obtain rfl : t = Sto.new := hal
    exact ⟨_, _, F, o, Sto.new, rfl, hF, hFp, hok, ⟨.new, rfl⟩, ham.mix, ham.apart⟩
  | @withCapacity _ _ c o1 s h0 hc ha hr =>
    have hok1 := withAlloc_ok (hC i) ha.1
    rw [h0] at hal ham
    obtain rfl : t = Sto.new := hal
    have hu : Sto.withCapacity ((C i).withAlloc o1) c Sto.new ≠ .ub := fun hu => by
      have := withCapacity_sat hok1 c; rw [hu] at this; exact this
    obtain ⟨t', h1, h2, _⟩ := iso_ok (iso_withCapacity (C := (C i).withAlloc o1) (o' := o1) (fresh o1 ha) c) ham hr (fun _ _ => rfl) hu
    exact ⟨_, _, F, o1, t', rfl, hF, hFp, hok1, ⟨.withCapacity hc h1, h2.vec.symm⟩, h2.mix, h2.apart⟩
  | @op _ _ v a o1 r s h0 hl ha hr =>
    rw [h0] at hal ham
    have hg := greach o1 ha.1 t (Nat.le_refl _) hal.1
    have hl' : a.Legal ((C i).withAlloc (o.after t.w.calls o1)) t := sop_legal_alloc hl hal.2
    obtain ⟨t', h1, h2, _⟩ := iso_ok (iso_caught (iso_sop (C := (C i).withAlloc o1) (o' := o.after t.w.calls o1) (fresh o1 ha) a)) ham hr
      (fun n _ => agree o1 n) (op_not_ub (hok2 o1 ha.1) hP' hacc' hg hl')
    exact ⟨_, _, F, _, t', rfl, hF, hFp, hok2 o1 ha.1, ⟨hg.caught hl' h1, h2.vec.symm⟩, h2.mix, h2.apart⟩
  | @drop _ _ v s h0 hr =>
    rw [h0] at hal ham
    have hg := greach _ (hC i).alloc t (Nat.le_refl _) hal.1
    obtain ⟨t', e, hl⟩ := C60_drop (hok2 _ (hC i).alloc) hP' hacc' hg
    obtain ⟨t2, h1, h2, _⟩ := iso_ok (iso_drop (C := C i) (o' := o.after t.w.calls (C i).alloc)) ham hr (fun n _ => agree _ n) (by rw [e]; simp)
    obtain rfl : t' = t2 := by rw [e] at h1; cases h1; rfl
    have hmix := h2.mix
    rw [hl] at hmix
    exact ⟨.absent, _, F, o, Sto.new, rfl, hF, hFp, hok, rfl, hmix, fun b hb => nomatch hb⟩
  | @«from» _ _ v k h0 =>
    rw [h0] at hal ham
    exact ⟨_, _, F, o, t, rfl, hF, hFp, hok, ⟨hal.2, t, hal.1, .start⟩, ham.mix, ham.apart⟩
  | @act _ _ k v m p es a fuel o1 r s h0 hl ha hr =>
    rw [h0] at hal ham
    obtain ⟨hv, t0, hg0, hs0⟩ := hal
    have hle := hs0.calls
    have hg := greach o1 ha.1 t0 hle hg0
    have hs1 : Sess ((C i).withAlloc (o.after t.w.calls o1)) k P t0 es ⟨t, m, p⟩ :=
      hs0.agree (o' := o.after t.w.calls o1) hok (hok2 o1 ha.1) hP' hacc' hg0 hg fun n hn => (after_lt hn).symm
    have hl' : a.Legal ((C i).withAlloc (o.after t.w.calls o1)) P es ⟨t, m, p⟩ := act_legal_alloc hl hv
    obtain ⟨t', h1, h2, _⟩ := iso_ok (iso_caught (iso_act (k := k) (P := P) (C := (C i).withAlloc o1) (o' := o.after t.w.calls o1) (fresh o1 ha) fuel a))
      (show SerAmong F ⟨H.sto v, m, p⟩ ⟨t, m, p⟩ from ⟨ham, rfl, rfl⟩) hr (fun n _ => agree o1 n)
      (((C59_safe (hok2 o1 ha.1) hP' hacc' hg hs1).1 a hl').1 fuel).1
    obtain ⟨u, um, up⟩ := t'
    refine ⟨_, _, F, _, u, rfl, hF, hFp, hok2 o1 ha.1, ⟨h2.sto.vec.symm, t0, hg, ?_⟩, h2.sto.mix, h2.sto.apart⟩
    have := Sess.step hs1 hl' h1
    rw [h2.map, h2.ptrs, h2.sto.vec, ← hv]
    exact this
  | @finalize _ _ k v m p es s h0 hr =>
    rw [h0] at hal ham
    obtain ⟨hv, t0, hg0, hs0⟩ := hal
    have hle := hs0.calls
    have hg := greach _ (hC i).alloc t0 hle hg0
    have hs1 : Sess ((C i).withAlloc (o.after t.w.calls (C i).alloc)) k P t0 es ⟨t, m, p⟩ :=
      hs0.agree (o' := o.after t.w.calls (C i).alloc) hok (hok2 _ (hC i).alloc) hP' hacc' hg0 hg fun n hn => (after_lt hn).symm
    obtain ⟨s2, e, _⟩ := (C59_safe (hok2 _ (hC i).alloc) hP' hacc' hg hs1).2
    obtain ⟨t', h1, h2, _⟩ := iso_ok (iso_finalize (k := k) (C := C i) (o' := o.after t.w.calls (C i).alloc)) 
      (show SerAmong F ⟨H.sto v, m, p⟩ ⟨t, m, p⟩ from ⟨ham, rfl, rfl⟩) hr (fun n _ => agree _ n) (by rw [e]; simp)
    exact ⟨_, _, F, _, t'.sto, rfl, hF, hFp, hok2 _ (hC i).alloc, ⟨.finished hg hs1 h1, h2.sto.vec.symm⟩, h2.sto.mix, h2.sto.apart⟩
  | @leave _ _ k v m p es h0 =>
    rw [h0] at hal ham
    obtain ⟨hv, t0, hg0, hs0⟩ := hal
    exact ⟨_, _, F, o, t, rfl, hF, hFp, hok, ⟨.dropped hg0 hs0, hv⟩, ham.mix, ham.apart⟩

/-- The other blocks stay as they are. -/
theorem Shared.Moved.others {H H' : Shared} {i : Nat} (hs : ∀ b ∈ H.live, 0 < b.size) (h : H.Moved C P H' i) (b : Block) :
    (b ∈ H'.live ∧ ¬ (H'.owners i).Owns b) ↔ (b ∈ H.live ∧ ¬ (H.owners i).Owns b) := by
  obtain ⟨w, live, F, o, t, rfl, hF, _, hok, hal, hmix, hap⟩ := h
  obtain ⟨hI, hv⟩ := hal.inv hok (hP i) (hacc i)
  have e : (H.put i w live).owners i = w := if_pos rfl
  rw [e, ← hF b]
  show b ∈ live ∧ _ ↔ _
  rw [hmix.mem_iff b]
  unfold Owner.Owns
  rw [← hv]
  constructor
  · rintro ⟨hb | hb, ho⟩
    · rcases hI.mem with ⟨_, _, e⟩ | ⟨h0, _, _, _, d, e⟩ <;> rw [e] at hb
      · cases hb
      · rw [List.mem_singleton.1 hb] at ho
        exact absurd ⟨h0, rfl⟩ ho
    · exact hb
  · intro hb
    refine ⟨.inr hb, fun ho => ?_⟩
    rcases hI.mem with ⟨h0, _, _⟩ | ⟨h0, _, _, _, d, e⟩
    · omega
    · have := hap _ (by rw [e]; exact List.mem_cons_self) b hb
      exact this.addr h0 (hs b ((hF b).1 hb).1) ho.2.symm

theorem Shared.Good.step {H H' : Shared} {i : Option Nat} (h : H.Good C P) (hs : Shared.Step C P i H H') : H'.Good C P := by
  cases i with
  | none =>
    cases hs with
    | other h1 h2 h3 =>
      refine ⟨h1, h2, fun i => ?_, h.distinct⟩
      obtain ⟨o, t, hok, hal, hm⟩ := h.alone i
      refine ⟨o, t, hok, hal, fun b hb => h3 i b (hm b hb) ?_⟩
      obtain ⟨hI, hv⟩ := hal.inv hok (hP i) (hacc i)
      unfold Owner.Owns
      rw [← hv]
      rcases hI.mem with ⟨_, _, e⟩ | ⟨h0, _, _, _, d, e⟩ <;> rw [e] at hb
      · cases hb
      · rw [List.mem_singleton.1 hb]; exact ⟨h0, rfl⟩
  | some i =>
    have hmv := h.move hC hP hacc hs
    have hoth := hmv.others hC hP hacc h.size
    obtain ⟨w, live, F, o, t, rfl, hF, hFp, hok, hal, hmix, hap⟩ := hmv
    obtain ⟨hI, hv⟩ := hal.inv hok (hP i) (hacc i)
    have e : (H.put i w live).owners i = w := if_pos rfl
    have e' : ∀ j, j ≠ i → (H.put i w live).owners j = H.owners j := fun j hj => if_neg hj
    rw [e] at hoth
    have key : ∀ j, j ≠ i → ∀ b ∈ H.live, (H.owners j).Owns b → b ∈ F := by
      intro j hj b hb ho
      refine (hF b).2 ⟨hb, fun ho' => ?_⟩
      exact h.distinct j i hj ho.1 ho'.1 (ho.2.symm.trans ho'.2)
    have hpos : ∀ j, j ≠ i → 0 < (H.owners j).vec.capacity → ∃ b ∈ F, b.addr = (H.owners j).vec.ptr := by
      intro j hj h0
      obtain ⟨o, u, hok, hal, hm⟩ := h.alone j
      obtain ⟨hI, hv⟩ := hal.inv hok (hP j) (hacc j)
      rw [← hv] at h0 ⊢
      rcases hI.mem with ⟨h1, _, _⟩ | ⟨_, _, _, _, d, e⟩
      · omega
      · refine ⟨⟨u.vec.ptr, u.vec.capacity, _, d⟩, key j hj _ (hm _ (by rw [e]; exact List.mem_cons_self)) ⟨by rw [← hv]; exact h0, by rw [← hv]⟩, rfl⟩
    have hdist : ∀ j, j ≠ i → 0 < w.vec.capacity → 0 < (H.owners j).vec.capacity → w.vec.ptr ≠ (H.owners j).vec.ptr := by
      intro j hj h0 h1
      obtain ⟨b, hb, hba⟩ := hpos j hj h1
      rw [← hba, ← hv]
      rw [← hv] at h0
      rcases hI.mem with ⟨h2, _, _⟩ | ⟨_, _, _, _, d, e⟩
      · omega
      · exact (hap _ (by rw [e]; exact List.mem_cons_self) b hb).addr h0 (h.size b ((hF b).1 hb).1)
    refine ⟨fun b hb => ?_, ?_, fun j => ?_, fun j l hjl => ?_⟩
    · rcases (hmix.mem_iff b).1 hb with hb | hb
      · exact hI.toWInv.size b hb
      · exact h.size b ((hF b).1 hb).1
    · refine hmix.pairwise ?_ hFp hap
      rcases hI.mem with ⟨_, _, e⟩ | ⟨h0, _, _, _, d, e⟩ <;> rw [e]
      · exact .nil
      · exact List.pairwise_singleton _ _
    · by_cases hj : j = i
      · subst hj
        refine ⟨o, t, hok, by rw [e]; exact hal, fun b hb => (hmix.mem_iff b).2 (.inl hb)⟩
      · obtain ⟨o, u, hok, hal, hm⟩ := h.alone j
        refine ⟨o, u, hok, by rw [e' j hj]; exact hal, fun b hb => (hmix.mem_iff b).2 (.inr (key j hj b (hm b hb) ?_))⟩
        obtain ⟨hI, hv⟩ := hal.inv hok (hP j) (hacc j)
        unfold Owner.Owns
        rw [← hv]
        rcases hI.mem with ⟨_, _, e⟩ | ⟨h0, _, _, _, d, e⟩ <;> rw [e] at hb
        · cases hb
        · rw [List.mem_singleton.1 hb]; exact ⟨h0, rfl⟩
    · by_cases hj : j = i
      · subst hj
        rw [e, e' l (Ne.symm hjl)]
        exact hdist l (Ne.symm hjl)
      · rw [e' j hj]
        by_cases hl : l = i
        · subst hl
          rw [e]
          exact fun h1 h2 => (hdist j hj h2 h1).symm
        · rw [e' l hl]
          exact h.distinct j l hjl

theorem SharedReach.good {H : Shared} (h : SharedReach C P H) : H.Good C P := by
  induction h with
  | start h1 h2 =>
    refine ⟨h1, h2, fun i => ⟨(C i).alloc, Sto.new, hC i, rfl, fun b hb => nomatch hb⟩, fun i j _ h => ?_⟩
    exact absurd h (by simp [Owner.vec, Sto.newVec])
  | step _ hs ih => exact ih.step hC hP hacc hs

omit hC hP hacc in
/-- What is at an address of a block. -/
theorem load_of_mem {l : List Block} (hp : l.Pairwise Block.Apart) {b : Block} (hb : b ∈ l) {a n : Nat} (hc : b.contains a 1 = true) :
    World.load ⟨l, n⟩ a = b.data (a - b.addr) := by
  unfold World.load
  have : l.find? (·.contains a 1) = some b := by
    obtain ⟨l1, l2, rfl⟩ := List.append_of_mem hb
    have h0 : l1.find? (fun x => x.contains a 1) = none := by
      rw [List.find?_eq_none]
      intro f hf
      have := (List.pairwise_append.1 hp).2.2 f hf b List.mem_cons_self
      simp only [Block.contains, Bool.and_eq_true, decide_eq_true_eq, not_and, not_le] at hc ⊢
      rcases this with h | h <;> omega
    rw [List.find?_append, h0, List.find?_cons, hc]
    rfl
  simp only [this]

/-- The block of a variable. -/
theorem Shared.Good.block {H : Shared} (h : H.Good C P) {i : Nat} (h0 : 0 < (H.owners i).vec.capacity) :
    ∃ d, (⟨(H.owners i).vec.ptr, (H.owners i).vec.capacity, (C i).storageAlign, d⟩ : Block) ∈ H.live := by
  obtain ⟨o, t, hok, hal, hm⟩ := h.alone i
  obtain ⟨hI, hv⟩ := hal.inv hok (hP i) (hacc i)
  rw [← hv] at h0 ⊢
  rcases hI.mem with ⟨h1, _, _⟩ | ⟨_, _, _, _, d, e⟩
  · omega
  · exact ⟨d, hm _ (by rw [e]; exact List.mem_cons_self)⟩

omit hC hP hacc in
theorem buffer_congr {s t : Sto} (hv : s.vec = t.vec) (hp : t.vec.pos ≤ t.vec.capacity)
    (h : ∀ n < t.vec.capacity, s.w.load (t.vec.ptr + n) = t.w.load (t.vec.ptr + n)) : s.buffer = t.buffer ∧ s.bytes = t.bytes := by
  constructor
  · funext a
    unfold Sto.buffer
    rw [hv]
    split
    · rename_i ha
      have := h (a - t.vec.ptr) (by omega)
      rwa [Nat.add_sub_cancel' ha.1] at this
    · rfl
  · funext i
    unfold Sto.bytes
    rw [hv]
    split
    · exact h i (by omega)
    · rfl

/-- The contents are those of the storage on its own. -/
theorem Shared.Good.contents {H : Shared} (h : H.Good C P) {i : Nat} {o : Oracle} {t : Sto} (hok : ((C i).withAlloc o).OK)
    (hal : (H.owners i).Alone ((C i).withAlloc o) P t) (hm : ∀ b ∈ t.w.live, b ∈ H.live) :
    (H.sto (H.owners i).vec).buffer = t.buffer ∧ (H.sto (H.owners i).vec).bytes = t.bytes := by
  obtain ⟨hI, hv⟩ := hal.inv hok (hP i) (hacc i)
  refine buffer_congr hv.symm hI.pos_le fun n hn => ?_
  rcases hI.mem with ⟨h1, _, _⟩ | ⟨_, _, _, _, d, e⟩
  · omega
  · have hb : (⟨t.vec.ptr, t.vec.capacity, (C i).storageAlign, d⟩ : Block).contains (t.vec.ptr + n) 1 = true := by
      simp only [Block.contains, Bool.and_eq_true, decide_eq_true_eq]; omega
    have h1 := load_of_mem (n := 0) h.apart (hm _ (by rw [e]; exact List.mem_cons_self)) hb
    have h2 := load_of_mem (n := t.w.calls) (l := t.w.live) (by rw [e]; exact List.pairwise_singleton _ _) (by rw [e]; exact List.mem_cons_self) hb
    exact h1.trans h2.symm

/-- Before a call with the answers `o1` on variable `i`. -/
theorem Shared.Good.ready {H : Shared} (h : H.Good C P) {i : Nat} {o1 : Oracle} (h1 : ((C i).withAlloc o1).AllocOK) :
    ∃ F o t, ((C i).withAlloc o).OK ∧ (H.owners i).Alone ((C i).withAlloc o) P t ∧ (∀ b, b ∈ F ↔ b ∈ H.live ∧ ¬ (H.owners i).Owns b) ∧
      Among F (H.sto (H.owners i).vec) t ∧ ∀ n, o1 (0 + n) = o (t.w.calls + n) := by
  obtain ⟨o, t, hok, hal, hm⟩ := h.alone i
  obtain ⟨hI, hv⟩ := hal.inv hok (hP i) (hacc i)
  obtain ⟨F, hF, ham⟩ := own_and_others hI.toWInv hv h.size h.apart hm
  have hok2 : ((C i).withAlloc (o.after t.w.calls o1)).OK := after_ok hok h1
  refine ⟨F, o.after t.w.calls o1, t, hok2, ?_, hF, ham 0, fun n => by rw [after_ge, Nat.zero_add]⟩
  have greach : ∀ t0, t0.w.calls ≤ t.w.calls → GReach ((C i).withAlloc o) P t0 → GReach ((C i).withAlloc (o.after t.w.calls o1)) P t0 := fun t0 hle hg =>
    hg.agree (o' := o.after t.w.calls o1) hok hok2 (hP i) (hacc i) fun n hn => (after_lt (by omega)).symm
  cases hw : H.owners i with
  | absent => rw [hw] at hal; exact hal
  | storage v => rw [hw] at hal; exact ⟨greach t (Nat.le_refl _) hal.1, hal.2⟩
  | serializer k v m p es =>
    rw [hw] at hal
    obtain ⟨hv, t0, hg0, hs0⟩ := hal
    have hg := greach t0 hs0.calls hg0
    exact ⟨hv, t0, hg, hs0.agree (o' := o.after t.w.calls o1) hok hok2 (hP i) (hacc i) hg0 hg fun n hn => (after_lt hn).symm⟩

omit hC hP hacc in
theorem iso_same {σ α β : Type} {o o' : Oracle} {R : σ → σ → Prop} {c : σ → Nat} {x y : M σ α} (h : (isoRel o o' R c).rel x y) {s t : σ} (hr : R s t)
    (ha : ∀ n, o (c s + n) = o' (c t + n)) (hu : y t ≠ .ub) {f : σ → β} (hf : ∀ s t, R s t → f s = f t) : SameOutcome f (x s) (y t) := by
  have h1 := h.2 s t hr fun n _ => ha n
  cases hy : y t with
  | ub => exact absurd hy hu
  | ok b t' =>
    rw [hy] at h1
    cases hx : x s with
    | ok a s' => rw [hx] at h1; exact ⟨h1.1, hf _ _ h1.2.1⟩
    | _ => rw [hx] at h1; exact h1.elim
  | panic b t' =>
    rw [hy] at h1
    cases hx : x s with
    | panic a s' => rw [hx] at h1; exact ⟨h1.1, hf _ _ h1.2.1⟩
    | _ => rw [hx] at h1; exact h1.elim
  | abort =>
    rw [hy] at h1
    cases hx : x s with
    | abort => trivial
    | _ => rw [hx] at h1; exact h1.elim
  | fuel =>
    rw [hy] at h1
    cases hx : x s with
    | fuel => trivial
    | _ => rw [hx] at h1; exact h1.elim

end
end SerRaw
