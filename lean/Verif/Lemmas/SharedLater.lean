import Verif.Model.SharedLater
import Verif.Props.SharedPrograms
import Verif.Props.Streaming
import Verif.Props.ProgramsLater
/-
One step of a storage or serializer on a shared heap keeps its bytes, because it does alone.
-/
namespace SerRaw

theorem among_bytes {C : Cfg} {F : List Block} {s t : Sto} (h : Among F s t) (hI : t.WInv C) : s.buffer = t.buffer ∧ s.bytes = t.bytes := by
  refine buffer_congr h.vec hI.pos_le fun n hn => ?_
  refine h.load (n := t.vec.capacity) ?_ hn
  rcases hI.mem with ⟨h3, _, _⟩ | ⟨_, _, _, _, d, e⟩
  · omega
  · rw [e]; simp [Block.contains]

section
variable {C : Nat → Cfg} {P : Prog} (hC : ∀ i, (C i).OK) (hP : ∀ i, P.WF (C i).arch) (hacc : ∀ i, P.Accepted (C i))
include hC hP hacc

/-- A storage method. -/
theorem shared_op_stays {H : Shared} (h : SharedReach C P H) {i : Nat} {v : AVec} {K : Nat → Prop} (hv : H.owners i = .storage v) {a : SOp}
    (hl : a.Legal (C i) (H.sto v)) (hc : a ≠ .clear)
    (hw : ∀ p L len d, a = .writeSlice p L len d → ∀ j, K j → ¬ (p ≤ j ∧ j < p + L.size * len)) {o : Oracle} (ho : H.Answers C i o) {r : Option Nat} {s : Sto}
    (hr : M.caught (a.run ((C i).withAlloc o)) (H.sto v) = .ok r s) :
    v.pos ≤ s.vec.pos ∧ ∀ j < v.pos, K j → s.bytes j = (H.sto v).bytes j := by
  obtain ⟨F, o', t, hok, hal, hF, ham, ha⟩ := (h.good hC hP hacc).ready hC hP hacc (i := i) ho.1
  rw [hv] at hal ham
  have hI := hal.1.inv hok (hP i) (hacc i)
  have hl' : a.Legal ((C i).withAlloc o') t := sop_legal_alloc (o := o') hl (t' := t) hal.2
  have hf : FreshFor F o := fun n L h0 f hf => ho.2 n L h0 f ((hF f).1 hf).1 ((hF f).1 hf).2
  obtain ⟨t2, h1, h2, _⟩ := iso_ok (iso_caught (iso_sop (C := (C i).withAlloc o) (o' := o') (F := F) hf a)) ham hr (fun n _ => ha n) (by
    intro hu
    have := step_sat hok hI hl'
    unfold M.caught at hu
    cases he : a.run ((C i).withAlloc o') t <;> rw [show SOp.run (((C i).withAlloc o).withAlloc o') a t = _ from he] at hu <;> first | cases hu | skip
    rw [he] at this
    exact this)
  have key : GReach ((C i).withAlloc o') P t2 ∧ Afterwards ((C i).withAlloc o') P K t t2 := by
    unfold M.caught at h1
    cases he : a.run ((C i).withAlloc o') t <;> rw [show SOp.run (((C i).withAlloc o).withAlloc o') a t = _ from he] at h1 <;> cases h1
    · exact ⟨hal.1.op hl' he, .op .now hl' hc hw he⟩
    · exact ⟨hal.1.opPanic hl' he, .opPanic .now hl' hc hw he⟩
  obtain ⟨h3, h4⟩ := C80_stays hok (hP i) (hacc i) hal.1 key.2
  have e1 := (among_bytes ham hI.toWInv).2
  have e2 := (among_bytes h2 (key.1.inv hok (hP i) (hacc i)).toWInv).2
  change (H.sto v).bytes = _ at e1
  rw [hal.2] at h3 h4
  rw [e1, e2, h2.vec]
  exact ⟨h3, h4⟩

/-- Anything done with a serializer. -/
theorem shared_act_stays {H : Shared} (h : SharedReach C P H) {i : Nat} {k : Kind} {v : AVec} {m : PosMapping} {p : Ptrs} {es : List Ev}
    (hv : H.owners i = .serializer k v m p es) {a : Act} (hl : a.Legal (C i) P es ⟨H.sto v, m, p⟩) {o : Oracle} (ho : H.Answers C i o) {fuel : Nat}
    {r : Option Nat} {s : Ser} (hr : M.caught (a.run ((C i).withAlloc o) k P fuel) ⟨H.sto v, m, p⟩ = .ok r s) :
    v.pos ≤ s.sto.vec.pos ∧ ∀ j < v.pos, ¬ (⟨a, r, v.pos, s.sto.vec.pos⟩ : Ev).Writes j → s.sto.bytes j = (H.sto v).bytes j := by
  obtain ⟨F, o', t, hok, hal, hF, ham, ha⟩ := (h.good hC hP hacc).ready hC hP hacc (i := i) ho.1
  rw [hv] at hal ham
  obtain ⟨hv', t0, hg, hs⟩ := hal
  have hl' : a.Legal ((C i).withAlloc o') P es ⟨t, m, p⟩ := act_legal_alloc hl hv'
  have hf : FreshFor F o := fun n L h0 f hf => ho.2 n L h0 f ((hF f).1 hf).1 ((hF f).1 hf).2
  obtain ⟨t2, h1, h2, _⟩ := iso_ok (iso_caught (iso_act (C := (C i).withAlloc o) (o' := o') (F := F) hf fuel a))
    (show SerAmong F ⟨H.sto v, m, p⟩ ⟨t, m, p⟩ from ⟨ham, rfl, rfl⟩) hr (fun n _ => ha n) (((C59_safe hok (hP i) (hacc i) hg hs).1 a hl').1 fuel).1
  have hI := (GReach.dropped hg hs).inv hok (hP i) (hacc i)
  have hI' := (GReach.dropped hg (hs.step hl' h1)).inv hok (hP i) (hacc i)
  obtain ⟨h3, h4⟩ := C81_stays hok (hP i) (hacc i) hg hs (Goes.step .here (by rw [List.append_nil]; exact hl') h1)
  have e1 := (among_bytes ham hI.toWInv).2
  have e2 := (among_bytes h2.sto hI'.toWInv).2
  change (H.sto v).bytes = t.bytes at e1
  rw [e1, e2, h2.sto.vec]
  change t.vec.pos ≤ _ at h3
  rw [hv'] at h3
  refine ⟨h3, fun j hj hn => h4 j (by rw [hv']; exact hj) fun e he => ?_⟩
  rw [List.nil_append, List.mem_singleton] at he
  subst he
  exact hn

/-- `finalize`. -/
theorem shared_finalize_stays {H : Shared} (h : SharedReach C P H) {i : Nat} {k : Kind} {v : AVec} {m : PosMapping} {p : Ptrs} {es : List Ev}
    (hv : H.owners i = .serializer k v m p es) {s : Ser} (hf : finalize (C i) k ⟨H.sto v, m, p⟩ = .ok () s) :
    s.sto.vec = v ∧ ∀ j, (k = .complete → ∀ e ∈ es, e.act.IsValue → j < e.lo ∨ e.hi ≤ j) → s.sto.bytes j = (H.sto v).bytes j := by
  obtain ⟨F, o', t, hok, hal, hF, ham, ha⟩ := (h.good hC hP hacc).ready hC hP hacc (i := i) (hC i).alloc
  rw [hv] at hal ham
  obtain ⟨hv', t0, hg0, hs⟩ := hal
  obtain ⟨t', e1, he⟩ := (C59_safe hok (hP i) (hacc i) hg0 hs).2
  obtain ⟨t2, h1, h2, _⟩ := iso_ok (iso_finalize (k := k) (C := C i) (o' := o')) (show SerAmong F ⟨H.sto v, m, p⟩ ⟨t, m, p⟩ from ⟨ham, rfl, rfl⟩) hf
    (fun n _ => ha n) (by rw [e1]; simp)
  have hI := (GReach.dropped hg0 hs).inv hok (hP i) (hacc i)
  have hI' := (GReach.finished hg0 hs h1).inv hok (hP i) (hacc i)
  have e2 := (among_bytes ham hI.toWInv).2
  have e3 := (among_bytes h2.sto hI'.toWInv).2
  change (H.sto v).bytes = t.bytes at e2
  rw [e2, e3]
  rw [e1] at h1
  cases h1
  refine ⟨h2.sto.vec.trans (he.trans hv'), fun j hj => ?_⟩
  by_cases hk : k = .complete
  · subst hk
    exact (C81_complete hok (hP i) (hacc i) hg0 hs e1).1 j (hj rfl)
  · exact congrFun (C81_final hok (hP i) (hacc i) hg0 hk hs e1) j

end
end SerRaw
