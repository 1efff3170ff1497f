import Verif.Model.ProgramsLater
import Verif.Lemmas.Programs
import Verif.Lemmas.Streaming
/-
During a session with programs, bytes below the position do not change; and what stays in a storage after it.
-/
namespace SerRaw

section
variable {C : Cfg} {P : Prog} {k : Kind} {K : Nat → Prop}

theorem XGoes.sess {t : Sto} {xs more : List XEv} {s s' : Ser} (h : XSess C k P t xs s) (hg : XGoes C k P xs s more s') : XSess C k P t (xs ++ more) s' := by
  induction hg with
  | here => simpa using h
  | step _ hl hr ih => rw [← List.append_assoc]; exact ih.step hl hr

theorem XGoes.stays (hC : C.OK) (hP : P.WF C.arch) (hacc : P.Accepted C) {t : Sto} (ht : t.Inv C) {xs more : List XEv} {s s' : Ser}
    (h : XSess C k P t xs s) (hg : XGoes C k P xs s more s') :
    s.sto.vec.pos ≤ s'.sto.vec.pos ∧ ∀ i < s.sto.vec.pos, (∀ x ∈ more, ¬ x.Writes i) → s'.sto.view i = s.sto.view i := by
  induction hg with
  | here => exact ⟨Nat.le_refl _, fun _ _ _ => rfl⟩
  | @step more u a fuel r u' hg hl hr ih =>
    obtain ⟨es, m, hsim, h1⟩ := (hg.sess h).inv hC hP hacc ht
    obtain ⟨e, m', he, hs, _⟩ := x_step hC hP hacc hsim h1 hl hr
    have hp := hs.pos
    refine ⟨Nat.le_trans ih.1 hp, fun i hi hn => ?_⟩
    rw [hs.view h1.rel ?_ (Nat.lt_of_lt_of_le hi ih.1) (fun hw => hn _ (by simp) (he.writes.1 hw)), ih.2 i hi fun x hx => hn x (by simp [hx])]
    intro x hx j hj hw
    obtain ⟨p, L, len, d, ha, h3, h4⟩ := he.writes.1 hw
    simp only at ha
    subst ha
    obtain ⟨e', he', hv, h5, h6⟩ := h1.ents x hx
    obtain ⟨x', hx', hsx⟩ := sim_mem' hsim he'
    have := hl.2.2 p L len d rfl x' hx' (hsx.isValue.1 hv)
    rw [← hsx.lo, ← hsx.hi] at this
    omega

theorem sim_writes {xs : List XEv} {es : List Ev} (hsim : List.Forall₂ (EvSim C) xs es) (hw : ∀ x ∈ xs, ∀ i, K i → ¬ x.Writes i) :
    ∀ e ∈ es, ∀ i, K i → ¬ e.Writes i := by
  intro e he i hi h
  obtain ⟨x, hx, hsx⟩ := sim_mem' hsim he
  exact hw x hx i hi (hsx.writes.1 h)

theorem XAfter.holds (hC : C.OK) (hP : P.WF C.arch) (hacc : P.Accepted C) {t t' : Sto} (ht : t.Inv C) (h : XAfter C P K t t') :
    StillHolds C K t t' := by
  induction h with
  | now => exact ⟨ht, fun _ _ _ => rfl, Nat.le_refl _⟩
  | op _ hl hcl hw hr ih => exact ih.op hC hl hcl hw (.inl ⟨_, hr⟩)
  | opPanic _ hl hcl hw hr ih => exact ih.op hC hl hcl hw (.inr ⟨_, hr⟩)
  | finished _ hs hw hf ih =>
    obtain ⟨es, m, hsim, h1⟩ := hs.inv hC hP hacc ih.inv
    exact ih.finished hC h1 (sim_writes hsim hw) hf
  | dropped _ hs hw ih =>
    obtain ⟨es, m, hsim, h1⟩ := hs.inv hC hP hacc ih.inv
    exact ih.dropped h1 (sim_writes hsim hw)

end
end SerRaw
