import Verif.Lemmas.HandTop
import Verif.Lemmas.Afterwards
import Verif.Lemmas.Streaming
import Verif.Props.Mixed
/-
Values whose types have hand-written implementations (or contain such types) among the things one serializer is used for.
-/
namespace SerRaw

section
variable {A : Arch} {P : Prog} {X : TyId → Option HandImpl} {im : Mem}

theorem HCalls.script_mono {r1 r2 : TyId → Nat → Option Script} (h : ∀ t a s, r1 t a = some s → r2 t a = some s) (cs : HCalls) :
    ∀ {sc : Script}, cs.script r1 = some sc → cs.script r2 = some sc := by
  induction cs with
  | done => exact id
  | data t a rest ih =>
    intro sc hs
    simp only [HCalls.script, Option.bind_eq_bind, Option.bind_eq_some_iff, Option.pure_def, Option.some.injEq] at hs ⊢
    obtain ⟨x, h1, y, h2, h3⟩ := hs
    exact ⟨x, h _ _ _ h1, y, ih h2, h3⟩
  | pushProcess L len src ptr inner rest ih1 ih2 =>
    intro sc hs
    simp only [HCalls.script, Option.bind_eq_bind, Option.bind_eq_some_iff, Option.pure_def, Option.some.injEq] at hs ⊢
    obtain ⟨x, h1, y, h2, h3⟩ := hs
    exact ⟨x, ih1 h1, y, ih2 h2, h3⟩
  | push L len src ptr rest ih =>
    intro sc hs
    simp only [HCalls.script, Option.bind_eq_bind, Option.bind_eq_some_iff, Option.pure_def, Option.some.injEq] at hs ⊢
    obtain ⟨x, h1, h3⟩ := hs
    exact ⟨x, ih h1, h3⟩
  | pushRaw L len src rest ih =>
    intro sc hs
    simp only [HCalls.script, Option.bind_eq_bind, Option.bind_eq_some_iff, Option.pure_def, Option.some.injEq] at hs ⊢
    obtain ⟨x, h1, h3⟩ := hs
    exact ⟨x, ih h1, h3⟩
  | overwrite addr L bytes rest ih =>
    intro sc hs
    simp only [HCalls.script, Option.bind_eq_bind, Option.bind_eq_some_iff, Option.pure_def, Option.some.injEq] at hs ⊢
    obtain ⟨x, h1, h3⟩ := hs
    exact ⟨x, ih h1, h3⟩

theorem scriptStep_mono {r1 r2 : TyId → Nat → Option Script} (ih : ∀ t a s, r1 t a = some s → r2 t a = some s) {t a : Nat} {sc : Script}
    (h : scriptStep A P im r1 t a = some sc) : scriptStep A P im r2 t a = some sc := by
  rw [scriptStep] at h ⊢
  split at h <;> rename_i hd
  · exact h
  · split at h
    · rename_i hz; rw [if_pos hz]; exact h
    · rename_i hz
      rw [if_neg hz]
      simp only [Option.bind_eq_bind, Option.bind_eq_some_iff, Option.pure_def, Option.some.injEq] at h ⊢
      obtain ⟨x, h1, y, h2, h3⟩ := h
      exact ⟨x, h1, y, ih _ _ _ h2, h3⟩
  · exact scriptVec_mono ih h
  · exact h
  · exact scriptEach_mono ih h
  · exact scriptEach_mono ih h
  · simp only [Option.bind_eq_bind, Option.bind_eq_some_iff] at h ⊢
    obtain ⟨x, h1, y, h2, h3⟩ := h
    exact ⟨x, h1, y, h2, scriptEach_mono ih h3⟩
  · exact scriptVec_mono ih h
  · exact ih _ _ _ h

theorem hScript_succ (n : Nat) : ∀ t a sc, hScript A P X im n t a = some sc → hScript A P X im (n + 1) t a = some sc := by
  induction n with
  | zero => intro t a sc h; simp [hScript] at h
  | succ n ih =>
    intro t a sc h
    rw [hScript] at h ⊢
    cases hx : X t with
    | none => simp only [hx] at h ⊢; exact scriptStep_mono ih h
    | some I =>
      simp only [hx, Option.bind_eq_some_iff] at h ⊢
      obtain ⟨cs, h1, h2⟩ := h
      exact ⟨cs, h1, cs.script_mono ih h2⟩

theorem hScript_mono {n m : Nat} (hnm : n ≤ m) {t a : Nat} {sc : Script} (h : hScript A P X im n t a = some sc) :
    hScript A P X im m t a = some sc := by
  induction hnm with
  | refl => exact h
  | step _ ih => exact hScript_succ _ _ _ _ ih

end

section
variable {C : Cfg} {P : Prog} {fl : Flags} {X : TyId → Option HandImpl} {V V' : TyId → HandView} {k : Kind}

/-- `Left` read back. -/
theorem Left.hand (hC : C.OK) (hP : P.WF C.arch) (hacc : P.Accepted C) (hX : AllHandOK C P X V V') {D D' n : Nat}
    (hD : (k.mode D).ptrBase = some D') (hDal : ∀ u, (P.layout u).size ≠ 0 → (P.layout u).align ∣ D') {r : Root} {v : Val} {sc : Script}
    (hd : decodeH C.arch P X V fl r.im n r.t r.a = some v) (hs : hScript C.arch P X r.im n r.t r.a = some sc)
    (hz : (P.layout r.t).size ≠ 0) {m : Nat → Mem} {lo hi p : Nat} (hl : Left C k (P.layout r.t) r.im r.a sc m lo hi p)
    (hb : D' + hi < C.arch.usizeMod) {dm : Mem} (hdm : ∀ i, lo ≤ i → i < hi → dm (D' + i) = m D i) :
    DenotesH C.arch P X V' ⟨fl.canon, (k.mode D).fixup⟩ dm r.t (D' + p) v := by
  obtain ⟨m0, hc⟩ := hl.cells D
  have hend : (rootIdeal C.arch C.valueAlign (k.mode D) (P.layout r.t) r.im r.a sc (m0, lo)).2 = hi := by
    rw [rootIdeal_end, hl.end_]
  have hp := hl.at_
  rw [rootPos, if_neg hz] at hp
  rw [hp]
  refine ⟨n, hRoot_back hC hP hacc hX hD hDal hd hs hz (st := (m0, lo)) (by rw [hend]; exact hb) fun i h1 h2 => ?_⟩
  rw [hend] at h2
  rw [hdm i h1 h2]
  exact hc i h1 h2

end

end SerRaw
