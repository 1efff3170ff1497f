import Verif.Lemmas.Assembled
import Verif.Lemmas.Parametric
import Verif.Lemmas.TypedDecode
/-
Applying recorded corrections last gives what applying them at once would have given; the corrections of the crate's types can be deferred.
-/
namespace SerRaw

/-! ### Corrections applied last -/

theorem applyFixes_append (xs ys : List Fix) (m : Mem) : applyFixes (xs ++ ys) m = applyFixes ys (applyFixes xs m) := by
  simp [applyFixes, List.foldl_append]

theorem applyFixes_blit {fs : List Fix} {x n : Nat} (h : ∀ f ∈ fs, DisjRange f.pos f.size x n) (m : Mem) (d : Nat → Cell) :
    applyFixes fs (m.blit x n d) = (applyFixes fs m).blit x n d := by
  induction fs generalizing m with
  | nil => rfl
  | cons f fs ih =>
    have h1 := h f (by simp)
    unfold DisjRange at h1
    show applyFixes fs ((m.blit x n d).blit f.pos f.size f.data) = (applyFixes fs (m.blit f.pos f.size f.data)).blit x n d
    rw [blit_comm (by omega), ih fun g hg => h g (by simp [hg])]

theorem applyFixes_putPtr {A : Arch} {md : Mode} {fs : List Fix} {x : Nat} (h : ∀ f ∈ fs, DisjRange f.pos f.size x A.ptrBytes) (m : Mem) (t : Nat) :
    applyFixes fs (md.putPtr A m x t) = md.putPtr A (applyFixes fs m) x t := by
  unfold Mode.putPtr
  cases md.ptrBase with
  | none => rfl
  | some B => exact applyFixes_blit h m _

theorem applyFixes_mono {fs : List Fix} {m m' : Mem} (h : m.Le m') : (applyFixes fs m).Le (applyFixes fs m') := by
  induction fs generalizing m m' with
  | nil => exact h
  | cons f fs ih =>
    refine ih (m := m.blit f.pos f.size f.data) (m' := m'.blit f.pos f.size f.data) fun i b hb => ?_
    unfold Mem.blit at hb ⊢
    split
    · rename_i hc; rw [if_pos hc] at hb; exact hb
    · rename_i hc; rw [if_neg hc] at hb; exact h i b hb

theorem slots_touch (A : Arch) (sc : Script) : ∀ p ∈ sc.slots, (p, A.ptrBytes) ∈ sc.touch A := by
  induction sc with
  | done => simp [Script.slots]
  | pushProcess L len src ptr inner rest _ ih =>
    intro p hp
    simp only [Script.slots, List.mem_cons, Script.touch] at hp ⊢
    rcases hp with rfl | hp
    · exact Or.inl rfl
    · exact Or.inr (ih p hp)
  | push L len src ptr rest ih =>
    intro p hp
    simp only [Script.slots, List.mem_cons, Script.touch] at hp ⊢
    rcases hp with rfl | hp
    · exact Or.inl rfl
    · exact Or.inr (ih p hp)
  | pushRaw L len src rest ih => exact ih
  | overwrite a L d rest ih => intro p hp; exact List.mem_cons_of_mem _ (ih p hp)

/-- Corrections lie between the start of the allocation and the end of the output. -/
theorem fixes_range {C : Cfg} {va : Nat} (hva : 0 < va) (sc : Script) {c : Ctx} (h : sc.WF C c) {op q : Nat} (hq : op + c.sz ≤ q) :
    ∀ f ∈ sc.fixes va c.ia op q, op ≤ f.pos ∧ f.pos + f.size ≤ placeEnd va q sc.shapes := by
  induction sc generalizing c op q with
  | done => simp [Script.fixes]
  | pushProcess L len src ptr inner rest ih1 ih2 =>
    obtain ⟨ho, _, _, h1, h2⟩ := h
    have e1 := le_roundUp q ho.pow2.pos
    have e2 := le_roundUp (roundUp q L.align + L.size * len) hva
    have e3 := le_placeEnd hva (pushes_align inner h1) (roundUp (roundUp q L.align + L.size * len) va)
    have e4 := le_placeEnd hva (pushes_align rest h2) (placeEnd va (roundUp (roundUp q L.align + L.size * len) va) inner.shapes)
    have hsh : placeEnd va q (Script.pushProcess L len src ptr inner rest).shapes =
        placeEnd va (placeEnd va (roundUp (roundUp q L.align + L.size * len) va) inner.shapes) rest.shapes := by
      rw [← placeEnd_append]
      simp [Script.shapes, Script.pushes, placeEnd, Shape.bytes]
    rw [hsh]
    intro f hf
    simp only [Script.fixes, List.mem_append] at hf
    rcases hf with hf | hf
    · obtain ⟨a, b⟩ := ih1 (c := ⟨src, L.size * len, L.align⟩) h1 (by simp only; omega) f hf
      omega
    · exact ih2 h2 (by omega) f hf
  | push L len src ptr rest ih =>
    obtain ⟨ho, _, _, h2⟩ := h
    have e1 := le_roundUp q ho.pow2.pos
    have e2 := le_roundUp (roundUp q L.align + L.size * len) hva
    have hsh : placeEnd va q (Script.push L len src ptr rest).shapes = placeEnd va (roundUp (roundUp q L.align + L.size * len) va) rest.shapes := by
      simp [Script.shapes, Script.pushes, placeEnd, Shape.bytes]
    rw [hsh]
    intro f hf
    exact ih h2 (by omega) f hf
  | pushRaw L len src rest ih =>
    obtain ⟨ho, h2⟩ := h
    have e1 := le_roundUp q ho.pow2.pos
    have e2 := le_roundUp (roundUp q L.align + L.size * len) hva
    have hsh : placeEnd va q (Script.pushRaw L len src rest).shapes = placeEnd va (roundUp (roundUp q L.align + L.size * len) va) rest.shapes := by
      simp [Script.shapes, Script.pushes, placeEnd, Shape.bytes]
    rw [hsh]
    intro f hf
    exact ih h2 (by omega) f hf
  | overwrite a L d rest ih =>
    obtain ⟨ht, h2⟩ := h
    have hsh : placeEnd va q (Script.overwrite a L d rest).shapes = placeEnd va q rest.shapes := rfl
    rw [hsh]
    have e4 := le_placeEnd hva (pushes_align rest h2) q
    intro f hf
    simp only [Script.fixes, List.mem_cons] at hf
    rcases hf with rfl | hf
    · have := ht.lo; have := ht.hi
      simp only [outPos]; omega
    · exact ih h2 hq f hf

/-- Applying the corrections of a script after everything else gives the reference output with corrections. -/
theorem ideal_defer {C : Cfg} {va : Nat} (hva : 0 < va) {b : Option Nat} {im : Mem} (sc : Script) {c : Ctx} (h : sc.WF C c)
    (hdf : sc.Deferrable C.arch) {op q : Nat} (hq : op + c.sz ≤ q) {fs : List Fix} (hb : ∀ f ∈ fs, f.pos + f.size ≤ q)
    (hd : ∀ f ∈ fs, ∀ p ∈ sc.slots, DisjRange f.pos f.size (outPos c.ia op p) C.arch.ptrBytes) (m : Mem) :
    applyFixes (fs ++ sc.fixes va c.ia op q) (sc.ideal C.arch va ⟨b, false⟩ im c.ia op (m, q)).1 =
      (sc.ideal C.arch va ⟨b, true⟩ im c.ia op (applyFixes fs m, q)).1 := by
  induction sc generalizing c op q fs m with
  | done => simp [Script.fixes, Script.ideal]
  | pushRaw L len src rest ih =>
    obtain ⟨ho, h2⟩ := h
    have e1 := le_roundUp q ho.pow2.pos
    have e2 := le_roundUp (roundUp q L.align + L.size * len) hva
    simp only [Script.fixes, Script.ideal]
    rw [ih h2 hdf (by omega) (fun f hf => by have := hb f hf; omega) hd,
      applyFixes_blit fun f hf => by have := hb f hf; unfold DisjRange; omega]
  | overwrite a L d rest ih =>
    obtain ⟨ht, h2⟩ := h
    obtain ⟨hd1, hdf⟩ := hdf
    have hlo := ht.lo; have hhi := ht.hi
    simp only [Script.fixes, Script.ideal, Mode.putValue, if_true]
    have e := ih h2 hdf hq (fs := fs ++ [⟨outPos c.ia op a, L.size, d⟩]) ?_ ?_ m
    · rw [List.append_assoc] at e
      simp only [List.singleton_append] at e
      rw [applyFixes_append] at e
      exact (applyFixes_append _ _ _).trans (e.trans (by rw [applyFixes_append]; rfl))
    · intro f hf
      rw [List.mem_append, List.mem_singleton] at hf
      rcases hf with hf | rfl
      · exact hb f hf
      · simp only [outPos]; omega
    · intro f hf p hp
      rw [List.mem_append, List.mem_singleton] at hf
      rcases hf with hf | rfl
      · exact hd f hf p hp
      · exact outPos_disj hlo (h2.touchOK _ (slots_touch C.arch rest p hp)).lo (hd1 p hp)
  | push L len src ptr rest ih =>
    obtain ⟨ho, ht, _, h2⟩ := h
    have e1 := le_roundUp q ho.pow2.pos
    have e2 := le_roundUp (roundUp q L.align + L.size * len) hva
    simp only [Script.fixes, Script.ideal]
    rw [ih h2 hdf (by omega) (fun f hf => by have := hb f hf; omega) (fun f hf p hp => hd f hf p (by simp [Script.slots, hp])),
      applyFixes_putPtr (fun f hf => hd f hf ptr (by simp [Script.slots])),
      applyFixes_blit fun f hf => by have := hb f hf; unfold DisjRange; omega]
    rfl
  | pushProcess L len src ptr inner rest ih1 ih2 =>
    obtain ⟨ho, ht, _, h1, h2⟩ := h
    obtain ⟨hdi, hdr⟩ := hdf
    have e1 := le_roundUp q ho.pow2.pos
    have e2 := le_roundUp (roundUp q L.align + L.size * len) hva
    have e3 := le_placeEnd hva (pushes_align inner h1) (roundUp (roundUp q L.align + L.size * len) va)
    simp only [Script.fixes, Script.ideal]
    have hin := ih1 (c := ⟨src, L.size * len, L.align⟩) (op := roundUp q L.align) (q := roundUp (roundUp q L.align + L.size * len) va) h1 hdi
      (by simp only; omega) (fs := fs) (fun f hf => by have := hb f hf; omega)
      (fun f hf p hp => by have := hb f hf; unfold DisjRange outPos; simp only; omega)
      (Mode.putPtr C.arch ⟨b, false⟩ (m.blit (roundUp q L.align) (L.size * len) fun i => im (src + i)) (outPos c.ia op ptr) (roundUp q L.align))
    rw [applyFixes_putPtr (fun f hf => hd f hf ptr (by simp [Script.slots])),
      applyFixes_blit fun f hf => by have := hb f hf; unfold DisjRange; omega] at hin
    have hend : ∀ md m, (inner.ideal C.arch va md im src (roundUp q L.align) (m, roundUp (roundUp q L.align + L.size * len) va)).2 =
        placeEnd va (roundUp (roundUp q L.align + L.size * len) va) inner.shapes := fun md m => ideal_end inner _ _ _
    have hrange := fixes_range (c := ⟨src, L.size * len, L.align⟩) (op := roundUp q L.align)
      (q := roundUp (roundUp q L.align + L.size * len) va) hva inner h1 (by simp only; omega)
    have hre := ih2 h2 hdr (op := op) (q := placeEnd va (roundUp (roundUp q L.align + L.size * len) va) inner.shapes) (by omega)
      (fs := fs ++ inner.fixes va src (roundUp q L.align) (roundUp (roundUp q L.align + L.size * len) va)) ?_ ?_
      (inner.ideal C.arch va ⟨b, false⟩ im src (roundUp q L.align)
        (Mode.putPtr C.arch ⟨b, false⟩ (m.blit (roundUp q L.align) (L.size * len) fun i => im (src + i)) (outPos c.ia op ptr) (roundUp q L.align),
          roundUp (roundUp q L.align + L.size * len) va)).1
    · rw [hin, List.append_assoc] at hre
      have p1 : ∀ md m, inner.ideal C.arch va md im src (roundUp q L.align) (m, roundUp (roundUp q L.align + L.size * len) va) =
          ((inner.ideal C.arch va md im src (roundUp q L.align) (m, roundUp (roundUp q L.align + L.size * len) va)).1,
            placeEnd va (roundUp (roundUp q L.align + L.size * len) va) inner.shapes) := fun md m => Prod.ext rfl (hend md m)
      rw [p1 ⟨b, false⟩, p1 ⟨b, true⟩]
      exact hre
    · intro f hf
      rw [List.mem_append] at hf
      rcases hf with hf | hf
      · have := hb f hf; omega
      · exact (hrange f hf).2
    · intro f hf p hp
      rw [List.mem_append] at hf
      rcases hf with hf | hf
      · exact hd f hf p (by simp [Script.slots, hp])
      · have h3 := (hrange f hf).1
        have h4 := h2.touchOK _ (slots_touch C.arch rest p hp)
        have := h4.lo; have := h4.hi
        unfold DisjRange outPos
        simp only at *
        omega

/-! ### Several values -/

/-- The corrections made for a value, the output ending at `q`. -/
def UserRoot.fixes (va : Nat) (v : UserRoot) (q : Nat) : List Fix :=
  if v.L.size = 0 then []
  else v.sc.fixes va v.a (roundUp q v.L.align) (roundUp (roundUp q v.L.align + v.L.size) va)

def usersFixes (A : Arch) (va : Nat) : List UserRoot → Nat → List Fix
  | [], _ => []
  | v :: vs, q => v.fixes va q ++ usersFixes A va vs (rootIdeal A va ⟨none, false⟩ v.L v.im v.a v.sc (fun _ => none, q)).2

theorem rootIdeal_defer {C : Cfg} {va : Nat} (hva : 0 < va) {b : Option Nat} {v : UserRoot} (hv : RandomImpl.GValueOK C v)
    (hdf : v.sc.Deferrable C.arch) {q : Nat} {fs : List Fix} (hb : ∀ f ∈ fs, f.pos + f.size ≤ q) (m : Mem) :
    applyFixes (fs ++ v.fixes va q) (rootIdeal C.arch va ⟨b, false⟩ v.L v.im v.a v.sc (m, q)).1 =
      (rootIdeal C.arch va ⟨b, true⟩ v.L v.im v.a v.sc (applyFixes fs m, q)).1 ∧
    ∀ f ∈ fs ++ v.fixes va q, f.pos + f.size ≤ (rootIdeal C.arch va ⟨none, false⟩ v.L v.im v.a v.sc (fun _ => none, q)).2 := by
  unfold rootIdeal UserRoot.fixes
  by_cases hz : v.L.size = 0
  · simp only [if_pos hz, List.append_nil]
    exact ⟨trivial, hb⟩
  · simp only [if_neg hz]
    have ho := hv.push hz
    have hw := hv.wf hz
    have e1 := le_roundUp q ho.pow2.pos
    have e2 := le_roundUp (roundUp q v.L.align + v.L.size) hva
    have hq : roundUp q v.L.align + (⟨v.a, v.L.size, v.L.align⟩ : Ctx).sz ≤ roundUp (roundUp q v.L.align + v.L.size) va := by simp only; omega
    refine ⟨?_, ?_⟩
    · rw [ideal_defer hva v.sc hw hdf hq (fun f hf => by have := hb f hf; omega)
        (fun f hf p hp => by have := hb f hf; unfold DisjRange outPos; simp only; omega),
        applyFixes_blit fun f hf => by have := hb f hf; unfold DisjRange; omega]
    · intro f hf
      rw [ideal_end]
      simp only
      rw [List.mem_append] at hf
      rcases hf with hf | hf
      · have := hb f hf
        have := le_placeEnd hva (pushes_align v.sc hw) (roundUp (roundUp q v.L.align + v.L.size) va)
        omega
      · exact (fixes_range hva v.sc hw hq f hf).2

theorem usersIdeal_defer {C : Cfg} {va : Nat} (hva : 0 < va) {b : Option Nat} (vs : List UserRoot) (hv : ∀ v ∈ vs, RandomImpl.GValueOK C v)
    (hdf : ∀ v ∈ vs, v.sc.Deferrable C.arch) {q : Nat} {fs : List Fix} (hb : ∀ f ∈ fs, f.pos + f.size ≤ q) (m : Mem) :
    applyFixes (fs ++ usersFixes C.arch va vs q) (userIdeal C.arch va ⟨b, false⟩ vs (m, q)).1 =
      (userIdeal C.arch va ⟨b, true⟩ vs (applyFixes fs m, q)).1 ∧
    ∀ f ∈ fs ++ usersFixes C.arch va vs q, f.pos + f.size ≤ (userIdeal C.arch va ⟨b, false⟩ vs (m, q)).2 := by
  induction vs generalizing q fs m with
  | nil => simp only [usersFixes, List.append_nil, userIdeal]; exact ⟨trivial, hb⟩
  | cons v vs ih =>
    obtain ⟨h1, h2⟩ := rootIdeal_defer (b := b) hva (hv v (by simp)) (hdf v (by simp)) hb m
    have hend : ∀ md m, (rootIdeal C.arch va md v.L v.im v.a v.sc (m, q)).2 =
        (rootIdeal C.arch va ⟨none, false⟩ v.L v.im v.a v.sc (fun _ => none, q)).2 := fun md m => by rw [rootIdeal_end, rootIdeal_end]
    obtain ⟨h3, h4⟩ := ih (fun x hx => hv x (by simp [hx])) (fun x hx => hdf x (by simp [hx])) h2
      (rootIdeal C.arch va ⟨b, false⟩ v.L v.im v.a v.sc (m, q)).1
    simp only [usersFixes, userIdeal]
    have p1 : ∀ md m, rootIdeal C.arch va md v.L v.im v.a v.sc (m, q) = ((rootIdeal C.arch va md v.L v.im v.a v.sc (m, q)).1,
        (rootIdeal C.arch va ⟨none, false⟩ v.L v.im v.a v.sc (fun _ => none, q)).2) := fun md m => Prod.ext rfl (hend md m)
    rw [← List.append_assoc, p1 ⟨b, false⟩ m, p1 ⟨b, true⟩]
    exact ⟨h3.trans (by rw [h1]), h4⟩

/-! ### The crate's types -/

theorem slots_app (x y : Script) : (x.app y).slots = x.slots ++ y.slots := by
  induction x with
  | done => rfl
  | pushProcess L len src ptr inner rest _ ih => simp only [Script.app, Script.slots, ih, List.cons_append]
  | push L len src ptr rest ih => simp only [Script.app, Script.slots, ih, List.cons_append]
  | pushRaw L len src rest ih => simp only [Script.app, Script.slots, ih]
  | overwrite a L data rest ih => simp only [Script.app, Script.slots, ih]

theorem Deferrable.app {A : Arch} {x y : Script} (hx : x.Deferrable A) (hy : y.Deferrable A)
    (hd : ∀ t ∈ x.touch A, ∀ t' ∈ y.touch A, DisjRange t.1 t.2 t'.1 t'.2) : (x.app y).Deferrable A := by
  induction x with
  | done => exact hy
  | pushProcess L len src ptr inner rest _ ih => exact ⟨hx.1, ih hx.2 fun t ht => hd t (by simp [Script.touch, ht])⟩
  | push L len src ptr rest ih => exact ih hx fun t ht => hd t (by simp [Script.touch, ht])
  | pushRaw L len src rest ih => exact ih hx hd
  | overwrite a L d rest ih =>
    refine ⟨fun p hp => ?_, ih hx.2 fun t ht => hd t (by simp [Script.touch, ht])⟩
    rw [slots_app, List.mem_append] at hp
    rcases hp with hp | hp
    · exact hx.1 p hp
    · exact hd (a, L.size) (by simp [Script.touch]) (p, A.ptrBytes) (slots_touch A y p hp)

section crate
variable {C : Cfg} {P : Prog} {im : Mem} {fl : Flags}

theorem headScript_deferrable {o : Order} {dangle a : Nat} {h : Header} {body : Script}
    (hb : body.Deferrable C.arch ∧ body.slots = [a + o.ptrIx * C.arch.ptrBytes]) :
    (headScript C.arch o dangle a h body).Deferrable C.arch := by
  unfold headScript
  split
  · split
    · unfold fixEmpty
      cases o <;> simp [Script.words, Script.Deferrable, Script.slots]
    · trivial
  · split
    · refine ⟨fun p hp => ?_, hb.1⟩
      rw [hb.2, List.mem_singleton] at hp
      subst hp
      cases o <;> simp [Order.ptrIx, Order.capIx, DisjRange] <;> omega
    · exact hb.1

/-- The claim for one type. -/
def DeferClaim (C : Cfg) (rd : TyId → Nat → Option Val) (rc : TyId → Nat → Option Script) : Prop :=
  ∀ t a v sc, rd t a = some v → rc t a = some sc → sc.Deferrable C.arch

theorem scriptEach_deferrable {rd : TyId → Nat → Option Val} {rc : TyId → Nat → Option Script} (hrec : DeferClaim C rd rc)
    (hwf : WFClaim C P rd rc) {c : Ctx} {L : Layout} {a : Nat} (hp : Placed c L a) {fs : List Field} (hf : FieldsWF P L fs) {vs : List Val}
    {sc : Script} (hd : decodeEach rd a fs = some vs) (hs : scriptEach rc a fs = some sc) : sc.Deferrable C.arch := by
  induction fs generalizing vs sc with
  | nil => simp only [scriptEach, Option.some.injEq] at hs; subst hs; trivial
  | cons f fs ih =>
    simp only [decodeEach, Option.bind_eq_bind, Option.bind_eq_some_iff, Option.pure_def, Option.some.injEq] at hd
    simp only [scriptEach, Option.bind_eq_bind, Option.bind_eq_some_iff, Option.pure_def, Option.some.injEq] at hs
    obtain ⟨v, d1, ws, d2, _⟩ := hd
    obtain ⟨s1, e1, s2, e2, rfl⟩ := hs
    have hlo := hp.lo; have hhi := hp.hi
    have hin := hf.inBounds f (by simp)
    obtain ⟨w1, t1⟩ := hwf _ _ _ _ c d1 e1 ⟨by omega, by omega, Nat.dvd_trans (hf.alignLe f (by simp)) hp.al, hp.ia⟩
    have hf' : FieldsWF P L fs := ⟨fun g hg => hf.inBounds g (by simp [hg]), fun g hg => hf.aligned g (by simp [hg]),
      fun g hg => hf.alignLe g (by simp [hg]), (List.pairwise_cons.1 hf.disjoint).2⟩
    obtain ⟨w2, t2⟩ := scriptEach_wf hwf hp hf' d2 e2
    refine Deferrable.app (hrec _ _ _ _ d1 e1) (ih hf' d2 e2) ?_
    intro t ht t' ht'
    obtain ⟨g, hg, g1, g2⟩ := t2 t' ht'
    obtain ⟨f1, f2⟩ := t1 t ht
    have := (List.pairwise_cons.1 hf.disjoint).1 g hg
    unfold DisjRange at *; omega

theorem scriptVec_deferrable (hP : P.WF C.arch) {rd : TyId → Nat → Option Val} {rc : TyId → Nat → Option Script} (hrec : DeferClaim C rd rc)
    (hwf : WFClaim C P rd rc) {u : TyId} {a : Nat} {v : Val} {sc : Script}
    (hd : decodeVec C.arch P fl im rd u a = some v) (hs : scriptVec C.arch P im rc u a = some sc) : sc.Deferrable C.arch := by
  unfold scriptVec at hs
  split at hs
  · simp only [Option.some.injEq] at hs; subst hs; trivial
  · rename_i hz
    simp only [decodeVec, Option.bind_eq_bind, Option.bind_eq_some_iff, Option.pure_def, Option.some.injEq,
      Option.ite_none_right_eq_some] at hd
    simp only [Option.bind_eq_bind, Option.bind_eq_some_iff, Option.pure_def, Option.some.injEq] at hs
    obtain ⟨h, h1, hval, vs, h2, _⟩ := hd
    obtain ⟨h', h1', inner, e1, rfl⟩ := hs
    rw [h1] at h1'; obtain rfl := Option.some.inj h1'
    refine headScript_deferrable ⟨⟨?_, trivial⟩, by simp [Script.slots]⟩
    exact scriptEach_deferrable (c := ⟨h.ptr, h.len * (P.layout u).size, (P.layout u).align⟩)
      (L := ⟨h.len * (P.layout u).size, (P.layout u).align⟩) hrec hwf
      ⟨Nat.le_refl _, Nat.le_refl _, Nat.dvd_refl _, Nat.dvd_of_mod_eq_zero hval.2.1⟩ (elems_wf hP u h.len) h2 e1

theorem script_deferrable (hW : 0 < C.arch.ptrBytes) (hP : P.WF C.arch) (hacc : P.Accepted C) (n : Nat) :
    DeferClaim C (decode C.arch P fl im n) (script C.arch P im n) := by
  induction n with
  | zero => intro t a v sc hd; simp [decode] at hd
  | succ n ih =>
    intro t a v sc hd hs
    have hwf := script_wf (fl := fl) (im := im) hW hP hacc n
    have hw := hP t
    unfold TyWF at hw
    obtain ⟨_, _, _, hw⟩ := hw
    have hg := decode_guard hd
    rw [script] at hs
    rw [decode] at hd
    have hroot : Placed ⟨a, (P.layout t).size, (P.layout t).align⟩ (P.layout t) a := placed_root hg.1
    split at hd
    · cases hdef : P.defn t <;> simp only [hdef] at hd hw hs
      case prim => simp only [Option.some.injEq] at hs; subst hs; trivial
      case box u =>
        split at hs
        · simp only [Option.some.injEq] at hs; subst hs; trivial
        · simp only [Option.bind_eq_bind, Option.bind_eq_some_iff, Option.pure_def, Option.some.injEq,
            Option.ite_none_right_eq_some] at hd hs
          obtain ⟨p, h1, h2, v', h3, _⟩ := hd
          obtain ⟨p', h1', inner, e1, rfl⟩ := hs
          rw [h1] at h1'; obtain rfl := Option.some.inj h1'
          exact ⟨ih _ _ _ _ h3 e1, trivial⟩
      case vec u => exact scriptVec_deferrable hP ih hwf hd hs
      case string =>
        simp only [Option.bind_eq_bind, Option.bind_eq_some_iff, Option.pure_def, Option.some.injEq] at hs
        obtain ⟨h', h1', rfl⟩ := hs
        exact headScript_deferrable ⟨trivial, by simp [Script.slots]⟩
      case array u k =>
        simp only [Option.bind_eq_bind, Option.bind_eq_some_iff] at hd
        obtain ⟨vs, h1, _⟩ := hd
        have hL : P.layout t = ⟨k * (P.layout u).size, (P.layout u).align⟩ := by
          have : P.layout t = ⟨(P.layout t).size, (P.layout t).align⟩ := rfl
          rw [this, hw.1, hw.2]
        rw [hL] at hroot
        exact scriptEach_deferrable ih hwf hroot (elems_wf hP u k) h1 hs
      case struct fs =>
        simp only [Option.bind_eq_bind, Option.bind_eq_some_iff] at hd
        obtain ⟨vs, h1, _⟩ := hd
        exact scriptEach_deferrable ih hwf hroot hw h1 hs
      case enum tag vs =>
        simp only [Option.bind_eq_bind, Option.bind_eq_some_iff] at hd hs
        obtain ⟨i, h1, fs, h2, xs, h3, _⟩ := hd
        obtain ⟨i', h1', fs', h2', hs⟩ := hs
        rw [h1] at h1'; obtain rfl := Option.some.inj h1'
        rw [h2] at h2'; obtain rfl := Option.some.inj h2'
        exact scriptEach_deferrable ih hwf hroot (hw.1 fs (List.mem_of_getElem? h2)) h3 hs
      case bigUint u => exact scriptVec_deferrable hP ih hwf hd hs
      case bigInt u =>
        simp only [Option.bind_eq_bind, Option.bind_eq_some_iff] at hd
        obtain ⟨_, _, v', h2, _⟩ := hd
        exact ih _ _ _ _ h2 hs
    · cases hd

end crate

/-! ### Sessions -/

/-- The value is real, and so are its corrections. -/
structure KValueOK (C : Cfg) (v : UserRoot) : Prop extends RandomImpl.GValueOK C v where
  over : v.sc.RealOverwrites

namespace RandomImpl
variable {σ : Type} {I : RandomImpl σ} {Inv : σ → Prop} {content : σ → Mem}

/-- `serialize_value`. -/
theorem Conforms.kvalue (h : I.Conforms Inv content) {K : Kit} {v : UserRoot} (hv : KValueOK I.C v) {s : KSer σ} {m : Mem}
    (hr : GRel I Inv content s.toGSer m) :
    (KSer.serializeValue I v.L v.a (fun i => v.im (v.a + i)) (v.sc.runA (kitSerializer I K) v.im) s).Sat
      (fun p s' => p = rootPos v.L (I.pos s.sto) ∧
        GRel I Inv content s'.toGSer (rootIdeal I.C.arch I.C.valueAlign K.storeMode v.L v.im v.a v.sc (m, I.pos s.sto)).1 ∧
        I.pos s'.sto = (rootIdeal I.C.arch I.C.valueAlign K.storeMode v.L v.im v.a v.sc (m, I.pos s.sto)).2 ∧
        s'.log = s.log ++ K.recorded (v.fixes I.C.valueAlign (I.pos s.sto)) ∧
        GKept I Inv content (I.pos s.sto) s.toGSer s'.toGSer)
      (fun pk s' => GFull I Inv content (rootIdeal I.C.arch I.C.valueAlign K.storeMode v.L v.im v.a v.sc (m, I.pos s.sto)).2 (I.pos s.sto)
        s.toGSer pk s'.toGSer) (¬ I.NeverAborts Inv) := by
  have F := h.storage.facts
  unfold KSer.serializeValue
  by_cases hz : v.L.size = 0
  · have hpush : GSer.pushRawSlice I (Slice.fromRef v.L v.a fun i => v.im (v.a + i)) s.toGSer = .ok 0 s.toGSer := by
      unfold GSer.pushRawSlice GSer.lift StorageImpl.pushSlice Slice.fromRef; rw [if_pos hz]; rfl
    rw [bind_ok (klift_ok hpush), hv.zst hz]
    simp only [rootPos, rootIdeal, if_pos hz, UserRoot.fixes]
    exact ⟨rfl, ⟨hr.inv, hr.dvd, hr.fresh, hr.sub⟩, rfl, by simp [Kit.recorded], ⟨hr.inv, hr.dvd, Nat.le_refl _, fun _ _ => rfl⟩⟩
  · have ho := hv.push hz
    have hge := le_roundUp (I.pos s.sto) ho.pow2.pos
    simp only [rootPos, rootIdeal, if_neg hz, UserRoot.fixes]
    rw [sat_bind, sat_klift]
    refine (h.gpush hr ho hv.layout (Or.inl Nat.one_pos) _ (lo := I.pos s.sto) (Nat.le_refl _)).mono ?_
      (fun _ _ hh => GFull.from (GKept.refl hr) hh (Nat.le_refl _) (by rw [Nat.mul_one]; exact ideal_mono F.va.pos v.sc (hv.wf hz) _ _ (_, _))) id
    rintro p g1 ⟨rfl, hm1, hp1, hr1, hk1⟩
    rw [Nat.mul_one] at hr1 hp1
    rw [bind_ok (show KSer.lift (GSer.setMap ⟨v.a, roundUp (I.pos s.sto) v.L.align⟩) ⟨g1, s.log⟩ =
      .ok () ⟨⟨g1.sto, ⟨v.a, roundUp (I.pos s.sto) v.L.align⟩⟩, s.log⟩ from rfl), sat_bind]
    have hr2 : GRel I Inv content ⟨g1.sto, ⟨v.a, roundUp (I.pos s.sto) v.L.align⟩⟩ _ := ⟨hr1.inv, hr1.dvd, hr1.fresh, hr1.sub⟩
    have hk2 : GKept I Inv content (I.pos s.sto) s.toGSer ⟨g1.sto, ⟨v.a, roundUp (I.pos s.sto) v.L.align⟩⟩ := ⟨hk1.inv, hk1.dvd, hk1.pos, hk1.below⟩
    have hge2 := le_roundUp (roundUp (I.pos s.sto) v.L.align + v.L.size) F.va.pos
    refine (h.runK (K := K) v.sc (c := ⟨v.a, v.L.size, v.L.align⟩) (op := roundUp (I.pos s.sto) v.L.align)
      (s := ⟨⟨g1.sto, ⟨v.a, roundUp (I.pos s.sto) v.L.align⟩⟩, s.log⟩) hr2 (hv.wf hz) hv.types hv.over rfl
      (by simp only; omega) (by simp only; omega) (dvd_roundUp _ _) ho.pow2.pos ho.align_le).mono ?_
      (fun _ _ hh => GFull.from hk2 hh hge (by simp only [hp1]; exact Nat.le_refl _)) id
    rintro _ s3 ⟨a1, a2, _, a4, a5⟩
    simp only [hp1] at a1 a2 a4
    rw [pure_run, sat_ok]
    exact ⟨rfl, a1, a2, a4, hk2.trans (a5.lower hge)⟩

theorem Conforms.kvalues (h : I.Conforms Inv content) {K : Kit} (vs : List UserRoot) (hv : ∀ v ∈ vs, KValueOK I.C v) {s : KSer σ} {m : Mem}
    (hr : GRel I Inv content s.toGSer m) :
    (aValues (kitSerializer I K) vs s).Sat
      (fun ps s' => ps = gPos I.C.arch I.C.valueAlign K.storeMode vs (m, I.pos s.sto) ∧
        GRel I Inv content s'.toGSer (userIdeal I.C.arch I.C.valueAlign K.storeMode vs (m, I.pos s.sto)).1 ∧
        I.pos s'.sto = (userIdeal I.C.arch I.C.valueAlign K.storeMode vs (m, I.pos s.sto)).2 ∧
        s'.log = s.log ++ K.recorded (usersFixes I.C.arch I.C.valueAlign vs (I.pos s.sto)) ∧
        GKept I Inv content (I.pos s.sto) s.toGSer s'.toGSer)
      (fun pk s' => GFull I Inv content (userIdeal I.C.arch I.C.valueAlign K.storeMode vs (m, I.pos s.sto)).2 (I.pos s.sto) s.toGSer pk s'.toGSer)
      (¬ I.NeverAborts Inv) := by
  induction vs generalizing s m with
  | nil => exact ⟨rfl, hr, rfl, by simp [usersFixes, Kit.recorded], hr.inv, hr.dvd, Nat.le_refl _, fun _ _ => rfl⟩
  | cons v vs ih =>
    simp only [aValues]
    rw [sat_bind]
    refine (h.kvalue (K := K) (hv v (by simp)) hr).mono ?_ (fun _ _ hh => GFull.from (GKept.refl hr) hh (Nat.le_refl _)
      (userIdeal_ge h.storage.facts.va.pos vs (fun x hx => (hv x (by simp [hx])).toGValueOK) _)) id
    rintro p s1 ⟨hp, hr1, hp1, hl1, hk1⟩
    rw [sat_bind]
    have e : (rootIdeal I.C.arch I.C.valueAlign K.storeMode v.L v.im v.a v.sc (m, I.pos s.sto)) =
      ((rootIdeal I.C.arch I.C.valueAlign K.storeMode v.L v.im v.a v.sc (m, I.pos s.sto)).1, I.pos s1.sto) := Prod.ext rfl hp1.symm
    refine (ih (fun x hx => hv x (by simp [hx])) hr1).mono ?_ (fun _ _ hh => GFull.from hk1 hh hk1.pos (by
      simp only [userIdeal]; rw [e])) id
    rintro ps s2 ⟨hps, hr2, hp2, hl2, hk2⟩
    have e2 : (rootIdeal I.C.arch I.C.valueAlign ⟨none, false⟩ v.L v.im v.a v.sc (fun _ => none, I.pos s.sto)).2 = I.pos s1.sto := by
      rw [hp1, rootIdeal_end, rootIdeal_end]
    simp only [gPos, userIdeal, usersFixes, pure_run, sat_ok]
    rw [e, e2]
    refine ⟨by rw [hp, hps], hr2, hp2, ?_, hk1.trans (hk2.lower hk1.pos)⟩
    rw [hl2, hl1, Kit.recorded_append, List.append_assoc]

end RandomImpl

section sessions
variable {σ : Type} {I : RandomImpl σ} {Inv : σ → Prop} {content : σ → Mem} {P : Prog} {fl : Flags}

/-- How a session on the values `vs` of a serializer assembled from `K` ends. -/
structure KUsers (I : RandomImpl σ) (Inv : σ → Prop) (content : σ → Mem) (K : Kit) (vs : List UserRoot) (t : σ) (ps : List Nat) (s' : KSer σ) : Prop where
  ps : ps = gPos I.C.arch I.C.valueAlign K.storeMode vs (fun _ => none, I.pos t)
  rel : RandomImpl.GRel I Inv content s'.toGSer (userIdeal I.C.arch I.C.valueAlign K.storeMode vs (fun _ => none, I.pos t)).1
  pos : I.pos s'.sto = (userIdeal I.C.arch I.C.valueAlign K.storeMode vs (fun _ => none, I.pos t)).2
  log : s'.log = K.recorded (usersFixes I.C.arch I.C.valueAlign vs (I.pos t))
  kept : RandomImpl.GKept I Inv content (I.pos t) (GSer.fromStorage t) s'.toGSer

theorem RandomImpl.Conforms.kusers (h : I.Conforms Inv content) {K : Kit} {t : σ} (ht : Inv t) (hd : I.C.valueAlign ∣ I.pos t) (vs : List UserRoot)
    (hv : ∀ v ∈ vs, KValueOK I.C v) :
    (aValues (kitSerializer I K) vs (KSer.fromStorage t)).Sat (fun ps s' => KUsers I Inv content K vs t ps s')
      (fun pk s' => RandomImpl.GFull I Inv content (userIdeal I.C.arch I.C.valueAlign K.storeMode vs (fun _ => none, I.pos t)).2 (I.pos t)
        (GSer.fromStorage t) pk s'.toGSer) (¬ I.NeverAborts Inv) := by
  refine (h.kvalues (K := K) vs hv (s := KSer.fromStorage t) (m := fun _ => none) ⟨ht, hd, fun _ _ => rfl, fun i b hb => by cases hb⟩).imp ?_
  rintro ps s' ⟨a1, a2, a3, a4, a5⟩
  exact ⟨a1, a2, a3, a4.trans (by simp [KSer.fromStorage, GSer.fromStorage]), a5⟩

/-- What the consumer gets, after applying the recorded corrections, contains the reference output. -/
theorem KUsers.le (hva : 0 < I.C.valueAlign) {K : Kit} {vs : List UserRoot} (hv : ∀ v ∈ vs, KValueOK I.C v)
    (hdf : K.fix = .record → ∀ v ∈ vs, v.sc.Deferrable I.C.arch) {t : σ} {ps : List Nat} {s' : KSer σ} (h : KUsers I Inv content K vs t ps s') :
    (userIdeal I.C.arch I.C.valueAlign K.mode vs (fun _ => none, I.pos t)).1.Le
      (applyFixes s'.log fun i => if i < I.pos s'.sto then content s'.sto i else none) := by
  have hbase : (userIdeal I.C.arch I.C.valueAlign K.storeMode vs (fun _ => none, I.pos t)).1.Le
      fun i => if i < I.pos s'.sto then content s'.sto i else none := by
    intro i b hb
    have hlt : i < I.pos s'.sto := by
      apply Nat.lt_of_not_le; intro hle
      rw [h.rel.fresh i hle] at hb; cases hb
    simp only
    rw [if_pos hlt]
    exact h.rel.sub i b hb
  rw [h.log]
  obtain ⟨off, f⟩ := K
  cases f with
  | drop => exact hbase
  | apply => exact hbase
  | record =>
    have hh := (usersIdeal_defer (b := if off then some 0 else none) hva vs (fun v hx => (hv v hx).toGValueOK) (hdf rfl) (q := I.pos t) (fs := [])
      (fun f hf => by cases hf) (fun _ => none)).1
    rw [List.nil_append] at hh
    have hm : (Kit.mk off .record).mode = ⟨if off then some 0 else none, true⟩ := rfl
    have hs : (Kit.mk off .record).storeMode = ⟨if off then some 0 else none, false⟩ := rfl
    have hrec : (Kit.mk off .record).recorded (usersFixes I.C.arch I.C.valueAlign vs (I.pos t)) =
      usersFixes I.C.arch I.C.valueAlign vs (I.pos t) := rfl
    rw [hm, hrec]
    rw [show (fun _ : Nat => (none : Cell)) = applyFixes [] fun _ => none from rfl, ← hh]
    rw [hs] at hbase
    exact applyFixes_mono hbase

theorem Job.OK.kval (hA : I.C.arch.Valid) (hP : P.WF I.C.arch) (hacc : P.Accepted I.C) {n : Nat} {j : Job} (h : j.OK I.C P fl n) :
    KValueOK I.C (j.gval P) ∧ (j.gval P).sc.Deferrable I.C.arch :=
  ⟨⟨Job.OK.gval (I := I) hA.ptr_pos hP hacc h, script_over hA.ptr_pow2 n _ _ _ h.2⟩, script_deferrable hA.ptr_pos hP hacc n _ _ _ _ h.1 h.2⟩

/-- A session of the crate's types. -/
theorem RandomImpl.Conforms.kroots (h : I.Conforms Inv content) (hP : P.WF I.C.arch) (hacc : P.Accepted I.C) {K : Kit} {t : σ} (ht : Inv t)
    (hd : I.C.valueAlign ∣ I.pos t) {rs : List (Root × Val)} (hv : Inputs I.C.arch P fl rs) :
    ∃ N, ∀ n, N ≤ n → ∃ js : List Job, js.map (fun j => (j.r, j.v)) = rs ∧ (∀ j ∈ js, j.OK I.C P fl n) ∧
      (aSession (kitSerializer I K) P n (rs.map (·.1)) (KSer.fromStorage t)).Sat
        (fun ps s' => KUsers I Inv content K (js.map (Job.gval P)) t ps s')
        (fun pk s' => RandomImpl.GFull I Inv content (placeEnd I.C.valueAlign (I.pos t) (jobsShapes P js)) (I.pos t) (GSer.fromStorage t) pk s'.toGSer)
        (¬ I.NeverAborts Inv) := by
  have hA := h.storage.arch
  obtain ⟨N, hN⟩ := exists_jobs (C := I.C) hA.ptr_pos hP hv
  refine ⟨N, fun n hn => ?_⟩
  obtain ⟨js, h1, h2⟩ := hN n hn
  refine ⟨js, h1, h2, ?_⟩
  have e : rs.map (·.1) = js.map (·.r) := by rw [← h1, List.map_map]; rfl
  have hs : aSession (kitSerializer I K) P n (rs.map (·.1)) = aValues (kitSerializer I K) (js.map (Job.gval P)) := by
    rw [e, aSession, aRoots_regular (kit_regular I K) (C := I.C) rfl hA.ptr_pos hP js h2]
    exact bind_pure_M _
  rw [hs]
  refine (h.kusers (K := K) ht hd (js.map (Job.gval P)) ?_).mono (fun _ _ hh => hh) (fun _ _ hh => ?_) id
  · intro v hv
    obtain ⟨j, hj, rfl⟩ := List.mem_map.1 hv
    exact ((h2 j hj).kval hA hP hacc).1
  · rw [gIdeal_jobs, jobsIdeal_end] at hh
    exact hh

/-- A combination uses its closures only by running them. -/
theorem kit_fuel (I : RandomImpl σ) (K : Kit) : SerRel (fuelRel (KSer σ)) (kitSerializer I K) (kitSerializer I K) where
  A := rfl
  fromRef := rfl
  fromRefOffset _ _ := fuelRel_refl _
  serializeValue _ _ _ _ _ h := (fuelRel _).bind (fuelRel_refl _) fun _ => (fuelRel _).bind (fuelRel_refl _) fun _ => (fuelRel _).bind h fun _ =>
    fuelRel_refl _
  pushSlice _ _ := fuelRel_refl _
  pushAndProcess _ _ _ _ _ _ h := (fuelRel _).bind (fuelRel_refl _) fun _ => (fuelRel _).bind (fuelRel_refl _) fun _ =>
    (fuelRel _).bind (fuelRel_refl _) fun _ => (fuelRel _).bind (fuelRel_refl _) fun _ => (fuelRel _).bind h fun _ => fuelRel_refl _
  pushAndProcessSlice _ _ _ _ h := (fuelRel _).bind (fuelRel_refl _) fun _ => (fuelRel _).bind (fuelRel_refl _) fun _ =>
    (fuelRel _).bind (fuelRel_refl _) fun _ => (fuelRel _).bind (fuelRel_refl _) fun _ => (fuelRel _).bind h fun _ => fuelRel_refl _
  pushRawSlice _ := fuelRel_refl _
  overwrite _ _ _ := fuelRel_refl _
  overwriteWith h := by
    show (fuelRel (KSer σ)).rel (KSer.overwriteWith K _) (KSer.overwriteWith K _)
    unfold KSer.overwriteWith
    cases K.fix
    · exact fuelRel_refl _
    · exact h
    · exact h
  finalize := fuelRel_refl _

/-- A session of the crate's types, however much fuel it was given. -/
theorem RandomImpl.Conforms.krootsOut (h : I.Conforms Inv content) (hP : P.WF I.C.arch) (hacc : P.Accepted I.C) {K : Kit} {t : σ} (ht : Inv t)
    (hd : I.C.valueAlign ∣ I.pos t) {rs : List (Root × Val)} (hv : Inputs I.C.arch P fl rs) {fuel : Nat}
    (hf : aSession (kitSerializer I K) P fuel (rs.map (·.1)) (KSer.fromStorage t) ≠ .fuel) :
    ∃ n, ∃ js : List Job, js.map (fun j => (j.r, j.v)) = rs ∧ (∀ j ∈ js, j.OK I.C P fl n) ∧
      (aSession (kitSerializer I K) P fuel (rs.map (·.1)) (KSer.fromStorage t)).Sat
        (fun ps s' => KUsers I Inv content K (js.map (Job.gval P)) t ps s')
        (fun pk s' => RandomImpl.GFull I Inv content (placeEnd I.C.valueAlign (I.pos t) (jobsShapes P js)) (I.pos t) (GSer.fromStorage t) pk s'.toGSer)
        (¬ I.NeverAborts Inv) := by
  obtain ⟨N, hN⟩ := h.kroots hP hacc (K := K) ht hd hv
  obtain ⟨js, h1, h2, h3⟩ := hN (max N fuel) (Nat.le_max_left _ _)
  refine ⟨max N fuel, js, h1, h2, ?_⟩
  rw [← aSession_fuel (kit_fuel I K) (Nat.le_max_right N fuel) _ _ hf]
  exact h3

end sessions
end SerRaw
