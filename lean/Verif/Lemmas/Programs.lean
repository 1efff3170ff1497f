import Verif.Model.Programs
import Verif.Lemmas.Adaptive
import Verif.Lemmas.Catching
import Verif.Props.Mixed
/-
Programs as `serialize_data`: a run does what the calls it makes do, up to the end or the panic, and so everything that is known of mixed histories
(Lemmas/Mixed.lean) is known of histories with programs.
-/
namespace SerRaw

section
variable {C : Cfg} {k : Kind}

/-! ### Panics -/

/-- `o` is how the program ends, where the program that stops instead of panicking ends as `o'`. -/
def Marks (o o' : Out Ser (List Nat)) : Prop :=
  match o' with
  | .ok [] s' => ∃ m, o = .panic .user { s' with map := m }
  | .ok (_ :: out) s' => o = .ok out s'
  | .panic pk s' => o = .panic pk s'
  | .abort => o = .abort
  | .ub => o = .ub
  | .fuel => o = .fuel

theorem Marks.bind {α : Type} {x : M Ser α} {f g : α → M Ser (List Nat)} {s : Ser} (h : ∀ a s1, x s = .ok a s1 → Marks (f a s1) (g a s1)) :
    Marks ((x >>= f) s) ((x >>= g) s) := by
  rw [bind_def, bind_def]
  cases hx : x s with
  | ok a s1 => exact h a s1 hx
  | _ => exact rfl

theorem leave_ok (b : PosMapping) (s : Ser) : ∃ m, leave k b s = .ok () { s with map := m } := by
  cases k with
  | pureCopy => exact ⟨s.map, rfl⟩
  | _ => exact ⟨b, rfl⟩

theorem marked_run (b : Program) (s : Ser) : Marks (b.run C k s) (b.marked.run C k s) := by
  induction b generalizing s with
  | done out => exact rfl
  | panic => exact ⟨s.map, rfl⟩
  | look f ih => exact ih s s
  | lookPos f ih => exact ih _ s
  | lookFor x f ih => exact Marks.bind fun _ _ _ => Marks.bind fun p s1 _ => ih p s1
  | push L len src data ptr rest ih => exact Marks.bind fun p s1 _ => ih p s1
  | pushRaw L len src data rest ih => exact Marks.bind fun p s1 _ => ih p s1
  | pushRawBytes len data rest ih => exact Marks.bind fun p s1 _ => ih p s1
  | overwrite addr L data rest ih => exact Marks.bind fun _ s1 _ => ih s1
  | pushProcess L len src data ptr inner rest ih1 ih2 =>
    have e1 : (Program.pushProcess L len src data ptr inner rest).run C k s =
        (Ser.lift (Sto.pushSlice C L len data) >>= fun pos => enter C k ⟨L, len, src, data⟩ (addrFromRef k ptr) s.map pos >>= fun _ =>
          inner.run C k >>= fun r => leave k s.map >>= fun _ => (rest pos r).run C k) s := by
      simp only [Program.run]
      rw [bind_def, capturing_steps, ← bind_def]
      simp only [bind_assoc_M]
      rfl
    have e2 : (Program.pushProcess L len src data ptr inner rest).marked.run C k s =
        (Ser.lift (Sto.pushSlice C L len data) >>= fun pos => enter C k ⟨L, len, src, data⟩ (addrFromRef k ptr) s.map pos >>= fun _ =>
          inner.marked.run C k >>= fun r => leave k s.map >>= fun _ => (unlessStopped r fun out => (rest pos out).marked).run C k) s := by
      show (pushAndProcessCapturing C k ⟨L, len, src, data⟩ (addrFromRef k ptr) (inner.marked.run C k) >>= fun r =>
        (unlessStopped r.2 fun out => (rest r.1 out).marked).run C k) s = _
      rw [bind_def, capturing_steps, ← bind_def]
      simp only [bind_assoc_M]
      rfl
    rw [e1, e2]
    refine Marks.bind fun pos s1 _ => Marks.bind fun _ s2 _ => ?_
    have h := ih1 s2
    rw [bind_def, bind_def]
    cases hm : inner.marked.run C k s2 with
    | ok r s3 =>
      rw [hm] at h
      obtain ⟨m, hl⟩ := leave_ok (k := k) s.map s3
      cases r with
      | nil =>
        obtain ⟨m', h⟩ := h
        rw [h]
        simp only
        rw [bind_ok hl]
        exact ⟨m', rfl⟩
      | cons x out =>
        have h : _ = _ := h
        rw [h]
        simp only
        rw [bind_ok hl, bind_ok hl]
        exact ih2 pos out _
    | panic pk s3 => rw [hm] at h; have h : _ = _ := h; rw [h]; exact rfl
    | abort => rw [hm] at h; have h : _ = _ := h; rw [h]; exact rfl
    | ub => rw [hm] at h; have h : _ = _ := h; rw [h]; exact rfl
    | fuel => rw [hm] at h; have h : _ = _ := h; rw [h]; exact rfl

theorem noPanic_run {b : Program} (hb : b.NoPanic) (s s' : Ser) : b.marked.run C k s ≠ .ok [] s' := by
  induction b generalizing s s' with
  | done out => intro h; cases h
  | panic => exact hb.elim
  | look f ih => exact ih s (hb s) s s'
  | lookPos f ih => exact ih _ (hb _) s s'
  | lookFor x f ih =>
    intro h
    obtain ⟨_, s1, _, h⟩ := bind_eq_ok h
    obtain ⟨p, s2, _, h⟩ := bind_eq_ok h
    exact ih p (hb p) _ _ h
  | push L len src data ptr rest ih => intro h; obtain ⟨p, s1, _, h⟩ := bind_eq_ok h; exact ih p (hb p) _ _ h
  | pushRaw L len src data rest ih => intro h; obtain ⟨p, s1, _, h⟩ := bind_eq_ok h; exact ih p (hb p) _ _ h
  | pushRawBytes len data rest ih => intro h; obtain ⟨p, s1, _, h⟩ := bind_eq_ok h; exact ih p (hb p) _ _ h
  | overwrite addr L data rest ih => intro h; obtain ⟨p, s1, _, h⟩ := bind_eq_ok h; exact ih hb _ _ h
  | pushProcess L len src data ptr inner rest ih1 ih2 =>
    intro h
    obtain ⟨⟨p, r⟩, s1, h1, h⟩ := bind_eq_ok h
    rw [capturing_steps] at h1
    obtain ⟨p1, t1, _, h1⟩ := bind_eq_ok h1
    obtain ⟨_, t2, _, h1⟩ := bind_eq_ok h1
    obtain ⟨r', t3, h3, h1⟩ := bind_eq_ok h1
    obtain ⟨_, t4, _, h1⟩ := bind_eq_ok h1
    cases h1
    cases r with
    | nil => exact ih1 hb.1 _ _ h3
    | cons x out => exact ih2 p out (hb.2 p out) _ _ h

/-! ### One call -/

variable {L : Layout} {a : Nat} {data : Nat → Cell}

/-- The call on the program, against the call on the program that stops instead of panicking. -/
theorem program_ser (b : Program) (s : Ser) :
    serializeValue C k L a data (void (b.run C k)) s = serializeValue C k L a data (void (b.marked.run C k)) s ∨
    (¬ b.NoPanic ∧ Cut (serializeValue C k L a data (void (b.run C k)) s) (serializeValue C k L a data (void (b.marked.run C k)) s) ∧
      ∃ p s', serializeValue C k L a data (void (b.marked.run C k)) s = .ok p s') := by
  rw [serializeValue_eq, serializeValue_eq]
  cases hp : pushRaw C L a data s with
  | ok p s0 =>
    rw [bind_ok hp, bind_ok hp]
    obtain ⟨s1, hs⟩ : ∃ s1, setRoot k ⟨a, p⟩ s0 = .ok () s1 := by cases k <;> exact ⟨_, rfl⟩
    rw [bind_ok hs, bind_ok hs]
    have h := marked_run (C := C) (k := k) b s1
    have hn := fun hb => noPanic_run (C := C) (k := k) (b := b) hb s1
    simp only [void, bind_assoc_M]
    rw [bind_def, bind_def]
    cases hm : b.marked.run C k s1 with
    | ok r s2 =>
      rw [hm] at h
      cases r with
      | nil =>
        obtain ⟨m, h⟩ := h
        rw [h]
        exact .inr ⟨fun hb => hn hb s2 hm, ⟨m, rfl⟩, p, s2, rfl⟩
      | cons x out =>
        have h : _ = _ := h
        rw [h]
        exact .inl rfl
    | panic pk s3 => rw [hm] at h; have h : _ = _ := h; rw [h]; exact .inl rfl
    | abort => rw [hm] at h; have h : _ = _ := h; rw [h]; exact .inl rfl
    | ub => rw [hm] at h; have h : _ = _ := h; rw [h]; exact .inl rfl
    | fuel => rw [hm] at h; have h : _ = _ := h; rw [h]; exact .inl rfl
  | _ => left; rw [bind_def, bind_def, hp]

/-- Overflow in `pos_for` did not stop the call. -/
def Program.Answers (C : Cfg) (k : Kind) (L : Layout) (a : Nat) (data : Nat → Cell) (b : Program) (s : Ser) : Prop :=
  C.arch.debug = false ∨ b.marked.NoPosFor ∨ ∀ s', serializeValue C k L a data (void (b.run C k)) s ≠ .panic .arith s'

theorem program_made {b : Program} {s : Ser} (h : b.Answers C k L a data s) :
    serializeValue C k L a data (void (b.marked.run C k)) s = TRoot.ser C k ⟨L, a, data, b.callsFrom C k L a data s⟩ s := by
  have ha : Answered C b.marked.NoPosFor (serializeValue C k L a data (void (b.marked.run C k)) s) := by
    refine h.imp id (·.imp id fun h s' e => h s' ?_)
    rcases program_ser (C := C) (k := k) (L := L) (a := a) (data := data) b s with h1 | ⟨_, _, p, s1, h1⟩
    · rw [h1, e]
    · rw [h1] at e; cases e
  symm
  unfold TRoot.ser
  refine serializeValue_congr ha fun s1 h1 hm => ?_
  simp only [Program.callsFrom, h1]
  exact made_run b.marked s1 hm.first

theorem Script.app_done (sc : Script) : sc.app .done = sc := by
  induction sc with
  | done => rfl
  | pushProcess _ _ _ _ _ _ _ ih => simp only [Script.app, ih]
  | push _ _ _ _ _ ih => simp only [Script.app, ih]
  | pushRaw _ _ _ _ ih => simp only [Script.app, ih]
  | overwrite _ _ _ _ ih => simp only [Script.app, ih]

/-- The call as one that is known: slices at addresses of their own, and a panic at the end, if there is one. -/
def TRoot.image (U : Nat) (stop : Bool) (r : TRoot) : UserCall :=
  ⟨(r.virt U).im, r.L, (r.virt U).a, if stop then .panics (.after (r.virt U).sc .here) else .returns (r.virt U).sc⟩

theorem TRoot.image_script (U : Nat) (stop : Bool) (r : TRoot) : (r.image U stop).body.script = (r.virt U).sc := by
  cases stop
  · rfl
  · exact Script.app_done _

theorem TRoot.image_quiet (U : Nat) (stop : Bool) (r : TRoot) : (r.image U stop).quiet = r.virt U := by
  unfold UserCall.quiet
  rw [TRoot.image_script]
  rfl

theorem TRoot.image_ok (hC : C.OK) {r : TRoot} (h : r.OK C) {U : Nat} {stop : Bool} : (r.image U stop).OK C := by
  unfold UserCall.OK
  rw [TRoot.image_quiet]
  exact TRoot.virt_ok hC h

theorem Out.Like.refl {α : Type} (o : Out Ser α) : o.Like Ser.Like o := by
  cases o with
  | ok a s => exact ⟨rfl, rfl, rfl⟩
  | panic pk s => exact ⟨rfl, rfl, rfl⟩
  | _ => trivial

theorem Out.Like.symm {α : Type} {o o' : Out Ser α} (h : o.Like Ser.Like o') : o'.Like Ser.Like o := by
  cases o <;> cases o' <;> first | exact h.elim | skip
  · exact ⟨h.1.symm, h.2.1.symm, h.2.2.symm⟩
  · exact ⟨h.1.symm, h.2.1.symm, h.2.2.symm⟩
  all_goals trivial

/-- Caught, the call leaves what the call that is known leaves. -/
theorem program_image (hC : C.OK) {b : Program} {s : Ser} (h : b.Answers C k L a data s)
    (hr : TRoot.OK C ⟨L, a, data, b.callsFrom C k L a data s⟩) :
    ∃ stop, (b.NoPanic → stop = false) ∧
      (M.caught (serializeValue C k L a data (void (b.run C k))) s).Like Ser.Like
        (M.caught ((TRoot.image C.arch.usizeMod stop ⟨L, a, data, b.callsFrom C k L a data s⟩).ser C k) s) := by
  have hv := TRoot.virt_ser (k := k) hC hr s s ⟨rfl, rfl⟩
  rw [← program_made h] at hv
  rcases program_ser (C := C) (k := k) (L := L) (a := a) (data := data) b s with h1 | ⟨hn, h1, p, s1, h2⟩
  · refine ⟨false, fun _ => rfl, ?_⟩
    rw [← h1] at hv
    have e : (TRoot.image C.arch.usizeMod false ⟨L, a, data, b.callsFrom C k L a data s⟩).ser C k =
      (TRoot.virt C.arch.usizeMod ⟨L, a, data, b.callsFrom C k L a data s⟩).ser C k := rfl
    rw [e]
    unfold M.caught
    revert hv
    cases serializeValue C k L a data (void (b.run C k)) s <;>
      cases (TRoot.virt C.arch.usizeMod ⟨L, a, data, b.callsFrom C k L a data s⟩).ser C k s <;> intro hv <;> first | exact hv.elim | skip
    · exact ⟨by rw [hv.1], hv.2⟩
    · exact ⟨rfl, hv.2⟩
    all_goals trivial
  · refine ⟨true, fun hb => (hn hb).elim, ?_⟩
    have hc : Cut _ _ := (TRoot.image C.arch.usizeMod true ⟨L, a, data, b.callsFrom C k L a data s⟩).ser_eq (C := C) (k := k) s
    rw [TRoot.image_quiet] at hc
    rw [h2] at h1 hv
    obtain ⟨m, h1⟩ := h1
    cases he : (TRoot.virt C.arch.usizeMod ⟨L, a, data, b.callsFrom C k L a data s⟩).ser C k s <;> rw [he] at hv hc <;> first | exact hv.elim | skip
    obtain ⟨m', hc⟩ := hc
    unfold M.caught
    rw [h1, hc]
    exact ⟨rfl, hv.2.1, hv.2.2⟩

/-- Likewise if the program catches panics. -/
theorem catching_image_of (hC : C.OK) {b : Catching} {s : Ser}
    (h : serializeValue C k L a data (void (b.run C k)) s = TRoot.ser C k ⟨L, a, data, b.callsFrom C k L a data s⟩ s ∨
      ∃ p s1 pk mp, TRoot.ser C k ⟨L, a, data, b.callsFrom C k L a data s⟩ s = .ok p s1 ∧
        serializeValue C k L a data (void (b.run C k)) s = .panic pk { s1 with map := mp })
    (hr : TRoot.OK C ⟨L, a, data, b.callsFrom C k L a data s⟩) :
    ∃ stop, (M.caught (serializeValue C k L a data (void (b.run C k))) s).Like Ser.Like
      (M.caught ((TRoot.image C.arch.usizeMod stop ⟨L, a, data, b.callsFrom C k L a data s⟩).ser C k) s) := by
  have hv := TRoot.virt_ser (k := k) hC hr s s ⟨rfl, rfl⟩
  rcases h with h1 | ⟨p, s1, pk, mp, h1, h2⟩
  · refine ⟨false, ?_⟩
    rw [← h1] at hv
    have e : (TRoot.image C.arch.usizeMod false ⟨L, a, data, b.callsFrom C k L a data s⟩).ser C k =
      (TRoot.virt C.arch.usizeMod ⟨L, a, data, b.callsFrom C k L a data s⟩).ser C k := rfl
    rw [e]
    unfold M.caught
    revert hv
    cases serializeValue C k L a data (void (b.run C k)) s <;>
      cases (TRoot.virt C.arch.usizeMod ⟨L, a, data, b.callsFrom C k L a data s⟩).ser C k s <;> intro hv <;> first | exact hv.elim | skip
    · exact ⟨by rw [hv.1], hv.2⟩
    · exact ⟨rfl, hv.2⟩
    all_goals trivial
  · refine ⟨true, ?_⟩
    have hc : Cut _ _ := (TRoot.image C.arch.usizeMod true ⟨L, a, data, b.callsFrom C k L a data s⟩).ser_eq (C := C) (k := k) s
    rw [TRoot.image_quiet] at hc
    rw [h1] at hv
    cases he : (TRoot.virt C.arch.usizeMod ⟨L, a, data, b.callsFrom C k L a data s⟩).ser C k s <;> rw [he] at hv hc <;> first | exact hv.elim | skip
    obtain ⟨m', hc⟩ := hc
    unfold M.caught
    rw [h2, hc]
    exact ⟨rfl, hv.2.1, hv.2.2⟩

theorem catching_image (hC : C.OK) {b : Catching} (hb : b.Real C) (hR : b.Restores k) {s : Ser} {m : Nat → Mem} (h : RelAll C k s m)
    (hr : TRoot.OK C ⟨L, a, data, b.callsFrom C k L a data s⟩) :
    ∃ stop, (M.caught (serializeValue C k L a data (void (b.run C k))) s).Like Ser.Like
      (M.caught ((TRoot.image C.arch.usizeMod stop ⟨L, a, data, b.callsFrom C k L a data s⟩).ser C k) s) :=
  catching_image_of hC (catching_ser hC hb hR h hr) hr

/-! ### Histories -/

variable {P : Prog} {t : Sto}

/-- The event as one that is known. -/
structure EvSim (C : Cfg) (x : XEv) (e : Ev) : Prop where
  res : e.res = x.res
  lo : e.lo = x.lo
  hi : e.hi = x.hi
  plain : ∀ a, x.act = .plain a → e.act = a
  program : ∀ L a d b, x.act = .program L a d b → TRoot.OK C ⟨L, a, d, x.calls⟩ ∧
    ∃ stop, (b.NoPanic → stop = false) ∧ e.act = .user (TRoot.image C.arch.usizeMod stop ⟨L, a, d, x.calls⟩)
  catching : ∀ L a d b, x.act = .catching L a d b → TRoot.OK C ⟨L, a, d, x.calls⟩ ∧
    ∃ stop, e.act = .user (TRoot.image C.arch.usizeMod stop ⟨L, a, d, x.calls⟩)

theorem EvSim.isValue {x : XEv} {e : Ev} (h : EvSim C x e) : e.act.IsValue ↔ x.act.IsValue := by
  cases hx : x.act with
  | plain a => rw [h.plain a hx]; rfl
  | program L a d b =>
    obtain ⟨_, stop, _, h1⟩ := h.program _ _ _ _ hx
    rw [h1]
    exact ⟨fun _ => trivial, fun _ => trivial⟩
  | catching L a d b =>
    obtain ⟨_, stop, h1⟩ := h.catching _ _ _ _ hx
    rw [h1]
    exact ⟨fun _ => trivial, fun _ => trivial⟩

theorem EvSim.writes {x : XEv} {e : Ev} (h : EvSim C x e) {i : Nat} : e.Writes i ↔ x.Writes i := by
  unfold Ev.Writes XEv.Writes
  cases hx : x.act with
  | plain a =>
    rw [h.plain a hx]
    simp only [XAct.plain.injEq]
  | program L a d b =>
    obtain ⟨_, stop, _, h1⟩ := h.program _ _ _ _ hx
    rw [h1]
    constructor
    · rintro ⟨_, _, _, _, h, _⟩; cases h
    · rintro ⟨_, _, _, _, h, _⟩; cases h
  | catching L a d b =>
    obtain ⟨_, stop, h1⟩ := h.catching _ _ _ _ hx
    rw [h1]
    constructor
    · rintro ⟨_, _, _, _, h, _⟩; cases h
    · rintro ⟨_, _, _, _, h, _⟩; cases h

theorem SessInv.like {es : List Ev} {s s' : Ser} {m : Nat → Mem} (h : SessInv C k P t es s m) (hs : s.Like s') : SessInv C k P t es s' m := by
  obtain ⟨h1, h2⟩ := hs
  refine ⟨⟨fun B => (h.rel.1 B).congr h1 h2, fun hk => by rw [h2]; exact h.rel.2 hk⟩, by rw [h1]; exact h.pos, by rw [h1]; exact h.bounds, h.order,
    by rw [h2]; exact h.ents, h.left, h.failed, h.puts, h.before⟩

theorem sim_append {R : XEv → Ev → Prop} {xs xs' : List XEv} {es es' : List Ev} (h : List.Forall₂ R xs es) (h' : List.Forall₂ R xs' es') :
    List.Forall₂ R (xs ++ xs') (es ++ es') := by
  induction h with
  | nil => exact h'
  | cons h _ ih => exact .cons h ih

theorem sim_split {R : XEv → Ev → Prop} {xs1 xs2 : List XEv} {x : XEv} {es : List Ev} (h : List.Forall₂ R (xs1 ++ x :: xs2) es) :
    ∃ es1 e es2, es = es1 ++ e :: es2 ∧ R x e ∧ List.Forall₂ R xs2 es2 := by
  induction xs1 generalizing es with
  | nil =>
    cases h with
    | cons h h' => exact ⟨[], _, _, rfl, h, h'⟩
  | cons y ys ih =>
    cases h with
    | cons h h' =>
      obtain ⟨es1, e, es2, rfl, h1, h2⟩ := ih h'
      exact ⟨_ :: es1, e, es2, rfl, h1, h2⟩

theorem sim_pairwise {R : XEv → Ev → Prop} {T : Ev → Ev → Prop} {T' : XEv → XEv → Prop} (hT : ∀ x e x' e', R x e → R x' e' → T e e' → T' x x')
    {xs : List XEv} {es : List Ev} (h : List.Forall₂ R xs es) (hp : es.Pairwise T) : xs.Pairwise T' := by
  induction h with
  | nil => exact .nil
  | @cons x e xs es h h' ih =>
    rw [List.pairwise_cons] at hp ⊢
    refine ⟨fun x' hx' => ?_, ih hp.2⟩
    have : ∃ e' ∈ es, R x' e' := by
      clear ih hp
      induction h' with
      | nil => cases hx'
      | cons h1 _ ih =>
        rcases List.mem_cons.1 hx' with rfl | hx'
        · exact ⟨_, List.mem_cons_self, h1⟩
        · obtain ⟨e', h2, h3⟩ := ih hx'
          exact ⟨e', List.mem_cons_of_mem _ h2, h3⟩
    obtain ⟨e', h1, h2⟩ := this
    exact hT _ _ _ _ h h2 (hp.1 e' h1)

theorem sim_mem {R : XEv → Ev → Prop} {xs : List XEv} {es : List Ev} (h : List.Forall₂ R xs es) {x : XEv} (hx : x ∈ xs) : ∃ e ∈ es, R x e := by
  induction h with
  | nil => cases hx
  | cons h _ ih =>
    rcases List.mem_cons.1 hx with rfl | hx
    · exact ⟨_, List.mem_cons_self, h⟩
    · obtain ⟨e, h1, h2⟩ := ih hx
      exact ⟨e, List.mem_cons_of_mem _ h1, h2⟩

theorem sim_mem' {R : XEv → Ev → Prop} {xs : List XEv} {es : List Ev} (h : List.Forall₂ R xs es) {e : Ev} (he : e ∈ es) : ∃ x ∈ xs, R x e := by
  induction h with
  | nil => cases he
  | cons h _ ih =>
    rcases List.mem_cons.1 he with rfl | he
    · exact ⟨_, List.mem_cons_self, h⟩
    · obtain ⟨x, h1, h2⟩ := ih he
      exact ⟨x, List.mem_cons_of_mem _ h1, h2⟩

theorem legal_plain {xs : List XEv} {es : List Ev} {s : Ser} {a : Act} (h : List.Forall₂ (EvSim C) xs es)
    (hl : (XAct.plain a).Legal C k P xs s) : a.Legal C P es s := by
  cases a with
  | typed r => exact hl
  | user r => exact hl
  | sto o =>
    refine ⟨hl.1, hl.2.1, fun p L len d ho e he hv => ?_⟩
    obtain ⟨x, hx, h1⟩ := sim_mem' h he
    have := hl.2.2 p L len d ho x hx (h1.isValue.1 hv)
    rw [h1.lo, h1.hi]
    exact this

theorem StepPost.like {e : Ev} {s s1 s2 : Ser} {m m' : Nat → Mem} (h : StepPost C k P e s m s1 m') (hs : s1.Like s2) : StepPost C k P e s m s2 m' := by
  obtain ⟨h1, h2⟩ := hs
  refine ⟨⟨fun B => (h.rel.1 B).congr h1 h2, fun hk => by rw [h2]; exact h.rel.2 hk⟩, by rw [h1]; exact h.pos, h.frame, by rw [h2]; exact h.ents, h.left, h.failed,
    by rw [h1]; exact h.puts, by rw [h2]; exact h.keep⟩

/-- One more event, as one that is known. -/
theorem x_step (hC : C.OK) (hP : P.WF C.arch) (hacc : P.Accepted C) {xs : List XEv} {es : List Ev} {s s' : Ser} {m : Nat → Mem} {a : XAct} {fuel : Nat}
    {r : Option Nat} (hsim : List.Forall₂ (EvSim C) xs es) (hinv : SessInv C k P t es s m) (hl : a.Legal C k P xs s)
    (hr : M.caught (a.run C k P fuel) s = .ok r s') :
    ∃ e m', EvSim C ⟨a, a.callsFrom C k s, r, s.sto.vec.pos, s'.sto.vec.pos⟩ e ∧ StepPost C k P e s m s' m' ∧ SessInv C k P t (es ++ [e]) s' m' := by
  cases a with
  | plain a =>
    have hl' := legal_plain hsim hl
    have h1 := act_step hC hP hacc hinv hl' (fuel := fuel) (by
      simp only [XAct.run] at hr
      rw [hr]; simp)
    simp only [XAct.run] at hr
    rw [hr] at h1
    obtain ⟨m', h1⟩ := h1
    refine ⟨_, m', ⟨rfl, rfl, rfl, ?_, ?_, ?_⟩, h1, hinv.step hl' h1⟩
    · rintro a' h; cases h; rfl
    · rintro L a' d b h; cases h
    · rintro L a' d b h; cases h
  | program L a data b =>
    obtain ⟨stop, hn, hlike⟩ := program_image hC hl.2 hl.1
    have hl' : (Act.user (TRoot.image C.arch.usizeMod stop ⟨L, a, data, b.callsFrom C k L a data s⟩)).Legal C P es s := TRoot.image_ok hC hl.1
    have h1 := act_step hC hP hacc hinv hl' (fuel := fuel)
    change M.caught (serializeValue C k L a data (void (b.run C k))) s = .ok r s' at hr
    rw [hr] at hlike
    simp only [Act.run] at h1
    cases he : M.caught ((TRoot.image C.arch.usizeMod stop ⟨L, a, data, b.callsFrom C k L a data s⟩).ser C k) s <;> rw [he] at hlike h1 <;>
      first | exact hlike.elim | skip
    rename_i r' s''
    obtain ⟨m', h1⟩ := h1 (by simp)
    obtain ⟨rfl, h2⟩ := hlike
    have h2' : s'.Like s'' := h2
    have h3 : s''.Like s' := ⟨h2'.1.symm, h2'.2.symm⟩
    refine ⟨_, m', ⟨rfl, rfl, ?_, ?_, ?_, ?_⟩, h1.like h3, (hinv.step hl' h1).like h3⟩
    · simp only [h2'.1]
    · rintro a' h; cases h
    · rintro L' a' d' b' h
      cases h
      exact ⟨hl.1, stop, hn, rfl⟩
    · rintro L' a' d' b' h; cases h
  | catching L a data b =>
    obtain ⟨stop, hlike⟩ := catching_image hC hl.2.1 hl.2.2 hinv.rel hl.1
    have hl' : (Act.user (TRoot.image C.arch.usizeMod stop ⟨L, a, data, b.callsFrom C k L a data s⟩)).Legal C P es s := TRoot.image_ok hC hl.1
    have h1 := act_step hC hP hacc hinv hl' (fuel := fuel)
    change M.caught (serializeValue C k L a data (void (b.run C k))) s = .ok r s' at hr
    rw [hr] at hlike
    simp only [Act.run] at h1
    cases he : M.caught ((TRoot.image C.arch.usizeMod stop ⟨L, a, data, b.callsFrom C k L a data s⟩).ser C k) s <;> rw [he] at hlike h1 <;>
      first | exact hlike.elim | skip
    rename_i r' s''
    obtain ⟨m', h1⟩ := h1 (by simp)
    obtain ⟨rfl, h2⟩ := hlike
    have h2' : s'.Like s'' := h2
    have h3 : s''.Like s' := ⟨h2'.1.symm, h2'.2.symm⟩
    refine ⟨_, m', ⟨rfl, rfl, ?_, ?_, ?_, ?_⟩, h1.like h3, (hinv.step hl' h1).like h3⟩
    · simp only [h2'.1]
    · rintro a' h; cases h
    · rintro L' a' d' b' h; cases h
    · rintro L' a' d' b' h
      cases h
      exact ⟨hl.1, stop, rfl⟩

theorem XSess.inv (hC : C.OK) (hP : P.WF C.arch) (hacc : P.Accepted C) (ht : t.Inv C) {xs : List XEv} {s : Ser} (h : XSess C k P t xs s) :
    ∃ es m, List.Forall₂ (EvSim C) xs es ∧ SessInv C k P t es s m := by
  induction h with
  | start => exact ⟨[], _, .nil, .start ht⟩
  | step _ hl hr ih =>
    obtain ⟨es, m, hsim, hinv⟩ := ih
    obtain ⟨e, m', h1, _, h2⟩ := x_step hC hP hacc hsim hinv hl hr
    exact ⟨_, m', sim_append hsim (.cons h1 .nil), h2⟩

theorem XReach.inv (hC : C.OK) (hP : P.WF C.arch) (hacc : P.Accepted C) (h : XReach C P t) : t.Inv C := by
  induction h with
  | new => exact Sto.new_inv C
  | withCapacity _ h =>
    have := withCapacity_sat hC ‹_›
    rw [h] at this; exact this.inv
  | op _ hl hr ih => have := step_sat hC ih hl; rw [hr] at this; exact this.inv
  | opPanic _ hl hr ih => have := step_sat hC ih hl; rw [hr] at this; exact this.inv
  | @finished _ k _ _ _ _ hs hf ih =>
    obtain ⟨es, m, _, h⟩ := hs.inv hC hP hacc ih
    obtain ⟨s2, e1, _, e3, _⟩ := finalize_ok hC k (h.rel.1 _) h.rel.2
    rw [hf] at e1
    cases e1
    exact e3
  | dropped _ hs ih =>
    obtain ⟨es, m, _, h⟩ := hs.inv hC hP hacc ih
    exact (h.rel.1 0).inv

end
end SerRaw
