import Verif.Lemmas.Parametric
import Verif.Lemmas.Books
import Verif.Model.SharedHeap
import Verif.Props.AnySerializer
/-
Running code on a heap that has other blocks besides one's own: it does what it does on a heap of its own.
-/
namespace SerRaw

/-! ### Runs that need only part of the allocator's answers -/

section
variable {σ : Type}

/-- Answer `n` of the allocator may have been needed: `c` counts the answers. Nothing is known if there is no state left. -/
def Out.Before {α : Type} (c : σ → Nat) (o : Out σ α) (n : Nat) : Prop :=
  match o with
  | .ok _ s => n < c s
  | .panic _ s => n < c s
  | _ => True

/-- The first outcome is the second one, in a related state, after as many calls of the allocator — or the second is undefined. -/
def OutRel {α : Type} (R : σ → σ → Prop) (c : σ → Nat) (s t : σ) : Out σ α → Out σ α → Prop
  | _, .ub => True
  | .ok a s', .ok b t' => a = b ∧ R s' t' ∧ c s' + c t = c t' + c s
  | .panic k s', .panic k' t' => k = k' ∧ R s' t' ∧ c s' + c t = c t' + c s
  | .abort, .abort => True
  | .fuel, .fuel => True
  | _, _ => False

/-- Related runs, with the answers `o` of the allocator in the first and `o'` in the second, counted from where they start. -/
def isoRel (o o' : Oracle) (R : σ → σ → Prop) (c : σ → Nat) : ActRel σ σ where
  rel x y := (∀ s n, n < c s → (x s).Before c n) ∧
    ∀ s t, R s t → (∀ n, (x s).Before c (c s + n) → o (c s + n) = o' (c t + n)) → OutRel R c s t (x s) (y t)
  pure b := ⟨fun s n h => h, fun s t h _ => ⟨rfl, h, Nat.add_comm _ _⟩⟩
  ub := ⟨fun s n _ => trivial, fun s t _ _ => trivial⟩
  fuel := ⟨fun s n _ => trivial, fun s t _ _ => trivial⟩
  throw k := ⟨fun s n h => h, fun s t h _ => ⟨rfl, h, Nat.add_comm _ _⟩⟩
  bind := by
    intro β γ x y f g hx hf
    have up : ∀ s n, (x s).Before c n → ((x >>= f) s).Before c n := by
      intro s n h
      rw [bind_def]
      cases hxs : x s with
      | ok a s1 => rw [hxs] at h; exact (hf a).1 s1 n h
      | panic k s1 => rw [hxs] at h; exact h
      | _ => trivial
    refine ⟨fun s n h => up s n (hx.1 s n h), fun s t h ha => ?_⟩
    have h1 := hx.2 s t h fun n hn => ha n (up s _ hn)
    have hmono := hx.1 s
    rw [bind_def, bind_def]
    rw [bind_def] at ha
    cases hy : y t with
    | ub => trivial
    | ok b t1 =>
      rw [hy] at h1
      cases hxs : x s with
      | ok a s1 =>
        rw [hxs] at h1 ha hmono
        obtain ⟨rfl, h2, h3⟩ := h1
        have hle : c s ≤ c s1 := by
          rcases Nat.eq_zero_or_pos (c s) with h0 | h0
          · omega
          · have : c s - 1 < c s1 := hmono (c s - 1) (by omega)
            omega
        have h4 := (hf a).2 s1 t1 h2 fun n hn => by
          have := ha (c s1 - c s + n) (by
            rw [show c s + (c s1 - c s + n) = c s1 + n by omega]; exact hn)
          rw [show c s + (c s1 - c s + n) = c s1 + n by omega, show c t + (c s1 - c s + n) = c t1 + n by omega] at this
          exact this
        simp only
        cases hg : g a t1 with
        | ub => trivial
        | ok b t2 =>
          rw [hg] at h4
          cases hfs : f a s1 with
          | ok b' s2 => rw [hfs] at h4; exact ⟨h4.1, h4.2.1, by have := h4.2.2; omega⟩
          | _ => rw [hfs] at h4; exact h4.elim
        | panic k t2 =>
          rw [hg] at h4
          cases hfs : f a s1 with
          | panic k' s2 => rw [hfs] at h4; exact ⟨h4.1, h4.2.1, by have := h4.2.2; omega⟩
          | _ => rw [hfs] at h4; exact h4.elim
        | abort =>
          rw [hg] at h4
          cases hfs : f a s1 with
          | abort => trivial
          | _ => rw [hfs] at h4; exact h4.elim
        | fuel =>
          rw [hg] at h4
          cases hfs : f a s1 with
          | fuel => trivial
          | _ => rw [hfs] at h4; exact h4.elim
      | _ => rw [hxs] at h1; exact h1.elim
    | panic k t1 =>
      rw [hy] at h1
      cases hxs : x s with
      | panic k' s1 => rw [hxs] at h1; exact h1
      | _ => rw [hxs] at h1; exact h1.elim
    | abort =>
      rw [hy] at h1
      cases hxs : x s with
      | abort => trivial
      | _ => rw [hxs] at h1; exact h1.elim
    | fuel =>
      rw [hy] at h1
      cases hxs : x s with
      | fuel => trivial
      | _ => rw [hxs] at h1; exact h1.elim

variable {o o' : Oracle} {R : σ → σ → Prop} {c : σ → Nat}

theorem iso_abort {α : Type} : (isoRel o o' R c).rel (M.abort : M σ α) M.abort := ⟨fun _ _ _ => trivial, fun _ _ _ _ => trivial⟩

theorem iso_get {β : Type} {f g : σ → M σ β} (h : ∀ s t, R s t → (isoRel o o' R c).rel (f s) (g t)) (hm : ∀ s u n, n < c u → (f s u).Before c n) :
    (isoRel o o' R c).rel (M.get >>= f) (M.get >>= g) :=
  ⟨fun s n hn => hm s s n hn, fun s t hr ha => (h s t hr).2 s t hr ha⟩

theorem iso_caught {α : Type} {x y : M σ α} (h : (isoRel o o' R c).rel x y) : (isoRel o o' R c).rel (M.caught x) (M.caught y) := by
  have e : ∀ s n, (M.caught x s).Before c n ↔ (x s).Before c n := by
    intro s n
    unfold M.caught
    cases x s <;> exact Iff.rfl
  refine ⟨fun s n hn => (e s n).2 (h.1 s n hn), fun s t hr ha => ?_⟩
  have h1 := h.2 s t hr fun n hn => ha n ((e s _).2 hn)
  unfold M.caught
  cases hy : y t <;> rw [hy] at h1 <;> first | trivial | skip
  all_goals cases hx : x s <;> rw [hx] at h1 <;> first | exact h1.elim | trivial | exact ⟨by rw [h1.1], h1.2⟩ | exact ⟨rfl, h1.2⟩

theorem iso_debugAssert (A : Arch) (b : Bool) : (isoRel o o' R c).rel (M.debugAssert A b) (M.debugAssert A b) := by
  unfold M.debugAssert
  split
  · exact (isoRel o o' R c).throw _
  · exact (isoRel o o' R c).pure _

theorem iso_debugAssertM (A : Arch) {x y : M σ Bool} (h : (isoRel o o' R c).rel x y) :
    (isoRel o o' R c).rel (M.debugAssertM A x) (M.debugAssertM A y) :=
  (isoRel o o' R c).ite ((isoRel o o' R c).bind h fun _ => iso_debugAssert _ _) ((isoRel o o' R c).pure _)

theorem iso_uadd (A : Arch) (a b : Nat) : (isoRel o o' R c).rel (uadd A a b) (uadd A a b) := by
  unfold uadd
  split
  · exact (isoRel o o' R c).pure _
  · split
    · exact (isoRel o o' R c).throw _
    · exact (isoRel o o' R c).pure _

theorem iso_usub (A : Arch) (a b : Nat) : (isoRel o o' R c).rel (usub A a b) (usub A a b) := by
  unfold usub
  split
  · exact (isoRel o o' R c).pure _
  · split
    · exact (isoRel o o' R c).throw _
    · exact (isoRel o o' R c).pure _

theorem iso_umul (A : Arch) (a b : Nat) : (isoRel o o' R c).rel (umul A a b) (umul A a b) := by
  unfold umul
  split
  · exact (isoRel o o' R c).pure _
  · split
    · exact (isoRel o o' R c).throw _
    · exact (isoRel o o' R c).pure _

theorem iso_unextPow2 (A : Arch) (n : Nat) : (isoRel o o' R c).rel (unextPow2 A n) (unextPow2 A n) := by
  unfold unextPow2
  split
  · exact (isoRel o o' R c).pure _
  · split
    · exact (isoRel o o' R c).throw _
    · exact (isoRel o o' R c).pure _

theorem iso_alignUpTo (A : Arch) (p a : Nat) : (isoRel o o' R c).rel (alignUpTo A p a) (alignUpTo A p a) :=
  (isoRel o o' R c).bind (iso_debugAssert _ _) fun _ => (isoRel o o' R c).bind (iso_uadd _ _ _) fun _ =>
  (isoRel o o' R c).bind (iso_usub _ _ _) fun _ => (isoRel o o' R c).bind (iso_usub _ _ _) fun _ => (isoRel o o' R c).pure _

theorem iso_isAlignedTo (A : Arch) (p a : Nat) : (isoRel o o' R c).rel (isAlignedTo A p a) (isAlignedTo A p a) :=
  (isoRel o o' R c).bind (iso_debugAssert _ _) fun _ => (isoRel o o' R c).bind (iso_usub _ _ _) fun _ => (isoRel o o' R c).pure _

theorem iso_alignedMaxCapacity (A : Arch) (a : Nat) : (isoRel o o' R c).rel (alignedMaxCapacity A a) (alignedMaxCapacity A a) :=
  (isoRel o o' R c).bind ((isoRel o o' R c).assert _ _) fun _ => (isoRel o o' R c).bind ((isoRel o o' R c).assert _ _) fun _ =>
  (isoRel o o' R c).bind ((isoRel o o' R c).assert _ _) fun _ => (isoRel o o' R c).bind (iso_usub _ _ _) fun _ => iso_usub _ _ _

theorem iso_posForAddr (A : Arch) (m : PosMapping) (a : Nat) : (isoRel o o' R c).rel (m.posForAddr A a) (m.posForAddr A a) :=
  (isoRel o o' R c).bind (iso_usub _ _ _) fun _ => iso_uadd _ _ _

end

/-! ### Storages -/

/-- `l` is `own` with the blocks `F` in between. -/
inductive Mix : List Block → List Block → List Block → Prop
  | nil : Mix [] [] []
  | own {b w F l} : Mix w F l → Mix (b :: w) F (b :: l)
  | other {b w F l} : Mix w F l → Mix w (b :: F) (b :: l)

theorem Mix.none_iff {w l : List Block} (h : Mix w [] l) : l = w := by
  generalize hF : ([] : List Block) = F at h
  induction h with
  | nil => rfl
  | own _ ih => rw [ih hF]
  | other _ _ => cases hF

theorem Mix.self (w : List Block) : Mix w [] w := by
  induction w with
  | nil => exact .nil
  | cons b w ih => exact .own ih

theorem Mix.all_other (F : List Block) : Mix [] F F := by
  induction F with
  | nil => exact .nil
  | cons b w ih => exact .other ih

theorem Mix.split (b : Block) (l1 l2 : List Block) : Mix [b] (l1 ++ l2) (l1 ++ b :: l2) := by
  induction l1 with
  | nil => exact .own (Mix.all_other l2)
  | cons c l1 ih => exact .other ih

theorem Mix.mem_iff {w F l : List Block} (h : Mix w F l) (b : Block) : b ∈ l ↔ b ∈ w ∨ b ∈ F := by
  induction h with
  | nil => simp
  | own _ ih => simp only [List.mem_cons, ih]; tauto
  | other _ ih => simp only [List.mem_cons, ih]; tauto

/-- A search that only own blocks can answer. -/
theorem Mix.find {w F l : List Block} (h : Mix w F l) {p : Block → Bool} (hF : ∀ f ∈ F, p f = false) : l.find? p = w.find? p := by
  induction h with
  | nil => rfl
  | own _ ih => simp only [List.find?_cons, ih hF]
  | other _ ih => rw [List.find?_cons, hF _ List.mem_cons_self]; exact ih fun f hf => hF f (List.mem_cons_of_mem _ hf)

theorem Mix.erase {w F l : List Block} (h : Mix w F l) {p : Block → Bool} (hF : ∀ f ∈ F, p f = false) : Mix (w.eraseP p) F (l.eraseP p) := by
  induction h with
  | nil => exact .nil
  | @own b w F l h ih =>
    by_cases hb : p b = true
    · rw [List.eraseP_cons_of_pos hb, List.eraseP_cons_of_pos hb]; exact h
    · rw [List.eraseP_cons_of_neg hb, List.eraseP_cons_of_neg hb]; exact .own (ih hF)
  | @other b w F l h ih =>
    rw [List.eraseP_cons_of_neg (by rw [hF _ List.mem_cons_self]; decide)]
    exact .other (ih fun f hf => hF f (List.mem_cons_of_mem _ hf))

theorem Mix.write {w F l : List Block} (h : Mix w F l) {a n : Nat} {src : Nat → Cell} (hF : ∀ f ∈ F, f.contains a n = false) :
    Mix (writeLive a n src w) F (writeLive a n src l) := by
  induction h with
  | nil => exact .nil
  | @own b w F l h ih =>
    unfold writeLive
    split
    · exact .own h
    · exact .own (ih hF)
  | @other b w F l h ih =>
    have hb := hF _ List.mem_cons_self
    rw [writeLive, hb]
    exact .other (ih fun f hf => hF f (List.mem_cons_of_mem _ hf))

/-- A storage on a heap with the blocks `F` of others, and the same one on a heap of its own. -/
structure Among (F : List Block) (s t : Sto) : Prop where
  vec : s.vec = t.vec
  mix : Mix t.w.live F s.w.live
  apart : ∀ b ∈ t.w.live, ∀ f ∈ F, b.Apart f
  size : ∀ b ∈ t.w.live, 0 < b.size
  others : ∀ f ∈ F, 0 < f.size

/-- A range of bytes of an own block is not in another's block. -/
theorem Among.other {F : List Block} {s t : Sto} (h : Among F s t) {b : Block} (hb : b ∈ t.w.live) {a n : Nat} (hn : 0 < n) (hc : b.contains a n = true) :
    ∀ f ∈ F, f.contains a n = false := by
  intro f hf
  have h1 := h.apart b hb f hf
  simp only [Block.contains, Bool.and_eq_true, decide_eq_true_eq] at hc
  simp only [Block.contains, Bool.and_eq_false_iff, decide_eq_false_iff_not]
  rcases h1 with h1 | h1 <;> omega

theorem Among.any {F : List Block} {s t : Sto} (h : Among F s t) {a n : Nat} (hc : t.w.live.any (·.contains a n) = true) :
    s.w.live.any (·.contains a n) = true := by
  obtain ⟨b, hb, h1⟩ := List.any_eq_true.1 hc
  exact List.any_eq_true.2 ⟨b, (h.mix.mem_iff b).2 (.inl hb), h1⟩

section
variable {C : Cfg} {o' : Oracle} {F : List Block}

/-- Related runs of storage operations. -/
abbrev stoIso (C : Cfg) (o' : Oracle) (F : List Block) : ActRel Sto Sto := isoRel C.alloc o' (Among F) (fun s => s.w.calls)

local notation "T" => stoIso C o' F
local notation "C'" => Cfg.withAlloc C o'

/-- An action on the fields. -/
theorem iso_vec {α : Type} (f : AVec → α × AVec) : (T).rel (fun s => .ok (f s.vec).1 { s with vec := (f s.vec).2 })
    (fun s => .ok (f s.vec).1 { s with vec := (f s.vec).2 }) :=
  ⟨fun s n h => h, fun s t h _ => ⟨by rw [h.vec], ⟨by simp only [h.vec], h.mix, h.apart, h.size, h.others⟩, Nat.add_comm _ _⟩⟩

theorem iso_getPos : (T).rel Sto.getPos Sto.getPos := iso_vec fun v => (v.pos, v)
theorem iso_getCapacity : (T).rel Sto.getCapacity Sto.getCapacity := iso_vec fun v => (v.capacity, v)
theorem iso_getPtr : (T).rel Sto.getPtr Sto.getPtr := iso_vec fun v => (v.ptr, v)
theorem iso_putPos (p : Nat) : (T).rel (Sto.putPos p) (Sto.putPos p) := iso_vec fun v => ((), { v with pos := p })
theorem iso_putCapacity (p : Nat) : (T).rel (Sto.putCapacity p) (Sto.putCapacity p) := iso_vec fun v => ((), { v with capacity := p })
theorem iso_putPtr (p : Nat) : (T).rel (Sto.putPtr p) (Sto.putPtr p) := iso_vec fun v => ((), { v with ptr := p })

theorem iso_ptrAdd (p off : Nat) : (T).rel (ptrAdd p off) (ptrAdd p off) := by
  refine ⟨fun s n h => ?_, fun s t h _ => ?_⟩
  · unfold ptrAdd
    split
    · exact h
    · split
      · exact h
      · trivial
  · unfold ptrAdd
    split
    · exact ⟨rfl, h, Nat.add_comm _ _⟩
    · by_cases hc : t.w.live.any (·.contains p off) = true
      · rw [if_pos hc, if_pos (h.any hc)]
        exact ⟨rfl, h, Nat.add_comm _ _⟩
      · rw [if_neg hc]
        trivial

theorem Among.written {s t : Sto} (h : Among F s t) {a n : Nat} {src : Nat → Cell} (hn : 0 < n) (hc : t.w.live.any (·.contains a n) = true) :
    Among F { s with w := { s.w with live := writeLive a n src s.w.live } } { t with w := { t.w with live := writeLive a n src t.w.live } } := by
  obtain ⟨b, hb, h1⟩ := List.any_eq_true.1 hc
  have same : ∀ (l : List Block), ∀ x ∈ writeLive a n src l, ∃ y ∈ l, x.addr = y.addr ∧ x.size = y.size := by
    intro l
    induction l with
    | nil => intro x hx; cases hx
    | cons y l ih =>
      intro x hx
      unfold writeLive at hx
      split at hx
      · rcases List.mem_cons.1 hx with rfl | hx
        · exact ⟨y, List.mem_cons_self, rfl, rfl⟩
        · exact ⟨x, List.mem_cons_of_mem _ hx, rfl, rfl⟩
      · rcases List.mem_cons.1 hx with rfl | hx
        · exact ⟨x, List.mem_cons_self, rfl, rfl⟩
        · obtain ⟨z, hz, e⟩ := ih x hx
          exact ⟨z, List.mem_cons_of_mem _ hz, e⟩
  refine ⟨h.vec, h.mix.write (h.other hb hn h1), fun x hx f hf => ?_, fun x hx => ?_, h.others⟩
  · obtain ⟨y, hy, e1, e2⟩ := same _ x hx
    have := h.apart y hy f hf
    unfold Block.Apart at this ⊢
    rw [e1, e2]; exact this
  · obtain ⟨y, hy, e1, e2⟩ := same _ x hx
    rw [e2]; exact h.size y hy

theorem iso_memWrite (a align n : Nat) (src : Nat → Cell) : (T).rel (memWrite a align n src) (memWrite a align n src) := by
  refine ⟨fun s m h => ?_, fun s t h _ => ?_⟩
  · unfold memWrite
    split
    · trivial
    · split
      · exact h
      · split
        · exact h
        · trivial
  · unfold memWrite
    split
    · trivial
    · split
      · exact ⟨rfl, h, Nat.add_comm _ _⟩
      · rename_i hn
        by_cases hc : t.w.live.any (·.contains a n) = true
        · rw [if_pos hc, if_pos (h.any hc)]
          exact ⟨rfl, h.written (Nat.pos_of_ne_zero hn) hc, Nat.add_comm _ _⟩
        · rw [if_neg hc]
          trivial

theorem Among.load {s t : Sto} (h : Among F s t) {a n : Nat} (hc : t.w.live.any (·.contains a n) = true) {i : Nat} (hi : i < n) :
    s.w.load (a + i) = t.w.load (a + i) := by
  obtain ⟨b, hb, h1⟩ := List.any_eq_true.1 hc
  have h2 : b.contains (a + i) 1 = true := by
    simp only [Block.contains, Bool.and_eq_true, decide_eq_true_eq] at h1 ⊢
    omega
  unfold World.load
  rw [h.mix.find (h.other hb Nat.one_pos h2)]

theorem iso_heapDealloc (p : Nat) (L : Layout) : (T).rel (heapDealloc p L) (heapDealloc p L) := by
  refine ⟨fun s m h => ?_, fun s t h _ => ?_⟩
  · unfold heapDealloc
    split
    · trivial
    · exact h
  · unfold heapDealloc
    cases ht : t.w.live.find? (·.matches p L) with
    | none => trivial
    | some b =>
      have hb : b ∈ t.w.live := List.mem_of_find?_eq_some ht
      have hm : b.matches p L = true := by simpa using List.find?_some ht
      have hF : ∀ f ∈ F, f.matches p L = false := by
        intro f hf
        have h1 := h.apart b hb f hf
        have h2 := h.size b hb
        have h3 := h.others f hf
        cases hfm : f.matches p L with
        | false => rfl
        | true =>
          simp only [Block.matches, Bool.and_eq_true, beq_iff_eq] at hm hfm
          rcases h1 with h1 | h1 <;> omega
      rw [h.mix.find hF, ht]
      refine ⟨rfl, ⟨h.vec, h.mix.erase hF, fun x hx => h.apart x (List.eraseP_subset hx), fun x hx => h.size x (List.eraseP_subset hx), h.others⟩,
        Nat.add_comm _ _⟩

/-- The answers do not overlap the blocks of others. -/
def FreshFor (F : List Block) (o : Oracle) : Prop := ∀ n L, o n L ≠ 0 → ∀ f ∈ F, Block.Apart ⟨o n L, L.size, L.align, fun _ => none⟩ f

theorem iso_heapAlloc (hf : FreshFor F C.alloc) (L : Layout) : (T).rel (heapAlloc C L) (heapAlloc C' L) := by
  refine ⟨fun s m h => ?_, fun s t h ha => ?_⟩
  · unfold heapAlloc
    split
    · trivial
    · simp only
      split
      · exact Nat.lt_succ_of_lt h
      · exact Nat.lt_succ_of_lt h
  · unfold heapAlloc
    show OutRel _ _ _ _ _ (if L.size = 0 ∨ layoutValid C.arch L = false then _ else _)
    by_cases hL : L.size = 0 ∨ layoutValid C.arch L = false
    · rw [if_pos hL, if_pos hL]; trivial
    · rw [if_neg hL, if_neg hL]
      have e : C.alloc s.w.calls = o' t.w.calls := by
        refine ha 0 ?_
        unfold heapAlloc
        rw [if_neg hL]
        simp only
        split
        · exact Nat.lt_succ_self _
        · exact Nat.lt_succ_self _
      show OutRel _ _ _ _ _ (if o' t.w.calls L = 0 then _ else _)
      simp only
      rw [e]
      by_cases h0 : o' t.w.calls L = 0
      · rw [if_pos h0, if_pos h0]
        exact ⟨rfl, ⟨h.vec, h.mix, h.apart, h.size, h.others⟩, by simp only; omega⟩
      · rw [if_neg h0, if_neg h0]
        refine ⟨rfl, ⟨h.vec, .own h.mix, ?_, ?_, h.others⟩, by simp only; omega⟩
        · intro b hb f hf'
          rcases List.mem_cons.1 hb with rfl | hb
          · have := hf s.w.calls L (by rw [e]; exact h0) f hf'
            rw [e] at this
            exact this
          · exact h.apart b hb f hf'
        · intro b hb
          rcases List.mem_cons.1 hb with rfl | hb
          · have := fun h => hL (.inl h); exact Nat.pos_of_ne_zero this
          · exact h.size b hb

theorem iso_heapRealloc (hf : FreshFor F C.alloc) (p : Nat) (L : Layout) (n : Nat) : (T).rel (heapRealloc C p L n) (heapRealloc C' p L n) := by
  refine ⟨fun s m h => ?_, fun s t h ha => ?_⟩
  · unfold heapRealloc
    split
    · trivial
    · split
      · trivial
      · simp only
        split
        · exact Nat.lt_succ_of_lt h
        · exact Nat.lt_succ_of_lt h
  · unfold heapRealloc at ha ⊢
    show OutRel _ _ _ _ _ (if n = 0 ∨ layoutValid C.arch ⟨n, L.align⟩ = false then _ else _)
    by_cases hL : n = 0 ∨ layoutValid C.arch ⟨n, L.align⟩ = false
    · rw [if_pos hL, if_pos hL]; trivial
    · rw [if_neg hL, if_neg hL]
      rw [if_neg hL] at ha
      cases ht : t.w.live.find? (·.matches p L) with
      | none => trivial
      | some b =>
        have hb : b ∈ t.w.live := List.mem_of_find?_eq_some ht
        have hm : b.matches p L = true := by simpa using List.find?_some ht
        have hF : ∀ f ∈ F, f.matches p L = false := by
          intro f hf
          have h1 := h.apart b hb f hf
          have h2 := h.size b hb
          have h3 := h.others f hf
          cases hfm : f.matches p L with
          | false => rfl
          | true =>
            simp only [Block.matches, Bool.and_eq_true, beq_iff_eq] at hm hfm
            rcases h1 with h1 | h1 <;> omega
        rw [h.mix.find hF, ht] at ha ⊢
        have e : C.alloc s.w.calls = o' t.w.calls := by
          refine ha 0 ?_
          simp only
          split
          · exact Nat.lt_succ_self _
          · exact Nat.lt_succ_self _
        show OutRel _ _ _ _ _ (if o' t.w.calls ⟨n, L.align⟩ = 0 then _ else _)
        simp only
        rw [e]
        by_cases h0 : o' t.w.calls ⟨n, L.align⟩ = 0
        · rw [if_pos h0, if_pos h0]
          exact ⟨rfl, ⟨h.vec, h.mix, h.apart, h.size, h.others⟩, by simp only; omega⟩
        · rw [if_neg h0, if_neg h0]
          refine ⟨rfl, ⟨h.vec, .own (h.mix.erase hF), ?_, ?_, h.others⟩, by simp only; omega⟩
          · intro b hb f hf'
            rcases List.mem_cons.1 hb with rfl | hb
            · have := hf s.w.calls ⟨n, L.align⟩ (by rw [e]; exact h0) f hf'
              rw [e] at this
              exact this
            · exact h.apart b (List.eraseP_subset hb) f hf'
          · intro b hb
            rcases List.mem_cons.1 hb with rfl | hb
            · have := fun h => hL (.inl h); exact Nat.pos_of_ne_zero this
            · exact h.size b (List.eraseP_subset hb)


/-! ### The methods of `AlignedVec` -/

theorem iso_alloc (hf : FreshFor F C.alloc) (n : Nat) : (T).rel (Sto.alloc C n) (Sto.alloc C' n) :=
  (T).bind (iso_debugAssert _ _) fun _ => (T).bind (iso_debugAssertM _ ((T).bind (iso_alignedMaxCapacity _ _) fun _ => (T).pure _)) fun _ =>
  (T).bind (iso_heapAlloc hf _) fun _ => (T).ite iso_abort ((T).pure _)

theorem iso_realloc (hf : FreshFor F C.alloc) (n : Nat) : (T).rel (Sto.realloc C n) (Sto.realloc C' n) := by
  have key : ∀ s t : Sto, s.vec = t.vec → (T).rel
      (do M.debugAssert C.arch (decide (s.vec.capacity > 0))
          M.debugAssert C.arch (decide (n > 0))
          M.debugAssertM C.arch (do let m ← alignedMaxCapacity C.arch C.storageAlign; pure (decide (n ≤ m)))
          let p ← heapRealloc C s.vec.ptr (Sto.layout C s) n
          if p = 0 then M.abort else pure p)
      (do M.debugAssert C.arch (decide (t.vec.capacity > 0))
          M.debugAssert C.arch (decide (n > 0))
          M.debugAssertM C.arch (do let m ← alignedMaxCapacity C.arch C.storageAlign; pure (decide (n ≤ m)))
          let p ← heapRealloc C' t.vec.ptr (Sto.layout C t) n
          if p = 0 then M.abort else pure p) := by
    intro s t h
    unfold Sto.layout
    rw [h]
    exact (T).bind (iso_debugAssert _ _) fun _ => (T).bind (iso_debugAssert _ _) fun _ =>
      (T).bind (iso_debugAssertM _ ((T).bind (iso_alignedMaxCapacity _ _) fun _ => (T).pure _)) fun _ =>
      (T).bind (iso_heapRealloc hf _ _ _) fun _ => (T).ite iso_abort ((T).pure _)
  exact iso_get (fun s t h => key s t h.vec) fun s => (key s s rfl).1

theorem iso_dealloc : (T).rel (Sto.dealloc C) (Sto.dealloc C') := by
  have key : ∀ s t : Sto, s.vec = t.vec → (T).rel
      (do M.debugAssert C.arch (decide (s.vec.capacity > 0)); heapDealloc s.vec.ptr (Sto.layout C s))
      (do M.debugAssert C.arch (decide (t.vec.capacity > 0)); heapDealloc t.vec.ptr (Sto.layout C t)) := by
    intro s t h
    unfold Sto.layout
    rw [h]
    exact (T).bind (iso_debugAssert _ _) fun _ => iso_heapDealloc _ _
  exact iso_get (fun s t h => key s t h.vec) fun s => (key s s rfl).1

theorem iso_withCapacity (hf : FreshFor F C.alloc) (n : Nat) : (T).rel (Sto.withCapacity C n) (Sto.withCapacity C' n) := by
  unfold Sto.withCapacity
  exact (T).ite ((T).pure _) ((T).bind ((T).assert _ _) fun _ => (T).bind (iso_alignUpTo _ _ _) fun _ =>
    (T).bind (iso_debugAssert _ _) fun _ => (T).bind (iso_debugAssert _ _) fun _ => (T).bind (iso_debugAssertM _ (iso_isAlignedTo _ _ _)) fun _ =>
    (T).bind (iso_alloc hf _) fun _ => (T).bind (iso_putPtr _) fun _ => (T).bind (iso_putCapacity _) fun _ => iso_putPos _)

theorem iso_setPos (p : Nat) : (T).rel (Sto.setPos C p) (Sto.setPos C' p) :=
  (T).bind iso_getCapacity fun _ => (T).bind (iso_debugAssert _ _) fun _ => (T).bind (iso_debugAssertM _ (iso_isAlignedTo _ _ _)) fun _ => iso_putPos _

theorem iso_align (a : Nat) : (T).rel (Sto.align C a) (Sto.align C' a) :=
  (T).bind (iso_debugAssert _ _) fun _ => (T).bind (iso_debugAssert _ _) fun _ => (T).bind (iso_debugAssert _ _) fun _ =>
  (T).bind iso_getPos fun _ => (T).bind (iso_alignUpTo _ _ _) fun _ => iso_setPos _

theorem iso_alignFor (L : Layout) : (T).rel (Sto.alignFor C L) (Sto.alignFor C' L) := (T).ite (iso_align _) ((T).pure _)

theorem iso_alignAfter (L : Layout) : (T).rel (Sto.alignAfter C L) (Sto.alignAfter C' L) := (T).ite (iso_align _) ((T).pure _)

theorem iso_growForReserve (hf : FreshFor F C.alloc) (n : Nat) : (T).rel (Sto.growForReserve C n) (Sto.growForReserve C' n) := by
  unfold Sto.growForReserve
  exact (T).bind (iso_debugAssert _ _) fun _ => (T).bind iso_getPos fun _ => (T).bind ((T).assert _ _) fun _ => (T).bind (iso_unextPow2 _ _) fun _ =>
    (T).bind ((T).ite ((T).bind ((T).assert _ _) fun _ => (T).pure _) (iso_unextPow2 _ _)) fun _ => (T).bind iso_getCapacity fun _ =>
    (T).ite ((T).bind (iso_alloc hf _) fun _ => (T).bind (iso_putPtr _) fun _ => iso_putCapacity _)
      ((T).bind (iso_realloc hf _) fun _ => (T).bind (iso_putPtr _) fun _ => iso_putCapacity _)

theorem iso_reserve (hf : FreshFor F C.alloc) (n : Nat) : (T).rel (Sto.reserve C n) (Sto.reserve C' n) := by
  unfold Sto.reserve
  exact (T).bind iso_getCapacity fun _ => (T).bind iso_getPos fun _ => (T).ite (iso_growForReserve hf _) ((T).pure _)

theorem iso_writeSlice (p : Nat) (L : Layout) (n : Nat) (d : Nat → Cell) : (T).rel (Sto.writeSlice C p L n d) (Sto.writeSlice C' p L n d) := by
  unfold Sto.writeSlice
  exact (T).bind iso_getCapacity fun _ => (T).bind (iso_debugAssert _ _) fun _ =>
    (T).bind (iso_debugAssertM _ ((T).bind (iso_usub _ _ _) fun _ => (T).bind (iso_umul _ _ _) fun _ => (T).pure _)) fun _ =>
    (T).bind (iso_debugAssertM _ (iso_isAlignedTo _ _ _)) fun _ => (T).ite ((T).pure _)
      ((T).bind iso_getPtr fun _ => (T).bind (iso_ptrAdd _ _) fun _ => iso_memWrite _ _ _ _)

theorem iso_pushSliceUnchecked (L : Layout) (n : Nat) (d : Nat → Cell) (size : Nat) :
    (T).rel (Sto.pushSliceUnchecked C L n d size) (Sto.pushSliceUnchecked C' L n d size) := by
  unfold Sto.pushSliceUnchecked
  exact (T).bind iso_getCapacity fun _ => (T).bind iso_getPos fun _ => (T).bind (iso_debugAssertM _ ((T).bind (iso_usub _ _ _) fun _ => (T).pure _)) fun _ =>
    (T).bind (iso_debugAssertM _ ((T).bind (iso_umul _ _ _) fun _ => (T).pure _)) fun _ =>
    (T).bind (iso_debugAssertM _ (iso_isAlignedTo _ _ _)) fun _ => (T).ite ((T).pure _)
      ((T).bind (iso_writeSlice _ _ _ _) fun _ => (T).bind (iso_uadd _ _ _) fun _ => iso_putPos _)

theorem iso_pushSlice (hf : FreshFor F C.alloc) (L : Layout) (n : Nat) (d : Nat → Cell) :
    (T).rel (Sto.pushSlice C L n d) (Sto.pushSlice C' L n d) := by
  unfold Sto.pushSlice
  exact (T).ite ((T).pure _) ((T).bind (iso_alignFor _) fun _ => (T).bind (iso_umul _ _ _) fun _ => (T).bind (iso_reserve hf _) fun _ =>
    (T).bind iso_getPos fun _ => (T).bind (iso_pushSliceUnchecked _ _ _ _) fun _ => (T).bind (iso_alignAfter _) fun _ => (T).pure _)

theorem iso_pushEmptySlice (hf : FreshFor F C.alloc) (L : Layout) (n : Nat) : (T).rel (Sto.pushEmptySlice C L n) (Sto.pushEmptySlice C' L n) := by
  unfold Sto.pushEmptySlice
  exact (T).bind (iso_alignFor _) fun _ => (T).bind (iso_umul _ _ _) fun _ => (T).bind (iso_reserve hf _) fun _ =>
    (T).bind iso_getPos fun _ => (T).bind (iso_uadd _ _ _) fun _ => (T).bind (iso_setPos _) fun _ => (T).bind (iso_alignAfter _) fun _ => (T).pure _

theorem iso_shrinkToFit (hf : FreshFor F C.alloc) : (T).rel (Sto.shrinkToFit C) (Sto.shrinkToFit C') := by
  unfold Sto.shrinkToFit
  exact (T).bind iso_getPos fun _ => (T).bind (iso_alignUpTo _ _ _) fun _ => (T).bind iso_getCapacity fun _ =>
    (T).ite ((T).ite ((T).bind iso_dealloc fun _ => (T).bind (iso_putPtr _) fun _ => iso_putCapacity _)
      ((T).bind (iso_realloc hf _) fun _ => (T).bind (iso_putPtr _) fun _ => iso_putCapacity _)) ((T).pure _)

theorem iso_drop : (T).rel (Sto.drop C) (Sto.drop C') := by
  unfold Sto.drop
  exact (T).bind iso_getCapacity fun _ => (T).ite iso_dealloc ((T).pure _)

theorem iso_sop (hf : FreshFor F C.alloc) (a : SOp) : (T).rel (a.run C) (a.run C') := by
  cases a with
  | pushSlice L n d => exact iso_pushSlice hf _ _ _
  | pushEmptySlice L n => exact iso_pushEmptySlice hf _ _
  | reserve n => exact (T).bind (iso_reserve hf _) fun _ => (T).pure _
  | alignFor L => exact (T).bind (iso_alignFor _) fun _ => (T).pure _
  | alignAfter L => exact (T).bind (iso_alignAfter _) fun _ => (T).pure _
  | alignAfterAny => exact (T).bind (iso_align _) fun _ => (T).pure _
  | clear => exact (T).bind (iso_setPos _) fun _ => (T).pure _
  | shrinkToFit => exact (T).bind (iso_shrinkToFit hf) fun _ => (T).pure _
  | writeSlice p L n d => exact (T).bind (iso_writeSlice _ _ _ _) fun _ => (T).pure _

theorem iso_correctPtr (A : Arch) (p sh q : Nat) : (T).rel (correctPtr A p sh q) (correctPtr A p sh q) := by
  refine (T).bind (iso_ptrAdd _ _) fun a => ?_
  have key : ∀ w : Option Nat, (T).rel
      (match w with
        | none => M.ub
        | some w => memWrite a A.ptrBytes A.ptrBytes (wordCells A (wrappingAdd A w sh)))
      (match w with
        | none => M.ub
        | some w => memWrite a A.ptrBytes A.ptrBytes (wordCells A (wrappingAdd A w sh))) := by
    intro w
    cases w with
    | none => exact (T).ub
    | some w => exact iso_memWrite _ _ _ _
  refine ⟨fun s m h => ?_, fun s t h ha => ?_⟩
  · rw [bind_def]
    unfold memRef
    by_cases h0 : a = 0 ∨ a % A.ptrBytes ≠ 0
    · rw [if_pos h0]; trivial
    · rw [if_neg h0]
      by_cases hn : A.ptrBytes = 0
      · rw [if_pos hn]
        exact (key _).1 s m h
      · rw [if_neg hn]
        by_cases hc : s.w.live.any (·.contains a A.ptrBytes) = true
        · rw [if_pos hc]
          exact (key _).1 s m h
        · rw [if_neg hc]; trivial
  · rw [bind_def, bind_def]
    rw [bind_def] at ha
    unfold memRef at ha ⊢
    by_cases h0 : a = 0 ∨ a % A.ptrBytes ≠ 0
    · rw [if_pos h0, if_pos h0]; trivial
    · rw [if_neg h0] at ha
      rw [if_neg h0, if_neg h0]
      by_cases hn : A.ptrBytes = 0
      · rw [if_pos hn] at ha
        rw [if_pos hn, if_pos hn]
        exact (key _).2 s t h ha
      · rw [if_neg hn] at ha
        rw [if_neg hn, if_neg hn]
        by_cases hc : t.w.live.any (·.contains a A.ptrBytes) = true
        · rw [if_pos (h.any hc)] at ha
          rw [if_pos hc, if_pos (h.any hc)]
          simp only at ha ⊢
          have e : readWord A (fun i => s.w.load (a + i)) 0 = readWord A (fun i => t.w.load (a + i)) 0 :=
            readWord_congr fun i hi => by simp only [Nat.zero_add]; exact h.load hc hi
          rw [e] at ha ⊢
          exact (key _).2 s t h ha
        · rw [if_neg hc]; trivial

theorem iso_correctPtrs (A : Arch) (g : PtrGroup) (p : Nat) : (T).rel (g.correctPtrs A p) (g.correctPtrs A p) := by
  unfold PtrGroup.correctPtrs
  induction g.positions with
  | nil => exact (T).pure _
  | cons q qs ih => exact (T).bind (iso_correctPtr _ _ _ _) fun _ => ih

theorem iso_correctPast (A : Arch) (p : Nat) (gs : List PtrGroup) : (T).rel (Complete.correctPast A p gs) (Complete.correctPast A p gs) := by
  induction gs with
  | nil => exact (T).pure _
  | cons g gs ih =>
    unfold Complete.correctPast
    exact (T).bind ((T).ite (iso_correctPtrs _ _ _) ((T).pure _)) fun _ => ih

end

/-! ### Serializers -/

section
variable {C : Cfg} {o' : Oracle} {F : List Block} {k : Kind} {P : Prog}

/-- A serializer whose storage is on a heap with the blocks `F` of others, and the same one on a heap of its own. -/
structure SerAmong (F : List Block) (s t : Ser) : Prop where
  sto : Among F s.sto t.sto
  map : s.map = t.map
  ptrs : s.ptrs = t.ptrs

/-- Related runs of serializer operations. -/
abbrev serIso (C : Cfg) (o' : Oracle) (F : List Block) : ActRel Ser Ser := isoRel C.alloc o' (SerAmong F) (fun s => s.sto.w.calls)

local notation "T" => serIso C o' F
local notation "C'" => Cfg.withAlloc C o'

theorem iso_lift {α : Type} {x y : M Sto α} (h : (stoIso C o' F).rel x y) : (T).rel (Ser.lift x) (Ser.lift y) := by
  have e : ∀ (s : Ser) n, (Ser.lift x s).Before (fun s => s.sto.w.calls) n ↔ (x s.sto).Before (fun s => s.w.calls) n := by
    intro s n
    unfold Ser.lift
    cases x s.sto <;> exact Iff.rfl
  refine ⟨fun s n hn => (e s n).2 (h.1 s.sto n hn), fun s t hr ha => ?_⟩
  have h1 := h.2 s.sto t.sto hr.sto fun n hn => ha n ((e s _).2 hn)
  unfold Ser.lift
  cases hy : y t.sto <;> rw [hy] at h1 <;> first | trivial | skip
  all_goals cases hx : x s.sto <;> rw [hx] at h1 <;> first | exact h1.elim | trivial | exact ⟨h1.1, ⟨h1.2.1, hr.map, hr.ptrs⟩, h1.2.2⟩

theorem iso_getMap : (T).rel Ser.getMap Ser.getMap := ⟨fun _ _ h => h, fun _ _ h _ => ⟨h.map, h, Nat.add_comm _ _⟩⟩

theorem iso_setMap (m : PosMapping) : (T).rel (Ser.setMap m) (Ser.setMap m) :=
  ⟨fun _ _ h => h, fun _ _ h _ => ⟨rfl, ⟨h.sto, rfl, h.ptrs⟩, Nat.add_comm _ _⟩⟩

theorem iso_serCapacity : (T).rel Ser.getCapacity Ser.getCapacity :=
  ⟨fun _ _ h => h, fun _ _ h _ => ⟨by rw [h.sto.vec], h, Nat.add_comm _ _⟩⟩

theorem iso_record (a p : Nat) : (T).rel (M.modify fun s : Ser => { s with ptrs := recordPtr s.ptrs a p }) (M.modify fun s : Ser => { s with ptrs := recordPtr s.ptrs a p }) :=
  ⟨fun _ _ h => h, fun _ _ h _ => ⟨rfl, ⟨h.sto, h.map, by simp only [h.ptrs]⟩, Nat.add_comm _ _⟩⟩

theorem iso_overwritePtr (p q : Nat) : (T).rel (overwritePtr C k p q) (overwritePtr C' k p q) := by
  cases k with
  | pureCopy => exact (T).pure _
  | posTracking => exact (T).pure _
  | ptrOffset =>
    exact (T).bind iso_serCapacity fun _ => (T).bind (iso_debugAssertM _ ((T).bind (iso_usub _ _ _) fun _ => (T).pure _)) fun _ =>
      (T).bind (iso_debugAssertM _ (iso_isAlignedTo _ _ _)) fun _ => (T).bind (iso_debugAssert _ _) fun _ => iso_lift (iso_writeSlice _ _ _ _)
  | complete =>
    refine (T).bind iso_serCapacity fun _ => (T).bind (iso_debugAssertM _ ((T).bind (iso_usub _ _ _) fun _ => (T).pure _)) fun _ =>
      (T).bind (iso_debugAssertM _ (iso_isAlignedTo _ _ _)) fun _ => (T).bind (iso_debugAssert _ _) fun _ => ?_
    have key : ∀ s t : Ser, s.sto.vec = t.sto.vec → (T).rel
        (do let targetAddr ← uadd C.arch s.sto.asPtr q
            Ser.lift (Sto.write C p ⟨C.arch.ptrBytes, C.arch.ptrBytes⟩ (wordCells C.arch targetAddr))
            M.modify fun s' : Ser => { s' with ptrs := recordPtr s'.ptrs s.sto.asPtr p })
        (do let targetAddr ← uadd C.arch t.sto.asPtr q
            Ser.lift (Sto.write C' p ⟨C.arch.ptrBytes, C.arch.ptrBytes⟩ (wordCells C.arch targetAddr))
            M.modify fun s' : Ser => { s' with ptrs := recordPtr s'.ptrs t.sto.asPtr p }) := by
      intro s t h
      unfold Sto.asPtr
      rw [h]
      exact (T).bind (iso_uadd _ _ _) fun _ => (T).bind (iso_lift (iso_writeSlice _ _ _ _)) fun _ => iso_record _ _
    exact iso_get (fun s t h => key s t h.sto.vec) fun s => (key s s rfl).1

theorem iso_pushRawSlice (hf : FreshFor F C.alloc) (sl : Slice) : (T).rel (pushRawSlice C sl) (pushRawSlice C' sl) := iso_lift (iso_pushSlice hf _ _ _)

theorem iso_pushAndProcessSlice (hf : FreshFor F C.alloc) (sl : Slice) (p : Nat) {x y : M Ser Unit} (h : (T).rel x y) :
    (T).rel (pushAndProcessSlice C k sl p x) (pushAndProcessSlice C' k sl p y) := by
  have hp : ∀ k, (T).rel (PtrWriting.doPushAndProcessSlice C k sl p x) (PtrWriting.doPushAndProcessSlice C' k sl p y) := fun k =>
    (T).bind iso_getMap fun _ => (T).bind (iso_lift (iso_pushSlice hf _ _ _)) fun _ => (T).bind (iso_posForAddr _ _ _) fun _ =>
    (T).bind (iso_overwritePtr _ _) fun _ => (T).bind (iso_setMap _) fun _ => (T).bind h fun _ => (T).bind (iso_setMap _) fun _ => (T).pure _
  cases k with
  | pureCopy => exact (T).bind (iso_pushRawSlice hf _) fun _ => (T).bind h fun _ => (T).pure _
  | posTracking =>
    exact (T).bind iso_getMap fun _ => (T).bind (iso_lift (iso_pushSlice hf _ _ _)) fun _ => (T).bind (iso_setMap _) fun _ => (T).bind h fun _ =>
      (T).bind (iso_setMap _) fun _ => (T).pure _
  | ptrOffset => exact hp _
  | complete => exact hp _

theorem iso_serPushSlice (hf : FreshFor F C.alloc) (sl : Slice) (p : Nat) : (T).rel (pushSlice C k sl p) (pushSlice C' k sl p) := by
  have hp : ∀ k, (T).rel (PtrWriting.doPushSlice C k sl p) (PtrWriting.doPushSlice C' k sl p) := fun k =>
    (T).bind (iso_pushRawSlice hf _) fun _ => (T).bind iso_getMap fun _ => (T).bind (iso_posForAddr _ _ _) fun _ =>
    (T).bind (iso_overwritePtr _ _) fun _ => (T).pure _
  cases k with
  | pureCopy => exact iso_pushAndProcessSlice (k := .pureCopy) hf _ p ((T).pure _)
  | posTracking => exact iso_pushRawSlice hf _
  | ptrOffset => exact hp _
  | complete => exact hp _

theorem iso_serializeValue (hf : FreshFor F C.alloc) (L : Layout) (a : Nat) (d : Nat → Cell) {x y : M Ser Unit} (h : (T).rel x y) :
    (T).rel (serializeValue C k L a d x) (serializeValue C' k L a d y) := by
  have hp : (T).rel (PosTracking.doSerializeValue C L a d x) (PosTracking.doSerializeValue C' L a d y) :=
    (T).bind (iso_pushRawSlice hf _) fun _ => (T).bind (iso_setMap _) fun _ => (T).bind h fun _ => (T).pure _
  cases k with
  | pureCopy => exact (T).bind (iso_pushRawSlice hf _) fun _ => (T).bind h fun _ => (T).pure _
  | posTracking => exact hp
  | ptrOffset => exact hp
  | complete => exact hp

theorem iso_overwrite (a : Nat) (L : Layout) (d : Nat → Cell) : (T).rel (overwrite C k a L d) (overwrite C' k a L d) := by
  cases k with
  | complete => exact (T).bind iso_getMap fun _ => (T).bind (iso_posForAddr _ _ _) fun _ => iso_lift (iso_writeSlice _ _ _ _)
  | _ => exact (T).pure _

theorem iso_overwriteWith {x y : M Ser Unit} (h : (T).rel x y) : (T).rel (overwriteWith k x) (overwriteWith k y) := by
  cases k with
  | complete => exact h
  | _ => exact (T).pure _

theorem iso_finalize : (T).rel (finalize C k) (finalize C' k) := by
  cases k with
  | complete =>
    have key : ∀ s t : Ser, s.sto.vec = t.sto.vec → s.ptrs = t.ptrs → (T).rel
        (do (if s.ptrs.current.addr ≠ s.sto.asPtr ∧ s.ptrs.current.isEmpty = false then
              Ser.lift (s.ptrs.current.correctPtrs C.arch s.sto.asPtr) else pure ())
            Ser.lift (Complete.correctPast C.arch s.sto.asPtr s.ptrs.past))
        (do (if t.ptrs.current.addr ≠ t.sto.asPtr ∧ t.ptrs.current.isEmpty = false then
              Ser.lift (t.ptrs.current.correctPtrs C.arch t.sto.asPtr) else pure ())
            Ser.lift (Complete.correctPast C.arch t.sto.asPtr t.ptrs.past)) := by
      intro s t h h'
      unfold Sto.asPtr
      rw [h, h']
      exact (T).bind ((T).ite (iso_lift (iso_correctPtrs _ _ _)) ((T).pure _)) fun _ => iso_lift (iso_correctPast _ _ _)
    exact iso_get (fun s t h => key s t h.sto.vec h.ptrs) fun s => (key s s rfl rfl).1
  | _ => exact (T).pure _

/-- All methods of a serializer. -/
theorem iso_own (hf : FreshFor F C.alloc) : SerRel (T) (ownSerializer C k) (ownSerializer C' k) where
  A := rfl
  fromRef := rfl
  fromRefOffset a off := by
    show (T).rel (addrFromRefOffset _ _ _ _) (addrFromRefOffset _ _ _ _)
    unfold addrFromRefOffset
    split
    · exact iso_uadd _ _ _
    · exact (T).pure _
  serializeValue L a d {_ _} h := iso_serializeValue hf _ _ _ h
  pushSlice sl p := iso_serPushSlice hf _ _
  pushAndProcess L a d p {_ _} h := iso_pushAndProcessSlice hf _ _ h
  pushAndProcessSlice sl p {_ _} h := iso_pushAndProcessSlice hf _ _ h
  pushRawSlice sl := iso_pushRawSlice hf _
  overwrite x L d := iso_overwrite _ _ _
  overwriteWith {_ _} h := iso_overwriteWith h
  finalize := iso_finalize

theorem iso_script (hf : FreshFor F C.alloc) (im : Mem) (sc : Script) : (T).rel (sc.run C k im) (sc.run C' k im) := by
  have := runA_rel (im := im) (iso_own (k := k) (o' := o') hf) sc
  rwa [runA_own, runA_own] at this

theorem iso_stop (hf : FreshFor F C.alloc) (im : Mem) (st : Stop) : (T).rel (st.run C k im) (st.run C' k im) := by
  induction st with
  | here => exact (T).throw _
  | after sc rest ih => exact (T).bind (iso_script hf _ _) fun _ => ih
  | inside L len src ptr inner ih => exact (T).bind (iso_pushAndProcessSlice hf _ _ ih) fun _ => (T).pure _

theorem iso_act (hf : FreshFor F C.alloc) (fuel : Nat) (a : Act) : (T).rel (a.run C k P fuel) (a.run C' k P fuel) := by
  cases a with
  | typed r =>
    have := aData_rel (P := P) (im := r.im) (iso_own (k := k) (o' := o') hf) fuel r.t r.a
    rw [aData_own, aData_own] at this
    exact iso_serializeValue hf _ _ _ this
  | user r =>
    refine iso_serializeValue hf _ _ _ ?_
    cases r.body with
    | returns sc => exact iso_script hf _ _
    | panics st => exact iso_stop hf _ _
  | sto o => exact iso_lift (iso_sop hf _)

end
end SerRaw
