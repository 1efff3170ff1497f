import Verif.Spec.Temporaries
import Verif.Spec.User
import Verif.Model.UserImpl
import Verif.Lemmas.Attempt
import Verif.Lemmas.Footprint
/-
Implementations that push temporaries do what implementations do whose slices all live in one memory: give every slice that is
pushed an address range of its own (`TCalls.virt`).
-/
namespace SerRaw

/-! ### Comparing runs -/

/-- The same storage and the same pointer record. -/
def Ser.Like (s s' : Ser) : Prop := s'.sto = s.sto ∧ s'.ptrs = s.ptrs

/-- Same result, and final states related by `Q`; after a panic the same storage and pointer record. -/
def Out.Like {α : Type} (Q : Ser → Ser → Prop) : Out Ser α → Out Ser α → Prop
  | .ok a s, .ok b s' => b = a ∧ Q s s'
  | .panic pk s, .panic pk' s' => pk' = pk ∧ s.Like s'
  | .abort, .abort => True
  | .ub, .ub => True
  | .fuel, .fuel => True
  | _, _ => False

/-- Started in states related by `P`, the two do the same, and end in states related by `Q`. -/
def M.Like {α : Type} (P Q : Ser → Ser → Prop) (x y : M Ser α) : Prop := ∀ s s', P s s' → (x s).Like Q (y s')

/-- The two are at the mappings `mp` and `mp'`, otherwise the same. -/
def Ser.At (mp mp' : PosMapping) (s s' : Ser) : Prop := s.Like s' ∧ s.map = mp ∧ s'.map = mp'

section
variable {C : Cfg} {k : Kind} {α β : Type} {P Q R : Ser → Ser → Prop}

theorem M.Like.bind {x y : M Ser α} {f g : α → M Ser β} (h : M.Like P Q x y) (h' : ∀ a, M.Like Q R (f a) (g a)) : M.Like P R (x >>= f) (y >>= g) := by
  intro s s' hs
  have h := h s s' hs
  rw [bind_def, bind_def]
  cases hx : x s <;> cases hy : y s' <;> rw [hx, hy] at h <;> first | exact h.elim | skip
  · obtain ⟨rfl, h⟩ := h
    exact h' _ _ _ h
  all_goals exact h

theorem M.Like.pure (a : α) : M.Like P P (Pure.pure a) (Pure.pure a) := fun _ _ h => ⟨rfl, h⟩

theorem M.Like.mono {Q' : Ser → Ser → Prop} {x y : M Ser α} (h : M.Like P Q x y) (hq : ∀ s s', Q s s' → Q' s s') : M.Like P Q' x y := by
  intro s s' hs
  have h := h s s' hs
  cases hx : x s <;> cases hy : y s' <;> rw [hx, hy] at h <;> first | exact h.elim | exact h | skip
  exact ⟨h.1, hq _ _ h.2⟩

theorem M.Like.pre {P' : Ser → Ser → Prop} {x y : M Ser α} (h : M.Like P Q x y) (hp : ∀ s s', P' s s' → P s s') : M.Like P' Q x y :=
  fun s s' hs => h s s' (hp _ _ hs)

variable {mp mp' : PosMapping}

theorem like_lift (x : M Sto α) : M.Like (Ser.At mp mp') (Ser.At mp mp') (Ser.lift x) (Ser.lift x) := by
  rintro s s' ⟨⟨h1, h2⟩, h3, h4⟩
  unfold Ser.lift
  rw [h1]
  cases x s.sto with
  | ok a t => exact ⟨rfl, ⟨rfl, h2⟩, h3, h4⟩
  | panic pk t => exact ⟨rfl, rfl, h2⟩
  | _ => trivial

theorem like_lift' (x : M Sto α) : M.Like Ser.Like Ser.Like (Ser.lift x) (Ser.lift x) :=
  fun s s' h => ((like_lift (mp := s.map) (mp' := s'.map) x).mono fun _ _ h => h.1) s s' ⟨h, rfl, rfl⟩

theorem like_setMap {mq mq' : PosMapping} (hP : ∀ s s', P s s' → s.Like s') : M.Like P (Ser.At mq mq') (Ser.setMap mq) (Ser.setMap mq') :=
  fun s s' h => ⟨rfl, ⟨(hP s s' h).1, (hP s s' h).2⟩, rfl, rfl⟩

/-- Two mappings of the same output position. -/
def PosMapping.Meet (mp mp' : PosMapping) (ia ia' : Nat) : Prop := mp.inputAddr = ia ∧ mp'.inputAddr = ia' ∧ mp'.outputPos = mp.outputPos

/-- The same place in the other copy of the value. -/
def relocate (ia ia' x : Nat) : Nat := ia' + (x - ia)

theorem posForAddr_meet {σ : Type} {ia ia' x : Nat} (h : PosMapping.Meet mp mp' ia ia') (hx : ia ≤ x) :
    (mp'.posForAddr C.arch (relocate ia ia' x) : M σ Nat) = mp.posForAddr C.arch x := by
  funext s
  unfold PosMapping.posForAddr relocate
  rw [bind_ok (usub_ok C.arch (show mp'.inputAddr ≤ ia' + (x - ia) by rw [h.2.1]; omega) s),
    bind_ok (usub_ok C.arch (show mp.inputAddr ≤ x by rw [h.1]; exact hx) s), h.2.2, h.1, h.2.1]
  congr 1
  omega

theorem like_usub (hP : ∀ s s', P s s' → s.Like s') (a b : Nat) : M.Like P P (usub C.arch a b) (usub C.arch a b) := by
  intro s s' h
  unfold usub
  split
  · exact ⟨rfl, h⟩
  · split
    · exact ⟨rfl, hP _ _ h⟩
    · exact ⟨rfl, h⟩

theorem like_uadd (hP : ∀ s s', P s s' → s.Like s') (a b : Nat) : M.Like P P (uadd C.arch a b) (uadd C.arch a b) := by
  intro s s' h
  unfold uadd
  split
  · exact ⟨rfl, h⟩
  · split
    · exact ⟨rfl, hP _ _ h⟩
    · exact ⟨rfl, h⟩

theorem like_pos (hP : ∀ s s', P s s' → s.Like s') (m0 : PosMapping) (a : Nat) : M.Like P P (m0.posForAddr C.arch a) (m0.posForAddr C.arch a) :=
  (like_usub hP _ _).bind fun _ => like_uadd hP _ _

theorem like_debugAssert (hP : ∀ s s', P s s' → s.Like s') (b : Bool) : M.Like P P (M.debugAssert C.arch b) (M.debugAssert C.arch b) := by
  unfold M.debugAssert
  split
  · exact fun _ _ h => ⟨rfl, hP _ _ h⟩
  · exact M.Like.pure _

theorem like_debugAssertM (hP : ∀ s s', P s s' → s.Like s') {x : M Ser Bool} (hx : M.Like P P x x) : M.Like P P (M.debugAssertM C.arch x) (M.debugAssertM C.arch x) := by
  unfold M.debugAssertM
  split
  · exact hx.bind fun _ => like_debugAssert hP _
  · exact M.Like.pure _

theorem like_isAlignedTo (hP : ∀ s s', P s s' → s.Like s') (p al : Nat) : M.Like P P (isAlignedTo C.arch p al) (isAlignedTo C.arch p al) := by
  unfold isAlignedTo
  exact (like_debugAssert hP _).bind fun _ => (like_usub hP _ _).bind fun _ => M.Like.pure _

theorem Ser.At.like {s s' : Ser} (h : Ser.At mp mp' s s') : s.Like s' := h.1

theorem like_getCapacity : M.Like (Ser.At mp mp') (Ser.At mp mp') Ser.getCapacity Ser.getCapacity := by
  intro s s' h
  exact ⟨by rw [h.1.1], h⟩

theorem like_checks (p q cap : Nat) {f g : M Ser α} (h : M.Like (Ser.At mp mp') (Ser.At mp mp') f g) :
    M.Like (Ser.At mp mp') (Ser.At mp mp')
      (do M.debugAssertM C.arch (do let x ← usub C.arch cap C.arch.ptrBytes; pure (decide (p ≤ x)))
          M.debugAssertM C.arch (isAlignedTo C.arch p C.arch.ptrBytes)
          M.debugAssert C.arch (decide (q ≤ cap))
          f)
      (do M.debugAssertM C.arch (do let x ← usub C.arch cap C.arch.ptrBytes; pure (decide (p ≤ x)))
          M.debugAssertM C.arch (isAlignedTo C.arch p C.arch.ptrBytes)
          M.debugAssert C.arch (decide (q ≤ cap))
          g) := by
  have hA : ∀ s s', Ser.At mp mp' s s' → s.Like s' := fun _ _ h => h.1
  refine (like_debugAssertM hA ((like_usub hA _ _).bind fun _ => M.Like.pure _)).bind fun _ =>
    (like_debugAssertM hA (like_isAlignedTo hA _ _)).bind fun _ => (like_debugAssert hA _).bind fun _ => h

theorem like_overwritePtr (p q : Nat) : M.Like (Ser.At mp mp') (Ser.At mp mp') (overwritePtr C k p q) (overwritePtr C k p q) := by
  have hA : ∀ s s', Ser.At mp mp' s s' → s.Like s' := fun _ _ h => h.1
  cases k with
  | pureCopy => exact M.Like.pure _
  | posTracking => exact M.Like.pure _
  | ptrOffset => exact like_getCapacity.bind fun _ => like_checks _ _ _ (like_lift _)
  | complete =>
    refine like_getCapacity.bind fun _ => like_checks _ _ _ ?_
    intro s s' h
    rw [bind_ok (show (M.get : M Ser Ser) s = .ok s s from rfl), bind_ok (show (M.get : M Ser Ser) s' = .ok s' s' from rfl)]
    simp only [h.1.1]
    refine ((like_uadd hA _ _).bind fun _ => (like_lift _).bind fun _ => ?_) s s' h
    intro s s' h
    exact ⟨rfl, ⟨h.1.1, by simp only [h.1.2]⟩, h.2.1, h.2.2⟩

theorem like_enter {sl sl' : Slice} {ia ia' ptr pos : Nat} (hm : k.tracking = true → PosMapping.Meet mp mp' ia ia') (hp : ia ≤ ptr) :
    M.Like (Ser.At mp mp') (fun s s' => ∃ mq mq', Ser.At mq mq' s s' ∧ (k = .pureCopy ∧ mq = mp ∧ mq' = mp' ∨ k ≠ .pureCopy ∧ mq = ⟨sl.addr, pos⟩ ∧ mq' = ⟨sl'.addr, pos⟩))
      (enter C k sl (addrFromRef k ptr) mp pos) (enter C k sl' (addrFromRef k (relocate ia ia' ptr)) mp' pos) := by
  have hA : ∀ s s', Ser.At mp mp' s s' → s.Like s' := fun _ _ h => h.1
  cases k with
  | pureCopy => exact fun s s' h => ⟨rfl, _, _, h, .inl ⟨rfl, rfl, rfl⟩⟩
  | posTracking => exact (like_setMap hA).mono fun _ _ h => ⟨_, _, h, .inr ⟨by decide, rfl, rfl⟩⟩
  | ptrOffset =>
    simp only [enter, addrFromRef, Kind.tracking, if_true]
    rw [posForAddr_meet (hm rfl) hp]
    exact (like_pos hA _ _).bind fun _ => (like_overwritePtr _ _).bind fun _ => (like_setMap hA).mono fun _ _ h => ⟨_, _, h, .inr ⟨by decide, rfl, rfl⟩⟩
  | complete =>
    simp only [enter, addrFromRef, Kind.tracking, if_true]
    rw [posForAddr_meet (hm rfl) hp]
    exact (like_pos hA _ _).bind fun _ => (like_overwritePtr _ _).bind fun _ => (like_setMap hA).mono fun _ _ h => ⟨_, _, h, .inr ⟨by decide, rfl, rfl⟩⟩

theorem like_link {ia ia' ptr pos : Nat} (hm : k.tracking = true → PosMapping.Meet mp mp' ia ia') (hp : ia ≤ ptr) :
    M.Like (Ser.At mp mp') (Ser.At mp mp') (link C k (addrFromRef k ptr) pos) (link C k (addrFromRef k (relocate ia ia' ptr)) pos) := by
  have hA : ∀ s s', Ser.At mp mp' s s' → s.Like s' := fun _ _ h => h.1
  have key : ∀ k : Kind, PosMapping.Meet mp mp' ia ia' → M.Like (Ser.At mp mp') (Ser.At mp mp')
      (do let m ← Ser.getMap; let p ← m.posForAddr C.arch ptr; overwritePtr C k p pos)
      (do let m ← Ser.getMap; let p ← m.posForAddr C.arch (relocate ia ia' ptr); overwritePtr C k p pos) := by
    intro k hm s s' h
    rw [bind_ok (show Ser.getMap s = .ok mp s by rw [← h.2.1]; rfl), bind_ok (show Ser.getMap s' = .ok mp' s' by rw [← h.2.2]; rfl),
      posForAddr_meet hm hp]
    exact ((like_pos hA _ _).bind fun _ => like_overwritePtr _ _) s s' h
  cases k with
  | pureCopy => exact M.Like.pure _
  | posTracking => exact M.Like.pure _
  | ptrOffset => exact key _ (hm rfl)
  | complete => exact key _ (hm rfl)

theorem like_over {ia ia' x : Nat} {L : Layout} {d : Nat → Cell} (hm : k.tracking = true → PosMapping.Meet mp mp' ia ia') (hp : ia ≤ x) :
    M.Like (Ser.At mp mp') (Ser.At mp mp') (overwriteWith k (SerRaw.overwrite C k (addrFromRef k x) L d))
      (overwriteWith k (SerRaw.overwrite C k (addrFromRef k (relocate ia ia' x)) L d)) := by
  have hA : ∀ s s', Ser.At mp mp' s s' → s.Like s' := fun _ _ h => h.1
  cases k with
  | complete =>
    simp only [overwriteWith, Complete.doOverwriteWith, SerRaw.overwrite, Writable.doOverwrite, addrFromRef, Kind.tracking, if_true]
    intro s s' h
    rw [bind_ok (show Ser.getMap s = .ok mp s by rw [← h.2.1]; rfl), bind_ok (show Ser.getMap s' = .ok mp' s' by rw [← h.2.2]; rfl),
      posForAddr_meet (hm rfl) hp]
    exact ((like_pos hA _ _).bind fun _ => like_lift _) s s' h
  | _ => exact M.Like.pure _

theorem like_leave {mq mq' : PosMapping} (h : k = .pureCopy → mq = mp ∧ mq' = mp') :
    M.Like (Ser.At mq mq') (Ser.At mp mp') (leave k mp) (leave k mp') := by
  have hA : ∀ s s', Ser.At mq mq' s s' → s.Like s' := fun _ _ h => h.1
  cases k with
  | pureCopy =>
    obtain ⟨rfl, rfl⟩ := h rfl
    exact M.Like.pure _
  | _ => exact like_setMap hA

theorem like_pushProcess {sl sl' : Slice} {ia ia' ptr : Nat} {x y : M Ser Unit} (hm : k.tracking = true → PosMapping.Meet mp mp' ia ia')
    (hp : ia ≤ ptr) (hpush : Sto.pushSlice C sl'.L sl'.len sl'.data = Sto.pushSlice C sl.L sl.len sl.data)
    (hx : ∀ mq mq', (k.tracking = true → PosMapping.Meet mq mq' sl.addr sl'.addr) → M.Like (Ser.At mq mq') (Ser.At mq mq') x y) :
    M.Like (Ser.At mp mp') (Ser.At mp mp') (pushAndProcessSlice C k sl (addrFromRef k ptr) x)
      (pushAndProcessSlice C k sl' (addrFromRef k (relocate ia ia' ptr)) y) := by
  intro s s' h
  rw [pushAndProcessSlice_steps, pushAndProcessSlice_steps, hpush, h.2.1, h.2.2]
  refine ((like_lift _).bind fun pos => (like_enter (sl := sl) (sl' := sl') hm hp).bind fun _ => ?_) s s' h
  rintro s s' ⟨mq, mq', h, hq⟩
  refine ((hx mq mq' ?_).bind fun _ => (like_leave ?_).bind fun _ => M.Like.pure _) s s' h
  · intro ht
    rcases hq with ⟨rfl, -⟩ | ⟨-, rfl, rfl⟩
    · cases ht
    · exact ⟨rfl, rfl, rfl⟩
  · intro hk
    rcases hq with ⟨-, h1, h2⟩ | ⟨h1, -⟩
    · exact ⟨h1, h2⟩
    · exact (h1 hk).elim

theorem like_pushSlice {sl sl' : Slice} {ia ia' ptr : Nat} (hm : k.tracking = true → PosMapping.Meet mp mp' ia ia')
    (hp : ia ≤ ptr) (hpush : Sto.pushSlice C sl'.L sl'.len sl'.data = Sto.pushSlice C sl.L sl.len sl.data) :
    M.Like (Ser.At mp mp') (Ser.At mp mp') (pushSlice C k sl (addrFromRef k ptr)) (pushSlice C k sl' (addrFromRef k (relocate ia ia' ptr))) := by
  rw [pushSlice_steps, pushSlice_steps, hpush]
  exact (like_lift _).bind fun _ => (like_link hm hp).bind fun _ => M.Like.pure _

end

/-! ### Addresses of their own -/

/-- The bytes of the slices pushed, in the order in which they are pushed. -/
def TCalls.datas : TCalls → List (Nat → Cell)
  | .done => []
  | .pushProcess _ _ _ data _ inner rest => data :: (inner.datas ++ rest.datas)
  | .push _ _ _ data _ rest => data :: rest.datas
  | .pushRaw _ _ _ data rest => data :: rest.datas
  | .pushRawBytes _ data rest => data :: rest.datas
  | .overwrite _ _ _ rest => rest.datas

/-- The address given to slice number `j`. -/
def virtAddr (U j : Nat) : Nat := (j + 1) * U

/-- A memory that has all the slices. -/
def virtMem (U : Nat) (ds : List (Nat → Cell)) : Mem := fun x => (ds[x / U - 1]?).elim none fun d => d (x % U)

/-- The same calls, with the slices at addresses of their own: the first one pushed is number `j`, and the value being processed has moved
from `ia` to `ia'`. -/
def TCalls.virt (U : Nat) : TCalls → (j ia ia' : Nat) → Script
  | .done, _, _, _ => .done
  | .pushProcess L len src _ ptr inner rest, j, ia, ia' =>
    .pushProcess L len (virtAddr U j) (relocate ia ia' ptr) (inner.virt U (j + 1) src (virtAddr U j)) (rest.virt U (j + 1 + inner.datas.length) ia ia')
  | .push L len _ _ ptr rest, j, ia, ia' => .push L len (virtAddr U j) (relocate ia ia' ptr) (rest.virt U (j + 1) ia ia')
  | .pushRaw L len _ _ rest, j, ia, ia' => .pushRaw L len (virtAddr U j) (rest.virt U (j + 1) ia ia')
  | .pushRawBytes len _ rest, j, ia, ia' => .pushRaw ⟨1, 1⟩ len (virtAddr U j) (rest.virt U (j + 1) ia ia')
  | .overwrite a L data rest, j, ia, ia' => .overwrite (relocate ia ia' a) L data (rest.virt U j ia ia')

/-- The list `ds` has the slices `xs` from number `j` on. -/
def HasFrom (ds : List (Nat → Cell)) (j : Nat) (xs : List (Nat → Cell)) : Prop := ∀ i d, xs[i]? = some d → ds[j + i]? = some d

theorem HasFrom.head {ds : List (Nat → Cell)} {j : Nat} {x : Nat → Cell} {xs : List (Nat → Cell)} (h : HasFrom ds j (x :: xs)) :
    ds[j]? = some x ∧ HasFrom ds (j + 1) xs := by
  refine ⟨h 0 x rfl, fun i d hd => ?_⟩
  have h1 := h (i + 1) d hd
  rwa [show j + (i + 1) = j + 1 + i by omega] at h1

theorem HasFrom.split {ds : List (Nat → Cell)} {j : Nat} {xs ys : List (Nat → Cell)} (h : HasFrom ds j (xs ++ ys)) :
    HasFrom ds j xs ∧ HasFrom ds (j + xs.length) ys := by
  refine ⟨fun i d hd => h i d ?_, fun i d hd => ?_⟩
  · rw [List.getElem?_append_left]
    · exact hd
    · exact (List.getElem?_eq_some_iff.1 hd).1
  · have h1 := h (xs.length + i) d (by rw [List.getElem?_append_right (by omega)]; simpa using hd)
    rwa [← Nat.add_assoc] at h1

theorem virtMem_eq {U : Nat} {ds : List (Nat → Cell)} {j i : Nat} {d : Nat → Cell} (h : ds[j]? = some d) (hi : i < U) :
    virtMem U ds (virtAddr U j + i) = d i := by
  unfold virtMem virtAddr
  have h1 : ((j + 1) * U + i) / U = j + 1 := by
    rw [Nat.mul_comm, Nat.mul_add_div (by omega), Nat.div_eq_of_lt hi, Nat.add_zero]
  have h2 : ((j + 1) * U + i) % U = i := by
    rw [Nat.mul_comm, Nat.mul_add_mod, Nat.mod_eq_of_lt hi]
  rw [h1, h2, Nat.add_sub_cancel, h]
  rfl

section
variable {C : Cfg} {k : Kind}

theorem push_virt (hC : C.OK) {L : Layout} {len src : Nat} (ho : PushOK C L len src) {ds : List (Nat → Cell)} {j : Nat} {d : Nat → Cell} (h : ds[j]? = some d) :
    ∀ i < L.size * len, virtMem C.arch.usizeMod ds (virtAddr C.arch.usizeMod j + i) = d i := by
  intro i hi
  refine virtMem_eq h ?_
  have := ho.size_le
  have := hC.facts.isize_lt
  omega

theorem bytes_ok (hC : C.OK) {len src : Nat} (h : len ≤ C.arch.isizeMax) : PushOK C ⟨1, 1⟩ len src :=
  ⟨by simp, ⟨0, rfl⟩, (hC.facts.mva).pos, by simpa using h⟩

theorem virt_run (hC : C.OK) (sc : TCalls) {c : Ctx} (hw : sc.WF C c) {ds : List (Nat → Cell)} {j ia' : Nat} (hd : HasFrom ds j sc.datas)
    {mp mp' : PosMapping} (hm : k.tracking = true → PosMapping.Meet mp mp' c.ia ia') :
    M.Like (Ser.At mp mp') (Ser.At mp mp') (sc.run C k)
      ((sc.virt C.arch.usizeMod j c.ia ia').run C k (virtMem C.arch.usizeMod ds)) := by
  induction sc generalizing c j ia' mp mp' with
  | done => exact M.Like.pure _
  | pushProcess L len src data ptr inner rest ih1 ih2 =>
    obtain ⟨ho, ht, _, h1, h2⟩ := hw
    obtain ⟨e1, e2⟩ := hd.head
    obtain ⟨e3, e4⟩ := e2.split
    simp only [TCalls.run, TCalls.virt, Script.run]
    refine M.Like.bind (Q := Ser.At mp mp') (like_pushProcess hm ht.lo (stoPush_congr_src (push_virt hC ho e1)) ?_) fun _ => ih2 h2 e4 hm
    exact fun mq mq' hq => ih1 (c := ⟨src, L.size * len, L.align⟩) h1 e3 hq
  | push L len src data ptr rest ih =>
    obtain ⟨ho, ht, _, h2⟩ := hw
    obtain ⟨e1, e2⟩ := hd.head
    simp only [TCalls.run, TCalls.virt, Script.run]
    exact M.Like.bind (Q := Ser.At mp mp') (like_pushSlice hm ht.lo (stoPush_congr_src (push_virt hC ho e1))) fun _ => ih h2 e2 hm
  | pushRaw L len src data rest ih =>
    obtain ⟨ho, h2⟩ := hw
    obtain ⟨e1, e2⟩ := hd.head
    simp only [TCalls.run, TCalls.virt, Script.run, pushRawSlice]
    rw [stoPush_congr_src (push_virt hC ho e1)]
    exact (like_lift _).bind fun _ => ih h2 e2 hm
  | pushRawBytes len data rest ih =>
    obtain ⟨ho, h2⟩ := hw
    obtain ⟨e1, e2⟩ := hd.head
    simp only [TCalls.run, TCalls.virt, Script.run, pushRawSlice, SerRaw.pushRawBytes, Sto.pushBytes]
    rw [stoPush_congr_src (push_virt hC (bytes_ok hC (src := 0) ho) e1)]
    exact (like_lift _).bind fun _ => ih h2 e2 hm
  | overwrite a L data rest ih =>
    obtain ⟨ho, h2⟩ := hw
    simp only [TCalls.run, TCalls.virt, Script.run]
    exact (like_over hm ho.lo).bind fun _ => ih h2 hd hm

theorem virt_touch (sc : TCalls) {c : Ctx} (hw : sc.WF C c) {U j ia' : Nat} {t : Nat × Nat} (ht : t ∈ (sc.virt U j c.ia ia').touch C.arch) :
    ∃ x ∈ sc.touch C.arch, c.ia ≤ x.1 ∧ t = (relocate c.ia ia' x.1, x.2) := by
  induction sc generalizing j with
  | done => cases ht
  | pushProcess L len src data ptr inner rest _ ih =>
    rcases List.mem_cons.1 ht with rfl | ht
    · exact ⟨_, List.mem_cons_self, hw.2.1.lo, rfl⟩
    · obtain ⟨x, h1, h2⟩ := ih hw.2.2.2.2 ht
      exact ⟨x, List.mem_cons_of_mem _ h1, h2⟩
  | push L len src data ptr rest ih =>
    rcases List.mem_cons.1 ht with rfl | ht
    · exact ⟨_, List.mem_cons_self, hw.2.1.lo, rfl⟩
    · obtain ⟨x, h1, h2⟩ := ih hw.2.2.2 ht
      exact ⟨x, List.mem_cons_of_mem _ h1, h2⟩
  | pushRaw L len src data rest ih => exact ih hw.2 ht
  | pushRawBytes len data rest ih => exact ih hw.2 ht
  | overwrite a L data rest ih =>
    rcases List.mem_cons.1 ht with rfl | ht
    · exact ⟨_, List.mem_cons_self, hw.1.lo, rfl⟩
    · obtain ⟨x, h1, h2⟩ := ih hw.2 ht
      exact ⟨x, List.mem_cons_of_mem _ h1, h2⟩

theorem TouchOK.relocate {c : Ctx} {x n ia' : Nat} (h : TouchOK C c x n) : TouchOK C ⟨ia', c.sz, c.al⟩ (relocate c.ia ia' x) n := by
  have h1 := h.lo; have h2 := h.hi
  refine ⟨?_, ?_, h.al, ?_⟩
  · exact Nat.le_add_right _ _
  · show ia' + (x - c.ia) + n ≤ ia' + c.sz
    omega
  · show _ ∣ ia' + (x - c.ia) - ia'
    rw [Nat.add_sub_cancel_left]; exact h.off

theorem PushOK.move {L : Layout} {len src src' : Nat} (h : PushOK C L len src) : PushOK C L len src' := ⟨h.size_ne, h.pow2, h.align_le, h.size_le⟩

theorem disj_relocate {ia ia' x n y l : Nat} (hx : ia ≤ x) (hy : ia ≤ y) (h : DisjRange x n y l) :
    DisjRange (relocate ia ia' x) n (relocate ia ia' y) l := by
  unfold DisjRange SerRaw.relocate at *
  omega

theorem virt_wf (hC : C.OK) (sc : TCalls) {c : Ctx} (hw : sc.WF C c) {U j ia' : Nat} : (sc.virt U j c.ia ia').WF C ⟨ia', c.sz, c.al⟩ := by
  have key : ∀ {rest : TCalls} {j ptr : Nat} {c : Ctx} {ia' : Nat}, rest.WF C c → TouchOK C c ptr C.arch.ptrBytes →
      (∀ t ∈ rest.touch C.arch, DisjRange ptr C.arch.ptrBytes t.1 t.2) →
      ∀ t ∈ (rest.virt U j c.ia ia').touch C.arch, DisjRange (relocate c.ia ia' ptr) C.arch.ptrBytes t.1 t.2 := by
    intro rest j ptr c ia' hr ht hd t h
    obtain ⟨x, h1, h2, rfl⟩ := virt_touch rest hr h
    exact disj_relocate ht.lo h2 (hd x h1)
  induction sc generalizing c j ia' with
  | done => trivial
  | pushProcess L len src data ptr inner rest ih1 ih2 =>
    obtain ⟨ho, ht, hd, h1, h2⟩ := hw
    exact ⟨ho.move, ht.relocate, key h2 ht hd, ih1 h1, ih2 h2⟩
  | push L len src data ptr rest ih =>
    obtain ⟨ho, ht, hd, h2⟩ := hw
    exact ⟨ho.move, ht.relocate, key h2 ht hd, ih h2⟩
  | pushRaw L len src data rest ih => exact ⟨hw.1.move, ih hw.2⟩
  | pushRawBytes len data rest ih => exact ⟨bytes_ok hC hw.1, ih hw.2⟩
  | overwrite a L data rest ih =>
    have ho := hw.1
    have h1 := ho.lo; have h2 := ho.hi
    refine ⟨⟨ho.size_ne, ho.pow2, Nat.le_add_right _ _, ?_, ho.al, ?_⟩, ih hw.2⟩
    · show ia' + (a - c.ia) + L.size ≤ ia' + c.sz
      omega
    · show _ ∣ ia' + (a - c.ia) - ia'
      rw [Nat.add_sub_cancel_left]; exact ho.off

theorem outPos_relocate {ia ia' op x : Nat} : outPos ia' op (relocate ia ia' x) = outPos ia op x := by
  unfold outPos relocate; omega

theorem virt_ideal (hC : C.OK) (sc : TCalls) {c : Ctx} (hw : sc.WF C c) {ds : List (Nat → Cell)} {j ia' : Nat} (hd : HasFrom ds j sc.datas)
    {A : Arch} {va : Nat} {md : Mode} {op : Nat} {st : Mem × Nat} :
    (sc.virt C.arch.usizeMod j c.ia ia').ideal A va md (virtMem C.arch.usizeMod ds) ia' op st = sc.ideal A va md c.ia op st := by
  induction sc generalizing c j ia' op st with
  | done => rfl
  | pushProcess L len src data ptr inner rest ih1 ih2 =>
    obtain ⟨ho, ht, _, h1, h2⟩ := hw
    obtain ⟨e1, e2⟩ := hd.head
    obtain ⟨e3, e4⟩ := e2.split
    simp only [TCalls.virt, Script.ideal, TCalls.ideal, outPos_relocate]
    rw [ih2 h2 e4, blit_congr_src _ _ (push_virt hC ho e1), ih1 h1 e3]
  | push L len src data ptr rest ih =>
    obtain ⟨ho, ht, _, h2⟩ := hw
    obtain ⟨e1, e2⟩ := hd.head
    simp only [TCalls.virt, Script.ideal, TCalls.ideal, outPos_relocate]
    rw [ih h2 e2, blit_congr_src _ _ (push_virt hC ho e1)]
  | pushRaw L len src data rest ih =>
    obtain ⟨ho, h2⟩ := hw
    obtain ⟨e1, e2⟩ := hd.head
    simp only [TCalls.virt, Script.ideal, TCalls.ideal]
    rw [ih h2 e2, blit_congr_src _ _ (push_virt hC ho e1)]
  | pushRawBytes len data rest ih =>
    obtain ⟨ho, h2⟩ := hw
    obtain ⟨e1, e2⟩ := hd.head
    simp only [TCalls.virt, Script.ideal, TCalls.ideal]
    have e0 := push_virt hC (bytes_ok hC (src := 0) ho) e1
    simp only [Nat.one_mul] at e0 ⊢
    rw [ih h2 e2, roundUp_eq_of_dvd (by omega) (Nat.one_dvd _), blit_congr_src _ _ e0]
  | overwrite a L data rest ih =>
    simp only [TCalls.virt, Script.ideal, TCalls.ideal, outPos_relocate]
    rw [ih hw.2 hd]

/-! ### Sessions -/

/-- The value with everything at addresses of its own. -/
def TRoot.virt (U : Nat) (r : TRoot) : UserRoot :=
  ⟨virtMem U (r.data :: r.calls.datas), r.L, virtAddr U 0, r.calls.virt U 1 r.a (virtAddr U 0)⟩

theorem TRoot.virt_ok (hC : C.OK) {r : TRoot} (h : r.OK C) {U : Nat} : (r.virt U).OK C := ⟨h.1.move, virt_wf hC r.calls h.2⟩

theorem TRoot.hasFrom (r : TRoot) : HasFrom (r.data :: r.calls.datas) 1 r.calls.datas := by
  intro i d h
  rw [Nat.add_comm]
  exact h

theorem TRoot.virt_ideal (hC : C.OK) {r : TRoot} (h : r.OK C) {A : Arch} {va : Nat} {md : Mode} {st : Mem × Nat} :
    rootIdeal A va md (r.virt C.arch.usizeMod).L (r.virt C.arch.usizeMod).im (r.virt C.arch.usizeMod).a (r.virt C.arch.usizeMod).sc st = r.ideal A va md st := by
  have e := push_virt hC h.1 (show (r.data :: r.calls.datas)[0]? = some r.data from rfl)
  simp only [Nat.mul_one] at e
  unfold rootIdeal TRoot.ideal
  rw [if_neg (show ¬ (r.virt C.arch.usizeMod).L.size = 0 from h.1.size_ne)]
  simp only [TRoot.virt]
  rw [SerRaw.virt_ideal hC r.calls (c := ⟨r.a, r.L.size, r.L.align⟩) h.2 r.hasFrom, blit_congr_src _ _ e]

theorem TRoot.virt_ser (hC : C.OK) {r : TRoot} (h : r.OK C) : M.Like Ser.Like Ser.Like (r.ser C k) ((r.virt C.arch.usizeMod).ser C k) := by
  have e : Sto.pushSlice C r.L 1 (fun i => virtMem C.arch.usizeMod (r.data :: r.calls.datas) (virtAddr C.arch.usizeMod 0 + i)) = Sto.pushSlice C r.L 1 r.data :=
    stoPush_congr_src (push_virt hC h.1 (show (r.data :: r.calls.datas)[0]? = some r.data from rfl))
  have hrun : ∀ mp mp' : PosMapping, (k.tracking = true → PosMapping.Meet mp mp' r.a (virtAddr C.arch.usizeMod 0)) →
      M.Like (Ser.At mp mp') (Ser.At mp mp') (r.calls.run C k) ((r.calls.virt C.arch.usizeMod 1 r.a (virtAddr C.arch.usizeMod 0)).run C k
        (virtMem C.arch.usizeMod (r.data :: r.calls.datas))) := fun mp mp' hm => virt_run hC r.calls (c := ⟨r.a, r.L.size, r.L.align⟩) h.2 r.hasFrom hm
  unfold TRoot.ser UserRoot.ser
  have track : M.Like Ser.Like Ser.Like (PosTracking.doSerializeValue C r.L r.a r.data (r.calls.run C k))
      (PosTracking.doSerializeValue C r.L (virtAddr C.arch.usizeMod 0) (fun i => virtMem C.arch.usizeMod (r.data :: r.calls.datas) (virtAddr C.arch.usizeMod 0 + i))
        ((r.calls.virt C.arch.usizeMod 1 r.a (virtAddr C.arch.usizeMod 0)).run C k (virtMem C.arch.usizeMod (r.data :: r.calls.datas)))) := by
    unfold PosTracking.doSerializeValue pushRaw pushRawSlice Slice.fromRef
    simp only [e]
    refine (like_lift' _).bind fun pos => (like_setMap fun _ _ h => h).bind fun _ => M.Like.bind (Q := Ser.Like) ?_ fun _ => M.Like.pure _
    exact (hrun ⟨r.a, pos⟩ ⟨virtAddr C.arch.usizeMod 0, pos⟩ fun _ => ⟨rfl, rfl, rfl⟩).mono fun _ _ h => h.1
  cases k with
  | pureCopy =>
    simp only [TRoot.virt, serializeValue, pushRaw, pushRawSlice, Slice.fromRef, e]
    refine (like_lift' _).bind fun pos => M.Like.bind (Q := Ser.Like) ?_ fun _ => M.Like.pure _
    intro s s' hs
    exact ((hrun s.map s'.map fun ht => by cases ht).mono fun _ _ h => h.1) s s' ⟨hs, rfl, rfl⟩
  | posTracking => exact track
  | ptrOffset => exact track
  | complete => exact track

theorem temp_values (hC : C.OK) {rs : List TRoot} (h : ∀ r ∈ rs, r.OK C) :
    M.Like Ser.Like Ser.Like (tempValues C k rs) (userValues C k (rs.map (TRoot.virt C.arch.usizeMod))) := by
  induction rs with
  | nil => exact M.Like.pure _
  | cons r rs ih =>
    exact (TRoot.virt_ser hC (h r List.mem_cons_self)).bind fun _ => (ih fun x hx => h x (List.mem_cons_of_mem _ hx)).bind fun _ => M.Like.pure _

theorem like_finalize : M.Like Ser.Like Ser.Like (finalize C k) (finalize C k) := by
  cases k with
  | complete =>
    intro s s' h
    simp only [finalize, Complete.doFinalize]
    rw [bind_ok (show (M.get : M Ser Ser) s = .ok s s from rfl), bind_ok (show (M.get : M Ser Ser) s' = .ok s' s' from rfl)]
    simp only [h.1, h.2]
    refine (M.Like.bind (Q := Ser.Like) ?_ fun _ => like_lift' _) s s' h
    split
    · exact like_lift' _
    · exact M.Like.pure _
  | _ => exact M.Like.pure _

theorem temp_session (hC : C.OK) {rs : List TRoot} (h : ∀ r ∈ rs, r.OK C) :
    M.Like Ser.Like Ser.Like (tempSession C k rs) (userSession C k (rs.map (TRoot.virt C.arch.usizeMod))) :=
  (temp_values hC h).bind fun _ => like_finalize.bind fun _ => M.Like.pure _

theorem temp_ideal (hC : C.OK) {rs : List TRoot} (h : ∀ r ∈ rs, r.OK C) {A : Arch} {va : Nat} {md : Mode} {st : Mem × Nat} :
    userIdeal A va md (rs.map (TRoot.virt C.arch.usizeMod)) st = tempIdeal A va md rs st := by
  induction rs generalizing st with
  | nil => rfl
  | cons r rs ih =>
    simp only [List.map_cons, userIdeal, tempIdeal]
    rw [TRoot.virt_ideal hC (h r List.mem_cons_self), ih fun x hx => h x (List.mem_cons_of_mem _ hx)]

theorem temp_positions (hC : C.OK) {rs : List TRoot} (h : ∀ r ∈ rs, r.OK C) {A : Arch} {va : Nat} {p : Nat} :
    userPositions A va (rs.map (TRoot.virt C.arch.usizeMod)) p = tempPositions A va rs p := by
  induction rs generalizing p with
  | nil => rfl
  | cons r rs ih =>
    simp only [List.map_cons, userPositions, tempPositions]
    rw [TRoot.virt_ideal hC (h r List.mem_cons_self), ih fun x hx => h x (List.mem_cons_of_mem _ hx)]
    rfl

end
end SerRaw
