import Verif.Model.Derive
import Verif.Lemmas.Basic
import Std.Data.String.ToNat
import Mathlib.Data.List.Forall2
import Mathlib.Data.List.Nodup
/-
C41, C42: the code generated by `#[derive(Serialize)]`, for every declaration.
-/
namespace SerRaw

/-! ### Specification -/

/-- None of the attributes is a well-formed `#[ser_with...]`. -/
def NoWith (as : List Attr) : Prop := ∀ a ∈ as, ∀ m, a.parseMeta = some m → m.pathOf ≠ ["ser_with"]

/-- The field is tagged `#[ser_with(w)]` (and has no other well-formed `#[ser_with...]`). -/
def TaggedWith (as : List Attr) (w : PathT) : Prop :=
  ∃ l a r, as = l ++ a :: r ∧ NoWith l ∧ NoWith r ∧ a.parseMeta = some (.list ["ser_with"] [.item (.path w)])

/-- Which implementation a field asks for. -/
def Asks (f : FieldDecl) : Option PathT → Prop
  | none => NoWith f.attrs
  | some w => TaggedWith f.attrs w

/-- What `syn` and rustc guarantee about the fields of a struct or variant: named fields have distinct names. -/
def FieldsDecl.OK : FieldsDecl → Prop
  | .named fs => (∀ f ∈ fs, f.ident.isSome) ∧ (fs.map FieldDecl.ident).Nodup
  | .unnamed fs => ∀ f ∈ fs, f.ident = none
  | .unit => True

/-- Visit the fields in order, each with the implementation given. -/
def visit (c : Calls) (a : Nat) : List (Option PathT × Field) → M Ser Unit
  | [] => pure ()
  | (none, f) :: r => do c.ser f.2 (a + f.1); visit c a r
  | (some w, f) :: r => do c.serWith w f.2 (a + f.1); visit c a r

/-! ### Structs -/

theorem withAttrs_nil {as : List Attr} : (as.filterMap Attr.parseMeta).filter (fun m => isIdent m.pathOf "ser_with") = [] ↔ NoWith as := by
  simp only [List.filter_eq_nil_iff, List.mem_filterMap, isIdent, beq_iff_eq, NoWith]
  constructor
  · intro h a ha m hm; exact h m ⟨a, ha, hm⟩
  · rintro h m ⟨a, ha, hm⟩; exact h a ha m hm

theorem withAttrs_cons {as : List Attr} {m : Meta} {ms : List Meta}
    (h : (as.filterMap Attr.parseMeta).filter (fun m => isIdent m.pathOf "ser_with") = m :: ms) :
    ∃ l a r, as = l ++ a :: r ∧ NoWith l ∧ a.parseMeta = some m ∧ m.pathOf = ["ser_with"] ∧
      (r.filterMap Attr.parseMeta).filter (fun m => isIdent m.pathOf "ser_with") = ms := by
  induction as with
  | nil => cases h
  | cons a as ih =>
    by_cases hm : ∃ m', a.parseMeta = some m' ∧ m'.pathOf = ["ser_with"]
    · obtain ⟨m', h1, h2⟩ := hm
      rw [List.filterMap_cons_some h1, List.filter_cons_of_pos (by simp [isIdent, h2])] at h
      cases h
      exact ⟨[], a, as, rfl, (by intro a h; cases h), h1, h2, rfl⟩
    · have h' : (as.filterMap Attr.parseMeta).filter (fun m => isIdent m.pathOf "ser_with") = m :: ms := by
        cases hp : a.parseMeta with
        | none => rwa [List.filterMap_cons_none hp] at h
        | some m' =>
          rwa [List.filterMap_cons_some hp, List.filter_cons_of_neg] at h
          simp only [isIdent, beq_iff_eq]
          exact fun e => hm ⟨m', hp, e⟩
      obtain ⟨l, b, r, rfl, h1, h2⟩ := ih h'
      refine ⟨a :: l, b, r, rfl, ?_, h2⟩
      intro x hx m' hm'
      rcases List.mem_cons.1 hx with rfl | hx
      · exact fun e => hm ⟨m', hm', e⟩
      · exact h1 x hx m' hm'

theorem withAttrs_tagged {as : List Attr} {w : PathT} (h : TaggedWith as w) :
    (as.filterMap Attr.parseMeta).filter (fun m => isIdent m.pathOf "ser_with") = [.list ["ser_with"] [.item (.path w)]] := by
  obtain ⟨l, a, r, rfl, hl, hr, ha⟩ := h
  rw [List.filterMap_append, List.filter_append, withAttrs_nil.2 hl, List.filterMap_cons_some ha,
    List.filter_cons_of_pos (by simp [isIdent, Meta.pathOf]), withAttrs_nil.2 hr, List.nil_append]

theorem getWith_iff (f : FieldDecl) (w : Option PathT) : getWith f = some w ↔ Asks f w := by
  cases w with
  | none =>
    simp only [getWith, Asks]
    constructor
    · intro h
      split at h
      · rename_i e; exact withAttrs_nil.1 e
      · cases h
      · cases h
    · intro h
      rw [withAttrs_nil.2 h]
  | some w =>
    simp only [getWith, Asks]
    constructor
    · intro h
      split at h
      · cases h
      · rename_i e
        cases h
        obtain ⟨l, a, r, h1, h2, h3, h4, h5⟩ := withAttrs_cons e
        simp only [Meta.pathOf] at h4
        subst h4
        exact ⟨l, a, r, h1, h2, withAttrs_nil.1 h5, h3⟩
      · cases h
    · intro h
      rw [withAttrs_tagged h]

/-- A statement for member `m` of a field asking for `w`. -/
def stmtFor (m : Member) : Option PathT → StructStmt
  | none => .ser m
  | some w => .serWith w m

theorem getFieldStmt_iff {m : Member} {f : FieldDecl} {s : StructStmt} : getFieldStmt m f = some s ↔ ∃ w, Asks f w ∧ s = stmtFor m w := by
  unfold getFieldStmt
  constructor
  · intro h
    cases hw : getWith f with
    | none => simp [hw] at h
    | some w =>
      refine ⟨w, (getWith_iff f w).1 hw, ?_⟩
      cases w with
      | none => simpa [hw, stmtFor] using h.symm
      | some w => simpa [hw, stmtFor] using h.symm
  · rintro ⟨w, hw, rfl⟩
    rw [(getWith_iff f w).2 hw]
    cases w <;> rfl

/-- Expansion of a list of fields, each with its member expression. -/
theorem stmts_iff {ps : List (Member × FieldDecl)} {body : List StructStmt} :
    ps.mapM (fun p => getFieldStmt p.1 p.2) = some body ↔
      ∃ ws, List.Forall₂ (fun (p : Member × FieldDecl) w => Asks p.2 w) ps ws ∧ body = (ps.map Prod.fst |>.zip ws).map fun q => stmtFor q.1 q.2 := by
  induction ps generalizing body with
  | nil =>
    simp only [List.mapM_nil, Option.pure_def, Option.some.injEq]
    constructor
    · rintro rfl; exact ⟨[], .nil, rfl⟩
    · rintro ⟨ws, hw, rfl⟩; cases hw; rfl
  | cons p ps ih =>
    simp only [List.mapM_cons, Option.bind_eq_bind, Option.bind_eq_some_iff, Option.pure_def, Option.some.injEq]
    constructor
    · rintro ⟨s, h1, b, h2, rfl⟩
      obtain ⟨w, hw, rfl⟩ := getFieldStmt_iff.1 h1
      obtain ⟨ws, hws, rfl⟩ := ih.1 h2
      exact ⟨w :: ws, .cons hw hws, rfl⟩
    · rintro ⟨ws, hw, rfl⟩
      cases hw with
      | cons h1 h2 => exact ⟨_, getFieldStmt_iff.2 ⟨_, h1, rfl⟩, _, ih.2 ⟨_, h2, rfl⟩, rfl⟩

/-- The members a declaration's fields are accessed by. -/
def FieldsDecl.members : FieldsDecl → List (Member × FieldDecl)
  | .named fs => fs.map fun f => (.name (f.ident.getD ⟨false, ""⟩), f)
  | .unnamed fs => fs.zipIdx.map fun p => (.index p.2, p.1)
  | .unit => []

theorem mapM_congr {α β γ : Type} {f : α → Option γ} {g : β → α} (xs : List β) : (xs.map g).mapM f = xs.mapM (fun x => f (g x)) := by
  induction xs with
  | nil => rfl
  | cons x xs ih => simp only [List.map_cons, List.mapM_cons, ih]

theorem mapM_congr' {α γ : Type} {f g : α → Option γ} {xs : List α} (h : ∀ x ∈ xs, f x = g x) : xs.mapM f = xs.mapM g := by
  induction xs with
  | nil => rfl
  | cons x xs ih =>
    simp only [List.mapM_cons, h x (List.mem_cons_self ..), ih fun y hy => h y (List.mem_cons_of_mem _ hy)]

theorem deriveStruct_eq {d : FieldsDecl} (hd : d.OK) : deriveStruct d = d.members.mapM (fun p => getFieldStmt p.1 p.2) := by
  cases d with
  | named fs =>
    simp only [deriveStruct, getNamedFieldStmts, FieldsDecl.members, mapM_congr]
    refine mapM_congr' fun f hf => ?_
    obtain ⟨i, hi⟩ := Option.isSome_iff_exists.1 (hd.1 f hf)
    simp [hi]
  | unnamed fs => simp only [deriveStruct, getUnnamedFieldStmts, FieldsDecl.members, mapM_congr]
  | unit => rfl

theorem members_snd (d : FieldsDecl) : d.members.map Prod.snd = d.list := by
  cases d with
  | named fs => simp [FieldsDecl.members, FieldsDecl.list, Function.comp_def]
  | unnamed fs => simp [FieldsDecl.members, FieldsDecl.list, Function.comp_def, List.zipIdx_map_fst]
  | unit => rfl

theorem find_unique {α : Type} {xs : List (FieldDecl × α)} (hn : (xs.map fun p => p.1.ident).Nodup) {p : FieldDecl × α} (hp : p ∈ xs) {i : Ident}
    (hi : p.1.ident = some i) : xs.find? (fun q => q.1.ident == some i) = some p := by
  induction xs with
  | nil => cases hp
  | cons x xs ih =>
    simp only [List.map_cons, List.nodup_cons] at hn
    rcases List.mem_cons.1 hp with rfl | hp
    · rw [List.find?_cons_of_pos (by simp [hi])]
    · rw [List.find?_cons_of_neg, ih hn.2 hp]
      simp only [beq_iff_eq]
      intro e
      exact hn.1 (List.mem_map.2 ⟨p, hp, by rw [hi, e]⟩)

theorem zip_map_fst {α β : Type} {xs : List α} {ys : List β} (h : xs.length = ys.length) : (xs.zip ys).map Prod.fst = xs := by
  rw [List.map_fst_zip (by omega)]

/-- Each member expression denotes the field it was made for. -/
theorem members_field {d : FieldsDecl} (hd : d.OK) {offs : List Field} (hl : offs.length = d.list.length) {i : Nat} {p : Member × FieldDecl}
    {f : Field} (hp : d.members[i]? = some p) (hf : offs[i]? = some f) : p.1.field d offs = some f := by
  cases d with
  | named fs =>
    simp only [FieldsDecl.members, List.getElem?_map, Option.map_eq_some_iff] at hp
    obtain ⟨fd, h1, rfl⟩ := hp
    obtain ⟨id, hi⟩ := Option.isSome_iff_exists.1 (hd.1 fd (List.mem_of_getElem? h1))
    simp only [Member.field, hi, Option.getD_some]
    have hz : (fs.zip offs)[i]? = some (fd, f) := by rw [List.getElem?_zip_eq_some]; exact ⟨h1, hf⟩
    have hn : ((fs.zip offs).map fun p => p.1.ident).Nodup := by
      have := zip_map_fst (xs := fs) (ys := offs) (by simpa [FieldsDecl.list] using hl.symm)
      have e : ((fs.zip offs).map fun p => p.1.ident) = ((fs.zip offs).map Prod.fst).map FieldDecl.ident := by rw [List.map_map]; rfl
      rw [e, this]; exact hd.2
    rw [find_unique hn (List.mem_of_getElem? hz) hi]
    rfl
  | unnamed fs =>
    simp only [FieldsDecl.members, List.getElem?_map, Option.map_eq_some_iff, List.getElem?_zipIdx] at hp
    obtain ⟨q, ⟨fd, h1, rfl⟩, rfl⟩ := hp
    simpa only [Member.field, Nat.zero_add] using hf
  | unit => cases hp

theorem run_stmts {c : Calls} {d : FieldsDecl} {allOffs : List Field} {a : Nat} {ps : List Member} {ws : List (Option PathT)} {offs : List Field}
    (hl : ws.length = ps.length) (ho : offs.length = ps.length)
    (h : ∀ (i : Nat) (p : Member) (f : Field), ps[i]? = some p → offs[i]? = some f → p.field d allOffs = some f) :
    runStruct c d allOffs a ((ps.zip ws).map fun q => stmtFor q.1 q.2) = some (visit c a (ws.zip offs)) := by
  induction ps generalizing ws offs with
  | nil => cases ws with
    | nil => rfl
    | cons _ _ => cases hl
  | cons p ps ih =>
    cases ws with
    | nil => cases hl
    | cons w ws =>
      cases offs with
      | nil => cases ho
      | cons f offs =>
        have h0 := h 0 p f rfl rfl
        have hr := ih (ws := ws) (offs := offs) (by simpa using hl) (by simpa using ho) fun i q g h1 h2 => h (i + 1) q g h1 h2
        unfold runStruct at hr ⊢
        simp only [List.zip_cons_cons, List.map_cons, List.mapM_cons, Option.bind_eq_bind]
        rw [Option.map_eq_some_iff] at hr
        obtain ⟨xs, hx1, hx2⟩ := hr
        rw [hx1]
        cases w with
        | none => simp only [stmtFor, StructStmt.run, h0, Option.bind_eq_bind, Option.bind_some, Option.pure_def, Option.map_some]; simp only [seqAll, hx2, visit]
        | some w => simp only [stmtFor, StructStmt.run, h0, Option.bind_eq_bind, Option.bind_some, Option.pure_def, Option.map_some]; simp only [seqAll, hx2, visit]

/-- C41. Whenever the macro accepts a struct, the generated `serialize_data` compiles (no unknown field), and on a struct whose
declared fields are at `offs` it processes each declared field exactly once, in declaration order: with the proxy named by
`#[ser_with(..)]` if the field is tagged, and with `Serialize` if it has no `#[ser_with..]`. -/
theorem C41_visits (c : Calls) {d : FieldsDecl} (hd : d.OK) {offs : List Field} (hl : offs.length = d.list.length) (a : Nat) {body : List StructStmt}
    (h : deriveStruct d = some body) :
    ∃ ws, List.Forall₂ Asks d.list ws ∧ runStruct c d offs a body = some (visit c a (ws.zip offs)) := by
  rw [deriveStruct_eq hd] at h
  obtain ⟨ws, hw, rfl⟩ := stmts_iff.1 h
  have hlen : d.members.length = d.list.length := by rw [← members_snd, List.length_map]
  refine ⟨ws, ?_, run_stmts (by rw [← hw.length_eq, List.length_map]) (by rw [List.length_map, hlen, hl]) ?_⟩
  · rw [← members_snd]; exact List.forall₂_map_left_iff.2 hw
  · intro i p f h1 h2
    rw [List.getElem?_map, Option.map_eq_some_iff] at h1
    obtain ⟨q, hq, rfl⟩ := h1
    exact members_field hd hl hq h2

/-- C41, acceptance. The macro accepts a struct exactly if every field has no well-formed `#[ser_with..]` attribute, or exactly one,
of the form `#[ser_with(path)]`. -/
theorem C41_accepts {d : FieldsDecl} (hd : d.OK) : (∃ body, deriveStruct d = some body) ↔ ∀ f ∈ d.list, ∃ w, Asks f w := by
  rw [deriveStruct_eq hd, ← members_snd]
  simp only [stmts_iff]
  constructor
  · rintro ⟨_, ws, hw, hx⟩ f hf
    obtain ⟨p, hp, rfl⟩ := List.mem_map.1 hf
    clear hf hx
    generalize d.members = ps at hw hp
    induction hw with
    | nil => cases hp
    | cons h1 _ ih =>
      rcases List.mem_cons.1 hp with rfl | hp
      · exact ⟨_, h1⟩
      · exact ih hp
  · intro h
    have : ∃ ws, List.Forall₂ (fun (p : Member × FieldDecl) w => Asks p.2 w) d.members ws := by
      generalize d.members = ps at h
      induction ps with
      | nil => exact ⟨[], .nil⟩
      | cons p ps ih =>
        obtain ⟨w, hw⟩ := h p.2 (by simp)
        obtain ⟨ws, hws⟩ := ih fun f hf => h f (by simp only [List.map_cons, List.mem_cons]; exact Or.inr hf)
        exact ⟨w :: ws, .cons hw hws⟩
    obtain ⟨ws, hw⟩ := this
    exact ⟨_, ws, hw, rfl⟩

theorem visit_plain (c : Calls) (a : Nat) {ws : List (Option PathT)} {offs : List Field} (hl : offs.length = ws.length) (h : ∀ w ∈ ws, w = none) :
    visit c a (ws.zip offs) = serEach c.ser a offs := by
  induction ws generalizing offs with
  | nil => cases offs with
    | nil => rfl
    | cons _ _ => cases hl
  | cons w ws ih =>
    cases offs with
    | nil => cases hl
    | cons f offs =>
      obtain rfl := h w (List.mem_cons_self ..)
      simp only [List.zip_cons_cons, visit, serEach]
      rw [ih (by simpa using hl) fun w hw => h w (List.mem_cons_of_mem _ hw)]

/-- The struct case of the model's `serData` (Model/Impls.lean) is the generated code: without `#[ser_with]`, it is `serEach`. -/
theorem C41_plain (c : Calls) {d : FieldsDecl} (hd : d.OK) {offs : List Field} (hl : offs.length = d.list.length) (a : Nat)
    (hw : ∀ f ∈ d.list, NoWith f.attrs) :
    ∃ body, deriveStruct d = some body ∧ runStruct c d offs a body = some (serEach c.ser a offs) := by
  obtain ⟨body, hb⟩ := (C41_accepts hd).2 fun f hf => ⟨none, hw f hf⟩
  obtain ⟨ws, h1, h2⟩ := C41_visits c hd hl a hb
  refine ⟨body, hb, ?_⟩
  rw [h2, visit_plain c a (by rw [hl, h1.length_eq])]
  intro w hmem
  clear h2 hb hl
  generalize d.list = fs at h1 hw
  revert hw hmem
  induction h1 with
  | nil => intro hmem; cases hmem
  | @cons f w' _ _ h3 _ ih =>
    intro hmem hw
    rcases List.mem_cons.1 hmem with rfl | hmem
    · cases w with
      | none => rfl
      | some w =>
        obtain ⟨l, x, r, he, _, _, hx⟩ := h3
        exact absurd rfl (hw f (List.mem_cons_self ..) x (by rw [he]; simp) _ hx)
    · exact ih hmem fun f hf => hw f (List.mem_cons_of_mem _ hf)

/-- `#[ser_with(Proxy)]` on a field. -/
def tagged (w : PathT) : Attr := ⟨["ser_with"], some (.list ["ser_with"] [.item (.path w)]), none, .err⟩

/-- C41 applies: `struct S { id: u32, #[ser_with(Proxy)] r#type: Foreign }`. -/
example : ∃ body, deriveStruct (.named [⟨some ⟨false, "id"⟩, []⟩, ⟨some ⟨true, "type"⟩, [tagged ["Proxy"]]⟩]) = some body ∧
    body = [.ser (.name ⟨false, "id"⟩), .serWith ["Proxy"] (.name ⟨true, "type"⟩)] := ⟨_, rfl, rfl⟩

/-- Two `#[ser_with]` attributes on one field are rejected, so is `#[ser_with]` without a path. -/
example : deriveStruct (.unnamed [⟨none, [tagged ["A"], tagged ["B"]]⟩]) = none ∧
    deriveStruct (.unnamed [⟨none, [⟨["ser_with"], some (.path ["ser_with"]), none, .err⟩]⟩]) = none := ⟨rfl, rfl⟩

/-- Finding F15. A `#[ser_with..]` attribute that `parse_meta` rejects — for instance `#[ser_with(Proxy<T>)]`, whose argument has
generics — is not reported: the expansion is the same as without the attribute. -/
theorem C41_unparsable_ignored (i : Option Ident) (as bs : List Attr) {a : Attr} (h : a.parseMeta = none) (m : Member) :
    getFieldStmt m ⟨i, as ++ a :: bs⟩ = getFieldStmt m ⟨i, as ++ bs⟩ := by
  have : getWith ⟨i, as ++ a :: bs⟩ = getWith ⟨i, as ++ bs⟩ := by
    simp only [getWith, List.filterMap_append, List.filterMap_cons_none h]
  simp only [getFieldStmt, this]

/-- `#[ser_bound]`: accepted exactly if there is at most one and it parses; it is then the bound used. -/
theorem C41_ser_bound (as : List Attr) (r : Option String) : getSerBound none as = some r ↔
    (r = none ∧ ∀ a ∈ as, a.path ≠ ["ser_bound"]) ∨
    ∃ b, r = some b ∧ ∃ l x y, as = l ++ x :: y ∧ x.path = ["ser_bound"] ∧ x.parseBound = some b ∧
      (∀ a ∈ l, a.path ≠ ["ser_bound"]) ∧ ∀ a ∈ y, a.path ≠ ["ser_bound"] := by
  have later : ∀ (as : List Attr) (b : String) (r : Option String), getSerBound (some b) as = some r ↔ r = some b ∧ ∀ a ∈ as, a.path ≠ ["ser_bound"] := by
    intro as b r
    induction as with
    | nil => simp [getSerBound, eq_comm]
    | cons a as ih =>
      simp only [getSerBound, isIdent, beq_iff_eq]
      by_cases h : a.path = ["ser_bound"]
      · rw [if_pos h]
        constructor
        · intro he; cases hb : a.parseBound <;> simp [hb] at he
        · rintro ⟨_, h2⟩; exact absurd h (h2 a (List.mem_cons_self ..))
      · rw [if_neg h, ih]
        constructor
        · rintro ⟨h1, h2⟩
          exact ⟨h1, fun x hx => by rcases List.mem_cons.1 hx with rfl | hx; exacts [h, h2 x hx]⟩
        · rintro ⟨h1, h2⟩; exact ⟨h1, fun x hx => h2 x (List.mem_cons_of_mem _ hx)⟩
  induction as with
  | nil => simp [getSerBound, eq_comm]
  | cons a as ih =>
    simp only [getSerBound, isIdent, beq_iff_eq]
    by_cases h : a.path = ["ser_bound"]
    · rw [if_pos h]
      constructor
      · intro he
        cases hb : a.parseBound with
        | none => simp [hb] at he
        | some b =>
          simp only [hb, Option.isSome_none, Bool.false_eq_true, if_false] at he
          obtain ⟨rfl, h2⟩ := (later as b r).1 he
          exact Or.inr ⟨b, rfl, [], a, as, rfl, h, hb, (by intro x hx; cases hx), h2⟩
      · rintro (⟨_, h2⟩ | ⟨b, rfl, l, x, y, he, hx, hxb, hl, hy⟩)
        · exact absurd h (h2 a (List.mem_cons_self ..))
        · cases l with
          | nil =>
            simp only [List.nil_append, List.cons.injEq] at he
            obtain ⟨rfl, rfl⟩ := he
            simp only [hxb, Option.isSome_none, Bool.false_eq_true, if_false]
            exact (later _ b _).2 ⟨rfl, hy⟩
          | cons z l =>
            simp only [List.cons_append, List.cons.injEq] at he
            obtain ⟨rfl, rfl⟩ := he
            exact absurd h (hl a (List.mem_cons_self ..))
    · rw [if_neg h]
      refine ih.trans ?_
      constructor
      · rintro (⟨rfl, h2⟩ | ⟨b, rfl, l, x, y, rfl, hx, hxb, hl, hy⟩)
        · exact Or.inl ⟨rfl, fun x hx => by rcases List.mem_cons.1 hx with rfl | hx; exacts [h, h2 x hx]⟩
        · exact Or.inr ⟨b, rfl, a :: l, x, y, rfl, hx, hxb, fun z hz => by rcases List.mem_cons.1 hz with rfl | hz; exacts [h, hl z hz], hy⟩
      · rintro (⟨rfl, h2⟩ | ⟨b, rfl, l, x, y, he, hx, hxb, hl, hy⟩)
        · exact Or.inl ⟨rfl, fun x hx => h2 x (List.mem_cons_of_mem _ hx)⟩
        · cases l with
          | nil =>
            simp only [List.nil_append, List.cons.injEq] at he
            obtain ⟨rfl, rfl⟩ := he
            exact absurd hx h
          | cons z l =>
            simp only [List.cons_append, List.cons.injEq] at he
            obtain ⟨rfl, rfl⟩ := he
            exact Or.inr ⟨b, rfl, l, x, y, rfl, hx, hxb, fun z hz => hl z (List.mem_cons_of_mem _ hz), hy⟩

/-! ### Enums -/

/-- Identifiers as the lexer makes them. -/
def Ident.OK (i : Ident) : Prop := '#' ∉ i.name.toList

/-- What `syn` and rustc guarantee about a variant. -/
structure VariantDecl.OK (v : VariantDecl) : Prop where
  fields : v.fields.OK
  idents : ∀ f ∈ v.fields.list, ∀ i, f.ident = some i → i.OK

/-- No field of a struct-like variant has a raw identifier (`r#type`) as its name. -/
def NoRawNames (v : VariantDecl) : Prop := ∀ f ∈ v.fields.list, ∀ i, f.ident = some i → i.raw = false

theorem new_val {s : String} (h : '#' ∉ s.toList) : Ident.new ("val_" ++ s) = some ⟨false, "val_" ++ s⟩ := by
  unfold Ident.new
  rw [if_neg]
  simp only [String.toList_append, List.mem_append, not_or]
  exact ⟨by decide, h⟩

theorem repr_no_hash (n : Nat) : '#' ∉ (Nat.repr n).toList := by
  rw [Nat.toList_repr]
  intro h
  have := Nat.isDigit_of_mem_toDigits (by decide) (by decide) h
  exact absurd this (by decide)

theorem new_raw {i : Ident} (h : i.raw = true) : Ident.new ("val_" ++ i.text) = none := by
  unfold Ident.new Ident.text
  rw [if_pos]
  rw [h]
  simp only [if_true, String.toList_append, List.mem_append]
  exact Or.inr (Or.inl (by decide))

theorem val_ne_serializer (s : String) : (⟨false, "val_" ++ s⟩ : Ident) ≠ serializerIdent := by
  intro h
  have h2 : "val_" ++ s = "serializer" := congrArg Ident.name h
  have h3 := congrArg String.toList h2
  rw [String.toList_append] at h3
  have h4 : "val_".toList = ['v', 'a', 'l', '_'] := by decide
  have h5 : "serializer".toList = ['s', 'e', 'r', 'i', 'a', 'l', 'i', 'z', 'e', 'r'] := by decide
  rw [h4, h5] at h3
  simp at h3

theorem val_inj {s t : String} (h : (⟨false, "val_" ++ s⟩ : Ident) = ⟨false, "val_" ++ t⟩) : s = t := by
  have h2 : "val_" ++ s = "val_" ++ t := congrArg Ident.name h
  exact (String.append_right_inj "val_").1 h2

theorem mapM_some {α β : Type} {f : α → Option β} {g : α → β} {xs : List α} (h : ∀ x ∈ xs, f x = some (g x)) : xs.mapM f = some (xs.map g) := by
  induction xs with
  | nil => rfl
  | cons x xs ih =>
    simp only [List.mapM_cons, h x (List.mem_cons_self ..), ih fun y hy => h y (List.mem_cons_of_mem _ hy)]
    rfl

theorem mapM_isSome {α β : Type} {f : α → Option β} {xs : List α} {ys : List β} (h : xs.mapM f = some ys) :
    List.Forall₂ (fun x y => f x = some y) xs ys := by
  induction xs generalizing ys with
  | nil => cases h; exact .nil
  | cons x xs ih =>
    simp only [List.mapM_cons, Option.bind_eq_bind, Option.bind_eq_some_iff, Option.pure_def, Option.some.injEq] at h
    obtain ⟨y, h1, ys', h2, rfl⟩ := h
    exact .cons h1 (ih h2)

/-- The statements of an arm process the bound fields in order. -/
theorem arm_run (c : Calls) (a : Nat) {all : List (Ident × Field)} {vars : List Ident} {offs : List Field} (hl : offs.length = vars.length)
    (hs : serializerIdent ∉ all.map Prod.fst) (hn : (all.map Prod.fst).Nodup) (hsub : ∀ p ∈ vars.zip offs, p ∈ all) :
    ((getFieldStmts vars).mapM (EnumStmt.run c all a)).map seqAll = some (serEach c.ser a offs) := by
  have hser : lookupVar all serializerIdent = some .serializer := by
    unfold lookupVar
    have : all.find? (fun p => p.1 == serializerIdent) = none := by
      rw [List.find?_eq_none]
      intro p hp e
      exact hs (List.mem_map.2 ⟨p, hp, by simpa using e⟩)
    rw [this]; rfl
  have hvar : ∀ p ∈ all, lookupVar all p.1 = some (.field p.2) := by
    intro p hp
    unfold lookupVar
    have : all.find? (fun q => q.1 == p.1) = some p := by
      clear hs hsub hser
      induction all with
      | nil => cases hp
      | cons x xs ih =>
        simp only [List.map_cons, List.nodup_cons] at hn
        rcases List.mem_cons.1 hp with rfl | hp
        · rw [List.find?_cons_of_pos (by simp)]
        · rw [List.find?_cons_of_neg, ih hn.2 hp]
          simp only [beq_iff_eq]
          intro e
          exact hn.1 (List.mem_map.2 ⟨p, hp, e.symm⟩)
    rw [this]
  clear hs hn
  induction vars generalizing offs with
  | nil => cases offs with
    | nil => rfl
    | cons _ _ => cases hl
  | cons v vars ih =>
    cases offs with
    | nil => cases hl
    | cons f offs =>
      have hr := ih (offs := offs) (by simpa using hl) fun p hp => hsub p (by simp only [List.zip_cons_cons]; exact List.mem_cons_of_mem _ hp)
      have h0 := hvar (v, f) (hsub _ (by simp))
      rw [Option.map_eq_some_iff] at hr
      obtain ⟨xs, hx1, hx2⟩ := hr
      simp only [getFieldStmts] at hx1
      simp only [getFieldStmts, List.map_cons, List.mapM_cons, hx1, EnumStmt.run, h0, hser, Option.bind_eq_bind, Option.bind_some, Option.pure_def, Option.map_some]
      simp only [seqAll, hx2, serEach]

/-- The variant has fields. -/
def VariantDecl.hasFields (v : VariantDecl) : Bool := v.fields.list.length != 0

/-- The arm generated for a variant with fields: the variant's own values match, with each variable bound to its field. -/
theorem getMatch_arm (c : Calls) {v : VariantDecl} (hv : v.OK) {arm : Arm} (h : getMatch v = some (some arm)) {offs : List Field}
    (hl : offs.length = v.fields.list.length) (a : Nat) :
    ∃ binds, arm.pat.bind v offs = some (some binds) ∧ (arm.body.mapM (EnumStmt.run c binds a)).map seqAll = some (serEach c.ser a offs) := by
  obtain ⟨id, d⟩ := v
  cases d with
  | unit => cases h
  | unnamed fs =>
    simp only [getMatch, getMatchUnnamed] at h
    split at h
    · cases h
    rw [mapM_some (g := fun i => (⟨false, "val_" ++ Nat.repr i⟩ : Ident)) fun i _ => new_val (repr_no_hash i)] at h
    simp only [Option.bind_eq_bind, Option.bind_some, Option.pure_def, Option.some.injEq] at h
    subst h
    have hnd : ((List.range fs.length).map fun i => (⟨false, "val_" ++ Nat.repr i⟩ : Ident)).Nodup :=
      List.Nodup.map (fun i j e => Nat.repr_injective (val_inj e)) List.nodup_range
    have hl' : offs.length = ((List.range fs.length).map fun i => (⟨false, "val_" ++ Nat.repr i⟩ : Ident)).length := by simpa [FieldsDecl.list] using hl
    refine ⟨_, ?_, arm_run c a hl' ?_ ?_ fun p hp => hp⟩
    · simp only [Pat.bind, if_true]
      rw [if_pos ⟨by simp, hnd⟩]
    · rw [zip_map_fst hl'.symm]
      intro hm
      obtain ⟨i, _, hi⟩ := List.mem_map.1 hm
      exact val_ne_serializer _ hi
    · rw [zip_map_fst hl'.symm]; exact hnd
  | named fs =>
    simp only [getMatch, getMatchNamed] at h
    split at h
    · cases h
    rename_i hne0; clear hne0
    simp only [Option.bind_eq_bind, Option.bind_eq_some_iff, Option.pure_def, Option.some.injEq] at h
    obtain ⟨idents, h1, aliases, h2, rfl⟩ := h
    have f1 := mapM_isSome h1
    have f2 := mapM_isSome h2
    obtain ⟨hsome, hnodup⟩ := hv.fields
    have hnames : idents.map some = fs.map FieldDecl.ident := by
      clear h1 h2 f2 hl hv hsome hnodup
      induction f1 with
      | nil => rfl
      | cons h _ ih => simp only [List.map_cons, h, ih]
    have hidn : idents.Nodup := by
      rw [← hnames] at hnodup
      exact List.Nodup.of_map _ hnodup
    have hidOK : ∀ i ∈ idents, i.OK := by
      intro i hi
      have : some i ∈ fs.map FieldDecl.ident := by rw [← hnames]; exact List.mem_map.2 ⟨i, hi, rfl⟩
      obtain ⟨f, hf, he⟩ := List.mem_map.1 this
      exact hv.idents f hf i he
    have hal : aliases = idents.map (fun i => (⟨false, "val_" ++ i.name⟩ : Ident)) ∧ ∀ i ∈ idents, i.raw = false := by
      clear h1 h2 f1 hnames hidn
      induction f2 with
      | nil => exact ⟨rfl, fun i h => by cases h⟩
      | @cons i y is ys h _ ih =>
        obtain ⟨e1, e2⟩ := ih fun j hj => hidOK j (List.mem_cons_of_mem _ hj)
        have hr : i.raw = false := by
          cases hr : i.raw with
          | false => rfl
          | true => rw [new_raw hr] at h; cases h
        have ht : i.text = i.name := by simp [Ident.text, hr]
        rw [ht, new_val (hidOK i (List.mem_cons_self ..))] at h
        cases h
        exact ⟨by rw [e1]; rfl, fun j hj => by rcases List.mem_cons.1 hj with rfl | hj; exacts [hr, e2 j hj]⟩
    obtain ⟨hal, hraw⟩ := hal
    have hlen : idents.length = fs.length := f1.length_eq.symm
    have haln : aliases.Nodup := by
      rw [hal]
      refine (List.nodup_map_iff_inj_on hidn).2 fun i hi j hj e => ?_
      have e1 := val_inj e
      have r1 := hraw i hi; have r2 := hraw j hj
      cases i; cases j; simp only at e1 r1 r2; subst e1; rw [r1, r2]
    have hla : aliases.length = idents.length := f2.length_eq.symm
    have hl' : offs.length = aliases.length := by rw [hla, hlen]; simpa [FieldsDecl.list] using hl
    refine ⟨aliases.zip offs, ?_, arm_run c a hl' ?_ ?_ fun p hp => hp⟩
    · simp only [Pat.bind, if_true]
      rw [if_pos]
      · have hmem : ∀ (i : Nat) (nm : Ident) (f : Field), idents[i]? = some nm → offs[i]? = some f → Member.field (.named fs) offs (.name nm) = some f := by
          intro i nm f g1 g2
          have g3 : (fs.map FieldDecl.ident)[i]? = some (some nm) := by rw [← hnames, List.getElem?_map, g1]; rfl
          rw [List.getElem?_map, Option.map_eq_some_iff] at g3
          obtain ⟨fd, g4, g5⟩ := g3
          have := members_field (d := .named fs) hv.fields hl (i := i) (p := (.name (fd.ident.getD ⟨false, ""⟩), fd)) (f := f)
            (by simp [FieldsDecl.members, g4]) g2
          simpa [g5] using this
        clear hnames hidn hidOK hraw haln hal h1 h2 f1 hnodup hsome hl
        have hlo : offs.length = idents.length := by omega
        clear hl' hlen
        generalize hO : Member.field (.named fs) offs = F at hmem ⊢
        clear hO hv
        suffices (idents.zip aliases).mapM (fun (b : Ident × Ident) => do let f ← F (.name b.1); pure (b.2, f)) = some (aliases.zip offs) by
          rw [this]; rfl
        induction idents generalizing aliases offs with
        | nil =>
          cases aliases with
          | nil => rfl
          | cons _ _ => cases hla
        | cons x xs ih =>
          cases aliases with
          | nil => cases hla
          | cons y ys =>
            cases offs with
            | nil => cases hlo
            | cons f offs =>
              have h0 := hmem 0 x f rfl rfl
              have hr := ih (aliases := ys) (offs := offs) (by cases f2; assumption) (by simpa using hla)
                (by simpa using hlo) (fun i nm g g1 g2 => hmem (i + 1) nm g g1 g2)
              simp only [List.zip_cons_cons, List.mapM_cons, hr, h0]
              rfl
      · refine ⟨by rw [List.length_zip, hla, hlen]; omega, ?_, ?_⟩
        · rw [List.map_snd_zip (by omega)]; exact haln
        · rw [zip_map_fst hla.symm]; exact hidn
    · rw [zip_map_fst hl'.symm]
      intro hm
      rw [hal] at hm
      obtain ⟨i, _, hi⟩ := List.mem_map.1 hm
      exact val_ne_serializer _ hi
    · rw [zip_map_fst hl'.symm]; exact haln

/-- Other variants' values do not match the arm. -/
theorem getMatch_other {v w : VariantDecl} {arm : Arm} (h : getMatch v = some (some arm)) (hne : v.ident ≠ w.ident) (offs : List Field) :
    arm.pat.bind w offs = some none := by
  obtain ⟨id, d⟩ := v
  cases d with
  | unit => cases h
  | unnamed fs =>
    simp only [getMatch, getMatchUnnamed] at h
    split at h
    · cases h
    simp only [Option.bind_eq_bind, Option.bind_eq_some_iff, Option.pure_def, Option.some.injEq] at h
    obtain ⟨is, _, rfl⟩ := h
    simp only [Pat.bind]
    rw [if_neg hne]
  | named fs =>
    simp only [getMatch, getMatchNamed] at h
    split at h
    · cases h
    simp only [Option.bind_eq_bind, Option.bind_eq_some_iff, Option.pure_def, Option.some.injEq] at h
    obtain ⟨is, _, as, _, rfl⟩ := h
    simp only [Pat.bind]
    rw [if_neg hne]

/-- Variants without fields get no arm, and only those. -/
theorem getMatch_none {v : VariantDecl} (h : getMatch v = some none) : v.fields.list = [] := by
  obtain ⟨id, d⟩ := v
  cases d with
  | unit => rfl
  | unnamed fs =>
    simp only [getMatch, getMatchUnnamed] at h
    split at h
    · rename_i h0; exact List.length_eq_zero_iff.1 h0
    · simp [Option.bind_eq_some_iff] at h
  | named fs =>
    simp only [getMatch, getMatchNamed] at h
    split at h
    · rename_i h0; exact List.length_eq_zero_iff.1 h0
    · simp [Option.bind_eq_some_iff] at h

theorem runMatch_skip (c : Calls) {vs : List VariantDecl} {ms : List (Option Arm)} (hf : List.Forall₂ (fun v m => getMatch v = some m) vs ms)
    {w : VariantDecl} (hne : ∀ v ∈ vs, v.ident ≠ w.ident) (offs : List Field) (a : Nat) (rest : List Arm) :
    runMatch c w offs a (ms.filterMap id ++ rest) = runMatch c w offs a rest := by
  induction hf with
  | nil => rfl
  | @cons v m _ _ h _ ih =>
    have ih' := ih fun x hx => hne x (List.mem_cons_of_mem _ hx)
    cases m with
    | none => exact ih'
    | some arm =>
      simp only [List.filterMap_cons, id, List.cons_append, runMatch]
      rw [getMatch_other h (hne v (List.mem_cons_self ..)) offs]
      exact ih'

theorem runMatch_derive (c : Calls) {vs : List VariantDecl} (hd : (vs.map VariantDecl.ident).Nodup) (hok : ∀ v ∈ vs, v.OK) {ms : List (Option Arm)}
    (hf : List.Forall₂ (fun v m => getMatch v = some m) vs ms) {v : VariantDecl} (hv : v ∈ vs) {offs : List Field}
    (hl : offs.length = v.fields.list.length) (a : Nat) (rest : List Arm)
    (hrest : v.fields.list = [] → runMatch c v offs a rest = some (pure ())) :
    runMatch c v offs a (ms.filterMap id ++ rest) = some (serEach c.ser a offs) := by
  induction hf with
  | nil => cases hv
  | @cons w m ws ms' h hf' ih =>
    simp only [List.map_cons, List.nodup_cons] at hd
    rcases List.mem_cons.1 hv with rfl | hv'
    · cases m with
      | none =>
        have h0 := getMatch_none h
        have : offs = [] := List.length_eq_zero_iff.1 (by rw [hl, h0]; rfl)
        show runMatch c v offs a (List.filterMap id ms' ++ rest) = _
        rw [runMatch_skip c hf' (fun x hx e => hd.1 (List.mem_map.2 ⟨x, hx, e⟩)), hrest h0, this]
        rfl
      | some arm =>
        obtain ⟨binds, h1, h2⟩ := getMatch_arm c (hok v (List.mem_cons_self ..)) h hl a
        simp only [List.filterMap_cons, id, List.cons_append, runMatch, h1, Option.bind_eq_bind, Option.bind_some]
        exact h2
    · have ih' := ih hd.2 (fun x hx => hok x (List.mem_cons_of_mem _ hx)) hv'
      cases m with
      | none => exact ih'
      | some arm =>
        simp only [List.filterMap_cons, id, List.cons_append, runMatch]
        rw [getMatch_other h (fun e => hd.1 (List.mem_map.2 ⟨v, hv', e.symm⟩)) offs]
        exact ih'

/-- C42. Whenever the macro accepts an enum, the generated `serialize_data` compiles (in particular the `match` is exhaustive, and
no pattern variable hides the serializer), and on a value in any declared variant, whose fields are at `offs`, it processes each
field of that variant exactly once, in declaration order, with `Serialize`; nothing for a variant without fields. -/
theorem C42_visits (c : Calls) {vs : List VariantDecl} (hd : (vs.map VariantDecl.ident).Nodup) (hok : ∀ v ∈ vs, v.OK) {body : Option (List Arm)}
    (h : deriveEnum vs = some body) {v : VariantDecl} (hv : v ∈ vs) {offs : List Field} (hl : offs.length = v.fields.list.length) (a : Nat) :
    runEnum c v offs a body = some (serEach c.ser a offs) := by
  simp only [deriveEnum, Option.bind_eq_bind, Option.bind_eq_some_iff] at h
  obtain ⟨ms, h1, h2⟩ := h
  have hf := mapM_isSome h1
  have hlen : ms.length = vs.length := hf.length_eq.symm
  split at h2
  · rename_i h0
    cases h2
    have hnil := List.length_eq_zero_iff.1 h0
    have : v.fields.list = [] := by
      have hm : ∀ m ∈ ms, m = none := by
        intro m hm
        cases m with
        | none => rfl
        | some arm =>
          have : arm ∈ ms.filterMap id := List.mem_filterMap.2 ⟨_, hm, rfl⟩
          rw [hnil] at this; cases this
      clear h0 hnil h1 hlen hd hok
      induction hf with
      | nil => cases hv
      | @cons w m _ _ h _ ih =>
        obtain rfl := hm m (List.mem_cons_self ..)
        rcases List.mem_cons.1 hv with rfl | hv'
        · exact getMatch_none h
        · exact ih hv' fun m hx => hm m (List.mem_cons_of_mem _ hx)
    have : offs = [] := List.length_eq_zero_iff.1 (by rw [hl, this]; rfl)
    rw [this]; rfl
  · split at h2
    · cases h2
      exact runMatch_derive c hd hok hf hv hl a _ fun _ => rfl
    · rename_i h0 hge
      cases h2
      have := runMatch_derive c hd hok hf hv hl a [] (by
        intro hnil
        -- all variants have arms, so `v` has fields
        exfalso
        have hall : ∀ m ∈ ms, m ≠ none := by
          intro m hm e
          subst e
          have hlt : (ms.filterMap id).length < ms.length := by
            rw [List.length_filterMap_lt_length_iff_exists]
            exact ⟨none, hm, rfl⟩
          omega
        clear h0 hge h1 hlen hd
        induction hf with
        | nil => cases hv
        | @cons w m _ _ h _ ih =>
          rcases List.mem_cons.1 hv with rfl | hv'
          · cases m with
            | none => exact hall none (List.mem_cons_self ..) rfl
            | some arm =>
              obtain ⟨id, d⟩ := v
              cases d with
              | unit => cases h
              | unnamed fs =>
                simp only [FieldsDecl.list] at hnil; subst hnil
                cases h
              | named fs =>
                simp only [FieldsDecl.list] at hnil; subst hnil
                cases h
          · exact ih (fun v hv => hok v (List.mem_cons_of_mem _ hv)) hv' fun m hx => hall m (List.mem_cons_of_mem _ hx))
      rw [List.append_nil] at this
      exact this

theorem deriveEnum_some {vs : List VariantDecl} : (∃ body, deriveEnum vs = some body) ↔ ∀ v ∈ vs, ∃ m, getMatch v = some m := by
  constructor
  · rintro ⟨body, h⟩ v hv
    simp only [deriveEnum, Option.bind_eq_bind, Option.bind_eq_some_iff] at h
    obtain ⟨ms, h1, h2⟩ := h
    have hf := mapM_isSome h1
    clear h1 h2
    induction hf with
    | nil => cases hv
    | cons h _ ih =>
      rcases List.mem_cons.1 hv with rfl | hv'
      · exact ⟨_, h⟩
      · exact ih hv'
  · intro h
    obtain ⟨ms, hms⟩ : ∃ ms, vs.mapM getMatch = some ms := by
      induction vs with
      | nil => exact ⟨[], rfl⟩
      | cons v vs ih =>
        obtain ⟨m, hm⟩ := h v (List.mem_cons_self ..)
        obtain ⟨ms, hms⟩ := ih fun x hx => h x (List.mem_cons_of_mem _ hx)
        exact ⟨m :: ms, by simp [List.mapM_cons, hm, hms]⟩
    simp only [deriveEnum, hms, Option.bind_eq_bind, Option.bind_some]
    split
    · exact ⟨_, rfl⟩
    · split <;> exact ⟨_, rfl⟩

/-- C42, acceptance. The macro accepts an enum exactly if no struct-like variant has a field with a raw identifier as its name
(finding F8: on `enum E { A { r#type: u8 } }` the macro panics). -/
theorem C42_accepts {vs : List VariantDecl} (hok : ∀ v ∈ vs, v.OK) : (∃ body, deriveEnum vs = some body) ↔ ∀ v ∈ vs, NoRawNames v := by
  rw [deriveEnum_some]
  refine forall₂_congr fun v hv => ?_
  obtain ⟨id, d⟩ := v
  have hvok := hok _ hv
  cases d with
  | unit => exact ⟨fun _ f hf => (by cases hf), fun _ => ⟨none, rfl⟩⟩
  | unnamed fs =>
    refine ⟨fun _ f hf i hi => ?_, fun _ => ?_⟩
    · have := hvok.fields f hf
      rw [this] at hi; cases hi
    · simp only [getMatch, getMatchUnnamed]
      split
      · exact ⟨_, rfl⟩
      · rw [mapM_some (g := fun i => (⟨false, "val_" ++ Nat.repr i⟩ : Ident)) fun i _ => new_val (repr_no_hash i)]
        exact ⟨_, rfl⟩
  | named fs =>
    obtain ⟨hsome, hnd⟩ := hvok.fields
    clear hnd
    constructor
    · rintro ⟨m, h⟩ f hf i hi
      simp only [FieldsDecl.list] at hf
      simp only [getMatch, getMatchNamed] at h
      split at h
      · rename_i h0; rw [List.length_eq_zero_iff.1 h0] at hf; cases hf
      rename_i hne0; clear hne0
      simp only [Option.bind_eq_bind, Option.bind_eq_some_iff, Option.pure_def, Option.some.injEq] at h
      obtain ⟨idents, h1, aliases, h2, rfl⟩ := h
      have f1 := mapM_isSome h1
      have f2 := mapM_isSome h2
      have him : i ∈ idents := by
        clear h1 h2 f2 hsome hvok hv
        induction f1 with
        | nil => cases hf
        | cons h _ ih =>
          rcases List.mem_cons.1 hf with rfl | hf
          · rw [hi] at h; cases h; exact List.mem_cons_self ..
          · exact List.mem_cons_of_mem _ (ih hf)
      cases hr : i.raw with
      | false => rfl
      | true =>
        exfalso
        clear f1 h1 h2
        induction f2 with
        | nil => cases him
        | cons h _ ih =>
          rcases List.mem_cons.1 him with rfl | him
          · rw [new_raw hr] at h; cases h
          · exact ih him
    · intro h
      simp only [getMatch, getMatchNamed]
      split
      · exact ⟨_, rfl⟩
      · have e1 : fs.mapM FieldDecl.ident = some (fs.map fun f => f.ident.getD ⟨false, ""⟩) := mapM_some fun f hf => by
          obtain ⟨i, hi⟩ := Option.isSome_iff_exists.1 (hsome f hf)
          rw [hi]; rfl
        rw [e1]
        simp only [Option.bind_eq_bind, Option.bind_some]
        rw [mapM_some (g := fun i => (⟨false, "val_" ++ i.name⟩ : Ident))]
        · exact ⟨_, rfl⟩
        · intro i hi
          obtain ⟨f, hf, rfl⟩ := List.mem_map.1 hi
          obtain ⟨j, hj⟩ := Option.isSome_iff_exists.1 (hsome f hf)
          rw [hj, Option.getD_some]
          have hr := h f hf j hj
          have ht : j.text = j.name := by simp [Ident.text, hr]
          rw [ht]
          exact new_val (hvok.idents f hf j hj)

/-- Drop all attributes of the fields. -/
def FieldsDecl.strip : FieldsDecl → FieldsDecl
  | .named fs => .named (fs.map fun f => ⟨f.ident, []⟩)
  | .unnamed fs => .unnamed (fs.map fun f => ⟨f.ident, []⟩)
  | .unit => .unit

/-- Finding F8. Attributes on the fields of enum variants, `#[ser_with(..)]` in particular, have no effect: the generated code is
the same without them. -/
theorem C42_ser_with_ignored (vs : List VariantDecl) : deriveEnum (vs.map fun v => ⟨v.ident, v.fields.strip⟩) = deriveEnum vs := by
  have h : ∀ v : VariantDecl, getMatch ⟨v.ident, v.fields.strip⟩ = getMatch v := by
    rintro ⟨id, d⟩
    cases d with
    | unit => rfl
    | unnamed fs => simp only [FieldsDecl.strip, getMatch, getMatchUnnamed, List.length_map]
    | named fs => simp only [FieldsDecl.strip, getMatch, getMatchNamed, List.length_map, mapM_congr]
  simp only [deriveEnum, mapM_congr, h, List.length_map]

/-- The enum case of the model's `serData` (Model/Impls.lean) is the generated code. -/
theorem C42_model (C : Cfg) (im : Mem) (c : Calls) {vs : List VariantDecl} (hd : (vs.map VariantDecl.ident).Nodup) (hok : ∀ v ∈ vs, v.OK)
    (hraw : ∀ v ∈ vs, NoRawNames v) (tag : Tag) {offs : List (List Field)}
    (hlen : List.Forall₂ (fun (v : VariantDecl) (fs : List Field) => fs.length = v.fields.list.length) vs offs) {a i : Nat} {v : VariantDecl}
    (hi : activeVariant C.arch im a tag = some i) (hv : vs[i]? = some v) :
    ∃ body fs, deriveEnum vs = some body ∧ offs[i]? = some fs ∧ runEnum c v fs a body = some (serEnum C im c.ser tag offs a) := by
  obtain ⟨body, hb⟩ := (C42_accepts hok).2 hraw
  obtain ⟨fs, h1, h2⟩ : ∃ fs, offs[i]? = some fs ∧ fs.length = v.fields.list.length := by
    clear hb hraw hok hd hi
    induction hlen generalizing i with
    | nil => cases hv
    | @cons w g _ _ h _ ih =>
      cases i with
      | zero => cases hv; exact ⟨g, rfl, h⟩
      | succ i => exact ih hv
  refine ⟨body, fs, hb, h1, ?_⟩
  rw [C42_visits c hd hok hb (List.mem_of_getElem? hv) h2 a]
  simp only [serEnum, hi, h1]

/-- C42 applies: `enum E { A, B(u8, String), C { serializer: u8 }, D {} }`. -/
example : ∃ arms, deriveEnum [⟨⟨false, "A"⟩, .unit⟩, ⟨⟨false, "B"⟩, .unnamed [⟨none, []⟩, ⟨none, []⟩]⟩,
    ⟨⟨false, "C"⟩, .named [⟨some ⟨false, "serializer"⟩, []⟩]⟩, ⟨⟨false, "D"⟩, .named []⟩] = some (some arms) ∧ arms.length = 3 := ⟨_, rfl, rfl⟩

/-- `enum E { A { r#type: u8 } }` is not accepted. -/
example : deriveEnum [⟨⟨false, "A"⟩, .named [⟨some ⟨true, "type"⟩, []⟩]⟩] = none := rfl

/-! ### C41 and C42 applied -/

/-- `#[derive(Serialize)] struct S(A, B)`: both fields, in order. -/
example (c : Calls) (a : Nat) : ∃ body, deriveStruct (.unnamed [⟨none, []⟩, ⟨none, []⟩]) = some body ∧
    runStruct c (.unnamed [⟨none, []⟩, ⟨none, []⟩]) [(0, 1), (8, 2)] a body = some (serEach c.ser a [(0, 1), (8, 2)]) :=
  C41_plain c (by simp [FieldsDecl.OK]) rfl a (by simp [FieldsDecl.list, NoWith])

/-- `#[ser_with(Proxy<T>)]` does not parse as a `Meta`, and is ignored (finding F15). -/
example : getFieldStmt (.index 0) ⟨none, [⟨["ser_with"], none, none, .err⟩]⟩ = getFieldStmt (.index 0) ⟨none, []⟩ :=
  C41_unparsable_ignored none [] [] rfl (.index 0)

/-- `#[ser_bound(T: Clone)]`, once, beside another attribute. -/
example : getSerBound none [⟨["repr"], none, none, .err⟩, ⟨["ser_bound"], none, some "T: Clone", .err⟩] = some (some "T: Clone") :=
  (C41_ser_bound _ _).2 (Or.inr ⟨_, rfl, [_], _, [], rfl, rfl, rfl, by simp, by simp⟩)

/-- The enum `enum E { A, B(X, Y) }`. -/
def exEnumDecl : List VariantDecl := [⟨⟨false, "A"⟩, .unit⟩, ⟨⟨false, "B"⟩, .unnamed [⟨none, [tagged ["P"]]⟩, ⟨none, []⟩]⟩]

example : deriveEnum [⟨⟨false, "A"⟩, .unit⟩, ⟨⟨false, "B"⟩, .unnamed [⟨none, []⟩, ⟨none, []⟩]⟩] = deriveEnum exEnumDecl :=
  C42_ser_with_ignored exEnumDecl

/-- With the tag 1 in memory, the fields of `B` are visited. -/
example (C : Cfg) (c : Calls) (im : Mem) (a : Nat) (tag : Tag) (h : activeVariant C.arch im a tag = some 1) :
    ∃ body fs, deriveEnum exEnumDecl = some body ∧ [[], [(8, 1), (16, 2)]][1]? = some fs ∧
      runEnum c ⟨⟨false, "B"⟩, .unnamed [⟨none, [tagged ["P"]]⟩, ⟨none, []⟩]⟩ fs a body =
        some (serEnum C im c.ser tag [[], [(8, 1), (16, 2)]] a) :=
  C42_model C im c (vs := exEnumDecl) (offs := [[], [(8, 1), (16, 2)]]) (by decide)
    (by intro v hv; simp only [exEnumDecl, List.mem_cons, List.not_mem_nil, or_false] at hv
        rcases hv with rfl | rfl <;> exact ⟨by simp [FieldsDecl.OK], by simp [FieldsDecl.list]⟩)
    (by intro v hv; simp only [exEnumDecl, List.mem_cons, List.not_mem_nil, or_false] at hv
        rcases hv with rfl | rfl <;> simp [NoRawNames, FieldsDecl.list])
    tag (.cons rfl (.cons rfl .nil)) h rfl

end SerRaw
