import Verif.Model.Impls
/-
Model of the derive macros: ser_raw_derive/src/{lib,structs,enums}.rs (`#[derive(Serialize)]`) — from the declaration, as parsed
by `syn`, to the generated code, and what rustc makes of that code.

A macro panic (the compile error the user sees) is `none`. Simplifications: attributes are seen through the parse functions the
macros apply to them; types of fields and generics are passed through unchanged by the macros and are not represented
(`#[ser_bound]`, the only part of generics that is inspected, is); spans are dropped. Identifiers have the text `name`, and are
raw (`r#name`) or not. A pattern variable is assumed not to collide with a constant or unit struct in scope.
-/
namespace SerRaw

/-- `syn::Ident` — as used in ser_raw_derive/src/structs.rs:5. -/
structure Ident where
  raw : Bool
  name : String
  deriving DecidableEq, Repr

/-- `Ident::to_string` (proc_macro2): raw identifiers keep their prefix — ser_raw_derive/src/enums.rs:90. -/
def Ident.text (i : Ident) : String := if i.raw then "r#" ++ i.name else i.name

/-- `Ident::new` (proc_macro2): panics on strings that are not identifiers. Only the way in which this can happen here is
represented: the string contains `#` — ser_raw_derive/src/enums.rs:64, 90. -/
def Ident.new (s : String) : Option Ident := if '#' ∈ s.toList then none else some ⟨false, s⟩

/-- A path without generic arguments — as used in ser_raw_derive/src/structs.rs:5. -/
abbrev PathT := List String

mutual
/-- `syn::Meta` — as used in ser_raw_derive/src/structs.rs:93. -/
inductive Meta
  | path (p : PathT)
  | list (p : PathT) (nested : List Nested)
  | nameValue (p : PathT)
/-- `syn::NestedMeta` — as used in ser_raw_derive/src/structs.rs:94-97. -/
inductive Nested
  | item (m : Meta)
  | lit
end

/-- `Meta::path` — ser_raw_derive/src/structs.rs:81. -/
def Meta.pathOf : Meta → PathT
  | .path p | .list p _ | .nameValue p => p

/-- What `syn::parse2::<Type>` makes of the tokens after the attribute's path: a parenthesised type, another type, or an error —
ser_raw_derive_serializer/src/lib.rs:92-98. -/
inductive TypeTokens
  | paren (ty : String)
  | other
  | err
  deriving DecidableEq, Repr

/-- `syn::Attribute`, through the ways in which the macros parse it: `attr.path`, `attr.parse_meta()`,
`attr.parse_args::<TraitBound>()`, `parse2::<Type>(attr.tokens)` —
ser_raw_derive/src/structs.rs:77, ser_raw_derive/src/lib.rs:53-56, ser_raw_derive_serializer/src/common.rs:20. -/
structure Attr where
  path : PathT
  parseMeta : Option Meta
  parseBound : Option String
  typeTokens : TypeTokens

/-- `syn`'s guarantee: a parsed `Meta` has the attribute's path — ser_raw_derive/src/structs.rs:77-79. -/
def Attr.Coherent (a : Attr) : Prop := ∀ m, a.parseMeta = some m → m.pathOf = a.path

/-- `path.is_ident(name)` — ser_raw_derive/src/structs.rs:81. -/
def isIdent (p : PathT) (name : String) : Bool := p == [name]

/-- `syn::Field`: name (if the struct or variant has named fields) and attributes — as used in ser_raw_derive/src/structs.rs:38. -/
structure FieldDecl where
  ident : Option Ident
  attrs : List Attr

/-- `syn::Fields` — ser_raw_derive/src/structs.rs:14-18. -/
inductive FieldsDecl
  | named (fs : List FieldDecl)
  | unnamed (fs : List FieldDecl)
  | unit

/-- The declared fields, in order — ser_raw_derive/src/structs.rs:14-18. -/
def FieldsDecl.list : FieldsDecl → List FieldDecl
  | .named fs | .unnamed fs => fs
  | .unit => []

/-! ### `#[ser_bound]` -/

/-- `get_ser_bound` — ser_raw_derive/src/lib.rs:50-64. -/
def getSerBound (acc : Option String) : List Attr → Option (Option String)
  | [] => some acc
  | a :: as =>
    if isIdent a.path "ser_bound" then
      match a.parseBound with
      | none => none
      | some b => if acc.isSome then none else getSerBound (some b) as
    else getSerBound acc as

/-! ### Structs -/

/-- A member access `self.<...>` — ser_raw_derive/src/structs.rs:39, 50. -/
inductive Member
  | name (i : Ident)
  | index (n : Nat)
  deriving DecidableEq, Repr

/-- A generated statement — ser_raw_derive/src/structs.rs:57-73:
`Serialize::<__S>::serialize_data(&self.m, serializer)` or
`<w as SerializeWith::<_, __S>>::serialize_data_with(&self.m, serializer)`. -/
inductive StructStmt
  | ser (m : Member)
  | serWith (w : PathT) (m : Member)
  deriving DecidableEq, Repr

/-- `get_with` — ser_raw_derive/src/structs.rs:76-103. Attributes on which `parse_meta` fails are dropped (line 81). -/
def getWith (f : FieldDecl) : Option (Option PathT) :=
  let attrs := (f.attrs.filterMap Attr.parseMeta).filter fun m => isIdent m.pathOf "ser_with"
  match attrs with
  | [] => some none
  | [.list _ [.item (.path w)]] => some (some w)
  | _ => none

/-- `get_field_stmt` — ser_raw_derive/src/structs.rs:56-74. -/
def getFieldStmt (m : Member) (f : FieldDecl) : Option StructStmt := do
  match ← getWith f with
  | some w => pure (.serWith w m)
  | none => pure (.ser m)

/-- `get_named_field_stmts` — ser_raw_derive/src/structs.rs:33-42. -/
def getNamedFieldStmts (fs : List FieldDecl) : Option (List StructStmt) :=
  fs.mapM fun f => do
    let i ← f.ident
    getFieldStmt (.name i) f

/-- `get_unnamed_field_stmts` — ser_raw_derive/src/structs.rs:44-54. -/
def getUnnamedFieldStmts (fs : List FieldDecl) : Option (List StructStmt) :=
  fs.zipIdx.mapM fun p => getFieldStmt (.index p.2) p.1

/-- `derive_struct` — ser_raw_derive/src/structs.rs:8-31: the statements of `serialize_data`. -/
def deriveStruct : FieldsDecl → Option (List StructStmt)
  | .named fs => getNamedFieldStmts fs
  | .unnamed fs => getUnnamedFieldStmts fs
  | .unit => some []

/-! ### Enums -/

/-- `syn::Variant` — ser_raw_derive/src/enums.rs:17-22. -/
structure VariantDecl where
  ident : Ident
  fields : FieldsDecl

/-- `Serialize::<__S>::serialize_data(arg, ser);` — ser_raw_derive/src/enums.rs:105-115 -/
structure EnumStmt where
  arg : Ident
  ser : Ident
  deriving DecidableEq, Repr

/-- Patterns of generated arms — ser_raw_derive/src/enums.rs:31-33, 68-69, 99-100. -/
inductive Pat
  | tuple (variant : Ident) (vars : List Ident)
  | struct (variant : Ident) (binds : List (Ident × Ident))
  | wild

/-- Generated by ser_raw_derive/src/enums.rs:68-72, 99-103 and 30-32. -/
structure Arm where
  pat : Pat
  body : List EnumStmt

/-- The parameter of `serialize_data` — ser_raw_derive/src/structs.rs:26. -/
def serializerIdent : Ident := ⟨false, "serializer"⟩

/-- `get_field_stmts` — ser_raw_derive/src/enums.rs:105-115. -/
def getFieldStmts (idents : List Ident) : List EnumStmt := idents.map fun i => ⟨i, serializerIdent⟩

/-- `get_match_for_unnamed_fields` — ser_raw_derive/src/enums.rs:56-73. -/
def getMatchUnnamed (ident : Ident) (fs : List FieldDecl) : Option (Option Arm) :=
  if fs.length = 0 then some none
  else do
    let idents ← (List.range fs.length).mapM fun i => Ident.new ("val_" ++ Nat.repr i)
    pure (some ⟨.tuple ident idents, getFieldStmts idents⟩)

/-- `get_match_for_named_fields` — ser_raw_derive/src/enums.rs:75-103. -/
def getMatchNamed (ident : Ident) (fs : List FieldDecl) : Option (Option Arm) :=
  if fs.length = 0 then some none
  else do
    let idents ← fs.mapM FieldDecl.ident
    let aliases ← idents.mapM fun i => Ident.new ("val_" ++ i.text)
    pure (some ⟨.struct ident (idents.zip aliases), getFieldStmts aliases⟩)

/-- The closure of `derive_enum` — ser_raw_derive/src/enums.rs:18-24. -/
def getMatch (v : VariantDecl) : Option (Option Arm) :=
  match v.fields with
  | .unit => some none
  | .unnamed fs => getMatchUnnamed v.ident fs
  | .named fs => getMatchNamed v.ident fs

/-- `derive_enum` — ser_raw_derive/src/enums.rs:7-54: the arms of `match self`, or `none` for an empty body. -/
def deriveEnum (vs : List VariantDecl) : Option (Option (List Arm)) := do
  let ms ← vs.mapM getMatch
  let arms := ms.filterMap id
  if arms.length = 0 then pure none
  else if arms.length < vs.length then pure (some (arms ++ [⟨.wild, []⟩]))
  else pure (some arms)

/-! ### What the generated code does

`offs` gives the place and type of the declared fields in the value. `none` is an error reported by rustc. -/

/-- `Serialize::serialize_data` and `SerializeWith::serialize_data_with`, for every field type (and proxy) — ser_raw/src/serialize.rs:97-142. -/
structure Calls where
  ser : TyId → Nat → M Ser Unit
  serWith : PathT → TyId → Nat → M Ser Unit

/-- Rust: the field a member expression denotes — generated by ser_raw_derive/src/structs.rs:61, 68. -/
def Member.field (d : FieldsDecl) (offs : List Field) : Member → Option Field
  | .name i => match d with
    | .named fs => ((fs.zip offs).find? fun p => p.1.ident == some i).map Prod.snd
    | _ => none
  | .index n => match d with
    | .unnamed _ => offs[n]?
    | _ => none

/-- Rust: one generated statement, run on the struct at address `a` — generated by ser_raw_derive/src/structs.rs:57-72. -/
def StructStmt.run (c : Calls) (d : FieldsDecl) (offs : List Field) (a : Nat) : StructStmt → Option (M Ser Unit)
  | .ser m => do let f ← m.field d offs; pure (c.ser f.2 (a + f.1))
  | .serWith w m => do let f ← m.field d offs; pure (c.serWith w f.2 (a + f.1))

/-- Statements in sequence — generated by ser_raw_derive/src/structs.rs:27. -/
def seqAll : List (M Ser Unit) → M Ser Unit
  | [] => pure ()
  | x :: xs => do x; seqAll xs

/-- Rust: the generated `serialize_data` of a struct — generated by ser_raw_derive/src/structs.rs:23-30. -/
def runStruct (c : Calls) (d : FieldsDecl) (offs : List Field) (a : Nat) (body : List StructStmt) : Option (M Ser Unit) :=
  (body.mapM (StructStmt.run c d offs a)).map seqAll

/-- What a variable refers to inside a match arm — generated by ser_raw_derive/src/enums.rs:68-72. -/
inductive Ref
  | field (f : Field)
  | serializer

/-- Rust: name resolution; pattern variables shadow the function's parameters — generated by ser_raw_derive/src/enums.rs:106-115. -/
def lookupVar (binds : List (Ident × Field)) (x : Ident) : Option Ref :=
  match binds.find? (fun p => p.1 == x) with
  | some p => some (.field p.2)
  | none => if x = serializerIdent then some .serializer else none

/-- Rust: does a value in variant `v`, with fields at `offs`, match the pattern? Outer `none`: the pattern is rejected (wrong
kind or number of fields, no such field, a variable bound twice) — generated by ser_raw_derive/src/enums.rs:68-72, 99-103. -/
def Pat.bind (v : VariantDecl) (offs : List Field) : Pat → Option (Option (List (Ident × Field)))
  | .wild => some (some [])
  | .tuple i vars =>
    if i = v.ident then
      match v.fields with
      | .unnamed fs => if vars.length = fs.length ∧ vars.Nodup then some (some (vars.zip offs)) else none
      | _ => none
    else some none
  | .struct i binds =>
    if i = v.ident then
      match v.fields with
      | .named fs =>
        if binds.length = fs.length ∧ (binds.map Prod.snd).Nodup ∧ (binds.map Prod.fst).Nodup then
          (binds.mapM fun (b : Ident × Ident) => do
            let f ← Member.field (.named fs) offs (.name b.1)
            pure (b.2, f)).map some
        else none
      | _ => none
    else some none

/-- Rust: a generated statement inside an arm — generated by ser_raw_derive/src/enums.rs:110-112. -/
def EnumStmt.run (c : Calls) (binds : List (Ident × Field)) (a : Nat) (s : EnumStmt) : Option (M Ser Unit) := do
  match ← lookupVar binds s.arg, ← lookupVar binds s.ser with
  | .field f, .serializer => pure (c.ser f.2 (a + f.1))
  | _, _ => none

/-- Rust: `match` takes the first arm that matches; no such arm for some variant is an error (E0004) — generated by ser_raw_derive/src/enums.rs:36-40. -/
def runMatch (c : Calls) (v : VariantDecl) (offs : List Field) (a : Nat) : List Arm → Option (M Ser Unit)
  | [] => none
  | arm :: arms => do
    match ← arm.pat.bind v offs with
    | some binds => (arm.body.mapM (EnumStmt.run c binds a)).map seqAll
    | none => runMatch c v offs a arms

/-- Rust: the generated `serialize_data` of an enum, on a value in variant `v` — generated by ser_raw_derive/src/enums.rs:46-53. -/
def runEnum (c : Calls) (v : VariantDecl) (offs : List Field) (a : Nat) : Option (List Arm) → Option (M Ser Unit)
  | none => some (pure ())
  | some arms => runMatch c v offs a arms

end SerRaw
