import Verif.Model.LexiconMacro
import Verif.Model.NodeMacro
/-
Model of macros/src/prelude.rs and macros/src/lib.rs: what the four macros give back to rustc, in particular what
becomes of the declaration they are written on. An item is modelled with all its attributes, of which `Teleparse.Syn`
and `Teleparse.Macro` only see those of the crate. Left out: inner attributes, attributes of generic parameters and of
the fields of a variant of a lexicon, the spans of tokens, inputs that `syn` cannot parse (`parse_macro_input!`).
-/
namespace Teleparse.Item

/-- A `syn::Attribute`: `own` if its path is `teleparse` (prelude.rs:72), with what is in it (`none` if this does not
parse, prelude.rs:57-61); `other` is any other, such as a documentation comment or `derive(..)`. -/
inductive Attr (μ ω : Type) where
  | own (metas : Option (List μ))
  | other (x : ω)
  deriving DecidableEq

/-- The loop of `strip_take_attrs`, prelude.rs:71-78: the attributes of the crate that were taken, and what was put back. -/
def stripLoop {μ ω : Type} : List (Attr μ ω) → List (Option (List μ)) → List (Attr μ ω) →
    List (Option (List μ)) × List (Attr μ ω)
  | [], taken, back => (taken, back)
  | .other x :: as, taken, back => stripLoop as taken (back ++ [.other x])
  | .own m :: as, taken, back => stripLoop as (taken ++ [m]) back

/-- `strip_take_attrs`, prelude.rs:64-80 -/
def stripTake {μ ω : Type} (as : List (Attr μ ω)) : List (Option (List μ)) × List (Attr μ ω) := stripLoop as [] []

/-! ## `derive_syntax` -/

/-- `syn::Field` -/
structure FieldI (τ ω : Type) where
  ident : Str
  ty : τ
  attrs : List (Attr Syn.FMeta ω)

/-- `syn::Fields` -/
inductive FieldsI (τ ω : Type) where
  | unnamed (l : List (FieldI τ ω))
  | named (l : List (FieldI τ ω))
  | unit

/-- `syn::Variant` -/
structure VariantI (τ ω : Type) where
  ident : Str
  discriminant : Option Nat
  fields : FieldsI τ ω
  attrs : List (Attr Syn.FMeta ω)

/-- `syn::Data` -/
inductive DataI (τ ω : Type) where
  | struct (fields : FieldsI τ ω)
  | enum (variants : List (VariantI τ ω))
  | union (fields : List (FieldI τ ω))

/-- `syn::DeriveInput`; `head` is the visibility and the generics. -/
structure ItemI (τ ω ρ : Type) where
  head : ρ
  ident : Str
  attrs : List (Attr Syn.RMeta ω)
  data : DataI τ ω

variable {τ ω ρ : Type}

/-- What `derive_syntax` takes from a field: its attributes are taken out (syntax.rs:63-66, 150-153) and read later. -/
def FieldI.decl (f : FieldI τ ω) : Syn.FieldD τ := ⟨f.ident, f.ty, (stripTake f.attrs).1⟩

def FieldsI.decl : FieldsI τ ω → Syn.FieldsD τ
  | .unnamed l => .unnamed (l.map FieldI.decl)
  | .named l => .named (l.map FieldI.decl)
  | .unit => .unit

/-- The same for a variant, syntax.rs:240-243. -/
def VariantI.decl (v : VariantI τ ω) : Syn.VariantD τ :=
  ⟨v.ident, v.discriminant.isSome, v.fields.decl, (stripTake v.attrs).1⟩

def DataI.decl : DataI τ ω → Syn.DataD τ
  | .struct fs => .struct fs.decl
  | .enum vs => .enum (vs.map VariantI.decl)
  | .union _ => .union

/-- The declaration as `Syn.expand` sees it. -/
def ItemI.decl (i : ItemI τ ω ρ) : Syn.DeclD τ := ⟨i.ident, (stripTake i.attrs).1, i.data.decl⟩

/-- What is left of a field after `strip_take_attrs`, syntax.rs:65, 152 -/
def FieldI.stripped (f : FieldI τ ω) : FieldI τ ω := { f with attrs := (stripTake f.attrs).2 }

def FieldsI.stripped : FieldsI τ ω → FieldsI τ ω
  | .unnamed l => .unnamed (l.map FieldI.stripped)
  | .named l => .named (l.map FieldI.stripped)
  | .unit => .unit

/-- What is left of a variant, syntax.rs:242. Its fields are not looked at. -/
def VariantI.stripped (v : VariantI τ ω) : VariantI τ ω := { v with attrs := (stripTake v.attrs).2 }

/-- `expand_struct` and `expand_enum` first take the attributes, and can only fail after that; a union is refused at
once (syntax.rs:10-23, 63-66, 150-153, 240-243). -/
def DataI.stripped : DataI τ ω → DataI τ ω
  | .struct fs => .struct fs.stripped
  | .enum vs => .enum (vs.map VariantI.stripped)
  | .union l => .union l

/-- The value of `derive_input` after `syntax::expand(&mut derive_input)`: `parse_root_attributes` takes the attributes of
the item (prelude.rs:114) and can fail, before those of the parts are taken. -/
def ItemI.after (i : ItemI τ ω ρ) : ItemI τ ω ρ :=
  match Syn.rootAttributes (stripTake i.attrs).1 with
  | .error _ => { i with attrs := (stripTake i.attrs).2 }
  | .ok _ => { i with attrs := (stripTake i.attrs).2, data := i.data.stripped }

/-- What a macro gives back. `ι` is the type of items, `γ` of generated code and `ε` of errors. -/
inductive Piece (ι γ ε : Type) where
  /-- the declaration -/
  | item (i : ι)
  /-- `#[derive(teleparse::ToSpan)]` in front of the declaration, syntax.rs:16 -/
  | deriveToSpan
  /-- the generated `impl`s and types -/
  | code (g : γ)
  /-- the test module, root.rs:33-51 -/
  | test
  /-- `compile_error!`, prelude.rs:89 -/
  | error (e : ε)
  deriving DecidableEq

/-- `from_result_keep_input`, prelude.rs:82-97 -/
def keepInput {ι γ ε : Type} (input : ι) : Except ε (List (Piece ι γ ε)) → List (Piece ι γ ε)
  | .ok out => out
  | .error e => [.item input, .error e]

/-- `derive_syntax`: `expand_with_mut` (prelude.rs:38-55) of `syntax::expand`, with the output syntax.rs:31-36. -/
def deriveSyntax (i : ItemI τ ω ρ) : List (Piece (ItemI τ ω ρ) (Syn.Gen τ) Syn.SErr) :=
  keepInput i.after ((Syn.expand i.decl).map fun g =>
    (if g.toSpan then [.deriveToSpan] else []) ++ [.item i.after] ++ [.code g] ++ (if g.test then [.test] else []))

/-! ## `derive(ToSpan)` and `derive(Node)` -/

/-- `derive(ToSpan)`: `expand_with` (prelude.rs:22-36) of `to_span::expand`. -/
def deriveToSpan (i : ItemI τ ω ρ) : List (Piece (ItemI τ ω ρ) Syn.SpanGen Syn.SpanErr) :=
  keepInput i ((Syn.expandSpan i.data.decl).map fun g => [.code g])

/-- `derive(Node)`: `expand_with` (prelude.rs:22-36) of `node::expand`. -/
def deriveNode {α : Type} (i : ItemI (Syn.NodeTy α) ω ρ) :
    List (Piece (ItemI (Syn.NodeTy α) ω ρ) (Syn.NodeGen α) Syn.NodeErr) :=
  keepInput i ((Syn.expandNode i.data.decl).map fun g => [.code g])

/-! ## `derive_lexicon` -/

/-- A variant; `unit` if it has no fields. -/
structure VariantL (ω : Type) where
  ident : Str
  unit : Bool
  discriminant : Option Nat
  attrs : List (Attr Macro.VMeta ω)

inductive DataL (ω : Type) where
  | enum (variants : List (VariantL ω))
  /-- a struct or union, with the attributes of its fields -/
  | fields (l : List (List (Attr Macro.VMeta ω)))

/-- `head` is the visibility (and the generics, if there are some). -/
structure ItemL (ω ρ : Type) where
  head : ρ
  ident : Str
  generics : Bool
  attrs : List (Attr Macro.RMeta ω)
  data : DataL ω

/-- lexicon.rs:27: the attributes are taken out and read later -/
def VariantL.decl (v : VariantL ω) : Macro.Variant := ⟨v.ident, v.unit, (stripTake v.attrs).1⟩

/-- The declaration as `Macro.expand` sees it. -/
def ItemL.decl (i : ItemL ω ρ) : Macro.Decl where
  generics := i.generics
  attrs := (stripTake i.attrs).1
  variants := match i.data with
    | .enum vs => some (vs.map VariantL.decl)
    | .fields _ => none

def VariantL.stripped (v : VariantL ω) : VariantL ω := { v with attrs := (stripTake v.attrs).2 }

/-- The value of `derive_input` after `lexicon::expand(&mut derive_input)`, lexicon.rs:6-8 (generics: nothing is taken),
16 (the attributes of the item), 26-31 (those of the variants). -/
def ItemL.after (i : ItemL ω ρ) : ItemL ω ρ :=
  if i.generics then i
  else match Macro.rootAttributes (stripTake i.attrs).1, i.data with
    | .ok _, .enum vs => { i with attrs := (stripTake i.attrs).2, data := .enum (vs.map VariantL.stripped) }
    | _, _ => { i with attrs := (stripTake i.attrs).2 }

/-- The loop over the variants, as far as `variant_idents` and `variant_ordinals`, lexicon.rs:76-79, go; printed by
lexicon.rs:279. -/
def numbered : Nat → List (VariantL ω) → List (VariantL ω)
  | _, [] => []
  | k, v :: vs => ⟨v.ident, true, some k, []⟩ :: numbered (k + 1) vs

/-- The enum in the output, lexicon.rs:276-280: written anew from the visibility, the name and the names of the variants.
(Not shown: the attributes `derive(Debug, Clone, Copy, PartialEq, Eq, Hash)` and `repr(usize)`.) -/
def ItemL.rewritten (i : ItemL ω ρ) : ItemL ω ρ where
  head := i.head
  ident := i.ident
  generics := false
  attrs := []
  data := match i.data with
    | .enum vs => .enum (numbered 0 vs)
    | .fields _ => .enum []

/-- `derive_lexicon`: `expand_with_mut` (prelude.rs:38-55) of `lexicon::expand`. -/
def deriveLexicon (E : Macro.Engine) (i : ItemL ω ρ) : List (Piece (ItemL ω ρ) Macro.Lexicon Macro.Err) :=
  keepInput i.after ((Macro.expand E i.decl).map fun g => [.item i.rewritten, .code g])

end Teleparse.Item
