import Verif.Model.MacroItem
import Verif.Spec.SyntaxMacro
import Verif.Spec.Lexicon
/-
What rustc sees of the declarations after the macros ran: which declarations there are, and what it says about them.
-/
namespace Teleparse.Item
variable {τ ω ρ μ : Type}

def Attr.isOwn : Attr μ ω → Bool
  | .own _ => true
  | .other _ => false

/-- The attributes that are not of the crate. -/
def foreign (as : List (Attr μ ω)) : List (Attr μ ω) := as.filter fun a => !a.isOwn

/-- The number of attributes of the crate. -/
def owned (as : List (Attr μ ω)) : Nat := as.countP Attr.isOwn

def FieldsI.list : FieldsI τ ω → List (FieldI τ ω)
  | .unnamed l => l
  | .named l => l
  | .unit => []

def FieldsI.owned (fs : FieldsI τ ω) : Nat := (fs.list.map fun f => Item.owned f.attrs).sum

/-- The number of attributes of the crate on the fields of variants, where none is read. -/
def DataI.deep : DataI τ ω → Nat
  | .enum vs => (vs.map fun v => v.fields.owned).sum
  | _ => 0

/-- The number of attributes of the crate on the fields and variants. -/
def DataI.owned : DataI τ ω → Nat
  | .struct fs => fs.owned
  | .enum vs => (vs.map fun v => Item.owned v.attrs + v.fields.owned).sum
  | .union l => (l.map fun f => Item.owned f.attrs).sum

def ItemI.owned (i : ItemI τ ω ρ) : Nat := Item.owned i.attrs + i.data.owned

/-- The item without the attributes of the crate on it, on its fields and on its variants. -/
def FieldI.bare (f : FieldI τ ω) : FieldI τ ω := { f with attrs := foreign f.attrs }

def DataI.bare : DataI τ ω → DataI τ ω
  | .struct (.unnamed l) => .struct (.unnamed (l.map FieldI.bare))
  | .struct (.named l) => .struct (.named (l.map FieldI.bare))
  | .struct .unit => .struct .unit
  | .enum vs => .enum (vs.map fun v => { v with attrs := foreign v.attrs })
  | .union l => .union (l.map FieldI.bare)

def ItemI.bare (i : ItemI τ ω ρ) : ItemI τ ω ρ := { i with attrs := foreign i.attrs, data := i.data.bare }

def DataL.owned : DataL ω → Nat
  | .enum vs => (vs.map fun v => Item.owned v.attrs).sum
  | .fields l => (l.map Item.owned).sum

def ItemL.owned (i : ItemL ω ρ) : Nat := Item.owned i.attrs + i.data.owned

def DataL.bare : DataL ω → DataL ω
  | .enum vs => .enum (vs.map fun v => { v with attrs := foreign v.attrs })
  | .fields l => .fields (l.map foreign)

def ItemL.bare (i : ItemL ω ρ) : ItemL ω ρ := { i with attrs := foreign i.attrs, data := i.data.bare }

/-- What rustc says about the output of a macro. -/
inductive Complaint (ε : Type) where
  /-- the message of the macro -/
  | macro (e : ε)
  /-- "cannot find attribute `teleparse` in this scope" -/
  | unknownAttr
  /-- "the name .. is defined multiple times" -/
  | duplicate
  deriving DecidableEq

def Piece.item? {ι γ ε : Type} : Piece ι γ ε → Option ι
  | .item i => some i
  | _ => none

def Piece.error? {ι γ ε : Type} : Piece ι γ ε → Option ε
  | .error e => some e
  | _ => none

/-- The declarations among the pieces. -/
def items {ι γ ε : Type} (ps : List (Piece ι γ ε)) : List ι := ps.filterMap Piece.item?

/-- The messages about the pieces: those of the macro, one for every attribute of the crate that is still there, and one
for every declaration but the first. `owned` counts the attributes of an item. -/
def complaints {ι γ ε : Type} (owned : ι → Nat) (ps : List (Piece ι γ ε)) : List (Complaint ε) :=
  (ps.filterMap Piece.error?).map .macro ++ List.replicate ((items ps).map owned).sum .unknownAttr ++
    List.replicate ((items ps).length - 1) .duplicate

/-- The output of a derive macro is added to the item it is written on; that of an attribute macro replaces the item. -/
def derived {ι γ ε : Type} (i : ι) (ps : List (Piece ι γ ε)) : List (Piece ι γ ε) := .item i :: ps

/-- What is in the attributes of the crate. -/
def own (as : List (Attr μ ω)) : List (Option (List μ)) :=
  as.filterMap fun a => match a with
    | .own m => some m
    | .other _ => none

/-- The items `derive_syntax` accepts, as they are written. -/
structure ItemI.Fine (i : ItemI τ ω ρ) : Prop where
  oneAttr : (own i.attrs).length ≤ 1
  parses : none ∉ own i.attrs
  root : ∀ l, some l ∈ own i.attrs → .path ∉ l ∧ .other ∉ l ∧ (.noTest ∈ l → .root ∈ l)
  parts : (∃ fs, i.data = .struct fs ∧ fs.list ≠ [] ∧ ∀ f ∈ fs.list, Syn.Attrs.OK (own f.attrs)) ∨
    ∃ vs, i.data = .enum vs ∧ vs ≠ [] ∧ ∀ v ∈ vs, v.discriminant = none ∧ (∃ f, v.fields = .unnamed [f]) ∧
      Syn.Attrs.OK (own v.attrs)

/-- The items `derive_lexicon` accepts, as they are written. -/
structure ItemL.Fine (E : Macro.Engine) (i : ItemL ω ρ) : Prop where
  generics : i.generics = false
  oneAttr : (own i.attrs).length ≤ 1
  parses : none ∉ own i.attrs
  root : ∀ l, some l ∈ own i.attrs → (∀ m ∈ l, m.Known) ∧ l.countP Macro.RMeta.isIgnore ≤ 1 ∧
    ∀ rs, .ignore (some rs) ∈ l → ∀ r ∈ rs, Macro.GoodRegex E r
  variants : ∃ vs, i.data = .enum vs ∧ 1 ≤ vs.length ∧ vs.length ≤ 128 ∧
    ∀ v ∈ vs, Macro.Variant.OK E ⟨v.ident, v.unit, own v.attrs⟩

end Teleparse.Item
