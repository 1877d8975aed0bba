import Verif.Model.LexiconMacro
/-
Specification of `derive_lexicon`: how a declaration is to be read, independently of the order in which
the macro looks at it.
-/
namespace Teleparse.Macro

/-- Everything written inside the `teleparse` attributes of a variant. -/
def Variant.metas (v : Variant) : List VMeta := (v.attrs.filterMap id).flatten

def VMeta.regexes? : VMeta → Option (List Str)
  | .regex args => args
  | _ => none

def VMeta.terminals? : VMeta → Option (List TMeta)
  | .terminal args => args
  | _ => none

/-- The `regex(..)` attribute of a variant. -/
def Variant.regexes (v : Variant) : Option (List Str) := v.metas.findSome? VMeta.regexes?

/-- The terminals declared on a variant. -/
def Variant.terms (v : Variant) : List TMeta := (v.metas.findSome? VMeta.terminals?).getD []

/-- The literal of a terminal. -/
def TMeta.lit (t : TMeta) : Option Str :=
  match t.kind with
  | .value lit => lit
  | _ => none

/-- A terminal without a literal. -/
def TMeta.bare (t : TMeta) : Bool :=
  match t.kind with
  | .path => true
  | _ => false

/-- The literals written on a variant. -/
def Variant.lits (v : Variant) : List Str := v.terms.filterMap TMeta.lit

/-- The rules a variant has according to its declaration: its regexes; without `regex`, the literals,
unless there is a terminal without literal, which asks for a `regex` or makes the variant
semantic. -/
def Variant.rules (v : Variant) : List LexRule :=
  match v.regexes with
  | some rs => rs.map .regex
  | none => if v.terms.any TMeta.bare then [] else v.lits.map .token

/-- The variant takes part in lexing. -/
def Variant.Lexed (v : Variant) : Prop := v.regexes ≠ none ∨ v.rules ≠ []

/-- Neither rules nor terminals: the way to declare a semantic type (book, parser/semantic.md). -/
def Variant.Blank (v : Variant) : Prop := v.regexes = none ∧ v.terms = []

instance (v : Variant) : Decidable v.Lexed := by unfold Variant.Lexed; infer_instance
instance (v : Variant) : Decidable v.Blank :=
  decidable_of_iff (v.regexes = none ∧ v.terms.isEmpty = true) (by simp [Variant.Blank])

/-- The rules attached to the variant of this name in the generated lexer. -/
def Lexicon.rulesOf (L : Lexicon) (ident : Str) : List LexRule :=
  (L.logos.filter fun e => e.2 = ident).flatMap (·.1)

/-- A regex usable as a rule. -/
def GoodRegex (E : Engine) (r : Str) : Prop := E.compiles r = true ∧ E.find r [] = none

def VMeta.isRegex : VMeta → Bool
  | .regex _ => true
  | _ => false

def VMeta.isTerminal : VMeta → Bool
  | .terminal _ => true
  | _ => false

def VMeta.Known (m : VMeta) : Prop :=
  m = .list ∨ (∃ l, m = .regex (some l)) ∨ (∃ l, m = .terminal (some l))

def TMeta.Good (t : TMeta) : Prop :=
  t.ident ≠ none ∧ (t.kind = .path ∨ ∃ lit, lit ≠ [] ∧ t.kind = .value (some lit))

/-- What the macro accepts on a variant. -/
structure Variant.OK (E : Engine) (v : Variant) : Prop where
  unit : v.unit = true
  parses : ∀ a ∈ v.attrs, a ≠ none
  known : ∀ m ∈ v.metas, m.Known
  oneRegex : v.metas.countP VMeta.isRegex ≤ 1
  oneTerminal : v.metas.countP VMeta.isTerminal ≤ 1
  terms : ∀ t ∈ v.terms, t.Good
  oneBare : v.terms.countP TMeta.bare ≤ 1
  /-- the literals up to the terminal without literal differ -/
  distinct : ((v.terms.takeWhile fun t => !t.bare).filterMap TMeta.lit).Nodup
  /-- regexes do not come with literals for all terminals, and match the literals -/
  regexes : ∀ rs, v.regexes = some rs →
    (v.terms = [] ∨ ∃ t ∈ v.terms, t.bare = true) ∧
    ∀ r ∈ rs, GoodRegex E r ∧ ∀ lit ∈ v.lits, E.find r lit = some (0, lit.length)

def RMeta.Known (m : RMeta) : Prop := m = .terminalParse ∨ ∃ l, m = .ignore (some l)

def RMeta.isIgnore : RMeta → Bool
  | .ignore _ => true
  | _ => false

def RMeta.ignores : RMeta → List Str
  | .ignore (some l) => l
  | _ => []

/-- The metas of the root attribute. -/
def Decl.metas (d : Decl) : List RMeta := (d.attrs.filterMap id).flatten

/-- The regexes of skipped text. -/
def Decl.ignores (d : Decl) : List Str := d.metas.flatMap RMeta.ignores

/-- What the macro accepts. -/
structure Decl.OK (E : Engine) (d : Decl) : Prop where
  generics : d.generics = false
  oneAttr : d.attrs.length ≤ 1
  parses : ∀ a ∈ d.attrs, a ≠ none
  known : ∀ m ∈ d.metas, m.Known
  oneIgnore : d.metas.countP RMeta.isIgnore ≤ 1
  ignores : ∀ r ∈ d.ignores, GoodRegex E r
  enum : ∃ vs, d.variants = some vs ∧ 1 ≤ vs.length ∧ vs.length ≤ 128 ∧ ∀ v ∈ vs, v.OK E

/-- The terminal struct a declaration asks for. -/
def TMeta.struct (tp : Bool) (v : Str) (t : TMeta) : TermStruct :=
  { name := t.ident.getD [], variant := v, lit := t.lit, debug := t.lit.getD (t.ident.getD []), root := tp }

def RMeta.isTerminalParse : RMeta → Bool
  | .terminalParse => true
  | _ => false

/-- `terminal_parse` is written on the enum. -/
def Decl.terminalParse (d : Decl) : Bool := d.metas.any RMeta.isTerminalParse

/-- A scanner generated by logos for `L`: a token of a variant is a piece of source that one of the
rules attached to the variant matches. -/
def Lexicon.Scans (L : Lexicon) (mat : LexRule → Str → Prop) (ident text : Str) : Prop :=
  ∃ r ∈ L.rulesOf ident, mat r text

/-- What is wrong with a declaration according to an error message. -/
def Err.Cause (E : Engine) (d : Decl) : Err → Prop :=
  let On (v : Str) (p : Variant → Prop) : Prop := ∃ vs, d.variants = some vs ∧ ∃ x ∈ vs, x.ident = v ∧ p x
  let Some (p : Variant → Prop) : Prop := ∃ vs, d.variants = some vs ∧ ∃ x ∈ vs, p x
  let Rule (r : Str) : Prop := r ∈ d.ignores ∨ Some fun x => ∃ rs, x.regexes = some rs ∧ r ∈ rs
  let Both (r lit : Str) : Prop := Some fun x => (∃ rs, x.regexes = some rs ∧ r ∈ rs) ∧ lit ∈ x.lits
  fun
  | .generics => d.generics = true
  | .multipleRoot => 2 ≤ d.attrs.length
  | .parse => none ∈ d.attrs ∨ .ignore none ∈ d.metas ∨
      Some fun x => none ∈ x.attrs ∨ .regex none ∈ x.metas ∨ .terminal none ∈ x.metas
  | .rootAttr => .path ∈ d.metas ∨ .list ∈ d.metas ∨ .nameValue ∈ d.metas
  | .multipleIgnore => 2 ≤ d.metas.countP RMeta.isIgnore
  | .notEnum => d.variants = none
  | .regexSyntax r => Rule r ∧ E.compiles r = false
  | .regexEmpty r => Rule r ∧ E.find r [] ≠ none
  | .notUnit v => On v fun x => x.unit = false
  | .empty => d.variants = some []
  | .tooMany => ∃ vs, d.variants = some vs ∧ 128 < vs.length
  | .variantAttr v => On v fun x => .other ∈ x.metas
  | .multipleRegex v => On v fun x => 2 ≤ x.metas.countP VMeta.isRegex
  | .multipleTerminal v => On v fun x => 2 ≤ x.metas.countP VMeta.isTerminal
  | .terminalIdent v => On v fun x => ∃ t ∈ x.terms, t.ident = none
  | .multipleBare v => On v fun x => 2 ≤ x.terms.countP TMeta.bare
  | .notString v => On v fun x => ∃ t ∈ x.terms, t.kind = .value none
  | .emptyLiteral v => On v fun x => [] ∈ x.lits
  | .duplicate v lit => On v fun x => 2 ≤ x.lits.count lit
  | .terminalForm v => On v fun x => ∃ t ∈ x.terms, t.kind = .list
  | .redundantRegex v => On v fun x => x.regexes ≠ none ∧ x.lits ≠ [] ∧ ∀ t ∈ x.terms, t.bare = false
  | .regexStart r lit => Both r lit ∧ ∃ a b, E.find r lit = some (a, b) ∧ a ≠ 0
  | .regexPrefix r lit => Both r lit ∧ ∃ b, E.find r lit = some (0, b) ∧ b ≠ lit.length
  | .regexMismatch r lit => Both r lit ∧ E.find r lit = none

end Teleparse.Macro
