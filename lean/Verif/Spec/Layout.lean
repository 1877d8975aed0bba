import Verif.Spec.Steps
/-
Specification of what it means that two parses are the same up to where the tokens are in the source.
-/
namespace Teleparse
variable {m n : Nat}

/-- A source, its tokens (without extracted ones), and what is in the token store before the first of them. -/
structure Layout (n : Nat) where
  source : Str
  tokens : List (Token n)
  before : TokenVec n

/-- The tokens with their texts. -/
def Layout.words (L : Layout n) : List (TokenSrc n) := L.tokens.map (Token.word L.source)

/-- Where the tokens in the store end. -/
def Layout.start (L : Layout n) : Nat := (L.before.getLast?.map (·.token.span.hi)).getD 0

/-- Positions that correspond: the beginning, the end, and where corresponding tokens begin and end. -/
inductive SamePlace (L L' : Layout n) : Nat → Nat → Prop
  | start : SamePlace L L' L.start L'.start
  | eof : SamePlace L L' L.source.length L'.source.length
  | lo {i : Nat} {t t' : Token n} : L.tokens[i]? = some t → L'.tokens[i]? = some t' → SamePlace L L' t.span.lo t'.span.lo
  | hi {i : Nat} {t t' : Token n} : L.tokens[i]? = some t → L'.tokens[i]? = some t' → SamePlace L L' t.span.hi t'.span.hi

structure SameSpan (L L' : Layout n) (a b : Span) : Prop where
  lo : SamePlace L L' a.lo b.lo
  hi : SamePlace L L' a.hi b.hi

/-- Related elements at the same positions. -/
inductive Pointwise {α β : Type} (R : α → β → Prop) : List α → List β → Prop
  | nil : Pointwise R [] []
  | cons {a b l l'} : R a b → Pointwise R l l' → Pointwise R (a :: l) (b :: l')

mutual
/-- The same tree, with corresponding spans. -/
inductive SameTree (L L' : Layout n) : Tree n → Tree n → Prop
  | tok {s s' ty} : SameSpan L L' s s' → SameTree L L' (.tok ⟨s, ty⟩) (.tok ⟨s', ty⟩)
  | seq {s s' l l'} : SameSpan L L' s s' → SameTrees L L' l l' → SameTree L L' (.seq s l) (.seq s' l')
  | variant {i t t'} : SameTree L L' t t' → SameTree L L' (.variant i t) (.variant i t')
  | optSome {s s' t t'} : SameSpan L L' s s' → SameTree L L' t t' → SameTree L L' (.optSome s t) (.optSome s' t')
  | optNone {s s'} : SameSpan L L' s s' → SameTree L L' (.optNone s) (.optNone s')
  | exist {s s' b} : SameSpan L L' s s' → SameTree L L' (.exist s b) (.exist s' b)
  /-- the texts are those of the spans, so they can differ in what is between tokens -/
  | text {s s'} : SameSpan L L' s s' →
      SameTree L L' (.text s (textOf L.source s)) (.text s' (textOf L'.source s'))
  | list {s s' l l'} : SameSpan L L' s s' → SameTrees L L' l l' → SameTree L L' (.list s l) (.list s' l')
  | split {s s' l l' q q'} : SameSpan L L' s s' → SameTrees L L' l l' → SameTrees L L' q q' →
      SameTree L L' (.split s l q) (.split s' l' q')
  | recover {s s' h h' t t'} : SameSpan L L' s s' → SameTree L L' h h' → SameTree L L' t t' →
      SameTree L L' (.recover s h t) (.recover s' h' t')
  | recoverNone {s s' t t'} : SameSpan L L' s s' → SameTree L L' t t' →
      SameTree L L' (.recoverNone s t) (.recoverNone s' t')

inductive SameTrees (L L' : Layout n) : List (Tree n) → List (Tree n) → Prop
  | nil : SameTrees L L' [] []
  | cons {t t' l l'} : SameTree L L' t t' → SameTrees L L' l l' → SameTrees L L' (t :: l) (t' :: l')
end

/-- The same error at corresponding places. -/
structure SameErr (L L' : Layout n) (a b : Err n) : Prop where
  span : SameSpan L L' a.span b.span
  kind : a.kind = b.kind

abbrev SameErrs (L L' : Layout n) : List (Err n) → List (Err n) → Prop := Pointwise (SameErr L L')

inductive SameRes (L L' : Layout n) : Res n (Tree n) → Res n (Tree n) → Prop
  | success {t t'} : SameTree L L' t t' → SameRes L L' (.success t) (.success t')
  | recovered {t t' e e'} : SameTree L L' t t' → SameErrs L L' e e' → SameRes L L' (.recovered t e) (.recovered t' e')
  | panic {e e'} : SameErrs L L' e e' → SameRes L L' (.panic e) (.panic e')

/-- The syntax errors among the recorded errors: all but those about unrecognised characters. -/
def syntaxErrors (errs : List (Err n)) : List (Err n) := errs.filter fun e => e.kind != .unexpectedCharacters

/-- The same token with the same semantic types at corresponding places. -/
structure SameCell (L L' : Layout n) (a b : Cell n) : Prop where
  span : SameSpan L L' a.token.span b.token.span
  ty : a.token.ty = b.token.ty
  semantic : a.semantic = b.semantic

/-- The same tokens consumed and the same syntax errors recorded. -/
structure SameParser (L L' : Layout n) (p p' : Parser n) : Prop where
  tokens : Pointwise (SameCell L L') p.info.tokens p'.info.tokens
  errors : SameErrs L L' (syntaxErrors p.info.errors) (syntaxErrors p'.info.errors)

/-- The same outcome: results related by `R` and corresponding parsers. -/
inductive SameOut (L L' : Layout n) {α : Type} (R : α → α → Prop) : Out (Parser n) α → Out (Parser n) α → Prop
  | fuel : SameOut L L' R .fuel .fuel
  | crash : SameOut L L' R .crash .crash
  | ok {a a' p p'} : R a a' → SameParser L L' p p' → SameOut L L' R (.ok a p) (.ok a' p')

/-- The same answer of `Parser::parse`: the same grammar error, corresponding trees, or no tree. -/
inductive SameAnswer (L L' : Layout n) :
    Except (GErr (PId m n)) (Option (Tree n)) → Except (GErr (PId m n)) (Option (Tree n)) → Prop
  | error (e) : SameAnswer L L' (.error e) (.error e)
  | none : SameAnswer L L' (.ok none) (.ok none)
  | some {t t'} : SameTree L L' t t' → SameAnswer L L' (.ok (some t)) (.ok (some t'))

/-- Two states of a stream with the same layouts: as many tokens were consumed, with the same semantic types, and
what was in the stores before is still there. -/
structure Alike (L L' : Layout n) (v v' : View n) : Prop where
  src : v.source = L.source
  src' : v'.source = L'.source
  toks : ∃ new new', v.cells = L.before ++ new ∧ v'.cells = L'.before ++ new' ∧ new.map (·.token) ++ v.rest = L.tokens ∧
    new'.map (·.token) ++ v'.rest = L'.tokens ∧ new.map (·.semantic) = new'.map (·.semantic)

end Teleparse
