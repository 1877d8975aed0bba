import Verif.Model.Lex
/-
Model of `lex/lexer.rs`. The logos scanner is an arbitrary list of outcomes.
-/
namespace Teleparse
variable {n : Nat}

/-- One result of `logos::Lexer::next` together with `logos::Lexer::span` after it: a token (already
converted by `L::from`, lexer.rs:77-87), or a piece of source no rule matches. -/
inductive Item (n : Nat) where
  | token (t : Token n)
  | error (sp : Span)
  deriving DecidableEq, Repr

/-- `LogosLexerWrapper`, lexer.rs:27-30: what the scanner will still return (after the last outcome it
returns `None` forever), and the current value of `inner.span()`. -/
structure Lexer (n : Nat) where
  items : List (Item n)
  last : Span
  deriving DecidableEq, Repr

/-- The loop lexer.rs:39-58 and the value computed after it; the arguments are the remaining outcomes,
`inner.span()`, `has_invalid`, `invalid_start`, `invalid_end`. -/
def Lexer.nextLoop : List (Item n) → Span → Bool → Nat → Nat →
    (Option Span × Option (Token n)) × Lexer n
  | [], last, has, start, stop => ((if has then some ⟨start, stop⟩ else none, none), ⟨[], last⟩)
  | .token t :: rest, _, has, start, stop =>
    ((if has then some ⟨start, stop⟩ else none, some t), ⟨rest, t.span⟩)
  | .error sp :: rest, _, has, start, _ =>
    Lexer.nextLoop rest sp true (if has then start else sp.lo) sp.hi

/-- `Lexer::next`, lexer.rs:34-67 -/
def Lexer.next (l : Lexer n) : (Option Span × Option (Token n)) × Lexer n :=
  Lexer.nextLoop l.items l.last false l.last.hi l.last.hi

end Teleparse
