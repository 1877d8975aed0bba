import Verif.Spec.Steps
import Verif.Spec.Exact
/-
Specification of C106: inputs made of statements that end with a terminator, of which some are broken.
-/
namespace Teleparse
variable {m n : Nat}

/-- The token is one that the terminal `k` accepts. -/
def Token.Is (source : Str) (k : Terminal n) (a : Token n) : Prop := k.Matches (a.word source)

/-- No token is accepted by both terminals. -/
def Terminal.Apart (j k : Terminal n) : Prop :=
  j.ty ≠ k.ty ∨ ∃ a b, j.lit = some a ∧ k.lit = some b ∧ a ≠ b

/-- `t` is made of terminals other than `k`, and nothing in it skips tokens. -/
def Confined (S : Schema m n) (k : Terminal n) (t : Ty m n) : Prop :=
  ∀ u, Reach S.tyParts t u →
    match u with
    | .term _ j => j.Apart k
    | .loop _ | .split _ _ | .punct _ _ | .recover _ _ => False
    | _ => True

/-- The tokens before a statement: none, or their last one is a terminator. -/
def Ended (source : Str) (k : Terminal n) (ts : List (Token n)) : Prop :=
  ∀ a, ts.getLast? = some a → a.Is source k

/-- The position after the tokens, if `pos` is the position before. -/
def afterTokens (pos : Nat) (ts : List (Token n)) : Nat := (ts.getLast?.map (·.span.hi)).getD pos

/-- The span lies before the place `lo`, or after the place `hi`. -/
def Span.Outside (sp : Span) (lo hi : Nat) : Prop := sp.hi ≤ lo ∨ hi ≤ sp.lo

end Teleparse
