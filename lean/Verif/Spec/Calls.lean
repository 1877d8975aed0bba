import Verif.Spec.Produce
/-
Specification of a program that parses a file piece by piece, with one call of `Parser::parse` after the other.
-/
namespace Teleparse
variable {m n : Nat}

/-- Calls of `parser.parse::<T>()` one after the other, each made while tokens are left and each returning a tree:
the trees, and the parser after the last call. -/
inductive Calls (ext : Fin n → Bool) (S : Schema m n) (t : Ty m n) : Parser n → List (Tree n) → Parser n → Prop
  | stop (p) : Calls ext S t p [] p
  | call {p p1 p2 : Parser n} {f : Nat} {x : Tree n} {xs : List (Tree n)} : p.lookahead ext ≠ none →
      p.parse ext S f t = .ok (.ok (some x)) p1 → Calls ext S t p1 xs p2 → Calls ext S t p (x :: xs) p2

end Teleparse
