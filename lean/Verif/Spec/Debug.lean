import Verif.Model.Lex
/-
What a `Debug` text should tell: specification of C123.
-/
namespace Teleparse

/-- A byte of an identifier. -/
def IdentByte (c : Nat) : Prop := (48 ≤ c ∧ c ≤ 57) ∨ (65 ≤ c ∧ c ≤ 90) ∨ c = 95 ∨ (97 ≤ c ∧ c ≤ 122) ∨ 128 ≤ c

/-- Different names, which are identifiers. -/
structure GoodNames {n : Nat} (name : Fin n → Str) : Prop where
  inj : ∀ a b, name a = name b → a = b
  ident : ∀ a, name a ≠ [] ∧ ∀ c ∈ name a, IdentByte c

/-- The quoted text tells where it ends, and what was quoted. -/
def GoodQuote (quote : Str → Str) : Prop := ∀ a b x y, quote a ++ x = quote b ++ y → a = b ∧ x = y

/-- The same span, or two spans without text at the same place. -/
def Span.Alike (s t : Span) : Prop := s.lo = t.lo ∧ (s.hi = t.hi ∨ (s.hi ≤ s.lo ∧ t.hi ≤ t.lo))

end Teleparse
