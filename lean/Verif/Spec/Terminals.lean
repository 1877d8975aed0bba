import Verif.Model.Lex
/-
Specification of terminals: what tokens a terminal symbol stands for.
-/
namespace Teleparse

/-- A terminal symbol of a grammar: a token type and possibly a literal text. -/
structure Terminal (n : Nat) where
  ty : Fin n
  lit : Option Str
  deriving DecidableEq, Repr

/-- The tokens a terminal stands for: right type, and the right text if one is given. -/
def Terminal.Matches {n : Nat} (t : Terminal n) (tok : TokenSrc n) : Prop :=
  tok.ty = t.ty ∧ ∀ l, t.lit = some l → tok.src = l

instance {n : Nat} (t : Terminal n) (tok : TokenSrc n) : Decidable (t.Matches tok) := by
  unfold Terminal.Matches
  cases t.lit with
  | none => exact decidable_of_iff (tok.ty = t.ty) (by simp)
  | some l => exact decidable_of_iff (tok.ty = t.ty ∧ tok.src = l) (by simp)

end Teleparse
