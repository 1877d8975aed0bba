import Verif.Spec.Grammar
/-
Specification: where the first error belongs. Used by C126.
-/
namespace Teleparse
variable {I : Type} {n : Nat}

/-- The words are the beginning of a sentence of `i`. -/
def Begins (G : Grammar I n) (i : I) (w : List (TokenSrc n)) : Prop :=
  ∃ ws, Derives G [.nt i] ((w ++ ws).map .tok)

/-- A piece of text that can be a token: not empty, and not beginning inside a character. -/
def TokenText (s : Str) : Prop := ∃ b l, s = b :: l ∧ (b < 128 ∨ 192 ≤ b)

/-- Nothing, or text that does not begin inside a character, as every `str`. -/
def Joins (q : Str) : Prop := q = [] ∨ TokenText q

/-- The terminals can be written down: none of them has a token type that is extracted (a comment), and the texts of
literals are texts of tokens. -/
def Spellable (ext : Fin n → Bool) (G : Grammar I n) : Prop :=
  ∀ i k, (i, Rule.term k) ∈ G → ext k.ty = false ∧ ∀ l, k.lit = some l → TokenText l

end Teleparse
