import Verif.Spec.Grammar
import Verif.Spec.Message
import Verif.Model.Metadata
/-
What the errors about a grammar claim, for C125.
-/
namespace Teleparse
variable {I : Type} {n : Nat}

/-- What a grammar error claims, in terms of the grammar only. -/
def GErr.Holds (G : Grammar I n) (root : I) : GErr I → Prop
  | .leftRecursion stack cur => cur ∈ stack ∧ LeftDerives G cur cur ∧
      ∀ (k : Nat) (a b : I), (stack ++ [cur])[k]? = some a → (stack ++ [cur])[k + 1]? = some b → LeftDerives G a b
  | .firstFirst t a b => Reachable G root t ∧ ∃ l, (t, Rule.alt l) ∈ G ∧
      ∃ p q : Nat, p < q ∧ l[p]? = some a ∧ l[q]? = some b ∧ Overlap G a b
  | .firstFollowSeq t a b => Reachable G root t ∧ ∃ pre mid post, (t, Rule.seq (pre ++ a :: (mid ++ b :: post))) ∈ G ∧
      Nullable G a ∧ (∀ k ∈ mid, Nullable G k) ∧ ∃ tok, FirstOf G a tok ∧ FirstOf G b tok
  | .firstFollow t => Reachable G root t ∧ Nullable G t ∧ ∃ tok, FirstOf G t tok ∧ FollowOf G root t (some tok)

/-- The terminals that an error is about; `none` is the empty text. -/
def GErr.About (G : Grammar I n) (root : I) : GErr I → Option (TokenSrc n) → Prop
  | .firstFirst _ a b, some tok => FirstOf G a tok ∧ FirstOf G b tok
  | .firstFirst _ a b, none => Nullable G a ∧ Nullable G b
  | .firstFollowSeq _ a b, some tok => FirstOf G a tok ∧ FirstOf G b tok
  | .firstFollow t, some tok => FirstOf G t tok ∧ FollowOf G root t (some tok)
  | _, _ => False

/-- The productions that an error names, in the order of its text. -/
def GErr.named : GErr I → List I
  | .leftRecursion stack cur => stack ++ [cur]
  | .firstFirst t a b => [t, a, b]
  | .firstFollowSeq t a b => [t, a, b, a]
  | .firstFollow t => [t]

end Teleparse
