import Verif.Spec.Grammar
/-
Which grammars the grammar test accepts, and which tokens it thinks can follow: specification of C121.
-/
namespace Teleparse
variable {I : Type} {n : Nat}

/-- `x` (a token, or `none` for the end of input) is next to `i`: the end of input is next to the root; what is next to a
production is next to its variants, to the last part of a sequence, and to a part of a sequence after which everything can be
empty; and what begins a part of a sequence is next to the part directly before. (The textbook FOLLOW has one more rule: if
the part directly after can be empty, what begins the one after that.) -/
inductive NextTo (G : Grammar I n) (root : I) : I → Option (TokenSrc n) → Prop
  | root : NextTo G root root none
  | variant {x l y o} : (x, Rule.alt l) ∈ G → y ∈ l → NextTo G root x o → NextTo G root y o
  | tail {x pre y post o} : (x, Rule.seq (pre ++ y :: post)) ∈ G → (∀ k ∈ post, Nullable G k) →
      NextTo G root x o → NextTo G root y o
  | next {x pre y z post tok} : (x, Rule.seq (pre ++ y :: z :: post)) ∈ G → FirstOf G z tok →
      NextTo G root y (some tok)

/-- The test of the book: for all productions that the root reaches,
* no two variants can begin with the same token, or can both be empty;
* no two parts of a sequence can begin with the same token, if the first of them and all between them can be empty;
* nothing that can be empty begins with a token that is next to it. -/
structure Tested (G : Grammar I n) (root : I) : Prop where
  variants : ∀ t l, Reachable G root t → (t, Rule.alt l) ∈ G →
    ∀ (p q : Nat) a b, p < q → l[p]? = some a → l[q]? = some b → ¬ Overlap G a b
  parts : ∀ t pre a mid b post, Reachable G root t → (t, Rule.seq (pre ++ a :: (mid ++ b :: post))) ∈ G →
    Nullable G a → (∀ k ∈ mid, Nullable G k) → ∀ tok, FirstOf G a tok → ¬ FirstOf G b tok
  ends : ∀ t, Reachable G root t → Nullable G t → ∀ tok, FirstOf G t tok → ¬ NextTo G root t (some tok)

end Teleparse
