import Verif.Spec.Parses
/-
Specification: the tokens of a tree.
-/
namespace Teleparse
variable {m n : Nat}

/-- The third list is made of the elements of the first and the second, each in its order. -/
inductive Shuffle {α : Type} : List α → List α → List α → Prop
  | nil : Shuffle [] [] []
  | left {a l r w} : Shuffle l r w → Shuffle (a :: l) r (a :: w)
  | right {a l r w} : Shuffle l r w → Shuffle l (a :: r) (a :: w)

mutual
/-- The tokens of the tree from left to right. A terminal that was put in for a missing one has an empty
span and is not a token of the input. `Exists`, `Quote` and `Parse` keep no tokens. The separators of a list
are kept apart from its elements. -/
inductive Tree.Reads : Tree n → List (Token n) → Prop
  | tok {t : Token n} : t.span.lo < t.span.hi → Tree.Reads (.tok t) [t]
  | missing {t : Token n} : t.span.lo = t.span.hi → Tree.Reads (.tok t) []
  | seq {sp l w} : ReadsAll l w → Tree.Reads (.seq sp l) w
  | variant {i x w} : Tree.Reads x w → Tree.Reads (.variant i x) w
  | optSome {sp x w} : Tree.Reads x w → Tree.Reads (.optSome sp x) w
  | optNone {sp} : Tree.Reads (.optNone sp) []
  | exist {sp b} : Tree.Reads (.exist sp b) []
  | text {sp s} : Tree.Reads (.text sp s) []
  | list {sp l w} : ReadsAll l w → Tree.Reads (.list sp l) w
  | split {sp es ps we wp w} : ReadsAll es we → ReadsAll ps wp → Shuffle we wp w →
      Tree.Reads (.split sp es ps) w
  | recover {hs x y wx wy} : Tree.Reads x wx → Tree.Reads y wy → Tree.Reads (.recover hs x y) (wx ++ wy)
  | recoverNone {hs y w} : Tree.Reads y w → Tree.Reads (.recoverNone hs y) w

/-- The tokens of the trees one after the other. -/
inductive ReadsAll : List (Tree n) → List (Token n) → Prop
  | nil : ReadsAll [] []
  | cons {x l w ws} : Tree.Reads x w → ReadsAll l ws → ReadsAll (x :: l) (w ++ ws)
end

/-- The type keeps its tokens: no `Exists`, `Quote` or `Parse` in it. -/
def Keeps (S : Schema m n) (t : Ty m n) : Prop :=
  ∀ u, Reach S.tyParts t u → ∀ a, u ≠ .exist a ∧ u ≠ .quote a ∧ u ≠ .parse a

end Teleparse
