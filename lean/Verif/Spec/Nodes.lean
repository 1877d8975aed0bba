import Verif.Spec.Parses
import Verif.Spec.Tree
/-
Specification: the nodes of a tree, at any depth.
-/
namespace Teleparse
variable {m n : Nat}

/-- The second tree is the first one or a node in it, at any depth. -/
inductive Tree.Node : Tree n → Tree n → Prop
  | refl {x : Tree n} : Tree.Node x x
  | part {x y z : Tree n} {l : List (Tree n)} : l ∈ x.kids → z ∈ l → Tree.Node z y → Tree.Node x y

/-- The second type is the first one or a type in it, at any depth, or `Option` of it (the head of a `Recover` is a node
that may be empty). -/
def Inner (S : Schema m n) (t u : Ty m n) : Prop :=
  Reach S.tyParts t u ∨ ∃ v, u = .option v ∧ Reach S.tyParts t v

end Teleparse
