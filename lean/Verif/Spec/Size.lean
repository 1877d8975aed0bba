import Verif.Model.Produce
/-
The size of a tree, independent of how it is produced.
-/
namespace Teleparse
variable {n : Nat}

mutual
/-- The number of nodes of a tree: every terminal, variant, option, text, list and sequence is one node. A struct
with a single field is not counted: it is a newtype and has no memory of its own. -/
def Tree.size : Tree n → Nat
  | .tok _ => 1
  | .seq _ l => sizes l + (if l.length = 1 then 0 else 1)
  | .variant _ t => t.size + 1
  | .optSome _ t => t.size + 1
  | .optNone _ => 1
  | .exist _ _ => 1
  | .text _ _ => 1
  | .list _ l => sizes l + 1
  | .split _ l q => sizes l + sizes q + 1
  | .recover _ h t => h.size + t.size + 1
  | .recoverNone _ t => t.size + 1
/-- The sum of the sizes of the parts. -/
def sizes : List (Tree n) → Nat
  | [] => 0
  | t :: l => t.size + sizes l
end

end Teleparse
