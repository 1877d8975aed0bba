import Verif.Spec.Parses
import Verif.Spec.Nodes
/-
Specification for parsing a piece of a source on its own: everything has other positions.
-/
namespace Teleparse
variable {n : Nat}

/-- The span `k` bytes later. -/
def Span.up (k : Nat) (sp : Span) : Span := ⟨sp.lo + k, sp.hi + k⟩

/-- The token `k` bytes later. -/
def Token.up (k : Nat) (t : Token n) : Token n := ⟨t.span.up k, t.ty⟩

mutual
/-- The same tree, `k` bytes later. -/
def Tree.up (k : Nat) : Tree n → Tree n
  | .tok t => .tok (t.up k)
  | .seq sp l => .seq (sp.up k) (upAll k l)
  | .variant i x => .variant i (x.up k)
  | .optSome sp x => .optSome (sp.up k) (x.up k)
  | .optNone sp => .optNone (sp.up k)
  | .exist sp b => .exist (sp.up k) b
  | .text sp s => .text (sp.up k) s
  | .list sp l => .list (sp.up k) (upAll k l)
  | .split sp es ps => .split (sp.up k) (upAll k es) (upAll k ps)
  | .recover hs x y => .recover (hs.up k) (x.up k) (y.up k)
  | .recoverNone hs y => .recoverNone (hs.up k) (y.up k)

def upAll (k : Nat) : List (Tree n) → List (Tree n)
  | [] => []
  | x :: l => x.up k :: upAll k l
end

/-- What the lexer returns, `k` bytes later. -/
def Item.up (k : Nat) : Item n → Item n
  | .token t => .token (t.up k)
  | .error sp => .error (sp.up k)

/-- `items'` are the tokens and unrecognised pieces inside of the span, with positions counted from its beginning. -/
def Cut (sp : Span) (items items' : List (Item n)) : Prop :=
  items'.map (Item.up sp.lo) = items.filter fun i => sp.lo ≤ i.span.lo && i.span.hi ≤ sp.hi

/-- The node `y` of `x` is the tree `z`, or the head of a `Recover`, which is `z` in an option. -/
def Bare (x y z : Tree n) : Prop := y = z ∨ ∃ w, x.Node (.recover z.span z w) ∧ y = .optSome z.span z

end Teleparse
