import Verif.Model.Produce
import Verif.Spec.TokenStore
/-
Specification of well-formed trees.
-/
namespace Teleparse
variable {n : Nat}

/-- The span of every node of the tree satisfies `P`. -/
inductive Tree.AllSpans (P : Span → Prop) : Tree n → Prop
  | tok {t : Token n} : P t.span → AllSpans P (.tok t)
  | seq {sp l} : P sp → (∀ x ∈ l, AllSpans P x) → AllSpans P (.seq sp l)
  | variant {i x} : AllSpans P x → AllSpans P (.variant i x)
  | optSome {sp x} : P sp → AllSpans P x → AllSpans P (.optSome sp x)
  | optNone {sp} : P sp → AllSpans P (.optNone sp)
  | exist {sp b} : P sp → AllSpans P (.exist sp b)
  | text {sp s} : P sp → AllSpans P (.text sp s)
  | list {sp l} : P sp → (∀ x ∈ l, AllSpans P x) → AllSpans P (.list sp l)
  | split {sp l q} : P sp → (∀ x ∈ l, AllSpans P x) → (∀ x ∈ q, AllSpans P x) →
      AllSpans P (.split sp l q)
  | recover {hs x y} : P hs → P ⟨hs.lo, y.span.hi⟩ → AllSpans P x → AllSpans P y →
      AllSpans P (.recover hs x y)
  | recoverNone {hs y} : P hs → P ⟨hs.lo, y.span.hi⟩ → AllSpans P y → AllSpans P (.recoverNone hs y)

/-- Both ends lie in the source, on character boundaries. -/
def Span.InSource (source : Str) (sp : Span) : Prop :=
  (sp.lo ≤ source.length ∧ isBoundary source sp.lo = true) ∧
  (sp.hi ≤ source.length ∧ isBoundary source sp.hi = true)

/-- The parts of a node, in order; elements and separators of a list are separate lists. The head of a
`Recover` is a node with an optional tree. -/
def Tree.kids : Tree n → List (List (Tree n))
  | .tok _ => []
  | .seq _ l => [l]
  | .variant _ x => [[x]]
  | .optSome _ x => [[x]]
  | .optNone _ => []
  | .exist _ _ => []
  | .text _ _ => []
  | .list _ l => [l]
  | .split _ es ps => [es, ps]
  | .recover hs x y => [[.optSome hs x, y]]
  | .recoverNone hs y => [[.optNone hs, y]]

/-- Spans are not inverted, parts lie in their parent, consecutive parts do not overlap and are in order. -/
inductive Tree.Nested : Tree n → Prop
  | node {x : Tree n} : x.span.lo ≤ x.span.hi → (∀ l ∈ x.kids, ∀ y ∈ l, Tree.Nested y) →
      (∀ l ∈ x.kids, ∀ y ∈ l, y.span.Inside x.span) →
      (∀ l ∈ x.kids, l.Pairwise fun a b => a.span.hi ≤ b.span.lo) → Tree.Nested x

end Teleparse
