import Verif.Spec.Viable
/-
The order of errors, and types whose errors are in order.
-/
namespace Teleparse
variable {m n : Nat}

/-- Errors in the order of the places they begin at. -/
def InOrder (l : List (Err n)) : Prop := l.Pairwise fun a b => a.span.lo ≤ b.span.lo

/-- Where tokens can be skipped before an element (`Split<T, P>`) or before the second type (`Recover<H, R>`), what
comes after the skipped tokens never returns a tree together with errors. -/
def OrderKept (S : Schema m n) (root : Ty m n) : Prop :=
  (∀ t p, Reach S.tyParts root (.split t p) → NeverRepairs S t) ∧
  (∀ t r, Reach S.tyParts root (.recover t r) → NeverRepairs S r)

end Teleparse
