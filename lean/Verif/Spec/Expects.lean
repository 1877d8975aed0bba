import Verif.Spec.Steps
/-
Specification of what an error "expecting ..." says.
-/
namespace Teleparse
variable {m n : Nat}

/-- Where the tokens begin, or the end of the source if there are none. -/
def startOf (source : Str) (l : List (Token n)) : Nat := (l.head?.map (·.span.lo)).getD source.length

/-- The set is exactly what can begin one of the types that make up `root`; at a `Punct` it is what can begin
an element, and possibly tokens that can follow the `Punct`. -/
def Expected (S : Schema m n) (root : Ty m n) (G : Grammar (PId m n) n) (s : TSet n) : Prop :=
  (∃ t, Reach S.tyParts root t ∧ ∀ x, s.contains x = true ↔ Starts G t.pid x) ∨
  (∃ t p, Reach S.tyParts root (.punct t p) ∧
    (∀ tok, FirstOf G t.pid tok → s.contains (some tok) = true) ∧
    (∀ x, s.contains x = true → ∃ tok, x = some tok ∧
      (FirstOf G t.pid tok ∨ FollowOf G root.pid (Ty.punct t p).pid (some tok))))

end Teleparse
