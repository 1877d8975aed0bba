import Verif.Spec.Grammar
import Verif.Spec.Produce
/-
Where a type stops: specification of C77.
-/
namespace Teleparse
variable {m n : Nat}

/-- Nothing that can be at the end of `i` insists on knowing the token after it: no `Punct`, and no enum that
can be empty. -/
def Calm (S : Schema m n) (G : Grammar (PId m n) n) (i : PId m n) : Prop :=
  (∀ t p : Ty m n, ¬ EndsWith G i (Ty.punct t p).pid) ∧
    ∀ k v vs, S k = .enum v vs → EndsWith G i (.user k) → ¬ Nullable G (.user k)

end Teleparse
