import Verif.Model.RepairRecover
import Verif.Spec.Produce
/-
Running the parser with the repaired `Recover` (`Model/RepairRecover.lean`).
-/
namespace Teleparse
variable {m n : Nat}

/-- Producing `t` on the parser `p` with the repaired `Recover` returns `r` and leaves the parser `p'`. -/
def YieldsFix (ext : Fin n → Bool) (S : Schema m n) (md : Metadata (PId m n) n) (t : Ty m n) (p : Parser n)
    (r : Res n (Tree n)) (p' : Parser n) : Prop :=
  ∃ fuel, produceFix (Parser.ops ext) S md fuel t p = .ok r p'

end Teleparse
