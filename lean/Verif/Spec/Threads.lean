import Verif.Model.Produce
/-
Specification of calls of `parse`: what a thread would get if it were alone and nothing were kept between calls.
-/
namespace Teleparse
variable {m n : Nat}

/-- Calls of `parse` for the roots in order, each with metadata computed anew: the results, and the parser afterwards. -/
inductive Alone (ext : Fin n → Bool) (S : Schema m n) : List (Ty m n) → Parser n →
    List (Except (GErr (PId m n)) (Option (Tree n))) → Parser n → Prop
  | nil {p} : Alone ext S [] p [] p
  | cons {r cs p fuel x p' xs q} : p.parse ext S fuel r = .ok x p' → Alone ext S cs p' xs q →
      Alone ext S (r :: cs) p (x :: xs) q

end Teleparse
