import Verif.Model.Infer
/-
When the lexicon of a type can be found: no type is asked about while its own lexicon is being searched.
-/
namespace Teleparse
variable {m n : Nat}

/-- While the lexicon of `p` is searched, the lexicon of `q` is asked for. -/
inductive AsksFor (S : Schema m n) : PId m n → PId m n → Prop
  | one {p q} : q ∈ S.asks p → AsksFor S p q
  | trans {p q r} : AsksFor S p q → AsksFor S q r → AsksFor S p r

/-- The lexicons of all types of the program are found: no type asks for itself. -/
def Schema.Infers (S : Schema m n) : Prop := ∀ k : Fin m, ¬ AsksFor S (.user k) (.user k)

end Teleparse
