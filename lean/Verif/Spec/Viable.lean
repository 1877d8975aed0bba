import Verif.Spec.Parses
/-
Types by the number of errors they fail with. Used to say where the first error is exact (C70).
-/
namespace Teleparse
variable {m n : Nat}

/-- Types that by themselves never return a tree together with errors. -/
def Ty.Strict : Ty m n → Prop
  | .term _ k => k.lit = none
  | .user _ | .box _ | .quote _ | .parse _ => True
  | .tup2 _ _ | .tup3 _ _ _ | .tup4 _ _ _ _ | .tup5 _ _ _ _ _ => True
  | _ => False

/-- Types that never return a tree together with errors: no literals, options, repetitions, ... anywhere in them. -/
def NeverRepairs (S : Schema m n) (t : Ty m n) : Prop := ∀ u, Reach S.tyParts t u → u.Strict

/-- All types are in `Q`, and those before the last never repair. -/
def SeqOne (S : Schema m n) (Q : Ty m n → Prop) : List (Ty m n) → Prop
  | [] => True
  | [t] => Q t
  | t :: ts => Q t ∧ NeverRepairs S t ∧ SeqOne S Q ts

/-- One unfolding of `OneError`. -/
def OneErrorStep (S : Schema m n) (Q : Ty m n → Prop) : Ty m n → Prop
  | .term _ _ | .option _ | .exist _ | .star _ | .loop _ => True
  | .user k =>
    match S k with
    | .struct f fs => SeqOne S Q ((f :: fs).map (·.1))
    | .enum f fs => ∀ t ∈ (f :: fs).map (·.1), Q t
  | .box t | .quote t | .parse t | .plus t | .split t _ | .punct t _ => Q t
  | .recover _ _ => False
  | .tup2 a b => SeqOne S Q [a, b]
  | .tup3 a b c => SeqOne S Q [a, b, c]
  | .tup4 a b c d => SeqOne S Q [a, b, c, d]
  | .tup5 a b c d e => SeqOne S Q [a, b, c, d, e]

/-- Types that never fail with more than one error, because nothing before the place of a failure is repaired
(the largest set of types closed under `OneErrorStep`). -/
def OneError (S : Schema m n) (t : Ty m n) : Prop := ∃ Q : Ty m n → Prop, Q t ∧ ∀ u, Q u → OneErrorStep S Q u

/-- The parts of which `Split`, `Punct` and `Recover` keep only the last error fail with one error at most. -/
def KeepsErrors (S : Schema m n) (root : Ty m n) : Prop :=
  (∀ t p, Reach S.tyParts root (.split t p) → OneError S t) ∧
  (∀ t p, Reach S.tyParts root (.punct t p) → OneError S t) ∧
  (∀ t r, Reach S.tyParts root (.recover t r) → OneError S t ∧ OneError S r)

end Teleparse
