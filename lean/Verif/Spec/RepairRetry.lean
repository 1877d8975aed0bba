import Verif.Model.RepairRetry
import Verif.Spec.Steps
/-
Specification for the `Recover` that tries again where an attempt stopped (C133).
-/
namespace Teleparse
variable {m n : Nat}

/-- The repaired `Recover<t, u>`, with parts as they are in the repository, returns `r`. -/
def YieldsRetry (ext : Fin n → Bool) (S : Schema m n) (md : Metadata (PId m n) n) (t u : Ty m n) (p : Parser n)
    (r : Res n (Tree n)) (p' : Parser n) : Prop :=
  ∃ f, produceRecoverRetry (Parser.ops ext) (md.first.get t.pid) (md.first.get u.pid)
    (produce (Parser.ops ext) S md f t) (produce (Parser.ops ext) S md f u) f p = .ok r p'

/-- The search for a tail in which no token is passed over without an attempt at it or inside an attempt: a token is
skipped only if the tail cannot begin with it, or an attempt at it failed there; after an attempt that failed further on
the search continues at the place where it failed. -/
inductive EachStop (S : Schema m n) (md : Metadata (PId m n) n) (G : Grammar (PId m n) n) (t : Ty m n) :
    View n → Option (Res n (Tree n)) → View n → Prop
  | found {v r v1} : On S md t v r v1 → r.tree?.isSome = true → EachStop S md G t v (some r) v1
  | eof {v v1} : v.rest = [] → (v1 = v ∧ ¬ Nullable G t.pid) ∨ (∃ e, On S md t v (.panic e) v1) →
      EachStop S md G t v none v1
  | cannot {v x v1 o v'} : v.Passed [x] v1 → ¬ FirstOf G t.pid (x.word v.source) → ¬ Nullable G t.pid →
      EachStop S md G t v1 o v' → EachStop S md G t v o v'
  | fails {v x e v1 v2 o v'} : v.rest = x :: v2.rest → On S md t v (.panic e) v1 → v1.Passed [x] v2 →
      EachStop S md G t v2 o v' → EachStop S md G t v o v'
  | moved {v e v1 ts o v'} : On S md t v (.panic e) v1 → ts ≠ [] → v.rest = ts ++ v1.rest →
      EachStop S md G t v1 o v' → EachStop S md G t v o v'

end Teleparse
