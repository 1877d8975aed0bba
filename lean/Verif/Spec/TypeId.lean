import Verif.Spec.Relabel
/-
Specification of two runs that cannot be told apart.
-/
namespace Teleparse
variable {I : Type} {n m : Nat}

/-- The same metadata: sets have the same members, and tables the same entries. -/
structure SameMeta (md md' : Metadata I n) [DecidableEq I] : Prop where
  first : ∀ i x, (md'.first.get i).contains x = (md.first.get i).contains x
  follow : ∀ i x, (md'.follow.get i).contains x = (md.follow.get i).contains x
  jump : ∀ i x, md'.jump.lookUp i x = md.jump.lookUp i x

/-- The same result of the analysis: the same error, or the same metadata. -/
inductive SameVerdict [DecidableEq I] : Except (GErr I) (Metadata I n) → Except (GErr I) (Metadata I n) → Prop
  | error {e} : SameVerdict (.error e) (.error e)
  | ok {md md'} : SameMeta md md' → SameVerdict (.ok md) (.ok md')

/-- The same outcome of `Parser::parse`: the same grammar error and nothing done; or the same tree or none, and the same
parser (`ParserAs id`: tokens, semantic types, recorded and remaining input and errors are the same; an expected set has
the same members). -/
inductive AlikeOut : Out (Parser n) (Except (GErr I) (Option (Tree n))) → Out (Parser n) (Except (GErr I) (Option (Tree n))) → Prop
  | fuel : AlikeOut .fuel .fuel
  | crash : AlikeOut .crash .crash
  | rejected {e p} : AlikeOut (.ok (.error e) p) (.ok (.error e) p)
  | parsed {x p p'} : ParserAs id p p' → AlikeOut (.ok (.ok x) p) (.ok (.ok x) p')

end Teleparse
