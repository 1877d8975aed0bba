import Verif.Model.RepairLexicon
import Verif.Spec.Lexicon
/-
What the repaired `derive_lexicon` accepts on a variant, in addition to what the present one does.
-/
namespace Teleparse.Macro

/-- The literals differ, and if there are literals, there are rules that produce tokens. -/
structure Variant.Sane (v : Variant) : Prop where
  distinct : v.lits.Nodup
  covered : v.lits ≠ [] → v.rules ≠ []

end Teleparse.Macro
