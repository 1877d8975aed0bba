import Verif.Model.RepairProgram
import Verif.Proof.ProgramSent
import Verif.Proof.RepairAll
/-
Running the code of a program with all repairs (C120).
-/
namespace Teleparse.Prog
open Macro Syn

section
variable {m n : Nat} {S : Schema m n} {c : Fin m → Code m n} (H : ∀ k, Implements (c k) (S k))
include H

theorem metadataFixOf_eq (fuel : Nat) (root : Ty m n) : metadataFixOf c fuel root = S.exactMetadata fuel root := by
  unfold metadataFixOf Schema.exactMetadata Schema.fixedMetadata
  rw [ruleOf_eq H]
  cases registerFrom S.rule fuel root.pid with
  | none => rfl
  | some G =>
    dsimp only
    cases fixedBuild fuel G root.pid with
    | none => rfl
    | some r => cases r <;> rfl

theorem produceFixOf_eq {σ : Type} (o : Ops σ n) (md : Metadata (PId m n) n) :
    ∀ fuel, produceFixOf o c md fuel = produceFix o S md fuel := by
  intro fuel
  induction fuel with
  | zero => rfl
  | succ fuel ih =>
    funext t
    cases t with
    | user k =>
      show (c k).produce o _ _ (produceFixOf o c md fuel) = _
      rw [(H k S k rfl).2 σ o md fuel, ih]
      rfl
    | _ =>
      show produceStepFix o anySchema md fuel (produceFixOf o c md fuel) _ =
        produceStepFix o S md fuel (produceFix o S md fuel) _
      rw [ih]
      rfl

theorem rootParseFixOf_eq (ext : Fin n → Bool) (fuel : Nat) (root : Ty m n) (source : Str) (items : List (Item n)) :
    rootParseFixOf ext c fuel root source items = rootParseFix ext S fuel root source items := by
  unfold rootParseFixOf parseFixOf rootParseFix Parser.parseFix Parser.parseWithMetaFix
  rw [metadataFixOf_eq H]
  cases S.exactMetadata fuel root with
  | none => rfl
  | some r =>
    cases r with
    | error e => rfl
    | ok md =>
      simp only [produceFixOf_eq H]
      cases produceFix (Parser.ops ext) S md fuel root (Parser.new source items) with
      | fuel => rfl
      | crash => rfl
      | ok r p => cases r <;> rfl

end

end Teleparse.Prog
