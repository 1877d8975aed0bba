import Verif.Model.Program
import Verif.Model.RepairAll
import Verif.Model.RepairLexicon
/-
Not code of the repository: running the code of a program with all repairs, those of `Model/RepairAll.lean` and that
of `Model/RepairLexicon.lean`. The code generated by `derive_syntax` is the present one.
-/
namespace Teleparse.Prog
open Macro Syn
variable {m n : Nat}

/-- `T::metadata()`, macros/src/root.rs:5-31, with the three repairs of the metadata -/
def metadataFixOf (c : Fin m → Code m n) (fuel : Nat) (root : Ty m n) :
    Option (Except (GErr (PId m n)) (Metadata (PId m n) n)) :=
  match registerFrom (ruleOf c) fuel root.pid with
  | none => none
  | some G =>
    match fixedBuild fuel G root.pid with
    | none => none
    | some (.error e) => some (.error e)
    | some (.ok md) => some (.ok md.withDefault)

/-- `T::produce` for all types of the program, with the repair of `Recover` -/
def produceFixOf {σ : Type} (o : Ops σ n) (c : Fin m → Code m n) (md : Metadata (PId m n) n) : Nat → Ty m n → P σ n
  | 0, _ => M.fuel
  | fuel + 1, .user k => (c k).produce o (md.jump.lookUp (.user k)) (md.first.get (.user k)) (produceFixOf o c md fuel)
  | fuel + 1, t => produceStepFix o anySchema md fuel (produceFixOf o c md fuel) t

/-- `Parser::parse`, parser_impl.rs:45-86, with the repairs -/
def parseFixOf (ext : Fin n → Bool) (c : Fin m → Code m n) (fuel : Nat) (root : Ty m n) (p : Parser n) :
    Out (Parser n) (Except (GErr (PId m n)) (Option (Tree n))) :=
  match metadataFixOf c fuel root with
  | none => .fuel
  | some (.error e) => .ok (.error e) p
  | some (.ok md) =>
    match produceFixOf (Parser.ops ext) c md fuel root p with
    | .fuel => .fuel
    | .crash => .crash
    | .ok (.success t) p => .ok (.ok (some t)) p
    | .ok (.recovered t e) p =>
      .ok (.ok (some t)) { p with info := { p.info with errors := p.info.errors ++ e } }
    | .ok (.panic e) p => .ok (.ok none) { p with info := { p.info with errors := p.info.errors ++ e } }

/-- `Root::parse`, parser/tree.rs:23-25, with the repairs -/
def rootParseFixOf (ext : Fin n → Bool) (c : Fin m → Code m n) (fuel : Nat) (root : Ty m n) (source : Str)
    (items : List (Item n)) : Out (Parser n) (Except (GErr (PId m n)) (Option (Tree n))) :=
  parseFixOf ext c fuel root (Parser.new source items)

end Teleparse.Prog
