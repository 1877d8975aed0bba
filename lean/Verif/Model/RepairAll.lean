import Verif.Model.Repair
import Verif.Model.RepairRecover
/-
Not code of the repository: `Root::parse` with the four repairs together, the three of the metadata
(`Model/Repair.lean`) and the one of `Recover` (`Model/RepairRecover.lean`).
-/
namespace Teleparse
variable {m n : Nat}

/-- `parse_with_meta`, parser_impl.rs:71-86, with the repaired `Recover` -/
def Parser.parseWithMetaFix (ext : Fin n → Bool) (S : Schema m n) (md : Metadata (PId m n) n) (fuel : Nat)
    (root : Ty m n) (p : Parser n) : Out (Parser n) (Option (Tree n)) :=
  match produceFix (Parser.ops ext) S md fuel root p with
  | .fuel => .fuel
  | .crash => .crash
  | .ok (.success t) p => .ok (some t) p
  | .ok (.recovered t e) p =>
    .ok (some t) { p with info := { p.info with errors := p.info.errors ++ e } }
  | .ok (.panic e) p => .ok none { p with info := { p.info with errors := p.info.errors ++ e } }

/-- `Parser::parse`, parser_impl.rs:45-54, with the four repairs -/
def Parser.parseFix (ext : Fin n → Bool) (S : Schema m n) (fuel : Nat) (root : Ty m n) (p : Parser n) :
    Out (Parser n) (Except (GErr (PId m n)) (Option (Tree n))) :=
  match S.exactMetadata fuel root with
  | none => .fuel
  | some (.error e) => .ok (.error e) p
  | some (.ok md) =>
    match p.parseWithMetaFix ext S md fuel root with
    | .fuel => .fuel
    | .crash => .crash
    | .ok t p => .ok (.ok t) p

/-- `Root::parse`, parser/tree.rs:23-25, with the four repairs -/
def rootParseFix (ext : Fin n → Bool) (S : Schema m n) (fuel : Nat) (root : Ty m n) (source : Str)
    (items : List (Item n)) : Out (Parser n) (Except (GErr (PId m n)) (Option (Tree n))) :=
  Parser.parseFix ext S fuel root (Parser.new source items)

end Teleparse
