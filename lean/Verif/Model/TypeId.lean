import Verif.Model.Produce
/-
The same analysis with the productions in the order of their type ids. `Model/Metadata.lean` keeps them in the order of
registration.
-/
namespace Teleparse
variable {I : Type} {n m : Nat}

/-- A production put at its place in an ordered list. -/
def insertById (ids : I → Nat) (p : I × Rule I n) : Grammar I n → Grammar I n
  | [] => [p]
  | q :: G => if ids p.1 ≤ ids q.1 then p :: q :: G else q :: insertById ids p G

/-- The contents of `productions: BTreeMap<TypeId, ProductionEntry>` (syntax/metadata.rs:16-20) as iterated: `ids` gives
the position of a type in the order of type ids, which is up to the compiler. -/
def Grammar.byId (ids : I → Nat) : Grammar I n → Grammar I n
  | [] => []
  | p :: G => insertById ids p (Grammar.byId ids G)

variable [DecidableEq I]

/-- `MetadataBuilder::build`, syntax/metadata.rs:55-89. The FIRST relations were pushed in the order of registration
(syntax/metadata.rs:33-53); the FOLLOW relations are pushed in a loop over the map (syntax/metadata.rs:65-77); everything
else looks things up in the map. -/
def buildById (ids : I → Nat) (fuel : Nat) (G : Grammar I n) (root : I) : Option (Except (GErr I) (Metadata I n)) :=
  match buildFirst fuel G with
  | none => none
  | some first =>
    match checkLeftRecursive (G.byId ids) first fuel root ⟨[], [], []⟩ with
    | none => none
    | some (.error e) => some (.error e)
    | some (.ok _) =>
      match buildFollow fuel first (G.byId ids) root with
      | none => none
      | some follow =>
        match checkConflicts (G.byId ids) first follow fuel root with
        | none => none
        | some (.error e) => some (.error e)
        | some (.ok _) =>
          match buildJump (G.byId ids) first fuel root with
          | some (.ok (_, jump)) => some (.ok ⟨first, follow, jump⟩)
          | _ => none

/-- `T::metadata()`, syntax/metadata.rs:357-362 -/
def Schema.metadataById (ids : PId m n → Nat) (S : Schema m n) (fuel : Nat) (root : Ty m n) :
    Option (Except (GErr (PId m n)) (Metadata (PId m n) n)) :=
  match registerFrom S.rule fuel root.pid with
  | none => none
  | some G => buildById ids fuel G root.pid

/-- `Parser::parse`, parser/parser_impl.rs, with these metadata -/
def Parser.parseById (ids : PId m n → Nat) (ext : Fin n → Bool) (S : Schema m n) (fuel : Nat) (root : Ty m n) (p : Parser n) :
    Out (Parser n) (Except (GErr (PId m n)) (Option (Tree n))) :=
  match S.metadataById ids fuel root with
  | none => .fuel
  | some (.error e) => .ok (.error e) p
  | some (.ok md) =>
    match p.parseWithMeta ext S md fuel root with
    | .fuel => .fuel
    | .crash => .crash
    | .ok t p => .ok (.ok t) p

/-- `Root::parse`, parser/tree.rs:23-25, with these metadata -/
def rootParseById (ids : PId m n → Nat) (ext : Fin n → Bool) (S : Schema m n) (fuel : Nat) (root : Ty m n) (source : Str)
    (items : List (Item n)) : Out (Parser n) (Except (GErr (PId m n)) (Option (Tree n))) :=
  Parser.parseById ids ext S fuel root (Parser.new source items)

end Teleparse
