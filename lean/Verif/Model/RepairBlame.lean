import Verif.Model.RepairLeft
import Verif.Model.Names
/-
Not code of the repository: `MetadataBuilder::build` with the repairs of C110 and C114 and one more, for the defect
that C59 is about: the check of a sequence, syntax/metadata.rs:251-271, names the last part that cannot be empty
instead of the part that conflicts. The repaired check keeps the parts that can be empty instead of the union of
their FIRST sets:

    let mut pending = Vec::new();
    for inner in types {
        let next_first = first.get(inner);
        if let Some(before) = pending.iter().find(|x| first.get(x).intersects(next_first, false)) {
            let terminals = first.get(before).intersection_repr(next_first, false).join(", ");
            return Err(GrammarError::FirstFollowSeqConflict(t, before, inner, terminals));
        }
        if next_first.contains_epsilon() { pending.push(inner); } else { pending.clear(); }
    }
-/
namespace Teleparse
variable {I : Type} {n : Nat} [DecidableEq I]

/-- The loop above. -/
def blameSeq (first : Tbl I n) (t : I) : List I → List I → Option (GErr I)
  | _, [] => none
  | pending, inner :: rest =>
    match pending.find? fun before => (first.get before).intersects (first.get inner) false with
    | some before => some (.firstFollowSeq t before inner)
    | none => blameSeq first t (if (first.get inner).containsE then pending ++ [inner] else []) rest

/-- syntax/metadata.rs:203-272 with the loop above -/
def blameNode (G : Grammar I n) (first follow : Tbl I n) (t : I) : Option (GErr I) :=
  match aget? G t with
  | none | some .eps | some (.term _) => none
  | some (.alt types) =>
    match altConflict first t types types TSet.empty with
    | some e => some e
    | none => selfConflict first follow t
  | some (.seq types) =>
    match blameSeq first t [] types with
    | some e => some e
    | none => selfConflict first follow t

/-- syntax/metadata.rs:192-280 with the loop above -/
def blameConflicts (G : Grammar I n) (first follow : Tbl I n) (fuel : Nat) (root : I) :
    Option (Except (GErr I) (List I × Unit)) :=
  dfs G.partsOf
    (fun t _ => match blameNode G first follow t with
      | some e => .error e
      | none => .ok ())
    (fun _ _ _ s => s) fuel root ([], ())

/-- syntax/metadata.rs:55-89 with the repairs of C110, C114 and the loop above -/
def blameBuild (fuel : Nat) (G : Grammar I n) (root : I) : Option (Except (GErr I) (Metadata I n)) :=
  match buildFirst fuel G with
  | none => none
  | some first =>
    match fixedLeft G first fuel with
    | none => none
    | some (.error e) => some (.error e)
    | some (.ok _) =>
      match fixedFollow fuel first G root with
      | none => none
      | some follow =>
        match blameConflicts G first follow fuel root with
        | none => none
        | some (.error e) => some (.error e)
        | some (.ok _) =>
          match buildJump G first fuel root with
          | some (.ok (_, jump)) => some (.ok ⟨first, follow, jump⟩)
          | _ => none

/-- The terminals in an error of `blameBuild`. -/
def GErr.blameTerms (name : Fin n → Str) (first follow : Tbl I n) : GErr I → List Str
  | .leftRecursion _ _ => []
  | .firstFirst _ a b => (first.get b).intersectionRepr name (first.get a) true
  | .firstFollowSeq _ a b => (first.get a).intersectionRepr name (first.get b) false
  | .firstFollow t => selfTerms name first follow t

/-- The text of an error of `blameBuild`. -/
def Schema.blameText {m : Nat} (N : Idents m) (name : Fin n → Str) (first follow : Tbl (PId m n) n)
    (e : GErr (PId m n)) : Str := e.text (PId.debug N) (e.blameTerms name first follow)

end Teleparse
