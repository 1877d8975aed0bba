import Verif.Model.Repair
/-
Not code of the repository: two ways to repair the check for left recursion, syntax/metadata.rs:91-190, which never
reports anything (C29).

The obvious one is to exchange the two tests at its beginning (lines 100-110), so that the stack is looked at first
(`checkLeftSwapped`).

The other one is a plain search along the parts a production can begin with, started at every production:

    fn check_left_recursive(prods, t, seen, stack, first) -> Result<(), GrammarError> {
        if stack.contains(&t) { return Err(GrammarError::left_recursion(stack, t)); }
        if !seen.insert(t) { return Ok(()); }
        stack.push(t);
        match prods.get(&t) {
            Some(Union(types)) => for inner in types { check_left_recursive(.., inner, ..)?; }
            Some(Sequence(types)) => for inner in types {
                check_left_recursive(.., inner, ..)?;
                if !first.get(inner).contains_epsilon() { break; }
            }
            _ => {}
        }
        stack.pop();
        Ok(())
    }
    for t in prods.keys() { check_left_recursive(&prods, *t, &mut seen, &mut Vec::new(), &first)?; }
-/
namespace Teleparse
variable {I : Type} {n : Nat} [DecidableEq I]

/-- syntax/metadata.rs:91-190 with lines 100-102 and 103-110 exchanged -/
def checkLeftSwapped (G : Grammar I n) (first : Tbl I n) :
    Nat → I → LR I → Option (Except (GErr I) (LR I))
  | 0, _, _ => none
  | fuel + 1, t, s =>
    if t ∈ s.set then some (.error (.leftRecursion s.stack t))
    else if t ∈ s.seen then some (.ok s)
    else
      let s := { s with seen := t :: s.seen, set := t :: s.set }
      match aget? G t with
      | none | some .eps | some (.term _) => some (.ok { s with set := s.set.filter (· ≠ t) })
      | some (.alt types) =>
        match lrAlts (checkLeftSwapped G first fuel) types
            { s with stack := s.stack ++ [t] } with
        | none => none
        | some (.error e) => some (.error e)
        | some (.ok s) => some (.ok (s.leave t))
      | some (.seq []) => some (.ok ({ s with stack := s.stack ++ [t] }.leave t))
      | some (.seq (c :: cs)) =>
        match checkLeftSwapped G first fuel c { s with stack := s.stack ++ [t] } with
        | none => none
        | some (.error e) => some (.error e)
        | some (.ok s) =>
          if (first.get c).containsE then
            lrRest (checkLeftSwapped G first fuel) first t cs s none
          else
            lrRest (checkLeftSwapped G first fuel) first t cs (s.leave t) (some ([], []))

/-- The parts of a sequence up to the first one that cannot be empty. -/
def leftParts (first : Tbl I n) : List I → List I
  | [] => []
  | c :: cs => if (first.get c).containsE then c :: leftParts first cs else [c]

/-- The parts a production can begin with. -/
def Grammar.lefts (G : Grammar I n) (first : Tbl I n) (t : I) : List I :=
  match aget? G t with
  | some (.alt l) => l
  | some (.seq l) => leftParts first l
  | _ => []

/-- A loop over productions that ends at the first error. -/
def leftAll (rec : I → List I → Option (Except (GErr I) (List I))) : List I → List I →
    Option (Except (GErr I) (List I))
  | [], seen => some (.ok seen)
  | c :: cs, seen =>
    match rec c seen with
    | none => none
    | some (.error e) => some (.error e)
    | some (.ok seen) => leftAll rec cs seen

/-- The search. `next` are the parts a production can begin with. -/
def leftSearch (next : I → List I) : Nat → List I → I → List I → Option (Except (GErr I) (List I))
  | 0, _, _, _ => none
  | fuel + 1, stack, t, seen =>
    if t ∈ stack then some (.error (.leftRecursion stack t))
    else if t ∈ seen then some (.ok seen)
    else leftAll (leftSearch next fuel (stack ++ [t])) (next t) (t :: seen)

/-- The search from every production. -/
def fixedLeft (G : Grammar I n) (first : Tbl I n) (fuel : Nat) : Option (Except (GErr I) (List I)) :=
  leftAll (leftSearch (G.lefts first) fuel []) (G.map (·.1)) []

/-- `fixedBuild` with the search in front. The present check is still there, but never reports anything. -/
def leftBuild (fuel : Nat) (G : Grammar I n) (root : I) : Option (Except (GErr I) (Metadata I n)) :=
  match buildFirst fuel G with
  | none => none
  | some first =>
    match fixedLeft G first fuel with
    | none => none
    | some (.error e) => some (.error e)
    | some (.ok _) => fixedBuild fuel G root

end Teleparse
