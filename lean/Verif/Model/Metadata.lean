import Verif.Model.Follow
import Verif.Model.Jump
/-
Model of `syntax/metadata.rs`: registration, the three traversals, `MetadataBuilder::build`.
-/
namespace Teleparse
variable {I : Type} {n : Nat}

/-- `GrammarError`, lib.rs:68-77, naming productions by id and without the list of conflicting
terminals (both only appear in the message). -/
inductive GErr (I : Type) where
  | leftRecursion (stack : List I) (current : I)
  | firstFirst (self before inner : I)
  | firstFollowSeq (self cur next : I)
  | firstFollow (self : I)
  deriving DecidableEq

variable [DecidableEq I]

section Dfs
variable {σ E : Type}

/-- The loop over the parts of `t` in a traversal: `edge` is what is done for the `i`-th part before
descending into it. -/
def dfsParts (rec : I → List I × σ → Option (Except E (List I × σ))) (edge : I → Nat → I → σ → σ)
    (t : I) : Nat → List I → List I × σ → Option (Except E (List I × σ))
  | _, [], st => some (.ok st)
  | i, c :: cs, st =>
    match rec c (st.1, edge t i c st.2) with
    | none => none
    | some (.error e) => some (.error e)
    | some (.ok st) => dfsParts rec edge t (i + 1) cs st

/-- The recursion scheme shared by registration (`register_sequence!`, `register_union!`,
syntax/ast.rs:68-88), `check_conflicts` (syntax/metadata.rs:192-280) and `build_jump`
(syntax/metadata.rs:305-331): do nothing for a type already in `seen`, else mark it, do `pre`, then
visit its parts from left to right. `Err` aborts. The fuel bounds the recursion depth. -/
def dfs (parts : I → List I) (pre : I → σ → Except E σ) (edge : I → Nat → I → σ → σ) :
    Nat → I → List I × σ → Option (Except E (List I × σ))
  | 0, _, _ => none
  | fuel + 1, t, (seen, s) =>
    if t ∈ seen then some (.ok (seen, s))
    else
      match pre t s with
      | .error e => some (.error e)
      | .ok s => dfsParts (dfs parts pre edge fuel) edge t 0 (parts t) (t :: seen, s)

end Dfs

/-- `T::register(&mut builder)` where `ruleOf` gives what each type registers: syntax/ast.rs:68-88,
syntax/metadata.rs:25-53. `seen` is the key set of `names`. -/
def registerFrom (ruleOf : I → Rule I n) (fuel : Nat) (root : I) : Option (Grammar I n) :=
  match dfs (E := Empty) (fun t => (ruleOf t).parts) (fun t G => .ok (G ++ [(t, ruleOf t)]))
      (fun _ _ _ G => G) fuel root ([], []) with
  | some (.ok (_, G)) => some G
  | _ => none

/-- The parts of a registered production. -/
def Grammar.partsOf (G : Grammar I n) (t : I) : List I :=
  match aget? G t with
  | some r => r.parts
  | none => []

/-! ### Left recursion -/

/-- The mutable arguments of `check_left_recursive`. -/
structure LR (I : Type) where
  seen : List I
  set : List I
  stack : List I

/-- `stack.pop(); set.remove(&t)` -/
def LR.leave (s : LR I) (t : I) : LR I :=
  { s with set := s.set.filter (· ≠ t), stack := s.stack.dropLast }

/-- The loop syntax/metadata.rs:120-127 over the alternatives. -/
def lrAlts (rec : I → LR I → Option (Except (GErr I) (LR I))) :
    List I → LR I → Option (Except (GErr I) (LR I))
  | [], s => some (.ok s)
  | c :: cs, s =>
    match rec c s with
    | none => none
    | some (.error e) => some (.error e)
    | some (.ok s) => lrAlts rec cs s

/-- The loop syntax/metadata.rs:160-185 over the parts of a sequence after the first one. `temp` is
`none` while the caller's set and stack are in use (`need_pop`), else the temporary ones. -/
def lrRest (rec : I → LR I → Option (Except (GErr I) (LR I))) (first : Tbl I n) (t : I) :
    List I → LR I → Option (List I × List I) → Option (Except (GErr I) (LR I))
  | [], s, none => some (.ok (s.leave t))
  | [], s, some _ => some (.ok s)
  | c :: cs, s, none =>
    match rec c s with
    | none => none
    | some (.error e) => some (.error e)
    | some (.ok s) =>
      if (first.get c).containsE then lrRest rec first t cs s none
      else lrRest rec first t cs (s.leave t) (some ([], []))
  | c :: cs, s, some (tset, tstack) =>
    match rec c ⟨s.seen, tset, tstack⟩ with
    | none => none
    | some (.error e) => some (.error e)
    | some (.ok s') =>
      let s := { s with seen := s'.seen }
      if (first.get c).containsE then lrRest rec first t cs s (some (s'.set, s'.stack))
      else lrRest rec first t cs s (some ([], []))

/-- syntax/metadata.rs:91-190 -/
def checkLeftRecursive (G : Grammar I n) (first : Tbl I n) :
    Nat → I → LR I → Option (Except (GErr I) (LR I))
  | 0, _, _ => none
  | fuel + 1, t, s =>
    if t ∈ s.seen then some (.ok s)
    else
      let s := { s with seen := t :: s.seen }
      if t ∈ s.set then some (.error (.leftRecursion s.stack t))
      else
        let s := { s with set := t :: s.set }
        match aget? G t with
        | none | some .eps | some (.term _) => some (.ok { s with set := s.set.filter (· ≠ t) })
        | some (.alt types) =>
          match lrAlts (checkLeftRecursive G first fuel) types
              { s with stack := s.stack ++ [t] } with
          | none => none
          | some (.error e) => some (.error e)
          | some (.ok s) => some (.ok (s.leave t))
        | some (.seq []) => some (.ok ({ s with stack := s.stack ++ [t] }.leave t))
        | some (.seq (c :: cs)) =>
          match checkLeftRecursive G first fuel c { s with stack := s.stack ++ [t] } with
          | none => none
          | some (.error e) => some (.error e)
          | some (.ok s) =>
            if (first.get c).containsE then
              lrRest (checkLeftRecursive G first fuel) first t cs s none
            else
              lrRest (checkLeftRecursive G first fuel) first t cs (s.leave t) (some ([], []))

/-! ### Conflicts -/

/-- The loop syntax/metadata.rs:208-233 over the alternatives; `all` are all alternatives. -/
def altConflict (first : Tbl I n) (t : I) (all : List I) : List I → TSet n → Option (GErr I)
  | [], _ => none
  | inner :: rest, check =>
    let firstSet := first.get inner
    if check.intersects firstSet true then
      match all.find? fun before => firstSet.intersects (first.get before) true with
      | some before => some (.firstFirst t before inner)
      | none => altConflict first t all rest (check.union firstSet true).1
    else altConflict first t all rest (check.union firstSet true).1

/-- The loop syntax/metadata.rs:251-271 over the parts after the first one. -/
def seqConflict (first : Tbl I n) (t : I) : I → TSet n → List I → Option (GErr I)
  | _, _, [] => none
  | cur, check, inner :: rest =>
    let nextFirst := first.get inner
    if check.intersects nextFirst false then some (.firstFollowSeq t cur inner)
    else if nextFirst.containsE then seqConflict first t cur (check.union nextFirst false).1 rest
    else seqConflict first t inner check.clear rest

/-- syntax/metadata.rs:282-303 -/
def selfConflict (first follow : Tbl I n) (t : I) : Option (GErr I) :=
  if !(first.get t).containsE then none
  else if (follow.get t).intersects (first.get t) false then some (.firstFollow t)
  else none

/-- What `check_conflicts` checks at one production, syntax/metadata.rs:203-272. -/
def nodeConflict (G : Grammar I n) (first follow : Tbl I n) (t : I) : Option (GErr I) :=
  match aget? G t with
  | none | some .eps | some (.term _) => none
  | some (.alt types) =>
    match altConflict first t types types TSet.empty with
    | some e => some e
    | none => selfConflict first follow t
  | some (.seq []) => none
  | some (.seq (c :: cs)) =>
    let check := if (first.get c).containsE then first.get c else TSet.empty
    match seqConflict first t c check cs with
    | some e => some e
    | none => selfConflict first follow t

/-- syntax/metadata.rs:192-280 -/
def checkConflicts (G : Grammar I n) (first follow : Tbl I n) (fuel : Nat) (root : I) :
    Option (Except (GErr I) (List I × Unit)) :=
  dfs G.partsOf
    (fun t _ => match nodeConflict G first follow t with
      | some e => .error e
      | none => .ok ())
    (fun _ _ _ s => s) fuel root ([], ())

/-- `prods.get(&t)` is a union. -/
def Grammar.isAlt (G : Grammar I n) (t : I) : Bool :=
  match aget? G t with
  | some (.alt _) => true
  | _ => false

/-- syntax/metadata.rs:305-331 -/
def buildJump (G : Grammar I n) (first : Tbl I n) (fuel : Nat) (root : I) :
    Option (Except Empty (List I × Jump I n)) :=
  dfs G.partsOf (fun _ j => .ok j)
    (fun t i c j => if G.isAlt t then j.register t (first.get c) i else j)
    fuel root ([], [])

/-- syntax/metadata.rs:339-344 (without the names) -/
structure Metadata (I : Type) (n : Nat) where
  first : Tbl I n
  follow : Tbl I n
  jump : Jump I n

/-- `MetadataBuilder::build`, syntax/metadata.rs:55-89 -/
def build (fuel : Nat) (G : Grammar I n) (root : I) : Option (Except (GErr I) (Metadata I n)) :=
  match buildFirst fuel G with
  | none => none
  | some first =>
    match checkLeftRecursive G first fuel root ⟨[], [], []⟩ with
    | none => none
    | some (.error e) => some (.error e)
    | some (.ok _) =>
      match buildFollow fuel first G root with
      | none => none
      | some follow =>
        match checkConflicts G first follow fuel root with
        | none => none
        | some (.error e) => some (.error e)
        | some (.ok _) =>
          match buildJump G first fuel root with
          | some (.ok (_, jump)) => some (.ok ⟨first, follow, jump⟩)
          | _ => none

/-- `Metadata::build_for`, syntax/metadata.rs:357-362 (constructing the lexer never fails in the
generated code) -/
def buildFor (ruleOf : I → Rule I n) (fuel : Nat) (root : I) :
    Option (Except (GErr I) (Metadata I n)) :=
  match registerFrom ruleOf fuel root with
  | none => none
  | some G => build fuel G root

end Teleparse
