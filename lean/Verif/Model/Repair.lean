import Verif.Model.Produce
/-
Not code of the repository: `MetadataBuilder::build` with two repairs, for the defects that C24, C27 and C28
are about, and at the end a third one, for enums that can be empty. Everything else is as in `Model/Follow.lean` and `Model/Metadata.lean`.

1. `FollowBuilder::build_sequence` (syntax/follow/builder.rs:68-72) adds FIRST of *every* later part, under the
   condition that all parts between can be empty, instead of FIRST of the next part only:

       for (i, yi) in sequence.iter().enumerate().rev() {
           let mut set = BTreeSet::new();
           for yj in &sequence[i + 1..] {
               self.add(FollowRel::if_epsilon_in_all_first_iter(
                   set.iter(), FollowRel::union_first_minus_epsilon(*yi, *yj)));
               set.insert(*yj);
           }
       }

2. `LitSet::clear` (syntax/lit_set.rs) makes the set empty also if it is `Any`.
-/
namespace Teleparse
variable {I : Type} {n : Nat} [DecidableEq I]

/-- Repair 1, the inner loop. -/
def followOvers (y : I) : List I → List I → List (FollowRel I)
  | _, [] => []
  | set, z :: rest => .mkIf set (.unionFirstMinusEpsilon y z) :: followOvers y (bsetInsert set z).1 rest

/-- Repair 1, the outer loop. -/
def followPairs : List I → List (FollowRel I)
  | [] => []
  | y :: rest => followPairs rest ++ followOvers y [] rest

/-- syntax/follow/builder.rs:58-73 with repair 1 -/
def fixedSequence (x : I) (sequence : List I) : List (FollowRel I) :=
  followTails x [] sequence.reverse ++ followPairs sequence

/-- syntax/metadata.rs:66-76 with repair 1 -/
def fixedRels (x : I) : Rule I n → List (FollowRel I)
  | .eps => []
  | .term _ => []
  | .seq l => fixedSequence x l
  | .alt l => followUnion x l

/-- syntax/follow/builder.rs:76-100 with repair 1 -/
def fixedFollow (fuel : Nat) (first : Tbl I n) (G : Grammar I n) (root : I) : Option (Tbl I n) :=
  followLoop first fuel (G.flatMap fun p => fixedRels p.1 p.2) [(root, (TSet.empty.insertE).1)]

/-- syntax/lit_set.rs `clear` with repair 2 -/
def LitSet.fixedClear : LitSet → LitSet
  | _ => .mat []

/-- syntax/term_set.rs `clear` with repair 2 -/
def TSet.fixedClear (s : TSet n) : TSet n := ⟨s.map.map LitSet.fixedClear, false⟩

/-- syntax/metadata.rs:251-271 with repair 2 -/
def fixedSeqConflict (first : Tbl I n) (t : I) : I → TSet n → List I → Option (GErr I)
  | _, _, [] => none
  | cur, check, inner :: rest =>
    let nextFirst := first.get inner
    if check.intersects nextFirst false then some (.firstFollowSeq t cur inner)
    else if nextFirst.containsE then fixedSeqConflict first t cur (check.union nextFirst false).1 rest
    else fixedSeqConflict first t inner check.fixedClear rest

/-- syntax/metadata.rs:203-272 with repair 2 -/
def fixedNodeConflict (G : Grammar I n) (first follow : Tbl I n) (t : I) : Option (GErr I) :=
  match aget? G t with
  | none | some .eps | some (.term _) => none
  | some (.alt types) =>
    match altConflict first t types types TSet.empty with
    | some e => some e
    | none => selfConflict first follow t
  | some (.seq []) => none
  | some (.seq (c :: cs)) =>
    let check := if (first.get c).containsE then first.get c else TSet.empty
    match fixedSeqConflict first t c check cs with
    | some e => some e
    | none => selfConflict first follow t

/-- syntax/metadata.rs:192-280 with repair 2 -/
def fixedConflicts (G : Grammar I n) (first follow : Tbl I n) (fuel : Nat) (root : I) :
    Option (Except (GErr I) (List I × Unit)) :=
  dfs G.partsOf
    (fun t _ => match fixedNodeConflict G first follow t with
      | some e => .error e
      | none => .ok ())
    (fun _ _ _ s => s) fuel root ([], ())

/-- syntax/metadata.rs:55-89 with both repairs -/
def fixedBuild (fuel : Nat) (G : Grammar I n) (root : I) : Option (Except (GErr I) (Metadata I n)) :=
  match buildFirst fuel G with
  | none => none
  | some first =>
    match checkLeftRecursive G first fuel root ⟨[], [], []⟩ with
    | none => none
    | some (.error e) => some (.error e)
    | some (.ok _) =>
      match fixedFollow fuel first G root with
      | none => none
      | some follow =>
        match fixedConflicts G first follow fuel root with
        | none => none
        | some (.error e) => some (.error e)
        | some (.ok _) =>
          match buildJump G first fuel root with
          | some (.ok (_, jump)) => some (.ok ⟨first, follow, jump⟩)
          | _ => none

/-- `Metadata::build_for` (syntax/metadata.rs:357-362) with both repairs -/
def Schema.fixedMetadata {m : Nat} (S : Schema m n) (fuel : Nat) (root : Ty m n) :
    Option (Except (GErr (PId m n)) (Metadata (PId m n) n)) :=
  match registerFrom S.rule fuel root.pid with
  | none => none
  | some G => fixedBuild fuel G root.pid

/-! ### A third repair

`JumpTable::look_up` (syntax/jump.rs:111-115) uses the variant that can be empty also if the token does not select a
variant:

    token.and_then(|token| self.look_up_token(token)).or(self.epsilon)
-/

/-- syntax/jump.rs:111-115 with repair 3 -/
def JumpTable.fixedLookUp (t : JumpTable n) (tok : Option (TokenSrc n)) : Option Nat :=
  (tok.bind t.lookUpToken).or t.epsilon

/-- A table in which the present `look_up` finds what the repaired one finds in `t` (`withDefault_lookUp`). It spares
a second copy of the parser, which only uses tables by looking up. -/
def JumpTable.withDefault (t : JumpTable n) : JumpTable n :=
  { t with map := t.map.map fun e => (e.1.or t.epsilon, e.2) }

/-- The metadata as the parser with repair 3 sees it. -/
def Metadata.withDefault (md : Metadata I n) : Metadata I n :=
  { md with jump := md.jump.map fun e => (e.1, e.2.withDefault) }

/-- `Metadata::build_for` (syntax/metadata.rs:357-362) with the three repairs -/
def Schema.exactMetadata {m : Nat} (S : Schema m n) (fuel : Nat) (root : Ty m n) :
    Option (Except (GErr (PId m n)) (Metadata (PId m n) n)) :=
  match S.fixedMetadata fuel root with
  | none => none
  | some (.error e) => some (.error e)
  | some (.ok md) => some (.ok md.withDefault)

end Teleparse
