import Verif.Model.First
/-
Model of `syntax/follow/builder.rs`.
-/
namespace Teleparse
variable {I : Type} {n : Nat}

/-- syntax/follow/builder.rs:104-113 -/
inductive FollowRel (I : Type) where
  | unionFirstMinusEpsilon (a b : I)
  | unionFollow (a b : I)
  | ifEpsilonInAllFirst (set : List I) (inner : FollowRel I)

/-- syntax/follow/builder.rs:136-141 -/
def FollowRel.mkIf (set : List I) (r : FollowRel I) : FollowRel I :=
  if set.isEmpty then r else .ifEpsilonInAllFirst set r

variable [DecidableEq I]

/-- syntax/follow/builder.rs:49-55 -/
def followUnion (x : I) (variants : List I) : List (FollowRel I) :=
  variants.map fun y => .unionFollow y x

/-- First loop of syntax/follow/builder.rs:60-67, over the reversed sequence. -/
def followTails (x : I) : List I → List I → List (FollowRel I)
  | _, [] => []
  | set, yi :: rest => .mkIf set (.unionFollow yi x) :: followTails x (bsetInsert set yi).1 rest

/-- `windows(2)` -/
def windows2 : List I → List (I × I)
  | a :: b :: rest => (a, b) :: windows2 (b :: rest)
  | _ => []

/-- syntax/follow/builder.rs:58-73 -/
def followSequence (x : I) (sequence : List I) : List (FollowRel I) :=
  followTails x [] sequence.reverse ++
  (windows2 sequence).reverse.map fun w => .unionFirstMinusEpsilon w.1 w.2

/-- syntax/metadata.rs:66-76 -/
def followRels (x : I) : Rule I n → List (FollowRel I)
  | .eps => []
  | .term _ => []
  | .seq l => followSequence x l
  | .alt l => followUnion x l

/-- syntax/follow/builder.rs:147-185: the new relation, the new table, and whether it changed. -/
def FollowRel.process (first : Tbl I n) :
    FollowRel I → Tbl I n → FollowRel I × Tbl I n × Bool
  | .unionFirstMinusEpsilon a b, tbl =>
    let r := (tbl.get a).union (first.get b) false
    (.unionFirstMinusEpsilon a b, aset tbl a r.1, r.2)
  | .unionFollow a b, tbl =>
    let r := tbl.unionInto a b true
    (.unionFollow a b, aset tbl a r.1, r.2)
  | .ifEpsilonInAllFirst set inner, tbl =>
    let set' := set.filter fun t => !(first.get t).containsE
    if set'.isEmpty then inner.process first tbl
    else (.ifEpsilonInAllFirst set' inner, tbl, false)

/-- One round of syntax/follow/builder.rs:91-93. -/
def followPass (first : Tbl I n) :
    List (FollowRel I) → Tbl I n → List (FollowRel I) × Tbl I n × Bool
  | [], tbl => ([], tbl, false)
  | r :: rs, tbl =>
    let s := r.process first tbl
    let p := followPass first rs s.2.1
    (s.1 :: p.1, p.2.1, s.2.2 || p.2.2)

/-- syntax/follow/builder.rs:86-94 -/
def followLoop (first : Tbl I n) : Nat → List (FollowRel I) → Tbl I n → Option (Tbl I n)
  | 0, _, _ => none
  | fuel + 1, rels, tbl =>
    let p := followPass first rels tbl
    if p.2.2 then followLoop first fuel p.1 p.2.1 else some p.2.1

/-- syntax/metadata.rs:65-77 and syntax/follow/builder.rs:76-100. The productions are iterated in
registration order instead of the order of their type ids (`Model/TypeId.lean` has the other order, C130 the comparison). -/
def buildFollow (fuel : Nat) (first : Tbl I n) (G : Grammar I n) (root : I) : Option (Tbl I n) :=
  followLoop first fuel (G.flatMap fun p => followRels p.1 p.2) [(root, (TSet.empty.insertE).1)]

end Teleparse
