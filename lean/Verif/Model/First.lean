import Verif.Model.Grammar
/-
Model of `syntax/first/builder.rs`.
-/
namespace Teleparse
variable {I : Type} {n : Nat}

/-- syntax/first/builder.rs:200-205 -/
inductive FirstInsert (n : Nat) where
  | token (ty : Fin n) (lit : Option Str)
  | epsilon
  deriving DecidableEq

/-- syntax/first/builder.rs:102-111. The `Option` around the inner relation is always `Some` (it exists
so that it can be moved out). -/
inductive FirstRel (I : Type) (n : Nat) where
  | insert (t : I) (ins : FirstInsert n)
  | unionMinusEpsilon (a b : I)
  | ifEpsilonInAll (set : List I) (inner : FirstRel I n)

/-- syntax/first/builder.rs:139-144 -/
def FirstRel.mkIf (set : List I) (r : FirstRel I n) : FirstRel I n :=
  if set.isEmpty then r else .ifEpsilonInAll set r

variable [DecidableEq I]

/-- syntax/first/builder.rs:43-51 -/
def firstUnion (x : I) (variants : List I) : List (FirstRel I n) :=
  variants.flatMap fun y => [.unionMinusEpsilon x y, .mkIf [y] (.insert x .epsilon)]

/-- syntax/first/builder.rs:55-70; `set` is the set of the symbols already passed. -/
def firstSequenceFrom (x : I) : List I → List I → List (FirstRel I n)
  | set, [] => [.mkIf set (.insert x .epsilon)]
  | set, yi :: rest =>
    .mkIf set (.unionMinusEpsilon x yi) :: firstSequenceFrom x (bsetInsert set yi).1 rest

/-- The relations added by `add_epsilon`, `add_terminal`, `add_sequence`, `add_union`
(syntax/metadata.rs:33-53). -/
def firstRels (x : I) : Rule I n → List (FirstRel I n)
  | .eps => [.insert x .epsilon]
  | .term t => [.insert x (.token t.ty t.lit)]
  | .seq l => firstSequenceFrom x [] l
  | .alt l => firstUnion x l

/-- The insertion into the set, syntax/first/builder.rs:154-157. -/
def FirstInsert.apply (ins : FirstInsert n) (s : TSet n) : TSet n × Bool :=
  match ins with
  | .epsilon => s.insertE
  | .token ty lit => s.insert ty lit

/-- The union of the entry of `b` into the entry of `a`, syntax/first/builder.rs:163-167 (without
epsilon) and syntax/follow/builder.rs:159-163 (with end of input). The entry of `a` is taken out of the
map before `b` is looked up, so `b` is not found if it is `a`. -/
def Tbl.unionInto (tbl : Tbl I n) (a b : I) (includeE : Bool) : TSet n × Bool :=
  match (if b = a then none else aget? tbl b) with
  | some setB => (tbl.get a).union setB includeE
  | none => (tbl.get a, false)

/-- syntax/first/builder.rs:174-177 -/
def Tbl.lacksEpsilon (tbl : Tbl I n) (t : I) : Bool :=
  match aget? tbl t with
  | some s => !s.containsE
  | none => true

/-- The result of processing one relation. -/
structure FirstStep (I : Type) (n : Nat) where
  rel : FirstRel I n
  tbl : Tbl I n
  changed : Bool
  retain : Bool

/-- syntax/first/builder.rs:150-195 -/
def FirstRel.process : FirstRel I n → Tbl I n → FirstStep I n
  | .insert t ins, tbl =>
    let r := ins.apply (tbl.get t)
    ⟨.insert t ins, aset tbl t r.1, r.2, false⟩
  | .unionMinusEpsilon a b, tbl =>
    let r := tbl.unionInto a b false
    ⟨.unionMinusEpsilon a b, aset tbl a r.1, r.2, true⟩
  | .ifEpsilonInAll set inner, tbl =>
    let set' := set.filter tbl.lacksEpsilon
    if set'.isEmpty then inner.process tbl
    else ⟨.ifEpsilonInAll set' inner, tbl, false, true⟩

/-- syntax/first/builder.rs:87-98: `retain_mut` over the relations. -/
def firstPass : List (FirstRel I n) → Tbl I n → List (FirstRel I n) × Tbl I n × Bool
  | [], tbl => ([], tbl, false)
  | r :: rs, tbl =>
    let s := r.process tbl
    let p := firstPass rs s.tbl
    (if s.retain then s.rel :: p.1 else p.1, p.2.1, s.changed || p.2.2)

/-- syntax/first/builder.rs:78-80 -/
def firstLoop : Nat → List (FirstRel I n) → Tbl I n → Option (Tbl I n)
  | 0, _, _ => none
  | fuel + 1, rels, tbl =>
    let p := firstPass rels tbl
    if p.2.2 then firstLoop fuel p.1 p.2.1 else some p.2.1

/-- `FirstBuilder::build` (syntax/first/builder.rs:73-83) on the relations of all registered
productions. -/
def buildFirst (fuel : Nat) (G : Grammar I n) : Option (Tbl I n) :=
  firstLoop fuel (G.flatMap fun p => firstRels p.1 p.2) []

end Teleparse
