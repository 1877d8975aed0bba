import Verif.Spec.Terminals
import Verif.Model.Sets
/-
Productions as registered by the user's types, and the maps keyed by `TypeId`.
-/
namespace Teleparse

/-- What a type registers for itself: the arguments of `add_epsilon`, `add_terminal`, `add_sequence`
or `add_union` (syntax/metadata.rs:33-53). `ProductionEntry` (syntax/metadata.rs:333-337) is the same
without the contents of a terminal. `I` stands for `TypeId`. -/
inductive Rule (I : Type) (n : Nat) where
  | eps
  | term (t : Terminal n)
  | seq (parts : List I)
  | alt (alts : List I)
  deriving DecidableEq

/-- The types a production refers to. -/
def Rule.parts {I : Type} {n : Nat} : Rule I n → List I
  | .eps => []
  | .term _ => []
  | .seq l => l
  | .alt l => l

/-- The productions recorded in a `MetadataBuilder` (syntax/metadata.rs:16-20), in registration order.
The `BTreeMap`s `names` and `productions` have the same keys, since every `add_*` follows a `visit`. -/
abbrev Grammar (I : Type) (n : Nat) := List (I × Rule I n)

section Assoc
variable {I V : Type} [DecidableEq I]

/-- `BTreeMap::get` -/
def aget? : List (I × V) → I → Option V
  | [], _ => none
  | (k, v) :: m, i => if k = i then some v else aget? m i

/-- `BTreeMap::insert` -/
def aset : List (I × V) → I → V → List (I × V)
  | [], i, v => [(i, v)]
  | (k, w) :: m, i, v => if k = i then (k, v) :: m else (k, w) :: aset m i v

end Assoc

/-- `BTreeMap<TypeId, FirstSet>` or `BTreeMap<TypeId, FollowSet>`. -/
abbrev Tbl (I : Type) (n : Nat) := List (I × TSet n)

/-- `First::get`, `Follow::get` (syntax/first/mod.rs:36-38, syntax/follow/mod.rs:35-37): the empty set
if there is no entry. Also `entry(i).or_default()`. -/
def Tbl.get {I : Type} {n : Nat} [DecidableEq I] (t : Tbl I n) (i : I) : TSet n :=
  (aget? t i).getD TSet.empty

end Teleparse
