import Verif.Model.Grammar
/-
Model of `syntax/jump.rs` and `FirstSet::add_to_jump_table`.
-/
namespace Teleparse
variable {I : Type} {n : Nat}

/-- syntax/jump.rs:78-87 -/
structure JumpTable (n : Nat) where
  epsilon : Option Nat
  map : Map n (Option Nat × List (Str × Nat))

namespace JumpTable

/-- `JumpTable::default` -/
def empty : JumpTable n := ⟨none, Map.new (none, [])⟩
/-- syntax/jump.rs:119-126 -/
def lookUpToken (t : JumpTable n) (tok : TokenSrc n) : Option Nat :=
  match aget? (t.map.get tok.ty).2 tok.src with
  | some v => some v
  | none => (t.map.get tok.ty).1
/-- syntax/jump.rs:111-115. `unwrap_or` replaces a missing *token* by the epsilon entry. -/
def lookUp (t : JumpTable n) (tok : Option (TokenSrc n)) : Option Nat :=
  match tok with
  | some tok => t.lookUpToken tok
  | none => t.epsilon
/-- syntax/jump.rs:130-132 -/
def registerEpsilon (t : JumpTable n) (v : Nat) : JumpTable n := { t with epsilon := some v }
/-- syntax/jump.rs:136-138 -/
def register (t : JumpTable n) (v : Nat) (ty : Fin n) : JumpTable n :=
  { t with map := t.map.set ty (some v, (t.map.get ty).2) }
/-- syntax/jump.rs:142-144 -/
def registerLit (t : JumpTable n) (v : Nat) (ty : Fin n) (lit : Str) : JumpTable n :=
  { t with map := t.map.set ty ((t.map.get ty).1, aset (t.map.get ty).2 lit v) }

end JumpTable

/-- The body of the loop in `add_to_jump_table` for one token type. -/
def LitSet.addToJumpTable (s : LitSet) (ty : Fin n) (t : JumpTable n) (v : Nat) : JumpTable n :=
  match s with
  | .any => t.register v ty
  | .mat lits => lits.foldl (fun t l => t.registerLit v ty l) t

/-- syntax/first/set.rs:115-129 -/
def TSet.addToJumpTable (s : TSet n) (t : JumpTable n) (v : Nat) : JumpTable n :=
  let t := if s.containsE then t.registerEpsilon v else t
  (List.finRange n).foldl (fun t ty => (s.map.get ty).addToJumpTable ty t v) t

/-- syntax/jump.rs:41-44 -/
abbrev Jump (I : Type) (n : Nat) := List (I × JumpTable n)

variable [DecidableEq I]

/-- syntax/jump.rs:47-50 -/
def Jump.register (j : Jump I n) (t : I) (first : TSet n) (id : Nat) : Jump I n :=
  aset j t (first.addToJumpTable ((aget? j t).getD JumpTable.empty) id)

/-- syntax/jump.rs:53-55 -/
def Jump.lookUp (j : Jump I n) (t : I) (tok : Option (TokenSrc n)) : Option Nat :=
  match aget? j t with
  | some e => e.lookUp tok
  | none => none

end Teleparse
