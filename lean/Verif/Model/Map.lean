import Verif.Model.Sets
import Verif.Model.Set
/-
Model of the rest of `lex::Map` (lex/map.rs): iteration, comparison, `Debug` and `Serialize`. `Map.get` and `Map.set`
are in Model/Sets.lean.
-/
namespace Teleparse.Map
variable {n : Nat} {V : Type}

/-- `iter`, lex/map.rs:57-59 -/
def iter (m : Map n V) : List V := m.data

/-- `enumerate().map(|(ty, item)| (L::from_id_unchecked(ty), item))` from index `i` on; `none` is the undefined
behaviour of `from_id_unchecked` for a number that is no token type. -/
def zipFrom (n : Nat) {V : Type} : Nat → List V → Option (List (Fin n × V))
  | _, [] => some []
  | i, v :: vs => do
    let t ← fromId? n i
    let rest ← zipFrom n (i + 1) vs
    return (t, v) :: rest

/-- `iter_zip`, lex/map.rs:67-71; the entries of `Debug`, lex/map.rs:26-35, are the same -/
def iterZip (m : Map n V) : Option (List (Fin n × V)) := zipFrom n 0 m.iter

/-- Writing to all entries through `iter_zip_mut`, lex/map.rs:74-78: `f` is what is written for a token type and its old
entry. -/
def updateFrom (n : Nat) {V : Type} (f : Fin n → V → V) : Nat → List V → Option (List V)
  | _, [] => some []
  | i, v :: vs => do
    let t ← fromId? n i
    let rest ← updateFrom n f (i + 1) vs
    return f t v :: rest

/-- See `updateFrom`; the length of an array does not change. -/
def iterZipMut (f : Fin n → V → V) (m : Map n V) : Option (List V) := updateFrom n f 0 m.data

/-- `PartialEq`, lex/map.rs:37-41: the entries are compared with `==` of the entry type. -/
def eq [BEq V] (m o : Map n V) : Bool := (m.iter.zip o.iter).all fun (a, b) => a == b

end Teleparse.Map
