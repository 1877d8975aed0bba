import Verif.Model.Lex
/-
Model of `lex::Map`, `syntax::LitSet`, `syntax::TerminalSet`, `FirstSet`, `FollowSet`.
-/
namespace Teleparse

/-- `lex::Map` (lex/map.rs:13): an array with one entry per token type. -/
structure Map (n : Nat) (V : Type) where
  data : List V
  len : data.length = n
  deriving DecidableEq

namespace Map
variable {n : Nat} {V W U : Type}

/-- `Map::default`: every entry has the default value. -/
def new (d : V) : Map n V := ⟨List.replicate n d, by simp⟩
/-- lex/map.rs:46-48 -/
def get (m : Map n V) (t : Fin n) : V := m.data[t.val]'(by rw [m.len]; exact t.isLt)
/-- Assignment through `get_mut`, lex/map.rs:52-54 -/
def set (m : Map n V) (t : Fin n) (v : V) : Map n V := ⟨m.data.set t.val v, by simp [m.len]⟩
/-- Update all entries in place (`iter_mut`, lex/map.rs:62-64). -/
def map (f : V → W) (m : Map n V) : Map n W := ⟨m.data.map f, by simp [m.len]⟩
/-- Update all entries in place, zipped with another map (`iter_mut().zip(iter())`). -/
def zipWith (f : V → W → U) (m : Map n V) (o : Map n W) : Map n U :=
  ⟨List.zipWith f m.data o.data, by simp [m.len, o.len]⟩

end Map

/-- `LitSet`, syntax/lit_set.rs:10-16. The `BTreeSet` is a list without duplicates (insertion order;
the order is only visible in error messages). -/
inductive LitSet where
  | mat (lits : List Str)
  | any
  deriving DecidableEq, Repr, Inhabited

/-- `BTreeSet::insert`: the new set and whether it changed. -/
def bsetInsert {α : Type} [DecidableEq α] (s : List α) (a : α) : List α × Bool :=
  if a ∈ s then (s, false) else (s ++ [a], true)

/-- `BTreeSet::extend` -/
def bsetExtend {α : Type} [DecidableEq α] (s : List α) (o : List α) : List α :=
  o.foldl (fun s a => (bsetInsert s a).1) s

namespace LitSet

/-- `LitSet::default` / `new`, syntax/lit_set.rs:7,12 -/
def empty : LitSet := .mat []
/-- syntax/lit_set.rs:49-54 -/
def clear : LitSet → LitSet
  | .mat _ => .mat []
  | .any => .any
/-- syntax/lit_set.rs:58-63 -/
def isEmpty : LitSet → Bool
  | .mat s => s.isEmpty
  | .any => false
/-- syntax/lit_set.rs:69-74 -/
def insert (s : LitSet) (l : Str) : LitSet × Bool :=
  match s with
  | .mat s => let r := bsetInsert s l; (.mat r.1, r.2)
  | .any => (.any, false)
/-- syntax/lit_set.rs:78-83 -/
def contains (s : LitSet) (l : Str) : Bool :=
  match s with
  | .mat s => decide (l ∈ s)
  | .any => true
/-- syntax/lit_set.rs:89-97 -/
def unionUniverse : LitSet → LitSet × Bool
  | .mat _ => (.any, true)
  | .any => (.any, false)
/-- syntax/lit_set.rs:100-113 -/
def union (s o : LitSet) : LitSet × Bool :=
  match s, o with
  | .mat a, .mat b =>
    let r := bsetExtend a b
    (.mat r, a.length != r.length)
  | .mat _, .any => (.any, true)
  | .any, _ => (.any, false)
/-- syntax/lit_set.rs:116-123 -/
def intersects (s o : LitSet) : Bool :=
  match s, o with
  | .mat a, .mat b => a.any (fun l => decide (l ∈ b))
  | .any, s => !s.isEmpty
  | s, .any => !s.isEmpty
/-- syntax/lit_set.rs:126-134 -/
def intersection (s o : LitSet) : LitSet :=
  match s, o with
  | .mat a, .mat b => .mat (a.filter (fun l => decide (l ∈ b)))
  | .any, .any => .any
  | .any, s => s
  | s, .any => s

end LitSet

/-- `TerminalSet`, syntax/term_set.rs:19-24. Also used for `FirstSet` (syntax/first/set.rs:15) and
`FollowSet` (syntax/follow/set.rs:15), which are newtypes of it: `e` is epsilon in a FIRST set and end
of input in a FOLLOW set. -/
structure TSet (n : Nat) where
  map : Map n LitSet
  e : Bool
  deriving DecidableEq

namespace TSet
variable {n : Nat}

/-- `TerminalSet::default` -/
def empty : TSet n := ⟨Map.new LitSet.empty, false⟩
/-- syntax/term_set.rs:78-83 -/
def clear (s : TSet n) : TSet n := ⟨s.map.map LitSet.clear, false⟩
/-- syntax/term_set.rs:88-92, first/set.rs:47-49, follow/set.rs:34-36 -/
def insertE (s : TSet n) : TSet n × Bool := ({ s with e := true }, !s.e)
/-- syntax/term_set.rs:98-102 -/
def removeE (s : TSet n) : TSet n × Bool := ({ s with e := false }, s.e)
/-- syntax/term_set.rs:106-108, first/set.rs:53-55, follow/set.rs:40-42 -/
def containsE (s : TSet n) : Bool := s.e
/-- syntax/term_set.rs:111-116, first/set.rs:59-61 -/
def insert (s : TSet n) (ty : Fin n) (lit : Option Str) : TSet n × Bool :=
  match lit with
  | some l => let r := (s.map.get ty).insert l; ({ s with map := s.map.set ty r.1 }, r.2)
  | none => let r := (s.map.get ty).unionUniverse; ({ s with map := s.map.set ty r.1 }, r.2)
/-- syntax/term_set.rs:119-124, first/set.rs:65-67, follow/set.rs:52-54 -/
def contains (s : TSet n) (tok : Option (TokenSrc n)) : Bool :=
  match tok with
  | none => s.e
  | some t => (s.map.get t.ty).contains t.src
/-- syntax/term_set.rs:144-160; `FirstSet::union` and `FollowSet::union_follow` use
`includeE = true`, `union_minus_epsilon` and `union_first` use `false` (first/set.rs:73-88,
follow/set.rs:61-71). -/
def union (s o : TSet n) (includeE : Bool) : TSet n × Bool :=
  let changedE := includeE && (!s.e && o.e)
  let rs := Map.zipWith LitSet.union s.map o.map
  (⟨rs.map Prod.fst, if changedE then true else s.e⟩, changedE || rs.data.any Prod.snd)
/-- syntax/term_set.rs:173-183; `FirstSet::intersects` uses `includeE = true`,
`intersects_minus_epsilon` and `FollowSet::intersects_first` use `false` (first/set.rs:92-100,
follow/set.rs:78-80). -/
def intersects (s o : TSet n) (includeE : Bool) : Bool :=
  (includeE && s.e && o.e) || (Map.zipWith LitSet.intersects s.map o.map).data.any id
/-- `FirstSet::one`, first/set.rs:32-36 -/
def one (ty : Fin n) (lit : Option Str) : TSet n := (empty.insert ty lit).1

end TSet
end Teleparse
