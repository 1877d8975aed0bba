import Verif.Model.Sets
import Verif.Model.Message
/-
The unit tests in syntax/lit_set.rs and syntax/term_set.rs. These are tests of the model, not proofs. The names are
those of the tests.
-/
namespace Teleparse.Conform.Sets

/-- `LitSet::from` -/
def lits (l : List String) : LitSet := l.foldl (fun s a => (s.insert (ascii a)).1) LitSet.empty

/-- `==` on `BTreeSet`s, which are kept sorted: the same members. -/
def Same : LitSet → LitSet → Prop
  | .mat a, .mat b => (∀ x ∈ a, x ∈ b) ∧ (∀ x ∈ b, x ∈ a)
  | .any, .any => True
  | _, _ => False

instance (a b : LitSet) : Decidable (Same a b) := by
  cases a <;> cases b <;> unfold Same <;> infer_instance

/-! ## syntax/lit_set.rs -/

/-- universe_contains_everything -/
example : LitSet.any.contains (ascii "") ∧ LitSet.any.contains (ascii "a") ∧ LitSet.any.contains (ascii "b") ∧
    LitSet.any.contains (ascii "c") := by decide +kernel
/-- contains_static, contains_dynamic -/
example : (lits ["a"]).contains (ascii "a") := by decide +kernel
/-- contains_static_not -/
example : ¬ (lits ["a"]).contains (ascii "b") := by decide +kernel
/-- union_universe_from_empty, union_universe_from_some, union_universe_from_universe -/
example : LitSet.empty.unionUniverse = (.any, true) ∧ (lits ["a"]).unionUniverse = (.any, true) ∧
    LitSet.any.unionUniverse = (.any, false) := by decide +kernel
/-- union -/
example : ((lits ["a", "b"]).union (lits ["b", "c"])).2 ∧
    Same ((lits ["a", "b"]).union (lits ["b", "c"])).1 (lits ["a", "b", "c"]) := by decide +kernel
/-- union_no_change_empty, union_no_change_subset, union_no_change_equal -/
example : ¬ ((lits ["a", "b"]).union LitSet.empty).2 ∧ ¬ ((lits ["a", "b"]).union (lits ["a"])).2 ∧
    ¬ ((lits ["a", "b"]).union (lits ["a", "b"])).2 := by decide +kernel
/-- union_disjoint -/
example : ((lits ["a", "b"]).union (lits ["d", "c"])).2 ∧
    Same ((lits ["a", "b"]).union (lits ["d", "c"])).1 (lits ["a", "b", "c", "d"]) := by decide +kernel
/-- intersect_empty_universe -/
example : LitSet.empty.intersects LitSet.empty = false ∧ LitSet.empty.intersects .any = false ∧
    LitSet.any.intersects .empty = false ∧ LitSet.any.intersects .any = true := by decide +kernel
/-- intersect_universe -/
example : LitSet.any.intersects (lits ["a", "b"]) ∧ (lits ["a", "b"]).intersects .any ∧
    Same (LitSet.any.intersection (lits ["a", "b"])) (lits ["a", "b"]) ∧
    Same ((lits ["a", "b"]).intersection .any) (lits ["a", "b"]) := by decide +kernel
/-- intersect_disjoint -/
example : ¬ (lits ["a", "b"]).intersects (lits ["c", "d"]) ∧ ¬ (lits ["c", "d"]).intersects (lits ["a", "b"]) ∧
    Same ((lits ["c", "d"]).intersection (lits ["a", "b"])) LitSet.empty ∧
    Same ((lits ["a", "b"]).intersection (lits ["c", "d"])) LitSet.empty := by decide +kernel
/-- intersect_subset -/
example : (lits ["a", "b"]).intersects (lits ["a"]) ∧ (lits ["a"]).intersects (lits ["a", "b"]) ∧
    Same ((lits ["a"]).intersection (lits ["a", "b"])) (lits ["a"]) ∧
    Same ((lits ["a", "b"]).intersection (lits ["a"])) (lits ["a"]) := by decide +kernel
/-- intersect_empty -/
example : ¬ (lits ["a", "b"]).intersects .empty ∧ ¬ LitSet.empty.intersects (lits ["a", "b"]) ∧
    Same (LitSet.empty.intersection (lits ["a", "b"])) .empty ∧
    Same ((lits ["a", "b"]).intersection .empty) .empty := by decide +kernel
/-- intersection -/
example : Same ((lits ["a", "b", "c"]).intersection (lits ["a", "c", "d"])) (lits ["a", "c"]) ∧
    Same ((lits ["a", "c", "d"]).intersection (lits ["a", "b", "c"])) (lits ["a", "c"]) := by decide +kernel

/-! ## syntax/term_set.rs -/

/-- The token types `A` and `B` of `TestTokenType`. -/
abbrev A : Fin 7 := 0
abbrev B : Fin 7 := 1

/-- Insert into the set, and what the calls return. -/
def inserts (l : List (Fin 7 × Option String)) : TSet 7 × List Bool :=
  l.foldl (fun s a => let r := s.1.insert a.1 (a.2.map ascii); (r.1, s.2 ++ [r.2])) (TSet.empty, [])

/-- `set.contains(Some((ty, src).into()))` -/
def has (s : TSet 7) (ty : Fin 7) (src : String) : Bool := s.contains (some ⟨ty, ascii src⟩)

/-- insert_epsilon -/
example : ¬ (TSet.empty : TSet 7).containsE ∧ ¬ (TSet.empty : TSet 7).contains none ∧ (TSet.empty : TSet 7).insertE.2 ∧
    (TSet.empty : TSet 7).insertE.1.containsE ∧ (TSet.empty : TSet 7).insertE.1.contains none ∧
    ¬ (TSet.empty : TSet 7).insertE.1.insertE.2 ∧ (TSet.empty : TSet 7).insertE.1.insertE.1.containsE ∧
    (TSet.empty : TSet 7).insertE.1.insertE.1.contains none := by decide +kernel
/-- insert -/
example : (inserts [(A, some "a"), (A, some "a"), (A, none), (B, some "a")]).2 = [true, false, true, true] ∧
    has (inserts [(A, some "a")]).1 A "a" ∧ has (inserts [(A, some "a"), (A, none)]).1 A "a" ∧
    has (inserts [(A, some "a"), (A, none)]).1 A "b" ∧ ¬ has (inserts [(A, some "a"), (A, none)]).1 B "a" ∧
    has (inserts [(A, some "a"), (A, none), (B, some "a")]).1 B "a" ∧
    ¬ has (inserts [(A, some "a"), (A, none), (B, some "a")]).1 B "b" := by decide +kernel
/-- union_empty -/
example : ((TSet.empty : TSet 7).union TSet.empty true).1 = TSet.empty := by decide +kernel
/-- union_disjoint_token -/
example : ((inserts [(A, some "a"), (A, some "b")]).1.union (inserts [(B, none)]).1 true) =
      ((inserts [(A, some "a"), (A, some "b"), (B, none)]).1, true) ∧
    ((inserts [(B, none)]).1.union (inserts [(A, some "a"), (A, some "b"), (B, none)]).1 true) =
      ((inserts [(A, some "a"), (A, some "b"), (B, none)]).1, true) := by decide +kernel
/-- union_exclude_e -/
example : (inserts [(A, some "a"), (B, some "b")]).1 ≠ (inserts [(A, some "a"), (B, some "b")]).1.insertE.1 ∧
    ¬ ((inserts [(A, some "a"), (B, some "b")]).1.union (inserts [(A, some "a"), (B, some "b")]).1.insertE.1 false).2 ∧
    ((inserts [(A, some "a"), (B, some "b")]).1.union (inserts [(A, some "a"), (B, some "b")]).1.insertE.1 true).2 := by
  decide +kernel
/-- union_to_any -/
example : (inserts [(A, some "a"), (B, none)]).1.union (inserts [(A, none), (B, some "b")]).1 true =
    ((inserts [(A, none), (B, none)]).1, true) := by decide +kernel

end Teleparse.Conform.Sets
