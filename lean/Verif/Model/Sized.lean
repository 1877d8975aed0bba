import Verif.Model.Syntax
/-
Which types have a finite size. Rust refuses a program in which a type contains itself without a pointer in between
("recursive type has infinite size", packages/book/src/syntax_analysis/recursion.md:15-38). Modelled is which
types are stored inside of a type, not how large they are.
-/
namespace Teleparse
variable {m n : Nat}

/-- The structs and enums stored inside of a type, not behind a pointer:
* a terminal is a token (macros/src/lexicon.rs:430), `Box` a pointer;
* `Optional<T>` has a `Node<Option<T>>` (tp_impl/option.rs:38), tuples have their elements;
* `Exists`, `Quote` and `Parse` store no `T` (tp_impl/option.rs:61, tp_impl/string.rs:12, 40);
* the lists have a `Vec` (tp_impl/iter.rs:26, 62, 83; `V` in `Plus` and `Star` is taken to be a collection such as `Vec`;
  tp_impl/split.rs:11-17, tp_impl/punct.rs:26-33);
* `Recover<T, R>` has a `Node<Option<T>>` and an `R` (tp_impl/recover.rs:8-14). -/
def Ty.holds : Ty m n → List (Fin m)
  | .term _ _ => []
  | .user k => [k]
  | .box _ => []
  | .option t => t.holds
  | .exist _ | .quote _ | .parse _ => []
  | .plus _ | .star _ | .loop _ => []
  | .split _ _ | .punct _ _ => []
  | .recover t r => t.holds ++ r.holds
  | .tup2 a b => a.holds ++ b.holds
  | .tup3 a b c => a.holds ++ b.holds ++ c.holds
  | .tup4 a b c d => a.holds ++ b.holds ++ c.holds ++ d.holds
  | .tup5 a b c d e => a.holds ++ b.holds ++ c.holds ++ d.holds ++ e.holds

/-- The fields of a struct or the variants of an enum. -/
def Def.parts : Def m n → List (Field m n)
  | .struct f fs => f :: fs
  | .enum v vs => v :: vs

/-- The generated struct has the fields as they are written (macros/src/syntax.rs: the item is kept), the enum its
variants. -/
def Schema.holds (S : Schema m n) (k : Fin m) : List (Fin m) := (S k).parts.flatMap fun f => f.1.holds

/-- The computation of the size ends within so many types inside of each other. -/
def Schema.sizedWithin (S : Schema m n) : Nat → Fin m → Bool
  | 0, _ => false
  | fuel + 1, k => (S.holds k).all (S.sizedWithin fuel)

/-- The program with every field in a `Box`. -/
def Schema.boxed (S : Schema m n) : Schema m n := fun k =>
  match S k with
  | .struct f fs => .struct (.box f.1, f.2) (fs.map fun f => (.box f.1, f.2))
  | .enum v vs => .enum (.box v.1, v.2) (vs.map fun v => (.box v.1, v.2))

end Teleparse
