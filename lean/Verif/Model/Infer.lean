import Verif.Model.Syntax
/-
How the compiler finds the lexicon of a type: the associated type `Production::L`. The generated code takes it from
the first field or variant, the utility types from their arguments. If the search comes back to where it began the
program is refused ("overflow evaluating the requirement", packages/book/src/syntax_analysis/recursion.md:43-92).
Modelled is which associated types are asked for, not the trait solver itself.
-/
namespace Teleparse
variable {m n : Nat}

/-- The productions whose `L` is asked for to find the `L` of a production:
* terminals name their lexicon (macros/src/lexicon.rs:452), and so does `Epsilon<L>` (syntax/ast.rs:9-10);
* a struct asks its first field (macros/src/syntax.rs:105, 194), an enum its first variant (313);
* `OptionProd<T>` (tp_impl/option.rs:14-15), `OneOrMore<T>` (tp_impl/iter.rs:13-14) and `Box<P>` (tp_impl/boxed.rs:5-7,
  syntax/ast.rs:50) ask `T`;
* `PunctProd<T, P>` asks both (tp_impl/punct.rs:12-14);
* a tuple asks all of its elements, because their `L` must be the one of the first (tp_impl/tuple.rs:7-12).
Other types (such as `Split` and `Recover`) have one of these as their production. -/
def Schema.asks (S : Schema m n) : PId m n → List (PId m n)
  | .term _ _ => []
  | .eps => []
  | .user k =>
    match S k with
    | .struct f _ => [f.1.prod]
    | .enum v _ => [v.1.prod]
  | .opt p => [p]
  | .plus p => [p]
  | .punct t p => [t, p]
  | .box p => [p]
  | .tup2 a b => [a, b]
  | .tup3 a b c => [a, b, c]
  | .tup4 a b c d => [a, b, c, d]
  | .tup5 a b c d e => [a, b, c, d, e]

/-- The search for the lexicon ends within so many questions after each other. -/
def Schema.infersWithin (S : Schema m n) : Nat → PId m n → Bool
  | 0, _ => false
  | fuel + 1, p => (S.asks p).all (S.infersWithin fuel)

end Teleparse
