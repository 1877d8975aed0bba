import Verif.Spec.Book
import Verif.Spec.Parses
/-
What expressions mean, and how users of the examples of the book compute it from the trees.
-/
namespace Teleparse.Book

/-- A meaning of words, sums and products; nothing is assumed about it. -/
structure Alg (V : Type) where
  word : Str → V
  add : V → V → V
  mul : V → V → V

inductive Level where
  | sum | product | factor

/-- Products before sums, both from left to right; parentheses group. -/
inductive Value {V : Type} (A : Alg V) : Level → List Tok → V → Prop
  | word (s : Str) : Value A .factor [⟨(0 : Fin 3), s⟩] (A.word s)
  | paren {u v} : Value A .sum u v → Value A .factor (opening :: u ++ [closing]) v
  | factor {u v} : Value A .factor u v → Value A .product u v
  | times {u w a b} : Value A .product u a → Value A .factor w b → Value A .product (u ++ times :: w) (A.mul a b)
  | product {u v} : Value A .product u v → Value A .sum u v
  | plus {u w a b} : Value A .sum u a → Value A .product w b → Value A .sum (u ++ plus :: w) (A.add a b)

/-! What a user writes for the types of tests/book_ex_simple.rs: `self.terms.iter().map(T::value).reduce(add)`. Trees of
another shape, which the types do not allow, have no value. -/

/-- `a.into_iter().reduce(f)`, `none` if a value is missing. -/
def reduce {V : Type} (f : V → V → V) : List (Option V) → Option V
  | [] => none
  | x :: xs => xs.foldl (fun a b => a.bind fun a => b.map fun b => f a b) x

section
variable {V : Type} (A : Alg V) (source : Str)

mutual
def simpleE : Tree 3 → Option V
  | .seq _ [.split _ ts _] => reduce A.add (simpleTs ts)
  | _ => none
def simpleTs : List (Tree 3) → List (Option V)
  | [] => []
  | t :: ts => simpleT t :: simpleTs ts
def simpleT : Tree 3 → Option V
  | .seq _ [.split _ fs _] => reduce A.mul (simpleFs fs)
  | _ => none
def simpleFs : List (Tree 3) → List (Option V)
  | [] => []
  | f :: fs => simpleF f :: simpleFs fs
def simpleF : Tree 3 → Option V
  | .variant 0 (.tok t) => some (A.word (textOf source t.span))
  | .variant 1 (.seq _ [_, e, _]) => simpleE e
  | _ => none
end

/-! And for those of tests/book_ex_recur.rs: the rest is given what is to the left of it. -/

mutual
def recurE : Tree 3 → Option V
  | .seq _ [t, rest] => (recurT t).bind fun a => recurE' a rest
  | _ => none
def recurE' (a : V) : Tree 3 → Option V
  | .seq _ [.optNone _] => some a
  | .seq _ [.optSome _ (.seq _ [_, t, rest])] => (recurT t).bind fun b => recurE' (A.add a b) rest
  | _ => none
def recurT : Tree 3 → Option V
  | .seq _ [f, rest] => (recurF f).bind fun a => recurT' a rest
  | _ => none
def recurT' (a : V) : Tree 3 → Option V
  | .seq _ [.optNone _] => some a
  | .seq _ [.optSome _ (.seq _ [_, f, rest])] => (recurF f).bind fun b => recurT' (A.mul a b) rest
  | _ => none
def recurF : Tree 3 → Option V
  | .variant 0 (.tok t) => some (A.word (textOf source t.span))
  | .variant 1 (.seq _ [_, e, _]) => recurE e
  | _ => none
end
end

end Teleparse.Book
