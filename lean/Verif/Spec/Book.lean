import Verif.Spec.Program
/-
The two example programs of the book (packages/book/src/example_g.txtpp.md and example_simple_g.txtpp.md, which include
tests/book_ex_recur.rs and tests/book_ex_simple.rs), and the language they are meant for.
-/
namespace Teleparse.Book
open Macro Syn Prog

/-- `#[teleparse(..)]` on a variant. -/
def variant (name : String) (metas : List VMeta) : Variant := ⟨ascii name, true, [some metas]⟩

/-- A terminal `Name = "text"`. -/
def lit (name text : String) : TMeta := ⟨some (ascii name), .value (some (ascii text))⟩

/-- tests/book_ex_recur.rs:5-11 -/
def vars : List Variant :=
  [variant "Ident" [.regex (some [ascii "\\w+"]), .terminal (some [⟨some (ascii "Ident"), .path⟩])],
   variant "Op" [.terminal (some [lit "OpAdd" "+", lit "OpMul" "*"])],
   variant "Paren" [.terminal (some [lit "ParenOpen" "(", lit "ParenClose" ")"])]]

/-- `TokenType`, tests/book_ex_recur.rs:3-12 -/
def decl : Decl := ⟨false, [some [.ignore (some [ascii "\\s+"])]], some vars⟩

def ty (s : String) : TyE := .name (ascii s)

/-- A struct with named fields. -/
def named (name : String) (root : Bool) (fs : List (String × TyE)) : DeclD TyE :=
  ⟨ascii name, if root then [some [.root]] else [], .struct (.named (fs.map fun f => ⟨ascii f.1, f.2, []⟩))⟩

/-- A tuple struct. -/
def tuple (name : String) (ts : List TyE) : DeclD TyE :=
  ⟨ascii name, [], .struct (.unnamed (ts.map fun t => ⟨[], t, []⟩))⟩

/-- tests/book_ex_recur.rs:48-52 -/
def factor : DeclD TyE := ⟨ascii "F", [], .enum
  [⟨ascii "Ident", false, .unnamed [⟨[], ty "Ident", []⟩], []⟩,
   ⟨ascii "Paren", false, .unnamed [⟨[], .tup3 (ty "ParenOpen") (.box (ty "E")) (ty "ParenClose"), []⟩], []⟩]⟩

/-- tests/book_ex_recur.rs -/
def recur : Program := ⟨decl,
  [named "E" true [("first", ty "T"), ("rest", ty "Eprime")],
   tuple "Eprime" [.option (ty "Eplus")],
   named "Eplus" false [("op", ty "OpAdd"), ("_t", ty "T"), ("rest", .box (ty "Eprime"))],
   named "T" false [("first", ty "F"), ("rest", ty "Tprime")],
   tuple "Tprime" [.option (ty "Tstar")],
   named "Tstar" false [("op", ty "OpMul"), ("_f", ty "F"), ("rest", .box (ty "Tprime"))],
   factor]⟩

/-- tests/book_ex_simple.rs -/
def simple : Program := ⟨decl,
  [named "E" true [("terms", .split (ty "T") (ty "OpAdd"))],
   named "T" false [("factors", .split (ty "F") (ty "OpMul"))],
   factor]⟩

/-! ## The language -/

/-- Tokens of the three types of `TokenType`. -/
abbrev Tok := TokenSrc vars.length

def plus : Tok := ⟨(1 : Fin 3), ascii "+"⟩
def times : Tok := ⟨(1 : Fin 3), ascii "*"⟩
def opening : Tok := ⟨(2 : Fin 3), ascii "("⟩
def closing : Tok := ⟨(2 : Fin 3), ascii ")"⟩

/-- Expressions made of words, sums, products and parentheses. -/
inductive Expr : List Tok → Prop
  | word (s : Str) : Expr [⟨(0 : Fin 3), s⟩]
  | sum {u v} : Expr u → Expr v → Expr (u ++ plus :: v)
  | product {u v} : Expr u → Expr v → Expr (u ++ times :: v)
  | paren {u} : Expr u → Expr (opening :: u ++ [closing])

end Teleparse.Book
