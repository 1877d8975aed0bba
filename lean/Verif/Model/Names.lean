import Verif.Model.Syntax
import Verif.Model.Message
/-
Model of `Production::debug`: the names of productions in grammar errors and in `Debug` output of `Metadata`.
-/
namespace Teleparse
variable {m n : Nat}

/-- The names written in the program: `user k` is the identifier of a struct or enum with `#[derive_syntax]`,
`term k` that of a terminal struct. -/
structure Idents (m : Nat) where
  user : Fin m → Str
  term : Nat → Str

/-- `debug()` of a terminal struct: the text of the literal if it has one, otherwise the name of the struct,
macros/src/lexicon.rs:405-408, 453-455 -/
def Idents.terminal (N : Idents m) (k : Nat) (t : Terminal n) : Str :=
  match t.lit with
  | some lit => lit
  | none => N.term k

/-- `str::strip_suffix` -/
def stripSuffix (suf s : Str) : Option Str :=
  if suf.isSuffixOf s then some (s.take (s.length - suf.length)) else none

/-- `OptionProd::debug` applied to the name of the inner type, tp_impl/option.rs:17-28 -/
def optName (inner : Str) : Str :=
  let other := ascii "(" ++ inner ++ ascii ")?"
  match inner with
  | 40 :: rest =>
    match stripSuffix (ascii ")+") rest with
    | some x => ascii "(" ++ x ++ ascii ")*"
    | none =>
      match stripSuffix (ascii "]+") rest with
      | some x => ascii "(" ++ x ++ ascii "]*"
      | none => other
  | _ => other

/-- `Production::debug`. `Epsilon`: syntax/ast.rs:11-13; `DerivedProd_*`: macros/src/syntax.rs:107-109, 196-198,
315-317; `OptionProd`: tp_impl/option.rs:17-28; `OneOrMore`: tp_impl/iter.rs:16-18; `PunctProd`:
tp_impl/punct.rs:16-18; `Box`: syntax/ast.rs:56-58; tuples: tp_impl/tuple.rs:13-21. -/
def PId.debug (N : Idents m) : PId m n → Str
  | .term k t => N.terminal k t
  | .eps => ascii "()"
  | .user k => N.user k
  | .opt p => optName (p.debug N)
  | .plus p => ascii "( " ++ p.debug N ++ ascii " )+"
  | .punct t p => ascii "( " ++ t.debug N ++ ascii " )[" ++ p.debug N ++ ascii "]+"
  | .box p => p.debug N
  | .tup2 a b => a.debug N ++ ascii " " ++ b.debug N
  | .tup3 a b c => a.debug N ++ ascii " " ++ b.debug N ++ ascii " " ++ c.debug N
  | .tup4 a b c d => a.debug N ++ ascii " " ++ b.debug N ++ ascii " " ++ c.debug N ++ ascii " " ++ d.debug N
  | .tup5 a b c d e => a.debug N ++ ascii " " ++ b.debug N ++ ascii " " ++ c.debug N ++ ascii " " ++ d.debug N ++
      ascii " " ++ e.debug N

/-- The text of a `GrammarError` of a schema: the names are those stored by `MetadataBuilder::visit`,
syntax/metadata.rs:21-31, which are the `debug()` of the productions. -/
def Schema.errorText (N : Idents m) (name : Fin n → Str) (G : Grammar (PId m n) n) (first follow : Tbl (PId m n) n)
    (e : GErr (PId m n)) : Str := e.message (PId.debug N) name G first follow

end Teleparse
