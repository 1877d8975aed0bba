import Verif.Model.Metadata
import Verif.Model.Set
/-
Syntax types (implementors of `Produce`), their productions (implementors of `Production`), and what
the productions register.

A program is a lexicon with `n` token types and `m` user-defined syntax types.
-/
namespace Teleparse

/-- A syntax type: a type implementing `Produce`. The container type `V` of `Plus`/`Star` and the text
type `S` of `Quote`/`Parse` do not influence parsing and are left out. -/
inductive Ty (m n : Nat) where
  /-- a terminal struct generated by `derive_lexicon`; `k` distinguishes structs
  (macros/src/lexicon.rs:395-476) -/
  | term (k : Nat) (t : Terminal n)
  /-- a struct or enum with `#[derive_syntax]` -/
  | user (k : Fin m)
  /-- tp_impl/boxed.rs:22-30 -/
  | box (t : Ty m n)
  /-- tp_impl/option.rs:35-59 -/
  | option (t : Ty m n)
  /-- tp_impl/option.rs:61-77 -/
  | exist (t : Ty m n)
  /-- tp_impl/string.rs:10-36 -/
  | quote (t : Ty m n)
  /-- tp_impl/string.rs:38-62 -/
  | parse (t : Ty m n)
  /-- tp_impl/iter.rs:25-59 -/
  | plus (t : Ty m n)
  /-- tp_impl/iter.rs:61-80 -/
  | star (t : Ty m n)
  /-- tp_impl/iter.rs:82-156 -/
  | loop (t : Ty m n)
  /-- tp_impl/split.rs:74-179 -/
  | split (t p : Ty m n)
  /-- tp_impl/punct.rs:90-223 -/
  | punct (t p : Ty m n)
  /-- tp_impl/recover.rs:31-121 -/
  | recover (t r : Ty m n)
  /-- tp_impl/tuple.rs:2-58 -/
  | tup2 (a b : Ty m n)
  | tup3 (a b c : Ty m n)
  | tup4 (a b c d : Ty m n)
  | tup5 (a b c d e : Ty m n)
  deriving DecidableEq

/-- A production: a type implementing `Production`; structural equality stands for equality of
`TypeId`s. -/
inductive PId (m n : Nat) where
  /-- terminal structs are their own production -/
  | term (k : Nat) (t : Terminal n)
  /-- `Epsilon<L>`, syntax/ast.rs -/
  | eps
  /-- `DerivedProd_*`, macros/src/syntax.rs -/
  | user (k : Fin m)
  /-- `OptionProd<T>`, tp_impl/option.rs:12-33 -/
  | opt (p : PId m n)
  /-- `OneOrMore<T>`, tp_impl/iter.rs:12-23 -/
  | plus (p : PId m n)
  /-- `PunctProd<T, P>`, tp_impl/punct.rs:12-23 -/
  | punct (t p : PId m n)
  /-- `Box<P>`, tp_impl/boxed.rs:5-7 -/
  | box (p : PId m n)
  | tup2 (a b : PId m n)
  | tup3 (a b c : PId m n)
  | tup4 (a b c d : PId m n)
  | tup5 (a b c d e : PId m n)
  deriving DecidableEq

variable {m n : Nat}

/-- `<T as Produce>::Prod` -/
def Ty.prod : Ty m n → PId m n
  | .term k t => .term k t
  | .user k => .user k
  | .box t => .box t.prod
  | .option t | .exist t => .opt t.prod
  | .quote t | .parse t => t.prod
  | .plus t | .loop t => .plus t.prod
  | .star t => .opt (.plus t.prod)
  | .split t p => .tup2 t.prod (.opt (.plus (.tup2 p.prod t.prod)))
  | .punct t p => .punct t.prod p.prod
  | .recover t r => .tup2 t.prod r.prod
  | .tup2 a b => .tup2 a.prod b.prod
  | .tup3 a b c => .tup3 a.prod b.prod c.prod
  | .tup4 a b c d => .tup4 a.prod b.prod c.prod d.prod
  | .tup5 a b c d e => .tup5 a.prod b.prod c.prod d.prod e.prod

/-- `Production::id`: boxes have the id of their content (`production_passthrough!`,
syntax/ast.rs:46-65), every other production has its own. -/
def PId.id : PId m n → PId m n
  | .box p => p.id
  | p => p

/-- `Produce::prod_id`, parser/tree.rs:16-19 -/
def Ty.pid (t : Ty m n) : PId m n := t.prod.id

/-- A field of a struct or a variant of an enum: its type and the `#[teleparse(semantic(..))]`
attribute. -/
abbrev Field (m n : Nat) := Ty m n × Option (LSet n)

/-- A user-defined type: structs and enums have at least one field or variant
(macros/src/syntax.rs:70-73, 158-161, 276-279), every variant has exactly one field (252-272). -/
inductive Def (m n : Nat) where
  | struct (f : Field m n) (fs : List (Field m n))
  | enum (v : Field m n) (vs : List (Field m n))

/-- The user-defined types of a program. -/
abbrev Schema (m n : Nat) := Fin m → Def m n

/-- What `Production::register` adds for a production. -/
def Schema.rule (S : Schema m n) : PId m n → Rule (PId m n) n
  | .term _ t => .term t
  | .eps => .eps
  | .user k =>
    match S k with
    | .struct f fs => .seq ((f :: fs).map fun f => f.1.pid)
    | .enum v vs => .alt ((v :: vs).map fun v => v.1.pid)
  | .opt p => .alt [p.id, .eps]
  | .plus p => .seq [p.id, .opt (.plus p)]
  | .punct t p => .seq [t.id, .opt (.tup2 p (.opt (.punct t p)))]
  | .box p => S.rule p
  | .tup2 a b => .seq [a.id, b.id]
  | .tup3 a b c => .seq [a.id, b.id, c.id]
  | .tup4 a b c d => .seq [a.id, b.id, c.id, d.id]
  | .tup5 a b c d e => .seq [a.id, b.id, c.id, d.id, e.id]

/-- `T::metadata()` of a root `T`, macros/src/root.rs, `Metadata::build_for` -/
def Schema.metadata (S : Schema m n) (fuel : Nat) (root : Ty m n) :
    Option (Except (GErr (PId m n)) (Metadata (PId m n) n)) :=
  buildFor S.rule fuel root.pid

end Teleparse
