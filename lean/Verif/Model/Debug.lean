import Verif.Model.Message
import Verif.Model.TokenVec
/-
Model of the `Debug` texts: lex/span.rs, lex/token.rs, lex/set.rs, lex/vec.rs, syntax/term_set.rs, tp_impl/node.rs (without `#`),
and of `Display` of `TerminalSet`.
-/
namespace Teleparse
variable {n : Nat}

/-- `Display` of `usize`: decimal -/
def dec (k : Nat) : Str := if k < 10 then [48 + k] else dec (k / 10) ++ [48 + k % 10]

/-- lex/span.rs:55-63 -/
def Span.debug (s : Span) : Str := if s.hi ≤ s.lo then dec s.lo else dec s.lo ++ ascii ".." ++ dec s.hi

/-- lex/token.rs:18-22; `name` is the (derived) `Debug` text of the token types, the name of the variant -/
def Token.debug (name : Fin n → Str) (t : Token n) : Str :=
  ascii "token " ++ name t.ty ++ ascii "(" ++ t.span.debug ++ ascii ")"

/-- `Formatter::debug_set` with the texts of the entries -/
def debugSet (entries : List Str) : Str := ascii "{" ++ join (ascii ", ") entries ++ ascii "}"

/-- lex/set.rs:18-26; the entries are those that the iterator yields -/
def LSet.debug (name : Fin n → Str) (s : LSet n) : Str :=
  debugSet ((SetIter.collect (n + 1) (SetIter.new s)).map name)

/-- lex/vec.rs:370-374 -/
def Cell.debug (name : Fin n → Str) (c : Cell n) : Str := c.token.debug name ++ ascii "+" ++ c.semantic.debug name

/-- A hexadecimal digit -/
def hexDigit (d : Nat) : Nat := if d < 10 then 48 + d else 87 + d

/-- `char::escape_debug` within a string, for a byte; simplified: the characters that are not ASCII are
never escaped (the standard library escapes some of them). -/
def escapeByte (c : Nat) : Str :=
  if c = 0 then [92, 48]
  else if c = 9 then [92, 116]
  else if c = 10 then [92, 110]
  else if c = 13 then [92, 114]
  else if c = 34 then [92, 34]
  else if c = 92 then [92, 92]
  else if c < 32 ∨ c = 127 then
    [92, 117, 123] ++ (if c < 16 then [hexDigit c] else [hexDigit (c / 16), hexDigit (c % 16)]) ++ [125]
  else [c]

/-- `Debug` of `str` -/
def debugText (s : Str) : Str := [34] ++ s.flatMap escapeByte ++ [34]

/-- An entry of a `TerminalSet`: `none` is `Epsilon`, otherwise `Term(ty, lit)` -/
abbrev TermEntry (n : Nat) := Option (Fin n × Option Str)

/-- syntax/term_set.rs:60-74; `quote` is the `Debug` text of a string -/
def TermEntry.debug (name : Fin n → Str) (quote : Str → Str) : TermEntry n → Str
  | none => ascii "<empty>"
  | some (ty, none) => name ty ++ ascii ":*"
  | some (ty, some lit) => name ty ++ ascii ":" ++ quote lit

/-- The literals in the order of the `BTreeSet`, syntax/lit_set.rs:139-144 -/
def LitSet.entries (ty : Fin n) : LitSet → List (TermEntry n)
  | .mat lits => (bsOf lits).map fun lit => some (ty, some lit)
  | .any => [some (ty, none)]

/-- The entries in the order of syntax/term_set.rs:29-44 -/
def TSet.entries (s : TSet n) : List (TermEntry n) :=
  (if s.e then [none] else []) ++ (List.finRange n).flatMap fun ty => (s.map.get ty).entries ty

/-- syntax/term_set.rs:26-46 -/
def TSet.debug (name : Fin n → Str) (quote : Str → Str) (s : TSet n) : Str :=
  debugSet (s.entries.map (TermEntry.debug name quote))

/-- `Display`, syntax/term_set.rs:48-53 -/
def TSet.display (name : Fin n → Str) (s : TSet n) : Str := ascii "{" ++ join (ascii ", ") (s.toRepr name) ++ ascii "}"

/-- `Node<T>`, tp_impl/node.rs:28-33; `value` is the `Debug` text of the value -/
def nodeDebug (span : Span) (value : Str) : Str := span.debug ++ ascii " => " ++ value

end Teleparse
