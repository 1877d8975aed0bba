import Verif.Model.Metadata
import Verif.Model.Parser
/-
Model of the texts shown to the user: `TerminalSet::to_repr`, `TerminalSet::intersection_repr`,
`Error::message`, and the terminals in a `GrammarError`.
-/
namespace Teleparse
variable {n : Nat} {I : Type}

/-- Comparison of strings: lexicographic by bytes (`Ord for str`). -/
def strLt : Str → Str → Bool
  | _, [] => false
  | [], _ :: _ => true
  | a :: s, b :: t => decide (a < b) || (a == b && strLt s t)

/-- `BTreeSet<String>::insert`: the set as the sorted list of its members, in which `into_iter` yields them. -/
def bsInsert (x : Str) : List Str → List Str
  | [] => [x]
  | y :: l => if strLt x y then x :: y :: l else if x = y then y :: l else y :: bsInsert x l

/-- The set of the given strings. -/
def bsOf (l : List Str) : List Str := l.foldl (fun s x => bsInsert x s) []

/-- `Itertools::join`, `[str]::join` -/
def join (sep : Str) : List Str → Str
  | [] => []
  | [x] => x
  | x :: y :: l => x ++ sep ++ join sep (y :: l)

/-- The bytes of an ASCII string. -/
def ascii (s : String) : Str := s.toList.map Char.toNat

/-- `format!("\"{lit}\"")` -/
def quoteText (lit : Str) : Str := ascii "\"" ++ lit ++ ascii "\""

/-- The strings inserted for one token type, syntax/term_set.rs:212-221 and 232-241. `name` is the `Debug`
text of the token types (derived: the name of the variant). -/
def LitSet.texts (name : Fin n → Str) (ty : Fin n) : LitSet → List Str
  | .mat lits => lits.map quoteText
  | .any => [name ty]

/-- `TerminalSet::to_repr`, syntax/term_set.rs:226-243 -/
def TSet.toRepr (name : Fin n → Str) (s : TSet n) : List Str :=
  bsOf ((if s.e then [ascii "<empty>"] else []) ++ (List.finRange n).flatMap fun ty => (s.map.get ty).texts name ty)

/-- `TerminalSet::intersection_repr`, syntax/term_set.rs:202-224; first/set.rs:104-112 and
follow/set.rs:84-86 call it with `includeE` `true`, `false`, `false`. -/
def TSet.intersectionRepr (name : Fin n → Str) (s o : TSet n) (includeE : Bool) : List Str :=
  bsOf ((if includeE && s.e && o.e then [ascii "<empty>"] else []) ++ (List.finRange n).flatMap fun ty =>
    let i := (s.map.get ty).intersection (o.map.get ty)
    if i.isEmpty then [] else i.texts name ty)

/-- `Error::message`, syntax/error.rs:24-40; `none` is a panic. -/
def Err.message? (name : Fin n → Str) (input : Str) (e : Err n) : Option Str :=
  match e.kind with
  | .unexpectedCharacters => (e.span.get? input).map (ascii "Unexpected: " ++ ·)
  | .unexpectedTokens => (e.span.get? input).map (ascii "Unexpected token(s): " ++ ·)
  | .expecting s => some (ascii "Expecting one of " ++ join (ascii ", ") (s.toRepr name))
  | .unexpectedEof => some (ascii "Unexpected end of file")
  | .noAdvance => some (ascii "Unexpected: Parser did not advance in a loop. The grammar is probably not LL(1), and this is a bug since the parser should catch that before parsing.")

variable [DecidableEq I]

/-- The terminals in the error of the loop syntax/metadata.rs:208-233 (`altConflict`): the loop stops at the
same place. -/
def altTerms (name : Fin n → Str) (first : Tbl I n) (all : List I) : List I → TSet n → List Str
  | [], _ => []
  | inner :: rest, check =>
    let firstSet := first.get inner
    if check.intersects firstSet true then
      match all.find? fun before => firstSet.intersects (first.get before) true with
      | some before => firstSet.intersectionRepr name (first.get before) true
      | none => altTerms name first all rest (check.union firstSet true).1
    else altTerms name first all rest (check.union firstSet true).1

/-- The terminals in the error of the loop syntax/metadata.rs:251-271 (`seqConflict`). -/
def seqTerms (name : Fin n → Str) (first : Tbl I n) : TSet n → List I → List Str
  | _, [] => []
  | check, inner :: rest =>
    let nextFirst := first.get inner
    if check.intersects nextFirst false then check.intersectionRepr name nextFirst false
    else if nextFirst.containsE then seqTerms name first (check.union nextFirst false).1 rest
    else seqTerms name first check.clear rest

/-- The terminals in the error of syntax/metadata.rs:282-303 (`selfConflict`). -/
def selfTerms (name : Fin n → Str) (first follow : Tbl I n) (t : I) : List Str :=
  (follow.get t).intersectionRepr name (first.get t) false

/-- The terminals in a `GrammarError` (its last field is their `join`), syntax/metadata.rs:216-226, 257-263,
293-297. -/
def GErr.terms (name : Fin n → Str) (G : Grammar I n) (first follow : Tbl I n) : GErr I → List Str
  | .leftRecursion _ _ => []
  | .firstFirst t _ _ =>
    match aget? G t with
    | some (.alt types) => altTerms name first types types TSet.empty
    | _ => []
  | .firstFollowSeq t _ _ =>
    match aget? G t with
    | some (.seq (c :: cs)) =>
      seqTerms name first (if (first.get c).containsE then first.get c else TSet.empty) cs
    | _ => []
  | .firstFollow t => selfTerms name first follow t

/-- The text of a `GrammarError`: the `#[error]` formats of lib.rs:68-77 and `left_recursion` lib.rs:79-83,
applied to the names `pname` and the terminals `l` as in syntax/metadata.rs:104-109, 214-228, 254-264, 294-299. -/
def GErr.text (pname : I → Str) (l : List Str) (e : GErr I) : Str :=
  let terms := join (ascii ", ") l
  match e with
  | .leftRecursion stack current =>
    ascii "Left recursion detected in the grammar! Stack: " ++
      (join (ascii " -> ") (stack.map pname) ++ ascii " -> " ++ pname current)
  | .firstFirst t a b =>
    ascii "The non-terminal `" ++ pname t ++ ascii "` has a FIRST/FIRST conflict producing either `" ++ pname a ++
      ascii "` or `" ++ pname b ++ ascii "`. The conflicting terminals are: " ++ terms
  | .firstFollowSeq t a b =>
    ascii "The non-terminal `" ++ pname t ++ ascii "` has a FIRST/FOLLOW conflict producing `" ++ pname a ++
      ascii "` followed by `" ++ pname b ++ ascii "`. `" ++ pname a ++
      ascii "` can be empty and both can start with: " ++ terms
  | .firstFollow t =>
    ascii "The non-terminal `" ++ pname t ++
      ascii "` has conflict in its FIRST and FOLLOW sets. The conflicting terminals are: " ++ terms

/-- The text of a `GrammarError` with the terminals found by the checks. -/
def GErr.message (pname : I → Str) (name : Fin n → Str) (G : Grammar I n) (first follow : Tbl I n)
    (e : GErr I) : Str := e.text pname (e.terms name G first follow)

end Teleparse
