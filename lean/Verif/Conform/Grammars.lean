import Verif.Conform.Base
/-
The tests in tests/first_follow.rs, tests/lexer.rs, tests/semantic.rs, tests/book_*.rs and tests/ui. These are tests of
the model, not proofs. The names are those of the tests.
-/
namespace Teleparse.Conform
open Macro Syn Prog

def named (name : String) (root : Bool) (fs : List (String × TyE × Attrs)) : DeclD TyE :=
  ⟨ascii name, if root then [some [.root]] else [], .struct (.named (fs.map fun f => ⟨ascii f.1, f.2.1, f.2.2⟩))⟩
def tuple (name : String) (ts : List TyE) : DeclD TyE :=
  ⟨ascii name, [], .struct (.unnamed (ts.map fun t => ⟨[], t, []⟩))⟩
def enum (name : String) (vs : List (String × TyE)) : DeclD TyE :=
  ⟨ascii name, [], .enum (vs.map fun v => ⟨ascii v.1, false, .unnamed [⟨[], v.2, []⟩], []⟩)⟩
def ty (s : String) : TyE := .name (ascii s)

/-! ## tests/first_follow.rs, tests/book_ex_recur.rs -/

/-- The grammar; the token types are those of `MathTokenType` (without the last one in the test). -/
def textbook : Root := ⟨⟨mathDecl,
  [named "E" true [("first", ty "T", []), ("rest", ty "Eprime", [])],
   tuple "Eprime" [.option (ty "Eplus")],
   named "Eplus" false [("op", OpAdd, []), ("t", ty "T", []), ("rest", .box (ty "Eprime"), [])],
   named "T" false [("first", ty "F", []), ("rest", ty "Tprime", [])],
   tuple "Tprime" [.option (ty "Tstar")],
   named "Tstar" false [("op", OpMul, []), ("f", ty "F", []), ("rest", .box (ty "Tprime"), [])],
   enum "F" [("Ident", Ident), ("Paren", .tup3 ParenOpen (.box (ty "E")) ParenClose)]]⟩, ⟨0, by decide⟩⟩

/-- FIRST and FOLLOW of the user types. -/
def tables (n : Nat) (R : Root) : Option (List (TSet n × TSet n)) :=
  match metadataOf (codeOf n R.program) fuel (.user R.root) with
  | some (.ok md) => some ((List.finRange R.program.types.length).map fun k => (md.first.get (.user k), md.follow.get (.user k)))
  | _ => none

/-- `first_set!`, `follow_set!` -/
def setE (e : Bool) (l : List (Fin 4 × Option String)) : TSet 4 :=
  let s := l.foldl (fun s a => (s.insert a.1 (a.2.map ascii)).1) TSet.empty
  if e then s.insertE.1 else s

/-- The same set; the literals are kept sorted in the code. -/
def same (a b : TSet 4) : Bool :=
  a.e == b.e && ((List.finRange 4).all fun k => match a.map.get k, b.map.get k with
    | .any, .any => true
    | .mat a, .mat b => a.all (b.contains ·) && b.all (a.contains ·)
    | _, _ => false)

def sameAt (t : Option (List (TSet 4 × TSet 4))) (first : Bool) (k : Nat) (s : TSet 4) : Bool :=
  match t with
  | some l => match l[k]? with
    | some x => same (if first then x.1 else x.2) s
    | none => false
  | none => false

/-- first_table: E, T, F, Eprime, Tprime -/
example : let t := tables 4 textbook
    sameAt t true 0 (setE false [(0, none), (2, some "(")]) ∧ sameAt t true 3 (setE false [(0, none), (2, some "(")]) ∧
    sameAt t true 6 (setE false [(0, none), (2, some "(")]) ∧ sameAt t true 1 (setE true [(1, some "+")]) ∧
    sameAt t true 4 (setE true [(1, some "*")]) := by decide +kernel

/-- follow_table: E, Eprime, T, Tprime, F -/
example : let t := tables 4 textbook
    sameAt t false 0 (setE true [(2, some ")")]) ∧ sameAt t false 1 (setE true [(2, some ")")]) ∧
    sameAt t false 3 (setE true [(1, some "+"), (2, some ")")]) ∧
    sameAt t false 4 (setE true [(1, some "+"), (2, some ")")]) ∧
    sameAt t false 6 (setE true [(1, some "*"), (1, some "+"), (2, some ")")]) := by decide +kernel

/-- `F::Ident(..)` -/
def fIdent (lo hi : Nat) : Tree 4 := .variant 0 (ident lo hi)

/-- parse -/
example : once textbook "a+b*c" = expected (some (.seq ⟨0, 5⟩ [.seq ⟨0, 1⟩ [fIdent 0 1, .seq ⟨1, 1⟩ [.optNone ⟨1, 1⟩]],
    .seq ⟨1, 5⟩ [.optSome ⟨1, 5⟩ (.seq ⟨1, 5⟩ [op 1 2,
      .seq ⟨2, 5⟩ [fIdent 2 3, .seq ⟨3, 5⟩ [.optSome ⟨3, 5⟩ (.seq ⟨3, 5⟩ [op 3 4, fIdent 4 5,
        .seq ⟨5, 5⟩ [.optNone ⟨5, 5⟩]])]],
      .seq ⟨5, 5⟩ [.optNone ⟨5, 5⟩]])]])) [] "" := by decide +kernel

mutual
/-- The texts of the tokens in a tree. -/
def texts (source : Str) : Tree 4 → List Str
  | .tok t => [t.src source]
  | .seq _ l => textsL source l
  | .variant _ t => texts source t
  | .optSome _ t => texts source t
  | .list _ l => textsL source l
  | .split _ l _ => textsL source l
  | _ => []
def textsL (source : Str) : List (Tree 4) → List Str
  | [] => []
  | t :: l => texts source t ++ textsL source l
end

/-- The tokens of the tree as in `to_string` of the test, and the errors. -/
def printed (source : String) : Option (Option (List Str) × List (Err 4)) :=
  (parse textbook (parser source)).map fun (x, p) => (x.map (texts (ascii source)), p.info.errors)

/-- parse_paren -/
example : printed "(a+b)*(c+d)" = some (some (["(", "a", "+", "b", ")", "*", "(", "c", "+", "d", ")"].map ascii), []) := by
  decide +kernel

/-- parse_with_error: the tree of `a + (b) + c` -/
example : (printed "a+(b*)+c").map Prod.fst = some (some (["a", "+", "(", "b", ")", "+", "c"].map ascii)) ∧
    (match printed "a+(b*)+c" with
      | some (_, [⟨sp, .expecting s⟩]) => sp == ⟨5, 6⟩ && same s (setE false [(0, none), (2, some "(")])
      | _ => false) = true := by decide +kernel

/-! ## tests/book_ex_simple.rs -/

def simple : Root := ⟨⟨mathDecl,
  [named "E" true [("terms", .split (ty "T") OpAdd, [])],
   named "T" false [("factors", .split (ty "F") OpMul, [])],
   enum "F" [("Ident", Ident), ("Paren", .tup3 ParenOpen (.box (ty "E")) ParenClose)]]⟩, ⟨0, by decide⟩⟩

/-- main: there is a tree, no error, and nothing remains -/
example : (match once simple "(a+b)*(c+d)" with
    | some (some _, [], some []) => true
    | _ => false) = true := by decide +kernel

/-! ## tests/semantic.rs -/

def semanticDecl : Decl := ⟨false, [some [.ignore (some [ascii "\\s+"])]], some
  [⟨ascii "Ident", true, attrs (some "[a-zA-Z]+") [⟨some (ascii "Ident"), .path⟩]⟩,
   ⟨ascii "Op", true, attrs none
    [⟨some (ascii "OpAdd"), .value (some (ascii "+"))⟩, ⟨some (ascii "OpMul"), .value (some (ascii "*"))⟩,
     ⟨some (ascii "OpEq"), .value (some (ascii "="))⟩]⟩,
   ⟨ascii "Paren", true, attrs none
    [⟨some (ascii "ParenOpen"), .value (some (ascii "("))⟩, ⟨some (ascii "ParenClose"), .value (some (ascii ")"))⟩]⟩,
   ⟨ascii "Variable", true, []⟩]⟩

def assignment : Root := ⟨⟨semanticDecl,
  [named "Assignment" true [("variable", Ident, [some [.semantic (some [ascii "Variable"])]]),
     ("op", ty "OpEq", []), ("expression", ty "Expr", [])],
   named "Expr" false [("terms", .split (ty "Term") OpAdd, [])],
   named "Term" false [("factors", .split (ty "Factor") OpMul, [])],
   enum "Factor" [("Ident", Ident), ("Paren", .tup3 ParenOpen (.box (ty "Expr")) ParenClose)]]⟩, ⟨0, by decide⟩⟩

/-- `a = b + c * d` -/
def assignmentItems : List (Item 4) :=
  [.token ⟨⟨0, 1⟩, 0⟩, .token ⟨⟨2, 3⟩, 1⟩, .token ⟨⟨4, 5⟩, 0⟩, .token ⟨⟨6, 7⟩, 1⟩, .token ⟨⟨8, 9⟩, 0⟩,
   .token ⟨⟨10, 11⟩, 1⟩, .token ⟨⟨12, 13⟩, 0⟩]

/-- Whether the token at the span has the semantic type `Variable`, after parsing. -/
def isVariable (sp : Span) : Option Bool := do
  let r ← parse assignment (Parser.new (ascii "a = b + c * d") assignmentItems)
  let _ ← r.1
  let c ← TokenVec.atSpan r.2.info.tokens sp
  return c.semantic.contains 3

/-- test_simple -/
example : isVariable ⟨0, 1⟩ = some true ∧ isVariable ⟨4, 5⟩ = some false := by decide +kernel

/-! ## tests/lexer.rs

The model of the lexer starts from the results of `logos`; these are the results for the sources of the tests. -/

/-- The results of the first calls of `next`. -/
def nexts : Nat → Lexer 3 → List (Option Span × Option (Token 3))
  | 0, _ => []
  | k + 1, l => l.next.1 :: nexts k l.next.2

/-- empty -/
example : nexts 1 ⟨[], ⟨0, 0⟩⟩ = [(none, none)] := by decide +kernel

/-- invalid: `3+ 4 what is (this 5)   invalid`; logos reports the text that no rule matches in pieces -/
example : nexts 7 ⟨[.token ⟨⟨0, 1⟩, 0⟩, .token ⟨⟨1, 2⟩, 1⟩, .token ⟨⟨3, 4⟩, 0⟩, .error ⟨5, 9⟩, .error ⟨10, 12⟩,
      .token ⟨⟨13, 14⟩, 2⟩, .error ⟨14, 18⟩, .token ⟨⟨19, 20⟩, 0⟩, .token ⟨⟨20, 21⟩, 2⟩, .error ⟨24, 31⟩], ⟨0, 0⟩⟩ =
    [(none, some ⟨⟨0, 1⟩, 0⟩), (none, some ⟨⟨1, 2⟩, 1⟩), (none, some ⟨⟨3, 4⟩, 0⟩),
     (some ⟨5, 12⟩, some ⟨⟨13, 14⟩, 2⟩), (some ⟨14, 18⟩, some ⟨⟨19, 20⟩, 0⟩), (none, some ⟨⟨20, 21⟩, 2⟩),
     (some ⟨24, 31⟩, none)] := by decide +kernel

/-! ## tests/book_terminal.rs, tests/doc_lex_term_regex.rs

A terminal with `terminal_parse` is a root of its own. -/

/-- The lexicon of doc_lex_term_regex.rs -/
def wordDecl : Decl := ⟨false, [some [.terminalParse]], some
  [⟨ascii "Word", true, attrs (some "\\w+") [⟨some (ascii "Ident"), .path⟩,
    ⟨some (ascii "KwClass"), .value (some (ascii "class"))⟩]⟩]⟩

/-- Parse a source that is one word with the terminal with the given number. -/
def word (k : Nat) (lit : Option String) (source : String) : Option (Option (List Nat)) :=
  let p := Parser.new (ascii source) [.token ⟨⟨0, source.length⟩, (0 : Fin 1)⟩]
  let c : Fin 0 → Code 0 1 := fun k => nomatch k
  match parseOf (lexicon wordDecl).shouldExtract c fuel (.term k ⟨0, lit.map ascii⟩) p with
  | .ok (.ok x) _ => some (x.map treeCode)
  | _ => none

/-- main -/
example : word 0 none "class" = some (some [0, 0, 5, 0]) ∧ word 1 (some "class") "class" = some (some [0, 0, 5, 0]) ∧
    word 0 none "javascript" = some (some [0, 0, 10, 0]) ∧ word 1 (some "class") "javascript" = some none := by
  decide +kernel

/-! ## tests/ui -/

/-- The error of `derive_lexicon`, for an enum with one variant. -/
def lexiconError (E : Engine) (ignore : Option String) (v : String) (regex : Option String)
    (ts : Option (List TMeta)) : Option Macro.Err :=
  match expand E ⟨false, match ignore with | some r => [some [.ignore (some [ascii r])]] | none => [], some
      [⟨ascii v, true, [some ((match regex with | some r => [.regex (some [ascii r])] | none => []) ++
        (match ts with | some ts => [.terminal (some ts)] | none => []))]⟩]⟩ with
  | .error e => some e
  | .ok _ => none

def bare (s : String) : TMeta := ⟨some (ascii s), .path⟩
def literal (s l : String) : TMeta := ⟨some (ascii s), .value (some (ascii l))⟩

/-- `Regex::find` for a regex that is a plain text -/
def findText (r s : Str) : Option (Nat × Nat) :=
  ((List.range (s.length + 1)).find? fun i => (s.drop i).take r.length = r).map fun i => (i, i + r.length)

/-- The regexes of these tests: `\` does not compile; `\d+` and `[\+\-\*/]` do not match the empty string; the others are
plain texts. -/
def plain : Engine := ⟨fun r => r ≠ ascii "\\",
  fun r s => if r = ascii "\\d+" ∨ r = ascii "[\\+\\-\\*/]" then none else findText r s⟩

/-- lex_bad_regex_matches_empty -/
example : lexiconError plain none "MatchEmpty" (some "") none = some (.regexEmpty []) := by decide +kernel
/-- lex_invalid_ignore_regex -/
example : lexiconError plain (some "\\") "Invalid" none none = some (.regexSyntax (ascii "\\")) := by decide +kernel
/-- lex_invalid_regex -/
example : lexiconError plain none "Invalid" (some "\\") none = some (.regexSyntax (ascii "\\")) := by decide +kernel
/-- lex_no_dupe_literal -/
example : lexiconError plain none "Integer" none (some [literal "Zero" "0", literal "Another" "0"]) =
    some (.duplicate (ascii "Integer") (ascii "0")) := by decide +kernel
/-- lex_no_dupe_no_literal -/
example : lexiconError plain none "Integer" (some "\\d+") (some [bare "Integer", bare "FancyInteger"]) =
    some (.multipleBare (ascii "Integer")) := by decide +kernel
/-- lex_redundant_regex -/
example : lexiconError plain none "Operator" (some "[\\+\\-\\*/]")
      (some [literal "OpAdd" "+", literal "OpSub" "-", literal "OpMul" "*", literal "OpDiv" "/"]) =
    some (.redundantRegex (ascii "Operator")) := by decide +kernel
/-- lex_regex_no_match -/
example : lexiconError plain none "DoesNotMatchTerminal" (some "foo") (some [bare "Key", literal "Bar" "bar"]) =
    some (.regexMismatch (ascii "foo") (ascii "bar")) := by decide +kernel
/-- lex_regex_not_match_is_prefix -/
example : lexiconError plain none "DoesNotMatchTerminal" (some "key") (some [bare "Key", literal "Keyboard" "keyboard"]) =
    some (.regexPrefix (ascii "key") (ascii "keyboard")) := by decide +kernel
/-- lex_regex_not_match_start -/
example : lexiconError plain none "DoesNotMatchTerminal" (some "board")
      (some [bare "Board", literal "Keyboard" "keyboard"]) =
    some (.regexStart (ascii "board") (ascii "keyboard")) := by decide +kernel

end Teleparse.Conform
