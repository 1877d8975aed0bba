import Verif.Model.Program
/-
The tests of the repository, run on the model. These are tests of the model, not proofs: they compare what the model
computes with what the authors of the code expect it to compute. Each example quotes the name of the test.

This file: the test lexicon and what is needed to run a test.
-/
namespace Teleparse.Conform
open Macro Syn Prog

/-- A regex engine for the declarations below, which contain no regex that matches the empty string and no
literal with a regex. -/
def engine : Engine := ⟨fun _ => true, fun _ s => if s.isEmpty then none else some (0, s.length)⟩

def attrs (r : Option String) (ts : List TMeta) : List (Option (List VMeta)) :=
  [some ((match r with | some r => [.regex (some [ascii r])] | none => []) ++ [.terminal (some ts)])]

/-- `MathTokenType`, src/test.rs:16-32 -/
def mathDecl : Decl := ⟨false, [some [.ignore (some [ascii "\\s+"])]], some
  [⟨ascii "Ident", true, attrs (some "[a-zA-Z]+") [⟨some (ascii "Ident"), .path⟩]⟩,
   ⟨ascii "Op", true, attrs none
    [⟨some (ascii "OpAdd"), .value (some (ascii "+"))⟩, ⟨some (ascii "OpMul"), .value (some (ascii "*"))⟩]⟩,
   ⟨ascii "Paren", true, attrs none
    [⟨some (ascii "ParenOpen"), .value (some (ascii "("))⟩, ⟨some (ascii "ParenClose"), .value (some (ascii ")"))⟩]⟩,
   ⟨ascii "Integer", true, attrs (some "\\d+") [⟨some (ascii "Integer"), .path⟩]⟩]⟩

/-- The code generated for a lexicon. -/
def lexicon (d : Decl) : Lexicon :=
  match Macro.expand engine d with
  | .ok L => L
  | .error _ => ⟨[], [], [], [], [], 0, [], 0⟩

def isSpace (c : Nat) : Bool := c = 32 ∨ c = 9 ∨ c = 10 ∨ c = 13
def isLetter (c : Nat) : Bool := (65 ≤ c ∧ c ≤ 90) ∨ (97 ≤ c ∧ c ≤ 122)
def isDigit (c : Nat) : Bool := 48 ≤ c ∧ c ≤ 57

/-- The scanner of `MathTokenType`. -/
def mathScan : Nat → Nat → Str → List (Item 4)
  | 0, _, _ => []
  | _, _, [] => []
  | fuel + 1, i, c :: s =>
    if isSpace c then mathScan fuel (i + 1) s
    else if isLetter c then
      let k := (s.takeWhile isLetter).length
      .token ⟨⟨i, i + 1 + k⟩, 0⟩ :: mathScan fuel (i + 1 + k) (s.drop k)
    else if isDigit c then
      let k := (s.takeWhile isDigit).length
      .token ⟨⟨i, i + 1 + k⟩, 3⟩ :: mathScan fuel (i + 1 + k) (s.drop k)
    else if c = 43 ∨ c = 42 then .token ⟨⟨i, i + 1⟩, 1⟩ :: mathScan fuel (i + 1) s
    else if c = 40 ∨ c = 41 then .token ⟨⟨i, i + 1⟩, 2⟩ :: mathScan fuel (i + 1) s
    else .error ⟨i, i + 1⟩ :: mathScan fuel (i + 1) s

/-! ### Declarations -/

def Ident : TyE := .name (ascii "Ident")
def OpAdd : TyE := .name (ascii "OpAdd")
def OpMul : TyE := .name (ascii "OpMul")
def ParenOpen : TyE := .name (ascii "ParenOpen")
def ParenClose : TyE := .name (ascii "ParenClose")
def Integer : TyE := .name (ascii "Integer")

/-- `#[derive_syntax] #[teleparse(root, no_test)] struct name(ts..);` -/
def tupleStruct (name : String) (ts : List TyE) : DeclD TyE :=
  ⟨ascii name, [some [.root, .noTest]], .struct (.unnamed (ts.map fun t => ⟨[], t, []⟩))⟩

/-! ### Trees -/

mutual
/-- A tree written as numbers, to compare trees. -/
def treeCode {n : Nat} : Tree n → List Nat
  | .tok t => [0, t.span.lo, t.span.hi, t.ty]
  | .seq sp l => [1, sp.lo, sp.hi, l.length] ++ codes l
  | .variant i t => [2, i] ++ treeCode t
  | .optSome sp t => [3, sp.lo, sp.hi] ++ treeCode t
  | .optNone sp => [4, sp.lo, sp.hi]
  | .exist sp b => [5, sp.lo, sp.hi, if b then 1 else 0]
  | .text sp s => [6, sp.lo, sp.hi, s.length] ++ s
  | .list sp l => [7, sp.lo, sp.hi, l.length] ++ codes l
  | .split sp l ps => [8, sp.lo, sp.hi, l.length] ++ codes l ++ [ps.length] ++ codes ps
  | .recover sp x y => [9, sp.lo, sp.hi] ++ treeCode x ++ treeCode y
  | .recoverNone sp y => [10, sp.lo, sp.hi] ++ treeCode y
/-- A list of trees written as numbers. -/
def codes {n : Nat} : List (Tree n) → List Nat
  | [] => []
  | t :: l => treeCode t ++ codes l
end

/-- `Ident::from_span(lo..hi)` and so on -/
def ident (lo hi : Nat) : Tree 4 := .tok ⟨⟨lo, hi⟩, 0⟩
def op (lo hi : Nat) : Tree 4 := .tok ⟨⟨lo, hi⟩, 1⟩
def paren (lo hi : Nat) : Tree 4 := .tok ⟨⟨lo, hi⟩, 2⟩

/-- Expected sets: `first_set!(T{Ident:*})` and `first_set!(T{Op: "+"})` -/
def expects (lo hi : Nat) (ty : Fin 4) (lit : Option String) : Err 4 := ⟨⟨lo, hi⟩, .expecting (TSet.one ty (lit.map ascii))⟩

/-! ### Running -/

/-- A program with a root. -/
structure Root where
  program : Program
  root : Fin program.types.length

/-- The code generated for a program. -/
def codeOf (n : Nat) (P : Program) (k : Fin P.types.length) : Code P.types.length n :=
  (P.code (lexicon P.lexicon) k).getD (.enum ⟨[], []⟩)

/-- Enough for all tests. -/
def fuel : Nat := 40

/-- `parser.parse::<T>()`: the tree, and the parser afterwards; `none` if the grammar is refused or the fuel is not
enough. -/
def parse {n : Nat} (R : Root) (p : Parser n) : Option (Option (Tree n) × Parser n) :=
  match parseOf (lexicon R.program.lexicon).shouldExtract (codeOf n R.program) fuel (.user R.root) p with
  | .ok (.ok x) p => some (x, p)
  | _ => none

/-- `parser.remaining()` -/
def remaining {n : Nat} (L : Lexicon) (p : Parser n) : Option Str :=
  match (Parser.ops L.shouldExtract).mRemaining p with
  | .ok s _ => some s
  | _ => none

/-- What a test looks at: the tree, the errors and what remains. -/
abbrev Seen (n : Nat) := Option (Option (List Nat) × List (Err n) × Option Str)

def seen {n : Nat} (R : Root) (r : Option (Option (Tree n) × Parser n)) : Seen n :=
  r.map fun (x, p) => (x.map treeCode, p.info.errors, remaining (lexicon R.program.lexicon) p)

def expected {n : Nat} (x : Option (Tree n)) (errors : List (Err n)) (rest : String) : Seen n :=
  some (x.map treeCode, errors, some (ascii rest))

/-- A `GrammarError` with its texts, lib.rs:64-77 -/
inductive GrammarError where
  | leftRecursion
  | firstFirst (self a b terms : Str)
  | firstFollowSeq (self a b terms : Str)
  | firstFollow (self terms : Str)
  deriving DecidableEq

/-- The error of `T::metadata()`. -/
def grammarError (n : Nat) (R : Root) : Option GrammarError :=
  let root : Ty R.program.types.length n := .user R.root
  let L := lexicon R.program.lexicon
  match metadataOf (codeOf n R.program) fuel root, registerFrom (ruleOf (codeOf n R.program)) fuel root.pid with
  | some (.error e), some G =>
    match buildFirst fuel G with
    | some first =>
      match buildFollow fuel first G root.pid with
      | some follow =>
        let name (k : Fin n) : Str := (L.variants[k.val]?.map Prod.fst).getD []
        let terms := join (ascii ", ") (e.terms name G first follow)
        let debug := PId.debug (n := n) (R.program.idents L)
        match e with
        | .leftRecursion _ _ => some .leftRecursion
        | .firstFirst t a b => some (.firstFirst (debug t) (debug a) (debug b) terms)
        | .firstFollowSeq t a b => some (.firstFollowSeq (debug t) (debug a) (debug b) terms)
        | .firstFollow t => some (.firstFollow (debug t) terms)
      | none => none
    | none => none
  | _, _ => none

def firstFirst (self a b terms : String) : Option GrammarError :=
  some (.firstFirst (ascii self) (ascii a) (ascii b) (ascii terms))
def firstFollowSeq (self a b terms : String) : Option GrammarError :=
  some (.firstFollowSeq (ascii self) (ascii a) (ascii b) (ascii terms))
def firstFollow (self terms : String) : Option GrammarError := some (.firstFollow (ascii self) (ascii terms))

/-! ### The test lexicon -/

/-- `Parser::new(source)` -/
def parser (source : String) : Parser 4 :=
  Parser.new (ascii source) (mathScan (ascii source).length 0 (ascii source))

/-- A program with one tuple struct, which is the root. -/
def root (name : String) (ts : List TyE) : Root := ⟨⟨mathDecl, [tupleStruct name ts]⟩, ⟨0, Nat.one_pos⟩⟩

/-- Parse the source once. -/
def once (R : Root) (source : String) : Seen 4 := seen R (parse R (parser source))

/-- Parse twice with the same parser and look at the second result. -/
def twice (R : Root) (source : String) : Seen 4 := seen R ((parse R (parser source)).bind fun r => parse R r.2)

end Teleparse.Conform
