import Verif.Spec.Layout
/-
Specification of what a parser may forget: the records of `Info` that it only writes, and what it parsed before.
-/
namespace Teleparse
variable {m n : Nat}

/-- The fields of `Info` that are only lists of what happened (parser/info.rs:8-18, without `source` and `tokens`). -/
structure Records (n : Nat) where
  invalidSource : List Span
  invalidTokens : List (Token n)
  extracted : List (Token n)
  errors : List (Err n)

/-- What is in these fields. -/
def Parser.records (p : Parser n) : Records n :=
  ⟨p.info.invalidSource, p.info.invalidTokens, p.info.extracted, p.info.errors⟩

/-- The parser after `info_mut` was used to replace these fields (parser_impl.rs:31-34). -/
def Parser.withRecords (r : Records n) (p : Parser n) : Parser n :=
  { p with info := { p.info with
      invalidSource := r.invalidSource
      invalidTokens := r.invalidTokens
      extracted := r.extracted
      errors := r.errors } }

/-- One list of records after another. -/
def Records.then (a b : Records n) : Records n :=
  ⟨a.invalidSource ++ b.invalidSource, a.invalidTokens ++ b.invalidTokens, a.extracted ++ b.extracted,
    a.errors ++ b.errors⟩

def Records.none : Records n := ⟨[], [], [], []⟩

/-- The parser after `info_mut` was used to replace the token store. -/
def Parser.withTokens (v : TokenVec n) (p : Parser n) : Parser n :=
  { p with info := { p.info with tokens := v } }

/-- The words (types and texts) that were not consumed yet. -/
def Parser.coming (ext : Fin n → Bool) (p : Parser n) : List (TokenSrc n) :=
  (p.view ext).rest.map (Token.word p.info.source)

/-- The tokens in the store and those to come are in order and lie in the source. -/
structure Standing (ext : Fin n → Bool) (p : Parser n) : Prop where
  sorted : SortedTokens (p.info.tokens.map (·.token) ++ (p.view ext).rest)
  inside : ∀ t ∈ p.info.tokens.map (·.token) ++ (p.view ext).rest, t.span.InSource p.info.source

/-- What is to come, seen from where the parser stands. -/
def Parser.layout (ext : Fin n → Bool) (p : Parser n) : Layout n := ⟨p.info.source, (p.view ext).rest, p.info.tokens⟩

/-- `p` became `q` as `p'` became `q'`: corresponding tokens with the same semantic types were added to the stores,
corresponding syntax errors were recorded, and the same words are left. -/
structure SameStep (L L' : Layout n) (ext ext' : Fin n → Bool) (p p' q q' : Parser n) : Prop where
  tokens : ∃ new new', q.info.tokens = p.info.tokens ++ new ∧ q'.info.tokens = p'.info.tokens ++ new' ∧
    Pointwise (SameCell L L') new new'
  errors : ∃ new new', syntaxErrors q.info.errors = syntaxErrors p.info.errors ++ new ∧
    syntaxErrors q'.info.errors = syntaxErrors p'.info.errors ++ new' ∧ SameErrs L L' new new'
  coming : q.coming ext = q'.coming ext'
  standing : Standing ext q
  standing' : Standing ext' q'

/-- The same outcome of something done by `p` and `p'`. -/
inductive SameRun (L L' : Layout n) (ext ext' : Fin n → Bool) (p p' : Parser n) {α : Type} (R : α → α → Prop) :
    Out (Parser n) α → Out (Parser n) α → Prop
  | fuel : SameRun L L' ext ext' p p' R .fuel .fuel
  | crash : SameRun L L' ext ext' p p' R .crash .crash
  | ok {a a' q q'} : R a a' → SameStep L L' ext ext' p p' q q' → SameRun L L' ext ext' p p' R (.ok a q) (.ok a' q')

end Teleparse
