/-
Model of the basic lexical types: source text, `Span`, `Token`, `TokenSrc`.
-/
namespace Teleparse

/-- Source text and literals (`&str`): the list of UTF-8 bytes. Positions (`Pos = usize`,
lex/span.rs:5) are byte offsets. Simplification: bytes are natural numbers; nothing depends on
them being below 256 or on the sequence being valid UTF-8 beyond `isBoundary`. -/
abbrev Str := List Nat

/-- `str::is_char_boundary` of the Rust standard library: 0, the length, and every index whose byte
is not a UTF-8 continuation byte (`0x80..=0xBF`). Used by slicing in lex/span.rs:51 and
parser/parser_impl.rs:224-227. -/
def isBoundary (s : Str) (i : Nat) : Bool :=
  if i = 0 then true
  else if i = s.length then true
  else match s[i]? with
    | none => false
    | some b => b < 128 || 192 ≤ b

/-- `&input[lo..hi]` on `str`; `none` is the panic (out of range, reversed, or not on a character
boundary). Used by lex/span.rs:51. -/
def sliceStr? (s : Str) (lo hi : Nat) : Option Str :=
  if lo ≤ hi ∧ hi ≤ s.length ∧ isBoundary s lo = true ∧ isBoundary s hi = true then
    some ((s.drop lo).take (hi - lo))
  else none

/-- lex/span.rs:14-19 -/
structure Span where
  lo : Nat
  hi : Nat
  deriving DecidableEq, Repr, Inhabited

/-- `Span::get`, lex/span.rs:46-52; `none` is a panic in the slice expression. -/
def Span.get? (sp : Span) (input : Str) : Option Str :=
  if sp.hi ≤ sp.lo then some []
  else
    let hi := min sp.hi input.length
    sliceStr? input sp.lo hi

/-- `Span::get` where a panic is mapped to the empty text. Only used by the parser model; C52 shows
that on every reachable state the panic does not happen. -/
def Span.get (sp : Span) (input : Str) : Str := (sp.get? input).getD []

/-- lex/token.rs:11-16. A token type of a lexicon with `n` variants is its ordinal (`id`,
macros/src/lexicon.rs:305), an element of `Fin n`. -/
structure Token (n : Nat) where
  span : Span
  ty : Fin n
  deriving DecidableEq, Repr

/-- `Token::src`, lex/token.rs:35-37 -/
def Token.src {n : Nat} (t : Token n) (input : Str) : Str := t.span.get input

/-- lex/token.rs:55-58 -/
structure TokenSrc (n : Nat) where
  ty : Fin n
  src : Str
  deriving DecidableEq, Repr

/-- `Token::to_src`, lex/token.rs:41-46 -/
def Token.toSrc {n : Nat} (t : Token n) (input : Str) : TokenSrc n := ⟨t.ty, t.src input⟩

end Teleparse
