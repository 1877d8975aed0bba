import Verif.Model.Lexer
import Verif.Model.TokenVec
import Verif.Model.Sets
/-
Model of `parser/info.rs`, `parser/parser_impl.rs` (state and stream API) and `syntax/error.rs`.
-/
namespace Teleparse
variable {n : Nat}

/-- `ErrorKind`, syntax/error.rs:45-52. `Custom` is never constructed by the library. -/
inductive ErrKind (n : Nat) where
  | unexpectedCharacters
  | unexpectedTokens
  | expecting (s : TSet n)
  | unexpectedEof
  | noAdvance
  deriving DecidableEq

/-- `syntax::Error`, syntax/error.rs:11-14 -/
structure Err (n : Nat) where
  span : Span
  kind : ErrKind n
  deriving DecidableEq

/-- `syntax::Result`, syntax/error.rs:55-64 -/
inductive Res (n : Nat) (α : Type) where
  | success (a : α)
  | recovered (a : α) (errs : List (Err n))
  | panic (errs : List (Err n))
  deriving DecidableEq

/-- `From<(T, Vec<Error>)>`, syntax/error.rs:66-75 -/
def Res.ofPair {α : Type} (a : α) (errs : List (Err n)) : Res n α :=
  if errs.isEmpty then .success a else .recovered a errs

/-- `Result::map`, syntax/error.rs:79-85 -/
def Res.map {α β : Type} (f : α → β) : Res n α → Res n β
  | .success a => .success (f a)
  | .recovered a e => .recovered (f a) e
  | .panic e => .panic e

/-- `Info`, parser/info.rs:5-19 -/
structure Info (n : Nat) where
  source : Str
  invalidSource : List Span := []
  invalidTokens : List (Token n) := []
  tokens : TokenVec n := []
  extracted : List (Token n) := []
  errors : List (Err n) := []

/-- `Parser`, parser_impl.rs:7-14 -/
structure Parser (n : Nat) where
  info : Info n
  lexer : Lexer n
  peeked : Option (Token n)

namespace Parser

/-- `Parser::new`, parser_impl.rs:18-24, for a source on which the scanner yields `items` -/
def new (source : Str) (items : List (Item n)) : Parser n :=
  ⟨{ source := source }, ⟨items, ⟨0, 0⟩⟩, none⟩

/-- parser_impl.rs:206-210: bookkeeping for unrecognised input -/
def noteInvalid (info : Info n) : Option Span → Info n
  | some sp => { info with
      invalidSource := info.invalidSource ++ [sp]
      errors := info.errors ++ [⟨sp, .unexpectedCharacters⟩] }
  | none => info

/-- The loop of `try_read_next_token`, parser_impl.rs:201-222. `ext` is `Lexicon::should_extract`
(macros/src/lexicon.rs:320-325). -/
def readLoop (ext : Fin n → Bool) : Nat → Parser n → Parser n
  | 0, p => p
  | fuel + 1, p =>
    match p.lexer.next with
    | ((invalid, token), lexer) =>
      let info := noteInvalid p.info invalid
      match token with
      | some t =>
        if ext t.ty then
          readLoop ext fuel ⟨{ info with extracted := info.extracted ++ [t] }, lexer, p.peeked⟩
        else ⟨info, lexer, some t⟩
      | none => ⟨info, lexer, p.peeked⟩

/-- `try_read_next_token`. Every iteration but the last takes at least one outcome of the scanner, so
the fuel never runs out (`readLoop_spec`). -/
def tryRead (ext : Fin n → Bool) (p : Parser n) : Parser n :=
  readLoop ext (p.lexer.items.length + 1) p

/-- The state after `peek_token`: parser_impl.rs:193-196 -/
def fill (ext : Fin n → Bool) (p : Parser n) : Parser n :=
  match p.peeked with
  | none => p.tryRead ext
  | some _ => p

/-- `peek_token`, parser_impl.rs:193-198 -/
def peek (ext : Fin n → Bool) (p : Parser n) : Option (Token n) × Parser n :=
  let p := p.fill ext
  (p.peeked, p)

/-- `consume_token`, parser_impl.rs:179-190 -/
def consume (ext : Fin n → Bool) (p : Parser n) : Option (Token n) × Parser n :=
  let p := p.fill ext
  match p.peeked with
  | some t => (some t, { p with info := { p.info with tokens := p.info.tokens.push t }, peeked := none })
  | none => (none, p)

/-- `empty_span`, parser_impl.rs:238-246 -/
def emptySpan (p : Parser n) : Span :=
  let hi := ((p.info.tokens.getLast?).map (·.token.span.hi)).getD 0
  ⟨hi, hi⟩

/-- `apply_semantic`, parser_impl.rs:248-253 -/
def applySemantic (p : Parser n) (span : Span) (sem : LSet n) : Parser n :=
  { p with info := { p.info with tokens := p.info.tokens.applySemanticInside span sem } }

end Parser

/-! ### Effects

The syntax types only use the parser through the stream API. Their model is written against an
interface `Ops`, with two instances: the parser above and the abstract stream `View` below. That both
give the same results is a theorem, not an assumption. -/

/-- What the stream API provides. -/
structure Ops (σ : Type) (n : Nat) where
  /-- `peek_token` -/
  peek : σ → Option (Token n) × σ
  /-- `consume_token` -/
  consume : σ → Option (Token n) × σ
  /-- `info().source` -/
  source : σ → Str
  /-- `empty_span` -/
  emptySpan : σ → Span
  /-- `apply_semantic` -/
  applySemantic : σ → Span → LSet n → σ

def Parser.ops (ext : Fin n → Bool) : Ops (Parser n) n where
  peek := Parser.peek ext
  consume := Parser.consume ext
  source p := p.info.source
  emptySpan := Parser.emptySpan
  applySemantic := Parser.applySemantic

/-- The state of a parser as seen by a syntax type: the source, the tokens consumed so far (with their
semantic types), and the non-extracted tokens still to come. -/
structure View (n : Nat) where
  source : Str
  cells : TokenVec n
  rest : List (Token n)
  deriving DecidableEq

/-- Position after the last consumed token. -/
def View.pos (v : View n) : Nat := ((v.cells.getLast?).map (·.token.span.hi)).getD 0

def View.consume (v : View n) : Option (Token n) × View n :=
  match v.rest with
  | [] => (none, v)
  | t :: r => (some t, { v with cells := v.cells.push t, rest := r })

def View.ops : Ops (View n) n where
  peek v := (v.rest.head?, v)
  consume := View.consume
  source := View.source
  emptySpan v := ⟨v.pos, v.pos⟩
  applySemantic v sp sem := { v with cells := v.cells.applySemanticInside sp sem }

/-- Outcome of running something on a parser: out of fuel (says nothing), a Rust panic (slice out of
bounds), or a value and the new state. -/
inductive Out (σ α : Type) where
  | fuel
  | crash
  | ok (a : α) (s : σ)
  deriving DecidableEq

/-- Computations on a parser. -/
def M (σ α : Type) : Type := σ → Out σ α

namespace M
variable {σ α β : Type}

def pure (a : α) : M σ α := fun s => .ok a s
def bind (m : M σ α) (f : α → M σ β) : M σ β := fun s =>
  match m s with
  | .fuel => .fuel
  | .crash => .crash
  | .ok a s => f a s
def fuel : M σ α := fun _ => .fuel
def crash : M σ α := fun _ => .crash

instance : Monad (M σ) where
  pure := M.pure
  bind := M.bind

end M

section Api
variable {σ : Type} (o : Ops σ n)

def Ops.mPeek : M σ (Option (Token n)) := fun s => .ok (o.peek s).1 (o.peek s).2
def Ops.mConsume : M σ (Option (Token n)) := fun s => .ok (o.consume s).1 (o.consume s).2
def Ops.mSource : M σ Str := fun s => .ok (o.source s) s
def Ops.mEmptySpan : M σ Span := fun s => .ok (o.emptySpan s) s
def Ops.mApply (sp : Span) (sem : LSet n) : M σ Unit := fun s => .ok () (o.applySemantic s sp sem)

/-- `Info::get_src`, parser/info.rs:35-37; a slice out of bounds is a Rust panic. -/
def Ops.mGetSrc (sp : Span) : M σ Str := do
  let src ← o.mSource
  match sp.get? src with
  | some s => pure s
  | none => M.crash

/-- `peek_token_src`, parser_impl.rs:165-167 -/
def Ops.mPeekSrc : M σ (Option (TokenSrc n)) := do
  match ← o.mPeek with
  | none => pure none
  | some t => do
    let s ← o.mGetSrc t.span
    pure (some ⟨t.ty, s⟩)

/-- `current_span`, parser_impl.rs:230-234 -/
def Ops.mCurrentSpan : M σ Span := do
  match ← o.mPeek with
  | some t => pure t.span
  | none => do
    let src ← o.mSource
    pure ⟨src.length, src.length⟩

/-- `remaining`, parser_impl.rs:224-227 -/
def Ops.mRemaining : M σ Str := do
  let sp ← o.mCurrentSpan
  let src ← o.mSource
  match sliceStr? src sp.lo src.length with
  | some s => pure s
  | none => M.crash

/-- `expecting`, parser_impl.rs:174-176 -/
def Ops.mExpecting (s : TSet n) : M σ (Err n) := do
  let sp ← o.mCurrentSpan
  pure ⟨sp, .expecting s⟩

/-- `unexpected_eof`, parser_impl.rs:170-172 -/
def Ops.mUnexpectedEof : M σ (Err n) := do
  let sp ← o.mCurrentSpan
  pure ⟨sp, .unexpectedEof⟩

/-- `parse_token`, parser_impl.rs:103-114 -/
def Ops.parseToken (ty : Fin n) : M σ (Res n (Token n)) := do
  let fail : M σ (Res n (Token n)) := do
    let e ← o.mExpecting (TSet.one ty none)
    pure (.panic [e])
  match ← o.mPeek with
  | some t =>
    if t.ty = ty then do
      let _ ← o.mConsume
      pure (.success t)
    else fail
  | none => fail

/-- `parse_token_lit`, parser_impl.rs:130-163 -/
def Ops.parseTokenLit (ty : Fin n) (lit : Str) (follow : TSet n) : M σ (Res n (Token n)) := do
  match ← o.mPeek with
  | none =>
    if follow.containsE then do
      let sp ← o.mCurrentSpan
      let e ← o.mExpecting (TSet.one ty (some lit))
      pure (.recovered ⟨sp, ty⟩ [e])
    else do
      let e ← o.mUnexpectedEof
      pure (.panic [e])
  | some t => do
    let src ← o.mGetSrc t.span
    if t.ty = ty ∧ src = lit then do
      let _ ← o.mConsume
      pure (.success t)
    else if follow.contains (some ⟨t.ty, src⟩) then do
      let sp ← o.mEmptySpan
      let e ← o.mExpecting (TSet.one ty (some lit))
      pure (.recovered ⟨sp, ty⟩ [e])
    else do
      let e ← o.mExpecting (TSet.one ty (some lit))
      pure (.panic [e])

end Api
end Teleparse
