import Verif.Model.Produce
/-
Specification of scanning and of the token stream.
-/
namespace Teleparse
variable {n : Nat}

/-- The tokens among the scanner's outcomes. -/
def tokensOf : List (Item n) → List (Token n)
  | [] => []
  | .token t :: l => t :: tokensOf l
  | .error _ :: l => tokensOf l

/-- From the start of the first to the end of the last span. -/
def mergeSpans (l : List Span) : Option Span :=
  match l.head?, l.getLast? with
  | some a, some b => some ⟨a.lo, b.hi⟩
  | _, _ => none

/-- The merged spans of the maximal runs of consecutive unrecognised pieces; `cur` is the run being
collected. -/
def invalidRunsFrom (cur : List Span) : List (Item n) → List Span
  | [] => (mergeSpans cur).toList
  | .error sp :: l => invalidRunsFrom (cur ++ [sp]) l
  | .token _ :: l => (mergeSpans cur).toList ++ invalidRunsFrom [] l

def invalidRuns (l : List (Item n)) : List Span := invalidRunsFrom [] l

def Item.span : Item n → Span
  | .token t => t.span
  | .error sp => sp

/-- What logos guarantees for its outcomes on `source`: they are non-empty pieces of the source, on
character boundaries, from left to right. -/
def ItemsWF (source : Str) (items : List (Item n)) : Prop :=
  (∀ i ∈ items, i.span.lo < i.span.hi ∧ i.span.hi ≤ source.length ∧
    isBoundary source i.span.lo = true ∧ isBoundary source i.span.hi = true) ∧
  items.Pairwise (fun a b => a.span.hi ≤ b.span.lo)

/-- The parser states reachable from a fresh parser by any calls of its API: peeking, consuming, applying
semantic types, and parsing any roots. -/
inductive Reached (ext : Fin n → Bool) (source : Str) (items : List (Item n)) : Parser n → Prop
  | new : Reached ext source items (Parser.new source items)
  | peek {p} : Reached ext source items p → Reached ext source items (p.peek ext).2
  | consume {p} : Reached ext source items p → Reached ext source items (p.consume ext).2
  | apply {p} (sp sem) : Reached ext source items p → Reached ext source items (p.applySemantic sp sem)
  | produce {m : Nat} {p p'} (S : Schema m n) (md : Metadata (PId m n) n) (fuel : Nat) (t : Ty m n) (r) :
      Reached ext source items p → Teleparse.produce (Parser.ops ext) S md fuel t p = .ok r p' →
      Reached ext source items p'
  | parse {m : Nat} {p p'} (S : Schema m n) (fuel : Nat) (t : Ty m n) (r) :
      Reached ext source items p → Parser.parse ext S fuel t p = .ok r p' → Reached ext source items p'

/-- The tokens that reach the syntax. -/
def streamOf (ext : Fin n → Bool) (items : List (Item n)) : List (Token n) :=
  (tokensOf items).filter fun t => !ext t.ty

/-- The abstract stream of a parser. -/
def Parser.view (ext : Fin n → Bool) (p : Parser n) : View n :=
  ⟨p.info.source, p.info.tokens, p.peeked.toList ++ streamOf ext p.lexer.items⟩

/-- `k` calls of `Lexer::next`: the answers and the final lexer. -/
def Lexer.calls : Nat → Lexer n → List (Option Span × Option (Token n)) × Lexer n
  | 0, l => ([], l)
  | k + 1, l => ((l.next).1 :: (Lexer.calls k l.next.2).1, (Lexer.calls k l.next.2).2)

/-- The value of an outcome. -/
def Out.value? {σ α : Type} : Out σ α → Option α
  | .ok a _ => some a
  | _ => none

/-- Calls of the stream API. -/
inductive Call where
  | peek
  | peekSrc
  | currentSpan
  | consume

/-- Their answers; `crash` is a Rust panic. -/
inductive Answer (n : Nat) where
  | token (t : Option (Token n))
  | src (t : Option (TokenSrc n))
  | span (sp : Span)
  | crash
  deriving DecidableEq

def Answer.ofOut {α : Type} (f : α → Answer n) (p : Parser n) : Out (Parser n) α → Answer n × Parser n
  | .ok a p' => (f a, p')
  | _ => (.crash, p)

def Parser.call (ext : Fin n → Bool) (p : Parser n) : Call → Answer n × Parser n
  | .peek => Answer.ofOut .token p ((Parser.ops ext).mPeek p)
  | .peekSrc => Answer.ofOut .src p ((Parser.ops ext).mPeekSrc p)
  | .currentSpan => Answer.ofOut .span p ((Parser.ops ext).mCurrentSpan p)
  | .consume => Answer.ofOut .token p ((Parser.ops ext).mConsume p)

/-- A sequence of calls: the answers and the final parser. -/
def Parser.calls (ext : Fin n → Bool) : List Call → Parser n → List (Answer n) × Parser n
  | [], p => ([], p)
  | c :: cs, p =>
    ((p.call ext c).1 :: (Parser.calls ext cs (p.call ext c).2).1,
      (Parser.calls ext cs (p.call ext c).2).2)

/-- What a call has to answer if `l` are the tokens not consumed yet. -/
def expectedAnswer (source : Str) (l : List (Token n)) : Call → Answer n
  | .peek | .consume => .token l.head?
  | .peekSrc => .src (l.head?.map fun t => ⟨t.ty, (source.drop t.span.lo).take (t.span.hi - t.span.lo)⟩)
  | .currentSpan => .span ((l.head?.map (·.span)).getD ⟨source.length, source.length⟩)

/-- The tokens not consumed after a call. -/
def afterCall (l : List (Token n)) : Call → List (Token n)
  | .consume => l.tail
  | _ => l

def expectedAnswers (source : Str) : List Call → List (Token n) → List (Answer n)
  | [], _ => []
  | c :: cs, l => expectedAnswer source l c :: expectedAnswers source cs (afterCall l c)

def afterCalls (l : List (Token n)) (cs : List Call) : List (Token n) := cs.foldl afterCall l

end Teleparse
