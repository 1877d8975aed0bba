import Verif.Spec.Steps
import Verif.Spec.Exact
/-
Specification of C105: an input of good elements with stray tokens between them.
-/
namespace Teleparse
variable {m n : Nat}

/-- A piece of an input: the tokens of a match, with its tree, or stray tokens. -/
inductive Chunk (n : Nat) where
  | item (c : List (Cell n)) (x : Tree n)
  | stray (ts : List (Token n))

/-- The tokens of the piece. -/
def Chunk.tokens : Chunk n → List (Token n)
  | .item c _ => c.map (·.token)
  | .stray ts => ts

/-- What should be in the token store for the piece: stray tokens have no semantic types. -/
def Chunk.cells : Chunk n → List (Cell n)
  | .item c _ => c
  | .stray ts => ts.map fun t => ⟨t, LSet.new⟩

/-- The tree of the piece. -/
def Chunk.tree? : Chunk n → Option (Tree n)
  | .item _ x => some x
  | .stray _ => none

/-- What should be reported for the piece: one error for stray tokens, from the first one to the last one. -/
def Chunk.errs : Chunk n → List (Err n)
  | .item _ _ => []
  | .stray [] => []
  | .stray (t :: ts) => [⟨⟨t.span.lo, (ts.getLast?.getD t).span.hi⟩, .unexpectedTokens⟩]

/-- The first token of the pieces, with its text. -/
def headWord (source : Str) (l : List (Chunk n)) : Option (TokenSrc n) :=
  (l.flatMap Chunk.tokens).head?.map (·.word source)

/-- The pieces, at the position `pos`, are matches of `t` and stray tokens. The token after a match is the first one of
another match, or it cannot belong to the match. Stray tokens cannot begin a match; they are taken together. -/
inductive Chunks (S : Schema m n) (G : Grammar (PId m n) n) (source : Str) (t : Ty m n) : Nat → List (Chunk n) → Prop
  | nil {pos} : Chunks S G source t pos []
  | item {pos c x l} : Parses S source pos t c x →
      (∀ w, headWord source l = some w →
        FirstOf G t.pid w ∨ (Calm S G t.pid ∧ ¬ Continues G t.pid (wordOf source c) w)) →
      Chunks S G source t (endOf pos c) l → Chunks S G source t pos (.item c x :: l)
  | stray {pos ts l} : ts ≠ [] → (∀ a ∈ ts, ¬ FirstOf G t.pid (a.word source)) →
      (∀ w, headWord source l = some w → FirstOf G t.pid w) →
      Chunks S G source t (endOf pos (Chunk.stray ts).cells) l → Chunks S G source t pos (.stray ts :: l)

/-- The first steps of a `Loop<t>`, whatever happens in them. -/
inductive LoopPath (S : Schema m n) (md : Metadata (PId m n) n) (G : Grammar (PId m n) n) (t : Ty m n) :
    View n → List (LoopStep n) → View n → Prop
  | here {v} : LoopPath S md G t v [] v
  /-- tokens at which no element can begin are skipped, up to one at which an element can begin -/
  | skip {v ts v1 steps v'} : ts ≠ [] → v.Passed ts v1 → (∀ x ∈ ts, ¬ FirstOf G t.pid (x.word v.source)) →
      (∀ w, v1.word = some w → FirstOf G t.pid w) → LoopPath S md G t v1 steps v' →
      LoopPath S md G t v (.skip ts :: steps) v'
  /-- an element is produced, with or without errors, or fails; tokens were consumed -/
  | elem {v w ts r v1 steps v'} : v.word = some w → FirstOf G t.pid w → On S md t v r v1 →
      v.rest = ts ++ v1.rest → ts ≠ [] → LoopPath S md G t v1 steps v' →
      LoopPath S md G t v (.elem ts r :: steps) v'

end Teleparse
