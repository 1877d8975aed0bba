import Verif.Spec.Parses
/-
Specification of `Loop` and `Recover`: which tokens are skipped, where the parts are tried, and what is
reported. Stated on the stream (source, consumed tokens, tokens left) of a parser; `Starts`, `FirstOf` and
`Nullable` are the derivation-based notions of `Spec/Grammar.lean`, not the computed tables.
-/
namespace Teleparse
variable {m n : Nat}

/-- Producing `t` on the stream `v` returns `r` and leaves the stream `v'`. -/
def On (S : Schema m n) (md : Metadata (PId m n) n) (t : Ty m n) (v : View n) (r : Res n (Tree n))
    (v' : View n) : Prop := ∃ fuel, produce View.ops S md fuel t v = .ok r v'

/-- The token with its text. -/
def Token.word (source : Str) (t : Token n) : TokenSrc n := ⟨t.ty, textOf source t.span⟩

/-- The next token with its text. -/
def View.word (v : View n) : Option (TokenSrc n) := v.rest.head?.map (·.word v.source)

/-- The span of the next token, or of the end of the source. -/
def View.nextSpan (v : View n) : Span :=
  (v.rest.head?.map (·.span)).getD ⟨v.source.length, v.source.length⟩

/-- `w` is `v` after the tokens `ts` were consumed and nothing else happened. -/
structure View.Passed (v : View n) (ts : List (Token n)) (w : View n) : Prop where
  source : w.source = v.source
  rest : v.rest = ts ++ w.rest
  cells : w.cells = v.cells ++ ts.map Cell.ofToken

/-- What `Loop` does in one step: skip some tokens, or produce an element out of some tokens. -/
inductive LoopStep (n : Nat) where
  | skip (ts : List (Token n))
  | elem (ts : List (Token n)) (r : Res n (Tree n))

def LoopStep.tokens : LoopStep n → List (Token n)
  | .skip ts => ts
  | .elem ts _ => ts

def LoopStep.tree? : LoopStep n → Option (Tree n)
  | .skip _ => none
  | .elem _ r => r.tree?

/-- Skipped tokens are reported by one error, from the first to the last of them. -/
def LoopStep.errs : LoopStep n → List (Err n)
  | .skip [] => []
  | .skip (t :: ts) => [⟨⟨t.span.lo, (ts.getLast?.getD t).span.hi⟩, .unexpectedTokens⟩]
  | .elem _ r => r.errs

/-- The steps of `Loop<t>` and whether it gave up because an element did not consume anything. -/
inductive LoopSteps (S : Schema m n) (md : Metadata (PId m n) n) (G : Grammar (PId m n) n) (t : Ty m n) :
    View n → List (LoopStep n) → Bool → View n → Prop
  /-- At the end of input nothing more is done. -/
  | done {v} : v.rest = [] → LoopSteps S md G t v [] false v
  /-- Tokens at which no element can begin are skipped, up to one at which an element can begin. -/
  | skip {v ts v1 steps b v'} : ts ≠ [] → v.Passed ts v1 → (∀ x ∈ ts, ¬ FirstOf G t.pid (x.word v.source)) →
      (∀ w, v1.word = some w → FirstOf G t.pid w) → LoopSteps S md G t v1 steps b v' →
      LoopSteps S md G t v (.skip ts :: steps) b v'
  /-- Where an element can begin it is produced; the loop goes on if a token was consumed. -/
  | elem {v w ts r v1 steps b v'} : v.word = some w → FirstOf G t.pid w → On S md t v r v1 →
      v.rest = ts ++ v1.rest → ts ≠ [] → LoopSteps S md G t v1 steps b v' →
      LoopSteps S md G t v (.elem ts r :: steps) b v'
  /-- Otherwise it gives up. -/
  | stuck {v w r v1} : v.word = some w → FirstOf G t.pid w → On S md t v r v1 → v1.rest = v.rest →
      LoopSteps S md G t v [.elem [] r] true v1

/-- The errors `Loop` reports. -/
def loopErrs (steps : List (LoopStep n)) (stuck : Bool) (v' : View n) : List (Err n) :=
  steps.flatMap LoopStep.errs ++ if stuck then [⟨v'.nextSpan, .noAdvance⟩] else []

/-- The elements it collects. -/
def loopTrees (steps : List (LoopStep n)) : List (Tree n) := steps.filterMap LoopStep.tree?

/-- What `Recover` does in one step while searching the tail: skip a token at which the tail cannot begin,
or try to produce the tail, fail, and skip the token (if any) at which it failed. -/
inductive TailStep (n : Nat) where
  | skip (t : Token n)
  | fail (ts : List (Token n)) (e : List (Err n)) (t : Option (Token n))

/-- The search for the tail `t` of a `Recover`. -/
inductive TailSteps (S : Schema m n) (md : Metadata (PId m n) n) (G : Grammar (PId m n) n) (t : Ty m n) :
    View n → List (TailStep n) → Option (Res n (Tree n)) → View n → Prop
  /-- The tail can begin here and is produced. -/
  | found {v r v1} : Starts G t.pid v.word ∨ Nullable G t.pid → On S md t v r v1 → r.tree?.isSome = true →
      TailSteps S md G t v [] (some r) v1
  /-- At the end of input. -/
  | eof {v} : v.rest = [] → ¬ Nullable G t.pid → TailSteps S md G t v [] none v
  | eofFail {v e v1} : v.rest = [] → Nullable G t.pid → On S md t v (.panic e) v1 →
      TailSteps S md G t v [.fail [] e none] none v1
  /-- The tail cannot begin here: skip the token. -/
  | skip {v x v1 steps o v'} : v.Passed [x] v1 → ¬ FirstOf G t.pid (x.word v.source) → ¬ Nullable G t.pid →
      TailSteps S md G t v1 steps o v' → TailSteps S md G t v (.skip x :: steps) o v'
  /-- The tail can begin here but fails: skip what it consumed and one more token. -/
  | fail {v e v1 ts x v2 steps o v'} : v.rest ≠ [] → Starts G t.pid v.word ∨ Nullable G t.pid →
      On S md t v (.panic e) v1 → v.rest = ts ++ v1.rest → v1.Passed x.toList v2 → (x = none → v1.rest = []) →
      TailSteps S md G t v2 steps o v' → TailSteps S md G t v (.fail ts e x :: steps) o v'

/-- The last token skipped, if any was after the last attempt. -/
def TailStep.last? : TailStep n → Option (Token n)
  | .skip t => some t
  | .fail _ _ t => t

/-- The tokens passed over. -/
def TailStep.tokens : TailStep n → List (Token n)
  | .skip t => [t]
  | .fail ts _ t => ts ++ t.toList

/-- The head of a `Recover`: produced if it can begin, otherwise nothing is consumed. -/
inductive HeadStep (S : Schema m n) (md : Metadata (PId m n) n) (G : Grammar (PId m n) n) (t : Ty m n) :
    View n → Option (Res n (Tree n)) → View n → Prop
  | tried {v r v1} : Starts G t.pid v.word ∨ Nullable G t.pid → On S md t v r v1 →
      HeadStep S md G t v (some r) v1
  | cannot {v} : ¬ Starts G t.pid v.word → ¬ Nullable G t.pid → HeadStep S md G t v none v

/-- The tree of an attempt, if it was made and did not fail. -/
def triedTree (r : Option (Res n (Tree n))) : Option (Tree n) := r.bind Res.tree?

/-- The errors of an attempt that did not fail. -/
def triedErrs : Option (Res n (Tree n)) → List (Err n)
  | some (.recovered _ e) => e
  | _ => []

/-- The result of `Recover` out of head, tail and errors; `pos` is the position after the head. -/
def recoverResult (pos : Nat) (head tail : Option (Tree n)) (errs : List (Err n)) : Res n (Tree n) :=
  match head, tail with
  | some x, some y => if errs = [] then .success (.recover x.span x y) else .recovered (.recover x.span x y) errs
  | none, some y =>
    if errs = [] then .success (.recoverNone ⟨pos, pos⟩ y) else .recovered (.recoverNone ⟨pos, pos⟩ y) errs
  | _, none => .panic errs

/-- The search for a tail that tries every position: at each one either the tail cannot begin or an attempt
there fails, until it is produced or the input ends. -/
inductive EachPos (S : Schema m n) (md : Metadata (PId m n) n) (G : Grammar (PId m n) n) (t : Ty m n) :
    View n → List (Token n) → Option (Res n (Tree n)) → View n → Prop
  | found {v r v1} : On S md t v r v1 → r.tree?.isSome = true → EachPos S md G t v [] (some r) v1
  | eof {v v1} : v.rest = [] → (v1 = v ∧ ¬ Nullable G t.pid) ∨ (∃ e, On S md t v (.panic e) v1) →
      EachPos S md G t v [] none v1
  | cannot {v x v1 ts o v'} : v.Passed [x] v1 → ¬ FirstOf G t.pid (x.word v.source) → ¬ Nullable G t.pid →
      EachPos S md G t v1 ts o v' → EachPos S md G t v (x :: ts) o v'
  | fails {v x e v1 v2 ts o v'} : v.rest = x :: v2.rest → On S md t v (.panic e) v1 → v1.Passed [x] v2 →
      EachPos S md G t v2 ts o v' → EachPos S md G t v (x :: ts) o v'

end Teleparse
