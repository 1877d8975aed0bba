import Verif.Spec.Steps
/-
Specification of the lists with separators, `Split<t, p>` and `Punct<t, p>`: where elements and separators are
tried, which tokens are skipped, where the list ends, and what is reported. `stop` tells at which tokens the list
gives up; what it is is stated in terms of FOLLOW where it is used.
-/
namespace Teleparse
variable {m n : Nat}

/-- A position at which no element was found: it cannot begin there, or it was tried and failed. -/
inductive Miss (n : Nat) where
  | cannot (e : Err n)
  | failed (ts : List (Token n)) (e : List (Err n))

/-- What a miss reports: of several errors of a failing element only the last one. -/
def Miss.err : Miss n → Option (Err n)
  | .cannot e => some e
  | .failed _ e => e.getLast?

def Miss.tokens : Miss n → List (Token n)
  | .cannot _ => []
  | .failed ts _ => ts

/-- The errors of the misses between a separator and what comes next are reported as one: the first of them, up to
the end of the last. -/
def joined : List (Err n) → Option (Err n)
  | [] => none
  | e :: es => some ⟨⟨e.span.lo, ((e :: es).getLast (by simp)).span.hi⟩, e.kind⟩

/-- How the search for an element ended: with the element, before a separator, or where the list ends. -/
inductive GapEnd (n : Nat) where
  | elem (r : Res n (Tree n))
  | sep
  | stop

/-- A miss of `Split`: an element that can be empty is tried everywhere. -/
inductive SplitMiss (S : Schema m n) (md : Metadata (PId m n) n) (G : Grammar (PId m n) n) (t : Ty m n) :
    View n → Miss n → View n → Prop
  | cannot {v set} : ¬ Starts G t.pid v.word → ¬ Nullable G t.pid →
      (∀ x, set.contains x = true ↔ Starts G t.pid x) →
      SplitMiss S md G t v (.cannot ⟨v.nextSpan, .expecting set⟩) v
  | failed {v ts e v1} : Starts G t.pid v.word ∨ Nullable G t.pid → On S md t v (.panic e) v1 →
      v.rest = ts ++ v1.rest → SplitMiss S md G t v (.failed ts e) v1

/-- A miss of `Punct`: elements are tried at tokens only; tokens at which the list ends are no misses. -/
inductive PunctMiss (S : Schema m n) (md : Metadata (PId m n) n) (G : Grammar (PId m n) n) (t : Ty m n)
    (stop : TokenSrc n → Prop) : View n → Miss n → View n → Prop
  | cannot {v w set} : v.word = some w → ¬ FirstOf G t.pid w → ¬ stop w →
      (∀ x, set.contains x = true ↔ ∃ w, x = some w ∧ (FirstOf G t.pid w ∨ stop w)) →
      PunctMiss S md G t stop v (.cannot ⟨v.nextSpan, .expecting set⟩) v
  | failed {v w ts e v1} : v.word = some w → FirstOf G t.pid w → On S md t v (.panic e) v1 →
      v.rest = ts ++ v1.rest → PunctMiss S md G t stop v (.failed ts e) v1

/-- The list ends at the end of input or at a token where it gives up. -/
def View.Ends (stop : TokenSrc n → Prop) (v : View n) : Prop := ∀ w, v.word = some w → stop w

/-- The search for an element after a separator: the misses, each with the token skipped after it, if any. -/
inductive SplitGap (S : Schema m n) (md : Metadata (PId m n) n) (G : Grammar (PId m n) n) (t p : Ty m n)
    (stop : TokenSrc n → Prop) : View n → List (Miss n × Option (Token n)) → GapEnd n → View n → Prop
  /-- The element can begin here and is produced. -/
  | found {v r v1} : Starts G t.pid v.word ∨ Nullable G t.pid → On S md t v r v1 → r.tree?.isSome = true →
      SplitGap S md G t p stop v [] (.elem r) v1
  /-- A separator can begin where the element is missing: the element is left out. -/
  | sep {v a v1} : SplitMiss S md G t v a v1 → Starts G p.pid v1.word →
      SplitGap S md G t p stop v [(a, none)] .sep v1
  /-- The list ends where the element is missing. -/
  | ends {v a v1} : SplitMiss S md G t v a v1 → ¬ Starts G p.pid v1.word → v1.Ends stop →
      SplitGap S md G t p stop v [(a, none)] .stop v1
  /-- Otherwise a token is skipped. -/
  | skip {v a v1 x v2 gs o v'} : SplitMiss S md G t v a v1 → ¬ FirstOf G p.pid (x.word v.source) →
      ¬ stop (x.word v.source) → v1.Passed [x] v2 → SplitGap S md G t p stop v2 gs o v' →
      SplitGap S md G t p stop v ((a, some x) :: gs) o v'

/-- The same for `Punct`, which may end after a separator. -/
inductive PunctGap (S : Schema m n) (md : Metadata (PId m n) n) (G : Grammar (PId m n) n) (t p : Ty m n)
    (stop : TokenSrc n → Prop) : View n → List (Miss n × Option (Token n)) → GapEnd n → View n → Prop
  | found {v w r v1} : v.word = some w → FirstOf G t.pid w → On S md t v r v1 → r.tree?.isSome = true →
      PunctGap S md G t p stop v [] (.elem r) v1
  /-- The list ends after the separator (or after skipped tokens): not a miss. -/
  | trail {v} : (∀ w, v.word = some w → ¬ FirstOf G t.pid w) → v.Ends stop → PunctGap S md G t p stop v [] .stop v
  | sep {v a v1} : PunctMiss S md G t stop v a v1 → Starts G p.pid v1.word →
      PunctGap S md G t p stop v [(a, none)] .sep v1
  | ends {v a v1} : PunctMiss S md G t stop v a v1 → ¬ Starts G p.pid v1.word → v1.Ends stop →
      PunctGap S md G t p stop v [(a, none)] .stop v1
  | skip {v a v1 x v2 gs o v'} : PunctMiss S md G t stop v a v1 → ¬ FirstOf G p.pid (x.word v.source) →
      ¬ stop (x.word v.source) → v1.Passed [x] v2 → PunctGap S md G t p stop v2 gs o v' →
      PunctGap S md G t p stop v ((a, some x) :: gs) o v'

/-- What comes after the first element: a separator that fails, or a separator with what was searched and found
after it. -/
inductive DelimStep (n : Nat) where
  | sepFails (e : List (Err n))
  | sep (r : Res n (Tree n)) (gs : List (Miss n × Option (Token n))) (elem : Option (Res n (Tree n)))

/-- The steps after the first element, for either way to search elements. -/
inductive DelimSteps (S : Schema m n) (md : Metadata (PId m n) n) (G : Grammar (PId m n) n) (p : Ty m n)
    (Gap : View n → List (Miss n × Option (Token n)) → GapEnd n → View n → Prop) :
    View n → List (DelimStep n) → View n → Prop
  /-- No separator can begin here: the list ends. -/
  | done {v} : (∀ w, v.word = some w → ¬ FirstOf G p.pid w) → DelimSteps S md G p Gap v [] v
  /-- The separator can begin but fails: the list ends. -/
  | sepFails {v w e v1} : v.word = some w → FirstOf G p.pid w → On S md p v (.panic e) v1 →
      DelimSteps S md G p Gap v [.sepFails e] v1
  /-- A separator, then an element. -/
  | elem {v w r v1 gs r2 v2 steps v'} : v.word = some w → FirstOf G p.pid w → On S md p v r v1 →
      r.tree?.isSome = true → Gap v1 gs (.elem r2) v2 → DelimSteps S md G p Gap v2 steps v' →
      DelimSteps S md G p Gap v (.sep r gs (some r2) :: steps) v'
  /-- A separator, the element is left out, and another separator follows. -/
  | again {v w r v1 gs v2 steps v'} : v.word = some w → FirstOf G p.pid w → On S md p v r v1 →
      r.tree?.isSome = true → Gap v1 gs .sep v2 → DelimSteps S md G p Gap v2 steps v' →
      DelimSteps S md G p Gap v (.sep r gs none :: steps) v'
  /-- A separator, and the list ends. -/
  | last {v w r v1 gs v2} : v.word = some w → FirstOf G p.pid w → On S md p v r v1 →
      r.tree?.isSome = true → Gap v1 gs .stop v2 → DelimSteps S md G p Gap v [.sep r gs none] v2

/-- The error about the misses of a gap. -/
def gapErrs (gs : List (Miss n × Option (Token n))) : List (Err n) :=
  (joined (gs.filterMap fun g => g.1.err)).toList

/-- The element found after a separator. -/
def DelimStep.elem? : DelimStep n → Option (Tree n)
  | .sepFails _ => none
  | .sep _ _ o => triedTree o

/-- The separator, whether or not an element was found after it. -/
def DelimStep.sep? : DelimStep n → Option (Tree n)
  | .sepFails _ => none
  | .sep r _ _ => r.tree?

/-- The separator, if an element was found after it. -/
def DelimStep.pair? : DelimStep n → Option (Tree n)
  | .sep r _ (some _) => r.tree?
  | _ => none

/-- `Split` reports the errors of an element before the misses in front of it. -/
def DelimStep.splitErrs : DelimStep n → List (Err n)
  | .sepFails e => e
  | .sep r gs o => r.errs ++ triedErrs o ++ gapErrs gs

/-- `Punct` reports them after. -/
def DelimStep.punctErrs : DelimStep n → List (Err n)
  | .sepFails e => e
  | .sep r gs o => r.errs ++ gapErrs gs ++ triedErrs o

/-- The result of a list out of span, elements, separators and errors. -/
def delimResult (span : Span) (elems seps : List (Tree n)) (errs : List (Err n)) : Res n (Tree n) :=
  if errs = [] then .success (.split span elems seps) else .recovered (.split span elems seps) errs

/-- `Split` returns the elements and the separators in front of all but the first; it ends with the last element. -/
def splitResult (x : Tree n) (e : List (Err n)) (steps : List (DelimStep n)) : Res n (Tree n) :=
  let elems := x :: steps.filterMap DelimStep.elem?
  delimResult ⟨x.span.lo, (elems.getLast (by simp [elems])).span.hi⟩ elems (steps.filterMap DelimStep.pair?)
    (e ++ steps.flatMap DelimStep.splitErrs)

/-- `Punct` returns all elements and separators; it ends with the last of them. -/
def punctResult (x : Tree n) (e : List (Err n)) (steps : List (DelimStep n)) : Res n (Tree n) :=
  let elems := x :: steps.filterMap DelimStep.elem?
  let seps := steps.filterMap DelimStep.sep?
  delimResult ⟨x.span.lo, max (elems.getLast (by simp [elems])).span.hi ((seps.getLast?.map (·.span.hi)).getD x.span.lo)⟩
    elems seps (e ++ steps.flatMap DelimStep.punctErrs)

/-- Every token skipped while searching an element is inside some error. -/
def SkipsCovered (steps : List (DelimStep n)) (errs : List (Err n)) : Prop :=
  ∀ r gs o, .sep r gs o ∈ steps → ∀ a x, (a, some x) ∈ gs →
    ∃ e ∈ errs, e.span.lo ≤ x.span.lo ∧ x.span.hi ≤ e.span.hi

/-- Every search without success at the first position reports an error, unless it comes to the end of input. -/
def MissesReported (steps : List (DelimStep n)) (v' : View n) : Prop :=
  ∀ r gs o, .sep r gs o ∈ steps → gs ≠ [] → gapErrs gs ≠ [] ∨ v'.rest = []

/-- The tokens at which a list gives up are all in FOLLOW of the list, and all tokens in FOLLOW are among them
except some that come after an empty part. -/
def StopsAt (G : Grammar (PId m n) n) (root self : PId m n) (stop : TokenSrc n → Prop) : Prop :=
  (∀ w, stop w → FollowOf G root self (some w)) ∧
  ∀ w, FollowOf G root self (some w) → stop w ∨ ∃ a, Beyond G a w ∧ EndsWith G a self

end Teleparse
