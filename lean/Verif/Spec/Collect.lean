import Verif.Model.Collect
import Verif.Spec.Steps
import Verif.Spec.Produce
/-
Specification of `Plus` and `Star` with any container.
-/
namespace Teleparse
variable {m n : Nat} {α V : Type}

/-- `Plus<V, T>::produce` returns `r`. -/
def YieldsPlus (ext : Fin n → Bool) (S : Schema m n) (md : Metadata (PId m n) n) (c : Collector (Tree n) V) (t : Ty m n)
    (p : Parser n) (r : Res n (Span × V)) (p' : Parser n) : Prop :=
  ∃ f g, plusInto (Parser.ops ext) c (md.first.get (Ty.plus t).pid) (produce (Parser.ops ext) S md f t) g p = .ok r p'

/-- `Star<V, T>::produce` returns `r`, where `d` is the default of `V`. -/
def YieldsStar (ext : Fin n → Bool) (S : Schema m n) (md : Metadata (PId m n) n) (c : Collector (Tree n) V) (d : V)
    (t : Ty m n) (p : Parser n) (r : Res n (Span × V)) (p' : Parser n) : Prop :=
  ∃ f g, starInto (Parser.ops ext) c d (md.first.get (Ty.plus t).pid) (produce (Parser.ops ext) S md f t) g p = .ok r p'

/-- The collector in state `s` asks as often as there are answers, and returns `v` after them. -/
inductive Collector.Gets (c : Collector α V) : c.St → List (Option α) → V → Prop
  | done {s v} : c.step s = .inl v → c.Gets s [] v
  | ask {s k a l v} : c.step s = .inr k → c.Gets (k a) l v → c.Gets s (a :: l) v

/-- A collector as those of the standard library: it asks up to the first `None`, and returns `f` of the items. -/
def Collector.Full (c : Collector α V) (f : List α → V) : Prop :=
  ∀ l, c.Gets c.init (l.map some ++ [none]) (f l)

/-- Span and elements of a list. -/
def Tree.listOf : Tree n → Span × List (Tree n)
  | .list sp l => (sp, l)
  | x => (x.span, [])

/-- The answers of the iterator that `Plus<V, T>` gives to the container after the first element, the errors they leave,
and the end of the last element if there is one. -/
inductive Asks (S : Schema m n) (md : Metadata (PId m n) n) (G : Grammar (PId m n) n) (t : Ty m n) :
    View n → List (Option (Tree n)) → List (Err n) → Option Nat → View n → Prop
  | nil {v} : Asks S md G t v [] [] none v
  /-- An element that is produced, with or without errors. -/
  | elem {v w r x v1 l es hi v'} : v.word = some w → FirstOf G t.pid w → On S md t v r v1 → r.tree? = some x →
      Asks S md G t v1 l es hi v' → Asks S md G t v (some x :: l) (r.errs ++ es) (some (hi.getD x.span.hi)) v'
  /-- An element that cannot be produced. The tokens it has read are gone. -/
  | fail {v w e v1 l es hi v'} : v.word = some w → FirstOf G t.pid w → On S md t v (.panic e) v1 →
      Asks S md G t v1 l es hi v' → Asks S md G t v (none :: l) (e ++ es) hi v'
  /-- No element can begin here. -/
  | stop {v l es hi v'} : (∀ w, v.word = some w → ¬ FirstOf G t.pid w) →
      Asks S md G t v l es hi v' → Asks S md G t v (none :: l) es hi v'

end Teleparse
