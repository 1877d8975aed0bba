import Verif.Model.Produce
/-
Model of `Plus<V, T>` and `Star<V, T>` for any container `V: FromIterator<T>`. (`Ty.plus` and `Ty.star` of
`Model/Produce.lean` are the ones with `V = Vec<T>`.)
-/
namespace Teleparse
variable {n : Nat} {σ : Type}

/-- `V::from_iter`: code that asks an iterator over `α` for the next item and goes on with the answer, until it returns.
It is given by its states; a state is either final, or a call of `Iterator::next` and what comes after it. (The code does
nothing else that matters: it has no access to the parser. `size_hint` of the iterators is the default or exact for the
first element and tells nothing else.) -/
structure Collector (α V : Type) where
  St : Type
  init : St
  step : St → V ⊕ (Option α → St)

variable {V : Type} (o : Ops σ n)

/-- `ProduceIter::next`, tp_impl/iter.rs:186-206; `errs` and `hi` are behind the references of the iterator -/
def iterNext (first : TSet n) (p : P σ n) (errs : List (Err n)) (hi : Nat) :
    M σ (Option (Tree n) × List (Err n) × Nat) := do
  let tok ← o.mPeekSrc
  match tok with
  | none => pure (none, errs, hi)
  | some tok =>
    if !first.contains (some tok) then pure (none, errs, hi)
    else do
      match ← p with
      | .success t => pure (some t, errs, t.span.hi)
      | .recovered t e => pure (some t, errs ++ e, t.span.hi)
      | .panic e => pure (none, errs ++ e, hi)

/-- `once(first_elem).chain(produce_iter).collect()`, tp_impl/iter.rs:55. `once` is the first element until it is asked
for. `Chain::next` asks the second iterator every time after that, also after it has answered `None`. -/
def collectLoop (c : Collector (Tree n) V) (first : TSet n) (p : P σ n) :
    Nat → c.St → Option (Tree n) → List (Err n) → Nat → M σ (V × List (Err n) × Nat)
  | 0, _, _, _, _ => M.fuel
  | fuel + 1, s, once, errs, hi =>
    match c.step s with
    | .inl v => pure (v, errs, hi)
    | .inr k =>
      match once with
      | some t => collectLoop c first p fuel (k (some t)) none errs hi
      | none => do
        let (x, errs, hi) ← iterNext o first p errs hi
        collectLoop c first p fuel (k x) none errs hi

/-- The part of `Plus::produce` after the first element, tp_impl/iter.rs:46-57 -/
def plusRestInto (c : Collector (Tree n) V) (first : TSet n) (p : P σ n) (fuel : Nat) (t : Tree n) (errs : List (Err n)) :
    M σ (Res n (Span × V)) := do
  let (v, errs, hi) ← collectLoop o c first p fuel c.init (some t) errs t.span.hi
  pure (Res.ofPair (⟨t.span.lo, hi⟩, v) errs)

/-- `Plus<V, T>::produce`, tp_impl/iter.rs:34-59; `Node<V>` is its span and value -/
def plusInto (c : Collector (Tree n) V) (first : TSet n) (p : P σ n) (fuel : Nat) : M σ (Res n (Span × V)) := do
  match ← p with
  | .success t => plusRestInto o c first p fuel t []
  | .recovered t e => plusRestInto o c first p fuel t e
  | .panic e => pure (.panic e)

/-- `Star<V, T>::produce`, tp_impl/iter.rs:69-80, with `Optional` of tp_impl/option.rs:78-107; `d` is `V::default()` -/
def starInto (c : Collector (Tree n) V) (d : V) (first : TSet n) (p : P σ n) (fuel : Nat) : M σ (Res n (Span × V)) := do
  let tok ← o.mPeekSrc
  if tok.isSome && first.contains tok then do
    match ← plusInto o c first p fuel with
    | .success x => pure (.success x)
    | .recovered x e => pure (.recovered x e)
    | .panic e => do
      let sp ← o.mEmptySpan
      pure (.recovered (sp, d) e)
  else do
    let sp ← o.mEmptySpan
    pure (.success (sp, d))

/-- `Vec::from_iter` and its like: asks until the answer is `None`, and makes a value of the items. -/
def Collector.toEnd {α V : Type} (f : List α → V) : Collector α V where
  St := List α × Bool
  init := ([], false)
  step s := if s.2 then .inl (f s.1) else .inr fun
    | some a => (s.1 ++ [a], false)
    | none => (s.1, true)

end Teleparse
