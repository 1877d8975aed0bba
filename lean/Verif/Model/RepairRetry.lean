import Verif.Model.Produce
/-
Not code of the repository: `Recover` with a repair, for the defect that `C46_false` is about. When an attempt at the
tail fails after it consumed tokens, the code skips the token at which it failed without an attempt there
(tp_impl/recover.rs:86-101). The repaired code tries again at that token, and skips one only if the attempt consumed
nothing:

    let before = parser.current_span().lo;
    ...
    Result::Panic(mut errors) => {
        ...
        if parser.current_span().lo != before { continue; }
    }

Everything else is as in `Model/Produce.lean`.
-/
namespace Teleparse
variable {n : Nat} {σ : Type} (o : Ops σ n)

/-- The loop tp_impl/recover.rs:56-102 with the repair -/
def recoverLoopRetry (tf : TSet n) (pr : P σ n) : Nat → List (Err n) → Option (Err n) →
    M σ (Option (Tree n) × List (Err n) × Option (Err n))
  | 0, _, _ => M.fuel
  | fuel + 1, errs, panic => do
    let tok ← o.mPeekSrc
    if tok.isNone then
      if tf.containsE then do
        match ← pr with
        | .success x => pure (some x, errs, panic)
        | .recovered x e => pure (some x, errs ++ e, panic)
        | .panic e => pure (none, errs, mergePanic panic e)
      else pure (none, errs, panic)
    else if tf.contains tok || tf.containsE then do
      let before ← o.mCurrentSpan
      match ← pr with
      | .success x => pure (some x, errs, panic)
      | .recovered x e => pure (some x, errs ++ e, panic)
      | .panic e => do
        let after ← o.mCurrentSpan
        if before.lo = after.lo then do
          let panic ← recoverSkip o tf (mergePanic panic e)
          recoverLoopRetry tf pr fuel errs panic
        else recoverLoopRetry tf pr fuel errs (mergePanic panic e)
    else do
      let panic ← recoverSkip o tf panic
      recoverLoopRetry tf pr fuel errs panic

/-- tp_impl/recover.rs:31-121 with the repair -/
def produceRecoverRetry (hf tf : TSet n) (pt pr : P σ n) (fuel : Nat) : P σ n := do
  let h ← recoverHead o hf pt
  let (tail, errs, panic) ← recoverLoopRetry o tf pr fuel h.errs h.panic
  match tail with
  | some tail => pure (Res.ofPair (mkRecover h tail) (errs ++ panic.toList))
  | none => pure (.panic (errs ++ panic.toList))

end Teleparse
