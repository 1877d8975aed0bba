import Verif.Model.Produce
/-
Not code of the repository: `Recover::produce` with a repair, for the defect that C34, C37, C83, C86 and C90 are
about. At the end of the input, if the tail cannot be empty and no error is pending, `Recover` fails without an error
(tp_impl/recover.rs:58-79); types around it then absorb the failure without a trace. The repaired code reports the
missing tail, with the same error as for a token that cannot start it:

    if token.is_none() {
        if tail_first.contains_epsilon() { break match R::produce(parser, meta) { ... } }
        if panic.is_none() { panic = Some(parser.expecting(tail_first.clone())); }
        break None;
    }

Everything else is as in `Model/Produce.lean`.
-/
namespace Teleparse
variable {m n : Nat} {σ : Type} (o : Ops σ n)

/-- The loop tp_impl/recover.rs:56-102 with the repair -/
def recoverLoopFix (tf : TSet n) (pr : P σ n) : Nat → List (Err n) → Option (Err n) →
    M σ (Option (Tree n) × List (Err n) × Option (Err n))
  | 0, _, _ => M.fuel
  | fuel + 1, errs, panic => do
    let tok ← o.mPeekSrc
    if tok.isNone then
      if tf.containsE then do
        match ← pr with
        | .success x => pure (some x, errs, panic)
        | .recovered x e => pure (some x, errs ++ e, panic)
        | .panic e => pure (none, errs, mergePanic panic e)
      else match panic with
        | some p => pure (none, errs, some p)
        | none => do
          let e ← o.mExpecting tf
          pure (none, errs, some e)
    else if tf.contains tok || tf.containsE then do
      match ← pr with
      | .success x => pure (some x, errs, panic)
      | .recovered x e => pure (some x, errs ++ e, panic)
      | .panic e => do
        let panic ← recoverSkip o tf (mergePanic panic e)
        recoverLoopFix tf pr fuel errs panic
    else do
      let panic ← recoverSkip o tf panic
      recoverLoopFix tf pr fuel errs panic

/-- tp_impl/recover.rs:31-121 with the repair -/
def produceRecoverFix (hf tf : TSet n) (pt pr : P σ n) (fuel : Nat) : P σ n := do
  let h ← recoverHead o hf pt
  let (tail, errs, panic) ← recoverLoopFix o tf pr fuel h.errs h.panic
  match tail with
  | some tail => pure (Res.ofPair (mkRecover h tail) (errs ++ panic.toList))
  | none => pure (.panic (errs ++ panic.toList))

/-- `produceStep` with the repair -/
def produceStepFix (S : Schema m n) (md : Metadata (PId m n) n) (fuel : Nat) (rec : Ty m n → P σ n) :
    Ty m n → P σ n
  | .recover t r => produceRecoverFix o (md.first.get t.pid) (md.first.get r.pid) (rec t) (rec r) fuel
  | t => produceStep o S md fuel rec t

/-- `T::produce` with the repair -/
def produceFix (S : Schema m n) (md : Metadata (PId m n) n) : Nat → Ty m n → P σ n
  | 0, _ => M.fuel
  | fuel + 1, t => produceStepFix o S md fuel (produceFix S md fuel) t

/-- Both. -/
def produceX (fx : Bool) (S : Schema m n) (md : Metadata (PId m n) n) (fuel : Nat) (t : Ty m n) : P σ n :=
  match fx with
  | false => produce o S md fuel t
  | true => produceFix o S md fuel t

/-- Both. -/
def produceRecoverX (fx : Bool) (hf tf : TSet n) (pt pr : P σ n) (fuel : Nat) : P σ n :=
  match fx with
  | false => produceRecover o hf tf pt pr fuel
  | true => produceRecoverFix o hf tf pt pr fuel

end Teleparse
