import Verif.Model.RepairRecover
/-
Not code of the repository: `Split`, `Punct` and `Recover` with a repair, for the defect that `C70_false` is about.
When an element of a list, or the head or the tail of `Recover`, fails with several errors, the code keeps only the
last of them (`errors.pop()` in tp_impl/split.rs:139-147, punct.rs:185-193, recover.rs:45-48, 66-73, 86-93). The
repaired code keeps the one that begins first:

    let e = errors.into_iter().min_by_key(|e| e.span.lo);

The repair of `Recover` at the end of the input (`Model/RepairRecover.lean`) is made too. Everything else is as in
`Model/Produce.lean`. The first element of a list is not affected: if it fails, the list fails with all its errors.
-/
namespace Teleparse
variable {m n : Nat} {σ : Type} (o : Ops σ n)

/-- The error that begins first; of several, the first in the list. `Iterator::min_by_key` with `span.lo` -/
def earliest : List (Err n) → Option (Err n)
  | [] => none
  | e :: l =>
    match earliest l with
    | none => some e
    | some x => if x.span.lo < e.span.lo then some x else some e

/-- A part of which the first error is kept if it fails -/
def clip (p : P σ n) : P σ n := do
  match ← p with
  | .panic e => pure (.panic (earliest e).toList)
  | r => pure r

/-- tp_impl/split.rs:80-178 with the repair -/
def produceSplitKeep (ef pf fol : TSet n) (pt pp : P σ n) (fuel : Nat) : P σ n := do
  match ← pt with
  | .panic e => pure (.panic e)
  | .success t => do
    let a ← splitOuter o ef pf fol (clip pt) pp fuel ⟨[t], [], []⟩
    pure (splitDone t.span.lo a)
  | .recovered t e => do
    let a ← splitOuter o ef pf fol (clip pt) pp fuel ⟨[t], [], e⟩
    pure (splitDone t.span.lo a)

/-- tp_impl/punct.rs:99-222 with the repair -/
def producePunctKeep (ef pf fol : TSet n) (pt pp : P σ n) (fuel : Nat) : P σ n := do
  match ← pt with
  | .panic e => pure (.panic e)
  | .success t => do
    let a ← punctOuter o ef pf fol (clip pt) pp fuel ⟨[t], [], []⟩
    pure (punctDone t.span.lo a)
  | .recovered t e => do
    let a ← punctOuter o ef pf fol (clip pt) pp fuel ⟨[t], [], e⟩
    pure (punctDone t.span.lo a)

/-- `produceStep` with the repairs -/
def produceStepKeep (S : Schema m n) (md : Metadata (PId m n) n) (fuel : Nat) (rec : Ty m n → P σ n) :
    Ty m n → P σ n
  | .split t p =>
    produceSplitKeep o (md.first.get t.pid) (md.first.get p.pid) (md.follow.get (Ty.split t p).pid)
      (rec t) (rec p) fuel
  | .punct t p =>
    producePunctKeep o (md.first.get t.pid) (md.first.get p.pid) (md.follow.get (Ty.punct t p).pid)
      (rec t) (rec p) fuel
  | .recover t r =>
    produceRecoverFix o (md.first.get t.pid) (md.first.get r.pid) (clip (rec t)) (clip (rec r)) fuel
  | t => produceStep o S md fuel rec t

/-- `T::produce` with the repairs -/
def produceKeep (S : Schema m n) (md : Metadata (PId m n) n) : Nat → Ty m n → P σ n
  | 0, _ => M.fuel
  | fuel + 1, t => produceStepKeep o S md fuel (produceKeep S md fuel) t

end Teleparse
