import Verif.Model.TokenVec
/-
Model of the queries of `lex::TokenSlice` (lex/vec.rs) that counts how many tokens they look at.
-/
namespace Teleparse

/-- A result and the number of tokens looked at. -/
structure Tally (α : Type) where
  val : α
  looks : Nat

instance : Monad Tally where
  pure a := ⟨a, 0⟩
  bind x f := ⟨(f x.val).val, x.looks + (f x.val).looks⟩

/-- Look at one token. -/
def Tally.look {α : Type} (a : α) : Tally α := ⟨a, 1⟩

/-- The halving loop of `slice::binary_search_by` (see `bsLoop`); `cmp` looks at a token. -/
def bsLoopT (cmp : Nat → Tally Ordering) : Nat → Nat → Nat → Tally Nat
  | 0, base, _ => pure base
  | fuel + 1, base, size =>
    if size > 1 then do
      let half := size / 2
      let mid := base + half
      let c ← cmp mid
      let base := if c = .gt then base else mid
      bsLoopT cmp fuel base (size - half)
    else pure base

/-- `slice::binary_search_by` -/
def binarySearchT (cmp : Nat → Tally Ordering) (len : Nat) : Tally (Bool × Nat) :=
  if len = 0 then pure (false, 0)
  else do
    let base ← bsLoopT cmp len 0 len
    let c ← cmp base
    match c with
    | .eq => pure (true, base)
    | .lt => pure (false, base + 1)
    | .gt => pure (false, base)

namespace TokenVec
variable {n : Nat} (v : TokenVec n)

/-- lex/vec.rs:343-345 -/
def searchLoT (lo : Nat) : Tally (Bool × Nat) :=
  binarySearchT (fun i => Tally.look (compare (loAt v i) lo)) v.length

/-- lex/vec.rs:349-351 -/
def searchHiT (hi : Nat) : Tally (Bool × Nat) :=
  binarySearchT (fun i => Tally.look (compare (hiAt v i) hi)) v.length

/-- The first bound of lex/vec.rs:171-181. `&&` does not look at a token if its first side is false. -/
def overlapLoT (span : Span) : Tally Nat := do
  match ← searchLoT v span.lo with
  | (true, i) => pure i
  | (false, i) =>
    if i > 0 then do
      let hi ← Tally.look (hiAt v (i - 1))
      if hi > span.lo then pure (i - 1) else pure i
    else pure i

/-- The second bound of lex/vec.rs:182-192 -/
def overlapHiT (span : Span) : Tally Nat := do
  match ← searchHiT v span.hi with
  | (true, i) => pure (i + 1)
  | (false, i) =>
    if i < v.length then do
      let lo ← Tally.look (loAt v i)
      if lo < span.hi then pure (i + 1) else pure i
    else pure i

/-- lex/vec.rs:169-198 -/
def overlapBoundsT (span : Span) : Tally (Option (Nat × Nat)) := do
  let lo ← overlapLoT v span
  let hi ← overlapHiT v span
  pure (if lo < hi then some (lo, hi) else none)

/-- lex/vec.rs:208-223 -/
def insideBoundsT (span : Span) : Tally (Option (Nat × Nat)) := do
  let l ← searchLoT v span.lo
  let h ← searchHiT v span.hi
  let lo := match l with
    | (true, i) => i
    | (false, i) => i
  let hi := match h with
    | (true, i) => i + 1
    | (false, i) => i
  pure (if lo < hi then some (lo, hi) else none)

/-- lex/vec.rs:112-119 -/
def atSpanT (span : Span) : Tally (Option (Cell n)) := do
  match ← insideBoundsT v span with
  | none => pure none
  | some (lo, hi) => if lo ≠ hi - 1 then pure none else Tally.look v[lo]?

/-- The loop of lex/vec.rs:275-278 -/
def scanDownT (p : Cell n → Bool) : Nat → Tally Nat
  | 0 => pure 0
  | lo + 1 => do
    let b ← Tally.look ((v[lo]?.map p).getD false)
    if b then scanDownT p lo else pure (lo + 1)

/-- lex/vec.rs:266-284 -/
def endsAtMatchesBoundsT (pos : Nat) (p : Cell n → Bool) : Tally (Option (Nat × Nat)) := do
  match ← searchHiT v pos with
  | (false, _) => pure none
  | (true, i) => do
    let hi := i + 1
    let lo ← scanDownT v p hi
    pure (if lo < hi then some (lo, hi) else none)

/-- The loop of lex/vec.rs:329-333 -/
def scanUpT (p : Cell n → Bool) : Nat → Nat → Tally Nat
  | 0, hi => pure hi
  | fuel + 1, hi =>
    if hi < v.length then do
      let b ← Tally.look ((v[hi]?.map p).getD false)
      if b then scanUpT p fuel (hi + 1) else pure hi
    else pure hi

/-- lex/vec.rs:320-339 -/
def beginsAtMatchesBoundsT (pos : Nat) (p : Cell n → Bool) : Tally (Option (Nat × Nat)) := do
  match ← searchLoT v pos with
  | (false, _) => pure none
  | (true, i) => do
    let lo := i
    let hi ← scanUpT v p v.length lo
    pure (if lo < hi then some (lo, hi) else none)

/-- `TokenSlice::apply_semantic`, lex/vec.rs:226-230 -/
def applySemanticT (s : LSet n) : TokenVec n → Tally (TokenVec n)
  | [] => pure []
  | c :: v => do
    let c ← Tally.look { c with semantic := c.semantic.union s }
    let v ← applySemanticT s v
    pure (c :: v)

/-- `tokens.inside_mut(span).apply_semantic(semantic)`, lex/vec.rs:156-161, 226-230 -/
def applySemanticInsideT (span : Span) (s : LSet n) : Tally (TokenVec n) := do
  match ← insideBoundsT v span with
  | some (lo, hi) => do
    let w ← applySemanticT s ((v.drop lo).take (hi - lo))
    pure (v.take lo ++ w ++ v.drop hi)
  | none => pure v

end TokenVec
end Teleparse
