import Verif.Model.TokenMut
/-
The queries of `lex::TokenSlice` (lex/vec.rs) once more, with everything in them that can panic made explicit: each
index, each slice and each subtraction of `usize` is checked, and `none` is the panic. `Model/TokenVec.lean` reads a
missing cell as position 0 and subtracts without a check; C102 shows that the two never differ, for any store.
-/
namespace Teleparse.TokenVec
variable {n : Nat}

/-- `a - b` on `usize` (with overflow checks); `none` is the panic. -/
def sub? (a b : Nat) : Option Nat := if b ≤ a then some (a - b) else none

/-- The halving loop of `slice::binary_search_by` (called in lex/vec.rs:343-351), where the comparison can go wrong.
The fuel `0` is given to no call that has work left (it is the length of the slice): running out counts as a panic. -/
def bsLoopC (cmp : Nat → Option Ordering) : Nat → Nat → Nat → Option Nat
  | 0, base, size => if size > 1 then none else some base
  | fuel + 1, base, size =>
    if size > 1 then do
      let half := size / 2
      let mid := base + half
      let o ← cmp mid
      let size ← sub? size half
      bsLoopC cmp fuel (if o = .gt then base else mid) size
    else some base

/-- `slice::binary_search_by`. -/
def binarySearchC (cmp : Nat → Option Ordering) (len : Nat) : Option (Bool × Nat) :=
  if len = 0 then some (false, 0)
  else do
    let base ← bsLoopC cmp len 0 len
    match ← cmp base with
    | .eq => some (true, base)
    | .lt => some (false, base + 1)
    | .gt => some (false, base)

/-- lex/vec.rs:343-345 -/
def searchLoC (v : TokenVec n) (lo : Nat) : Option (Bool × Nat) :=
  binarySearchC (fun i => v[i]?.map fun c => compare c.token.span.lo lo) v.length

/-- lex/vec.rs:349-351 -/
def searchHiC (v : TokenVec n) (hi : Nat) : Option (Bool × Nat) :=
  binarySearchC (fun i => v[i]?.map fun c => compare c.token.span.hi hi) v.length

/-- The first index, lex/vec.rs:171-182. `i > 0 &&` guards the index after it. -/
def overlapLoC (v : TokenVec n) (span : Span) : Bool × Nat → Option Nat
  | (true, i) => some i
  | (false, i) =>
    if i > 0 then
      (sub? i 1).bind fun j => v[j]?.bind fun c => if c.token.span.hi > span.lo then some j else some i
    else some i

/-- The second index, lex/vec.rs:183-193. `i < self.0.len() &&` guards the index after it. -/
def overlapHiC (v : TokenVec n) (span : Span) : Bool × Nat → Option Nat
  | (true, i) => some (i + 1)
  | (false, i) =>
    if i < v.length then v[i]?.bind fun c => if c.token.span.lo < span.hi then some (i + 1) else some i
    else some i

/-- lex/vec.rs:169-198 -/
def overlapBoundsC (v : TokenVec n) (span : Span) : Option (Option (Nat × Nat)) := do
  let lo ← overlapLoC v span (← searchLoC v span.lo)
  let hi ← overlapHiC v span (← searchHiC v span.hi)
  if lo < hi then some (some (lo, hi)) else some none

/-- lex/vec.rs:208-223 -/
def insideBoundsC (v : TokenVec n) (span : Span) : Option (Option (Nat × Nat)) := do
  let (_, lo) ← searchLoC v span.lo
  let (exact, i) ← searchHiC v span.hi
  let hi := if exact then i + 1 else i
  if lo < hi then some (some (lo, hi)) else some none

/-- lex/vec.rs:129-134 -/
def overlapC (v : TokenVec n) (span : Span) : Option (TokenVec n) := do
  match ← overlapBoundsC v span with
  | some (lo, hi) => slice? v lo hi
  | none => some []

/-- lex/vec.rs:148-153 -/
def insideC (v : TokenVec n) (span : Span) : Option (TokenVec n) := do
  match ← insideBoundsC v span with
  | some (lo, hi) => slice? v lo hi
  | none => some []

/-- lex/vec.rs:112-119. The inner `none` is the answer `None`. -/
def atSpanC (v : TokenVec n) (span : Span) : Option (Option (Cell n)) := do
  match ← insideBoundsC v span with
  | none => some none
  | some (lo, hi) =>
    let last ← sub? hi 1
    if lo ≠ last then some none else some v[lo]?

/-- The loop of lex/vec.rs:275-278, from `lo`. -/
def scanDownC (v : TokenVec n) (p : Cell n → Bool) : Nat → Option Nat
  | 0 => some 0
  | lo + 1 => do
    let c ← v[lo]?
    if p c then scanDownC v p lo else some (lo + 1)

/-- lex/vec.rs:266-284 -/
def endsAtMatchesBoundsC (v : TokenVec n) (pos : Nat) (p : Cell n → Bool) : Option (Option (Nat × Nat)) := do
  match ← searchHiC v pos with
  | (false, _) => some none
  | (true, i) =>
    let hi := i + 1
    let lo ← scanDownC v p hi
    if lo < hi then some (some (lo, hi)) else some none

/-- The loop of lex/vec.rs:329-333, from `hi`. Running out of fuel counts as a panic. -/
def scanUpC (v : TokenVec n) (p : Cell n → Bool) : Nat → Nat → Option Nat
  | 0, hi => if hi < v.length then none else some hi
  | fuel + 1, hi =>
    if hi < v.length then do
      let c ← v[hi]?
      if p c then scanUpC v p fuel (hi + 1) else some hi
    else some hi

/-- lex/vec.rs:320-339 -/
def beginsAtMatchesBoundsC (v : TokenVec n) (pos : Nat) (p : Cell n → Bool) : Option (Option (Nat × Nat)) := do
  match ← searchLoC v pos with
  | (false, _) => some none
  | (true, i) =>
    let lo := i
    let hi ← scanUpC v p v.length lo
    if lo < hi then some (some (lo, hi)) else some none

/-- lex/vec.rs:238-247 -/
def endsAtMatchesC (v : TokenVec n) (pos : Nat) (p : Cell n → Bool) : Option (Option (TokenVec n)) := do
  match ← endsAtMatchesBoundsC v pos p with
  | some (lo, hi) => (slice? v lo hi).map some
  | none => some none

/-- lex/vec.rs:292-301 -/
def beginsAtMatchesC (v : TokenVec n) (pos : Nat) (p : Cell n → Bool) : Option (Option (TokenVec n)) := do
  match ← beginsAtMatchesBoundsC v pos p with
  | some (lo, hi) => (slice? v lo hi).map some
  | none => some none

end Teleparse.TokenVec
