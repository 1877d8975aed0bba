import Verif.Model.Set
/-
Model of `lex::TokenVec` / `lex::TokenSlice` (lex/vec.rs).
-/
namespace Teleparse

/-- lex/vec.rs:364-368 -/
structure Cell (n : Nat) where
  token : Token n
  semantic : LSet n
  deriving DecidableEq, Repr

/-- `From<Token> for Cell`, lex/vec.rs:376-383 -/
def Cell.ofToken {n : Nat} (t : Token n) : Cell n := ⟨t, LSet.new⟩

/-- `Cell::types`, lex/vec.rs:393-397 -/
def Cell.types {n : Nat} (c : Cell n) : LSet n := c.semantic.insert c.token.ty

/-- `TokenVec`, lex/vec.rs:12-14; also used for `TokenSlice`. -/
abbrev TokenVec (n : Nat) := List (Cell n)

/-- `TokenVec::push_unchecked`, lex/vec.rs:45-47 -/
def TokenVec.push {n : Nat} (v : TokenVec n) (t : Token n) : TokenVec n := v ++ [Cell.ofToken t]

/-- The halving loop of `slice::binary_search_by` of the Rust standard library (called in
lex/vec.rs:343-351). Fuel is the slice length. -/
def bsLoop (cmp : Nat → Ordering) : Nat → Nat → Nat → Nat
  | 0, base, _ => base
  | fuel + 1, base, size =>
    if size > 1 then
      let half := size / 2
      let mid := base + half
      let base := if cmp mid = .gt then base else mid
      bsLoop cmp fuel base (size - half)
    else base

/-- `slice::binary_search_by`: `Ok(i)` is `(true, i)`, `Err(i)` is `(false, i)`. -/
def binarySearch (cmp : Nat → Ordering) (len : Nat) : Bool × Nat :=
  if len = 0 then (false, 0)
  else
    let base := bsLoop cmp len 0 len
    match cmp base with
    | .eq => (true, base)
    | .lt => (false, base + 1)
    | .gt => (false, base)

namespace TokenVec
variable {n : Nat}

/-- Start and end position of the i-th token; index errors give 0, they do not occur (C10-C13 show
that all bounds are in range). -/
def loAt (v : TokenVec n) (i : Nat) : Nat := (v[i]?.map (·.token.span.lo)).getD 0
def hiAt (v : TokenVec n) (i : Nat) : Nat := (v[i]?.map (·.token.span.hi)).getD 0

/-- lex/vec.rs:343-345 -/
def searchLo (v : TokenVec n) (lo : Nat) : Bool × Nat :=
  binarySearch (fun i => compare (loAt v i) lo) v.length

/-- lex/vec.rs:349-351 -/
def searchHi (v : TokenVec n) (hi : Nat) : Bool × Nat :=
  binarySearch (fun i => compare (hiAt v i) hi) v.length

/-- lex/vec.rs:169-198 -/
def overlapBounds (v : TokenVec n) (span : Span) : Option (Nat × Nat) :=
  let lo := match searchLo v span.lo with
    | (true, i) => i
    | (false, i) => if i > 0 ∧ hiAt v (i - 1) > span.lo then i - 1 else i
  let hi := match searchHi v span.hi with
    | (true, i) => i + 1
    | (false, i) => if i < v.length ∧ loAt v i < span.hi then i + 1 else i
  if lo < hi then some (lo, hi) else none

/-- lex/vec.rs:208-223 -/
def insideBounds (v : TokenVec n) (span : Span) : Option (Nat × Nat) :=
  let lo := match searchLo v span.lo with
    | (true, i) => i
    | (false, i) => i
  let hi := match searchHi v span.hi with
    | (true, i) => i + 1
    | (false, i) => i
  if lo < hi then some (lo, hi) else none

/-- `&self.0[lo..hi]`; `none` is the panic of an out-of-range slice. -/
def slice? (v : TokenVec n) (lo hi : Nat) : Option (TokenVec n) :=
  if lo ≤ hi ∧ hi ≤ v.length then some ((v.drop lo).take (hi - lo)) else none

/-- lex/vec.rs:129-134 (`none` = panic) -/
def overlap? (v : TokenVec n) (span : Span) : Option (TokenVec n) :=
  match overlapBounds v span with
  | some (lo, hi) => slice? v lo hi
  | none => some []

/-- lex/vec.rs:148-153 (`none` = panic) -/
def inside? (v : TokenVec n) (span : Span) : Option (TokenVec n) :=
  match insideBounds v span with
  | some (lo, hi) => slice? v lo hi
  | none => some []

/-- lex/vec.rs:112-119 -/
def atSpan (v : TokenVec n) (span : Span) : Option (Cell n) :=
  match insideBounds v span with
  | none => none
  | some (lo, hi) => if lo ≠ hi - 1 then none else v[lo]?

/-- The loop of lex/vec.rs:275-278. Fuel: the index itself. -/
def scanDown (v : TokenVec n) (p : Cell n → Bool) : Nat → Nat
  | 0 => 0
  | lo + 1 => if (v[lo]?.map p).getD false then scanDown v p lo else lo + 1

/-- lex/vec.rs:266-284 -/
def endsAtMatchesBounds (v : TokenVec n) (pos : Nat) (p : Cell n → Bool) : Option (Nat × Nat) :=
  match searchHi v pos with
  | (false, _) => none
  | (true, i) =>
    let hi := i + 1
    let lo := scanDown v p hi
    if lo < hi then some (lo, hi) else none

/-- The loop of lex/vec.rs:329-333. Fuel: number of remaining tokens. -/
def scanUp (v : TokenVec n) (p : Cell n → Bool) : Nat → Nat → Nat
  | 0, hi => hi
  | fuel + 1, hi =>
    if hi < v.length ∧ (v[hi]?.map p).getD false then scanUp v p fuel (hi + 1) else hi

/-- lex/vec.rs:320-339 -/
def beginsAtMatchesBounds (v : TokenVec n) (pos : Nat) (p : Cell n → Bool) : Option (Nat × Nat) :=
  match searchLo v pos with
  | (false, _) => none
  | (true, i) =>
    let lo := i
    let hi := scanUp v p v.length lo
    if lo < hi then some (lo, hi) else none

/-- lex/vec.rs:238-247 (outer `none` = panic) -/
def endsAtMatches? (v : TokenVec n) (pos : Nat) (p : Cell n → Bool) : Option (Option (TokenVec n)) :=
  match endsAtMatchesBounds v pos p with
  | some (lo, hi) => (slice? v lo hi).map some
  | none => some none

/-- lex/vec.rs:292-301 (outer `none` = panic) -/
def beginsAtMatches? (v : TokenVec n) (pos : Nat) (p : Cell n → Bool) : Option (Option (TokenVec n)) :=
  match beginsAtMatchesBounds v pos p with
  | some (lo, hi) => (slice? v lo hi).map some
  | none => some none

/-- `TokenSlice::apply_semantic`, lex/vec.rs:226-230 -/
def applySemantic (v : TokenVec n) (s : LSet n) : TokenVec n :=
  v.map fun c => { c with semantic := c.semantic.union s }

/-- `tokens.inside_mut(span).apply_semantic(semantic)`, lex/vec.rs:156-161 and 226-230, as called by
parser/parser_impl.rs:248-253: the store after mutating the slice in place. -/
def applySemanticInside (v : TokenVec n) (span : Span) (s : LSet n) : TokenVec n :=
  match insideBounds v span with
  | some (lo, hi) => v.take lo ++ applySemantic ((v.drop lo).take (hi - lo)) s ++ v.drop hi
  | none => v

end TokenVec
end Teleparse
