import Verif.Model.TokenVec
/-
Model of the views of `lex::TokenSlice` that can be written to (lex/vec.rs). A `&mut` view of a part of the store is
modelled by what the store is after the view was used: `f` is what the user does with the view. It can be any function
(a `&mut [Cell]` cannot grow or shrink; where this matters it is a hypothesis).
-/
namespace Teleparse.TokenVec
variable {n : Nat}

/-- The store after using `&mut self.0[lo..hi]`; `none` is the panic of an out-of-range slice. -/
def writeSlice? (v : TokenVec n) (lo hi : Nat) (f : TokenVec n → TokenVec n) : Option (TokenVec n) :=
  if lo ≤ hi ∧ hi ≤ v.length then some (v.take lo ++ f ((v.drop lo).take (hi - lo)) ++ v.drop hi) else none

/-- `overlap_mut`, lex/vec.rs:140-145 -/
def overlapMut? (v : TokenVec n) (span : Span) (f : TokenVec n → TokenVec n) : Option (TokenVec n) :=
  match overlapBounds v span with
  | some (lo, hi) => writeSlice? v lo hi f
  | none => some v

/-- `inside_mut`, lex/vec.rs:156-161 -/
def insideMut? (v : TokenVec n) (span : Span) (f : TokenVec n → TokenVec n) : Option (TokenVec n) :=
  match insideBounds v span with
  | some (lo, hi) => writeSlice? v lo hi f
  | none => some v

/-- `ends_at_matches_mut`, lex/vec.rs:255-264. The inner `none`: no view is returned. -/
def endsAtMatchesMut? (v : TokenVec n) (pos : Nat) (p : Cell n → Bool) (f : TokenVec n → TokenVec n) :
    Option (Option (TokenVec n)) :=
  match endsAtMatchesBounds v pos p with
  | some (lo, hi) => (writeSlice? v lo hi f).map some
  | none => some none

/-- `begins_at_matches_mut`, lex/vec.rs:309-318. The inner `none`: no view is returned. -/
def beginsAtMatchesMut? (v : TokenVec n) (pos : Nat) (p : Cell n → Bool) (f : TokenVec n → TokenVec n) :
    Option (Option (TokenVec n)) :=
  match beginsAtMatchesBounds v pos p with
  | some (lo, hi) => (writeSlice? v lo hi f).map some
  | none => some none

/-- `at`, lex/vec.rs:105-107 -/
def at? (v : TokenVec n) (i : Nat) : Option (Cell n) := v[i]?

end Teleparse.TokenVec
