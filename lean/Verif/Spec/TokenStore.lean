import Verif.Model.TokenVec
/-
Specification of token stores: what a well-formed store is, and what it means for a token to lie
inside or to overlap a span. Nothing here refers to searching.
-/
namespace Teleparse

/-- Tokens are non-empty, in source order, and do not overlap. -/
def SortedTokens {n : Nat} (ts : List (Token n)) : Prop :=
  (∀ t ∈ ts, t.span.lo < t.span.hi) ∧ ts.Pairwise (fun a b => a.span.hi ≤ b.span.lo)

/-- A store of cells is well-formed if its tokens are. -/
def SortedStore {n : Nat} (v : TokenVec n) : Prop := SortedTokens (v.map (·.token))

/-- All positions of `a` are positions of `b` (for a non-empty `a`). -/
def Span.Inside (a b : Span) : Prop := b.lo ≤ a.lo ∧ a.hi ≤ b.hi

/-- Some position belongs to both spans. -/
def Span.Overlaps (a b : Span) : Prop := ∃ p, a.lo ≤ p ∧ p < a.hi ∧ b.lo ≤ p ∧ p < b.hi

instance (a b : Span) : Decidable (Span.Inside a b) := inferInstanceAs (Decidable (_ ∧ _))

theorem Span.overlaps_iff (a b : Span) :
    Span.Overlaps a b ↔ a.lo < a.hi ∧ b.lo < b.hi ∧ a.lo < b.hi ∧ b.lo < a.hi := by
  constructor
  · rintro ⟨p, h⟩; omega
  · intro h
    exact ⟨max a.lo b.lo, by omega⟩

instance (a b : Span) : Decidable (Span.Overlaps a b) :=
  decidable_of_iff _ (Span.overlaps_iff a b).symm

end Teleparse
