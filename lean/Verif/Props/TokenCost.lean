import Verif.Proof.TokenCost
/-
Property C122: how many tokens the queries of the token store look at.
-/
namespace Teleparse
variable {n : Nat}

/-! ## C122: queries are fast -/

/-- `inside` gives what C10 describes, after looking at no more than `2 log n + 4` tokens. No order of the tokens is
assumed. -/
theorem C122_inside (v : TokenVec n) (span : Span) : (v.insideBoundsT span).val = v.insideBounds span ∧
    (v.insideBoundsT span).looks ≤ 2 * v.length.log2 + 4 := v.insideBoundsT_spec span

/-- `overlap` -/
theorem C122_overlap (v : TokenVec n) (span : Span) : (v.overlapBoundsT span).val = v.overlapBounds span ∧
    (v.overlapBoundsT span).looks ≤ 2 * v.length.log2 + 6 := v.overlapBoundsT_spec span

/-- `at_span` -/
theorem C122_at_span (v : TokenVec n) (span : Span) : (v.atSpanT span).val = v.atSpan span ∧
    (v.atSpanT span).looks ≤ 2 * v.length.log2 + 5 := v.atSpanT_spec span

/-- The number of tokens in a range of indices. -/
def rangeLen : Option (Nat × Nat) → Nat
  | some (lo, hi) => hi - lo
  | none => 0

/-- `ends_at_matches` looks at `log n + 3` tokens besides those that it returns. -/
theorem C122_ends (v : TokenVec n) (pos : Nat) (p : Cell n → Bool) :
    (v.endsAtMatchesBoundsT pos p).val = v.endsAtMatchesBounds pos p ∧
    (v.endsAtMatchesBoundsT pos p).looks ≤ v.length.log2 + 3 + rangeLen (v.endsAtMatchesBounds pos p) := by
  have h := v.searchHiT_snd pos
  simp only [TokenVec.endsAtMatchesBoundsT, TokenVec.endsAtMatchesBounds, Tally.bind_fst, Tally.bind_snd,
    TokenVec.searchHiT_fst]
  rcases v.searchHi pos with ⟨b, i⟩
  cases b with
  | false => simp; omega
  | true =>
    dsimp only
    obtain ⟨h1, h2⟩ := v.scanDownT_spec p (i + 1)
    simp only [Tally.bind_fst, Tally.bind_snd, Tally.pure_fst, Tally.pure_snd, h1]
    refine ⟨trivial, ?_⟩
    split
    · simp only [rangeLen]; omega
    · simp only [rangeLen]; omega

/-- `begins_at_matches` -/
theorem C122_begins (v : TokenVec n) (pos : Nat) (p : Cell n → Bool) :
    (v.beginsAtMatchesBoundsT pos p).val = v.beginsAtMatchesBounds pos p ∧
    (v.beginsAtMatchesBoundsT pos p).looks ≤ v.length.log2 + 3 + rangeLen (v.beginsAtMatchesBounds pos p) := by
  have h := v.searchLoT_snd pos
  simp only [TokenVec.beginsAtMatchesBoundsT, TokenVec.beginsAtMatchesBounds, Tally.bind_fst, Tally.bind_snd,
    TokenVec.searchLoT_fst]
  rcases v.searchLo pos with ⟨b, i⟩
  cases b with
  | false => simp; omega
  | true =>
    dsimp only
    obtain ⟨h1, h2⟩ := v.scanUpT_spec p v.length i
    simp only [Tally.bind_fst, Tally.bind_snd, Tally.pure_fst, Tally.pure_snd, h1]
    refine ⟨trivial, ?_⟩
    split
    · simp only [rangeLen]; omega
    · simp only [rangeLen]; omega

/-- Applying a semantic type to a span looks at `2 log n + 4` tokens besides those that it changes. -/
theorem C122_apply (v : TokenVec n) (span : Span) (s : LSet n) :
    (v.applySemanticInsideT span s).val = v.applySemanticInside span s ∧
    (v.applySemanticInsideT span s).looks ≤ 2 * v.length.log2 + 4 + rangeLen (v.insideBounds span) := by
  obtain ⟨h1, h2⟩ := v.insideBoundsT_spec span
  simp only [TokenVec.applySemanticInsideT, TokenVec.applySemanticInside, Tally.bind_fst, Tally.bind_snd, h1]
  rcases v.insideBounds span with _ | ⟨lo, hi⟩
  · simp; omega
  · obtain ⟨h3, h4⟩ := TokenVec.applySemanticT_spec s ((v.drop lo).take (hi - lo))
    simp only [Tally.bind_fst, Tally.bind_snd, Tally.pure_fst, Tally.pure_snd, h3, h4]
    refine ⟨trivial, ?_⟩
    have : ((v.drop lo).take (hi - lo)).length ≤ hi - lo := List.length_take_le _ _
    simp only [rangeLen]
    omega

/-- Eight tokens: four looks for each of the two ends. -/
example : let v : TokenVec 1 := (List.range 8).map fun i => Cell.ofToken ⟨⟨2 * i, 2 * i + 1⟩, 0⟩
    (v.insideBoundsT ⟨4, 9⟩).val = some (2, 5) ∧ (v.insideBoundsT ⟨4, 9⟩).looks = 8 := by decide

end Teleparse
