import Verif.Props.LexSet
import Verif.Proof.TokenVec
import Verif.Proof.Set
/-
Properties C10 (inside), C11 (overlap), C12 (at_span), C13 (begins/ends_at_matches), C14
(apply_semantic on the token store).
-/
namespace Teleparse
open TokenVec
variable {n : Nat}

/-- A store with three tokens, used as the example below. -/
def exStore : TokenVec 3 :=
  [⟨⟨⟨0, 3⟩, 0⟩, LSet.new⟩, ⟨⟨⟨4, 6⟩, 1⟩, LSet.new⟩, ⟨⟨⟨6, 9⟩, 2⟩, LSet.new⟩]

theorem exStore_sorted : SortedStore exStore := by
  unfold SortedStore SortedTokens exStore; decide

/-! ## C10 -/

/-- `inside` does not panic and returns exactly the tokens that lie inside the span, in order. -/
theorem C10_inside {v : TokenVec n} (hv : SortedStore v) (span : Span) :
    inside? v span = some (v.filter (fun c => decide (c.token.span.Inside span))) := by
  rw [filter_inside hv]
  unfold inside?
  rw [insideBounds_eq]
  by_cases h : (searchLo v span.lo).2 < hiIdx v span.hi
  · rw [if_pos h]
    simp only
    rw [slice?_eq v (by omega) (hiIdx_le hv _)]
  · rw [if_neg h]
    simp only
    rw [Nat.sub_eq_zero_of_le (by omega)]; simp

/-- `inside_bounds` is `None` iff no token lies inside; otherwise the range is non-empty and can be
used for slicing. -/
theorem C10_bounds {v : TokenVec n} (hv : SortedStore v) (span : Span) :
    (insideBounds v span = none ↔ ∀ c ∈ v, ¬ c.token.span.Inside span) ∧
    ∀ lo hi, insideBounds v span = some (lo, hi) → lo < hi ∧ hi ≤ v.length ∧
      (v.drop lo).take (hi - lo) = v.filter (fun c => decide (c.token.span.Inside span)) := by
  have hf := filter_inside hv span
  rw [insideBounds_eq]
  by_cases h : (searchLo v span.lo).2 < hiIdx v span.hi
  · rw [if_pos h]
    refine ⟨?_, ?_⟩
    · simp only [reduceCtorEq, false_iff]
      intro hn
      rw [List.filter_eq_nil_iff.2 (by simpa using hn)] at hf
      have h3 := congrArg List.length hf
      have h4 := hiIdx_le hv span.hi
      simp at h3; omega
    · intro lo hi he
      cases he
      exact ⟨h, hiIdx_le hv _, hf.symm⟩
  · rw [if_neg h]
    refine ⟨?_, by intro _ _ h; cases h⟩
    rw [Nat.sub_eq_zero_of_le (by omega), List.take_zero] at hf
    rw [List.filter_eq_nil_iff] at hf
    simpa using hf

example : inside? exStore ⟨3, 9⟩ = some (exStore.drop 1) := by decide
example : inside? exStore ⟨9, 3⟩ = some [] := by decide

/-! ## C11 -/

/-- Exact law of `overlap` for all spans: it never panics and returns the tokens that start before the
end of the span and end after its start. -/
theorem C11_overlap_exact {v : TokenVec n} (hv : SortedStore v) (span : Span) :
    overlap? v span =
      some (v.filter (fun c => decide (c.token.span.lo < span.hi ∧ span.lo < c.token.span.hi))) := by
  rw [filter_overlap hv]
  unfold overlap?
  rw [overlapBounds_eq]
  by_cases h : ovLo v span.lo < ovHi v span.hi
  · rw [if_pos h]
    simp only
    rw [slice?_eq v (by omega) (ovHi_le hv _)]
  · rw [if_neg h]
    simp only
    rw [Nat.sub_eq_zero_of_le (by omega)]; simp

/-- C11 for non-empty spans. Missing: empty and reversed spans, see `C11_false`. -/
theorem C11_overlap_partial {v : TokenVec n} (hv : SortedStore v) (span : Span)
    (hs : span.lo < span.hi) :
    overlap? v span = some (v.filter (fun c => decide (c.token.span.Overlaps span))) := by
  rw [C11_overlap_exact hv]
  congr 1
  apply List.filter_congr
  intro c hc
  have hpos := hv.1 _ (List.mem_map_of_mem hc)
  simp only [decide_eq_decide, Span.overlaps_iff]
  omega

/-- For an empty span, the only token that can be (wrongly) returned is the one strictly around it. -/
theorem C11_overlap_empty_partial {v : TokenVec n} (hv : SortedStore v) (p : Nat) (r : TokenVec n)
    (h : overlap? v ⟨p, p⟩ = some r) (hr : ∀ c ∈ v, ¬ (c.token.span.lo < p ∧ p < c.token.span.hi)) :
    r = [] := by
  rw [C11_overlap_exact hv] at h
  cases h
  rw [List.filter_eq_nil_iff]
  simpa using hr

/-- C11 is false as stated: a token is returned for an empty span strictly inside it, although the
intersection is empty. -/
theorem C11_false : ∃ (v : TokenVec 3) (span : Span) (r : TokenVec 3), SortedStore v ∧
    overlap? v span = some r ∧ ∃ c ∈ r, ¬ c.token.span.Overlaps span := by
  refine ⟨exStore, ⟨1, 1⟩, [⟨⟨⟨0, 3⟩, 0⟩, LSet.new⟩], exStore_sorted, by decide, ?_⟩
  exact ⟨_, List.mem_singleton.2 rfl, by decide⟩

/-- `overlap_bounds` is `None` iff nothing is returned, and otherwise a valid range. -/
theorem C11_bounds {v : TokenVec n} (hv : SortedStore v) (span : Span) :
    (overlapBounds v span = none ↔ overlap? v span = some []) ∧
    ∀ lo hi, overlapBounds v span = some (lo, hi) → lo < hi ∧ hi ≤ v.length := by
  have hle := ovHi_le hv span.hi
  unfold overlap?
  rw [overlapBounds_eq]
  by_cases h : ovLo v span.lo < ovHi v span.hi
  · rw [if_pos h]
    refine ⟨?_, by intro lo hi he; cases he; exact ⟨h, hle⟩⟩
    simp only [reduceCtorEq, false_iff]
    rw [slice?_eq v (by omega) hle]
    intro hc
    have := congrArg (fun o => (o.getD []).length) hc
    simp at this; omega
  · rw [if_neg h]
    exact ⟨by simp, by intro _ _ h; cases h⟩

example : overlap? exStore ⟨2, 5⟩ = some (exStore.take 2) := by decide

/-! ## C12 -/

/-- `at_span` returns a token iff it is the one and only token inside the span. -/
theorem C12_at_span {v : TokenVec n} (hv : SortedStore v) (span : Span) (c : Cell n) :
    atSpan v span = some c ↔ v.filter (fun c => decide (c.token.span.Inside span)) = [c] := by
  obtain ⟨hb1, hb2⟩ := C10_bounds hv span
  unfold atSpan
  cases hib : insideBounds v span with
  | none =>
    have h := hb1.1 hib
    simp only [reduceCtorEq, false_iff]
    rw [List.filter_eq_nil_iff.2 (by simpa using h)]
    simp
  | some lohi =>
    obtain ⟨lo, hi⟩ := lohi
    obtain ⟨h1, h2, h3⟩ := hb2 lo hi hib
    rw [← h3]
    simp only
    by_cases h : lo = hi - 1
    · rw [if_neg (by simpa using h)]
      have h4 : hi - lo = 1 := by omega
      have h5 : lo < v.length := by omega
      rw [h4, List.drop_eq_getElem_cons h5, List.getElem?_eq_getElem h5]
      simp only [List.take_succ_cons, List.take_zero, Option.some.injEq, List.cons.injEq, and_true]
    · rw [if_pos (by simpa using h)]
      simp only [reduceCtorEq, false_iff]
      intro hc
      have := congrArg List.length hc
      simp at this; omega

/-- At most one token lies inside another token's span: the token itself. Hence querying the exact
span of a stored token returns that token. -/
theorem C12_at_span_own {v : TokenVec n} (hv : SortedStore v) (i : Nat) (hi : i < v.length) :
    atSpan v v[i].token.span = some v[i] := by
  rw [C12_at_span hv, filter_range _ v i (i + 1)]
  · rw [show i + 1 - i = 1 by omega, List.drop_eq_getElem_cons hi]
    simp only [List.take_succ_cons, List.take_zero]
  · intro j hj
    rw [decide_eq_true_iff]
    unfold Span.Inside
    have hpi := sorted_pos hv hi
    have hpj := sorted_pos hv hj
    rw [loAt_eq v hi, hiAt_eq v hi] at hpi
    rw [loAt_eq v hj, hiAt_eq v hj] at hpj
    constructor
    · intro h
      by_cases hlt : j < i
      · have := sorted_lt hv hlt hi
        rw [hiAt_eq v hj, loAt_eq v hi] at this; omega
      · by_cases hgt : i < j
        · have := sorted_lt hv hgt hj
          rw [hiAt_eq v hi, loAt_eq v hj] at this; omega
        · omega
    · intro h
      have : j = i := by omega
      subst this; omega

example : atSpan exStore ⟨3, 6⟩ = some ⟨⟨⟨4, 6⟩, 1⟩, LSet.new⟩ := by decide
example : atSpan exStore ⟨3, 9⟩ = none := by decide

/-! ## C13 -/

/-- `run` is a longest run of matching tokens in `v` that begins with a token starting at `pos`. -/
def MaxRunFrom (v : TokenVec n) (pos : Nat) (p : Cell n → Bool) (run : TokenVec n) : Prop :=
  ∃ pre post, v = pre ++ run ++ post ∧ (∃ c rest, run = c :: rest ∧ c.token.span.lo = pos) ∧
    (∀ c ∈ run, p c = true) ∧ (∀ c rest, post = c :: rest → p c = false)

/-- `run` is a longest run of matching tokens in `v` that ends with a token ending at `pos`. -/
def MaxRunTo (v : TokenVec n) (pos : Nat) (p : Cell n → Bool) (run : TokenVec n) : Prop :=
  ∃ pre post, v = pre ++ run ++ post ∧ (∃ c rest, run = rest ++ [c] ∧ c.token.span.hi = pos) ∧
    (∀ c ∈ run, p c = true) ∧ (∀ c rest, pre = rest ++ [c] → p c = false)

theorem mem_drop_take {α : Type} {l : List α} {lo hi : Nat} {c : α} (h : c ∈ (l.drop lo).take (hi - lo)) :
    ∃ j, ∃ hj : j < l.length, lo ≤ j ∧ j < hi ∧ l[j] = c := by
  obtain ⟨k, hk, he⟩ := List.mem_iff_getElem.1 h
  simp at hk
  refine ⟨lo + k, by omega, by omega, by omega, ?_⟩
  rw [← he]; simp

theorem split3 {α : Type} (l : List α) (lo hi : Nat) (h : lo ≤ hi) :
    l = l.take lo ++ (l.drop lo).take (hi - lo) ++ l.drop hi := by
  have h1 : l.drop hi = (l.drop lo).drop (hi - lo) := by rw [List.drop_drop]; congr 1; omega
  rw [h1, List.append_assoc, List.take_append_drop, List.take_append_drop]

/-- The returned slice is a maximal matching run; `none` means that no token starts at `pos` or that
the one that does fails the predicate; slicing never panics. -/
theorem C13_begins_at {v : TokenVec n} (hv : SortedStore v) (pos : Nat) (p : Cell n → Bool) :
    (∃ run, beginsAtMatches? v pos p = some (some run) ∧ MaxRunFrom v pos p run) ∨
    (beginsAtMatches? v pos p = some none ∧ ∀ c ∈ v, c.token.span.lo = pos → p c = false) := by
  obtain ⟨h1, h2, h3, h4⟩ := searchLo_spec hv pos
  unfold beginsAtMatches? beginsAtMatchesBounds
  generalize searchLo v pos = r at *
  obtain ⟨b, i⟩ := r
  cases b with
  | false =>
    right
    refine ⟨rfl, ?_⟩
    intro c hc hpos
    exfalso
    obtain ⟨j, hj, he⟩ := List.mem_iff_getElem.1 hc
    have hl := loAt_eq v hj
    rw [he, hpos] at hl
    by_cases hji : j < i
    · have := h2 j hji; omega
    · have := h4 rfl j (by simp only at *; omega) hj; omega
  | true =>
    obtain ⟨h5, h6, h7⟩ := h3 rfl
    simp only at h5 h6 h7
    obtain ⟨hi, a0, a1, a2, a3, a4⟩ := scanUp_spec v p v.length i (by omega) (by omega)
    simp only [a0]
    by_cases hlt : i < hi
    · left
      rw [if_pos hlt]
      simp only
      rw [slice?_eq v (by omega) a2]
      refine ⟨_, rfl, v.take i, v.drop hi, split3 v i hi a1, ?_, ?_, ?_⟩
      · refine ⟨v[i], (v.drop (i + 1)).take (hi - i - 1), ?_, ?_⟩
        · rw [List.drop_eq_getElem_cons h5, show hi - i = (hi - i - 1) + 1 by omega,
            List.take_succ_cons]
          simp
        · rw [← loAt_eq v h5]; exact h6
      · intro c hc
        obtain ⟨j, hj, h8, h9, he⟩ := mem_drop_take hc
        rw [← he]; exact a3 j hj h8 h9
      · intro c rest hpost
        by_cases hl : hi < v.length
        · rw [List.drop_eq_getElem_cons hl] at hpost
          cases hpost; exact a4 hl
        · rw [List.drop_eq_nil_of_le (by omega)] at hpost; cases hpost
    · right
      rw [if_neg hlt]
      refine ⟨rfl, ?_⟩
      intro c hc hpos
      obtain ⟨j, hj, he⟩ := List.mem_iff_getElem.1 hc
      have hl := loAt_eq v hj
      rw [he, hpos] at hl
      have hji : j = i := by
        by_cases hji : j < i
        · have := h2 j hji; omega
        · by_cases hij : i < j
          · have := h7 j hij hj; omega
          · omega
      have hii : hi = i := by omega
      subst hji; subst hii
      rw [← he]; exact a4 hj

/-- Mirror image of `C13_begins_at`. -/
theorem C13_ends_at {v : TokenVec n} (hv : SortedStore v) (pos : Nat) (p : Cell n → Bool) :
    (∃ run, endsAtMatches? v pos p = some (some run) ∧ MaxRunTo v pos p run) ∨
    (endsAtMatches? v pos p = some none ∧ ∀ c ∈ v, c.token.span.hi = pos → p c = false) := by
  obtain ⟨h1, h2, h3, h4⟩ := searchHi_spec hv pos
  unfold endsAtMatches? endsAtMatchesBounds
  generalize searchHi v pos = r at *
  obtain ⟨b, i⟩ := r
  cases b with
  | false =>
    right
    refine ⟨rfl, ?_⟩
    intro c hc hpos
    exfalso
    obtain ⟨j, hj, he⟩ := List.mem_iff_getElem.1 hc
    have hl := hiAt_eq v hj
    rw [he, hpos] at hl
    by_cases hji : j < i
    · have := h2 j hji; omega
    · have := h4 rfl j (by simp only at *; omega) hj; omega
  | true =>
    obtain ⟨h5, h6, h7⟩ := h3 rfl
    simp only at h5 h6 h7
    obtain ⟨lo, a0, a1, a2, a3⟩ := scanDown_spec v p (i + 1) (by omega)
    simp only [a0]
    by_cases hlt : lo < i + 1
    · left
      rw [if_pos hlt]
      simp only
      rw [slice?_eq v (by omega) (by omega)]
      refine ⟨_, rfl, v.take lo, v.drop (i + 1), split3 v lo (i + 1) a1, ?_, ?_, ?_⟩
      · refine ⟨v[i], (v.drop lo).take (i - lo), ?_, ?_⟩
        · rw [show i + 1 - lo = (i - lo) + 1 by omega, List.take_add_one, List.getElem?_drop,
            show lo + (i - lo) = i by omega, List.getElem?_eq_getElem h5]
          rfl
        · rw [← hiAt_eq v h5]; exact h6
      · intro c hc
        obtain ⟨j, hj, h8, h9, he⟩ := mem_drop_take hc
        rw [← he]; exact a2 j hj h8 h9
      · intro c rest hpre
        cases lo with
        | zero => simp at hpre
        | succ lo =>
          rw [List.take_add_one, List.getElem?_eq_getElem (by omega)] at hpre
          simp only [Option.toList_some] at hpre
          have := List.append_inj_right' hpre rfl
          cases this
          exact a3 (by omega) (by omega)
    · right
      rw [if_neg hlt]
      refine ⟨rfl, ?_⟩
      intro c hc hpos
      obtain ⟨j, hj, he⟩ := List.mem_iff_getElem.1 hc
      have hl := hiAt_eq v hj
      rw [he, hpos] at hl
      have hji : j = i := by
        by_cases hji : j < i
        · have := h2 j hji; omega
        · by_cases hij : i < j
          · have := h7 j hij hj; omega
          · omega
      have hii : lo = i + 1 := by omega
      subst hji; subst hii
      rw [← he]; exact a3 hj (by omega)

/-- A maximal run is the longest one: every run of matching tokens that begins with the token at
`pos` is a prefix of it. (The starting token is unique because the store is sorted.) -/
theorem C13_begins_at_longest {v : TokenVec n} (hv : SortedStore v) (pos : Nat) (p : Cell n → Bool)
    (run run' : TokenVec n) (hr : MaxRunFrom v pos p run)
    (pre' post' : TokenVec n) (hv' : v = pre' ++ run' ++ post')
    (hs' : ∃ c rest, run' = c :: rest ∧ c.token.span.lo = pos) (hp' : ∀ c ∈ run', p c = true) :
    run' <+: run := by
  obtain ⟨pre, post, he, ⟨c, rest, hc, hcp⟩, hp, hpost⟩ := hr
  obtain ⟨c', rest', hc', hcp'⟩ := hs'
  -- both runs begin at the same index
  have hlen : pre.length = pre'.length := by
    have g : ∀ (a b : TokenVec n) (x : Cell n) (xs : TokenVec n), v = a ++ (x :: xs) ++ b →
        ∃ h : a.length < v.length, v[a.length] = x := by
      intro a b x xs h
      subst h
      exact ⟨by simp, by simp⟩
    obtain ⟨l1, e1⟩ := g pre post c rest (hc ▸ he)
    obtain ⟨l2, e2⟩ := g pre' post' c' rest' (hc' ▸ hv')
    have k1 := loAt_eq v l1
    have k2 := loAt_eq v l2
    rw [e1, hcp] at k1
    rw [e2, hcp'] at k2
    have q1 := sorted_pos hv l1
    have q2 := sorted_pos hv l2
    rcases Nat.lt_trichotomy pre.length pre'.length with h | h | h
    · have := sorted_lt hv h l2; omega
    · exact h
    · have := sorted_lt hv h l1; omega
  have heq : pre ++ (run ++ post) = pre' ++ (run' ++ post') := by
    rw [← List.append_assoc, ← List.append_assoc, ← he, ← hv']
  obtain ⟨_, h2⟩ := List.append_inj heq hlen
  -- compare the two runs
  rcases List.append_eq_append_iff.1 h2 with ⟨as, h3, h4⟩ | ⟨bs, h3, h4⟩
  · cases as with
    | nil => rw [h3]; simp
    | cons a as =>
      exfalso
      have h5 := hpost a _ h4
      have h6 := hp' a (by rw [h3]; simp)
      rw [h5] at h6; cases h6
  · exact ⟨bs, h3.symm⟩

example : beginsAtMatches? exStore 4 (fun c => c.token.ty.val != 0) = some (some (exStore.drop 1)) := by
  decide
example : endsAtMatches? exStore 6 (fun _ => true) = some (some (exStore.take 2)) := by decide
example : endsAtMatches? exStore 7 (fun _ => true) = some none := by decide

/-! ## C14 -/

/-- What applying semantic types must do to a single cell. -/
def addIfInside (span : Span) (s : LSet n) (c : Cell n) : Cell n :=
  if c.token.span.Inside span then { c with semantic := c.semantic.union s } else c

/-- Exactly the tokens inside the span get the types added; nothing else changes. -/
theorem C14_apply {v : TokenVec n} (hv : SortedStore v) (span : Span) (s : LSet n) :
    applySemanticInside v span s = v.map (addIfInside span s) := by
  apply List.ext_getElem?
  intro i
  unfold applySemanticInside
  rw [insideBounds_eq]
  by_cases hi : i < v.length
  · have k1 := loIdx_spec hv span.lo i hi
    have k2 := hiIdx_spec hv span.hi i hi
    have k3 := hiIdx_le hv span.hi
    rw [loAt_eq v hi] at k1
    rw [hiAt_eq v hi] at k2
    rw [List.getElem?_map, List.getElem?_eq_getElem hi]
    generalize (searchLo v span.lo).2 = L at *
    generalize hiIdx v span.hi = H at *
    simp only [Option.map_some, addIfInside]
    by_cases h : L < H
    · rw [if_pos h]
      simp only [applySemantic]
      by_cases hL : i < L
      · rw [List.append_assoc, List.getElem?_append_left (by simp; omega),
          List.getElem?_take_of_lt hL, List.getElem?_eq_getElem hi, if_neg]
        intro hin; exact absurd (k1.1 hin.1) (by omega)
      · by_cases hH : i < H
        · rw [List.append_assoc, List.getElem?_append_right (by simp; omega),
            List.getElem?_append_left (by simp; omega), List.getElem?_map,
            List.getElem?_take_of_lt (by simp; omega), List.getElem?_drop]
          have : L + (i - (v.take L).length) = i := by simp; omega
          rw [this, List.getElem?_eq_getElem hi, if_pos ⟨k1.2 (by omega), k2.2 hH⟩]
          rfl
        · rw [List.getElem?_append_right (by simp; omega), List.getElem?_drop]
          rw [show ∀ x, x = i - H → H + x = i by intro x hx; omega]
          · rw [List.getElem?_eq_getElem hi, if_neg]
            intro hin; exact hH (k2.1 hin.2)
          · simp; omega
    · rw [if_neg h]
      simp only
      rw [List.getElem?_eq_getElem hi, if_neg]
      intro hin
      have := k1.1 hin.1
      have := k2.1 hin.2
      omega
  · rw [List.getElem?_eq_none (l := v.map _) (by simp; omega)]
    apply List.getElem?_eq_none
    by_cases h : (searchLo v span.lo).2 < hiIdx v span.hi
    · rw [if_pos h]
      have := hiIdx_le hv span.hi
      simp [applySemantic]; omega
    · rw [if_neg h]; simp only; omega

/-- Number, order, spans and types of the stored tokens do not change (for any store, sorted or not,
whose computed bounds are valid). -/
theorem C14_tokens_unchanged {v : TokenVec n} (hv : SortedStore v) (span : Span) (s : LSet n) :
    (applySemanticInside v span s).map (·.token) = v.map (·.token) := by
  rw [C14_apply hv, List.map_map]
  apply List.map_congr_left
  intro c _
  simp only [Function.comp, addIfInside]
  split <;> rfl

theorem C14_sorted {v : TokenVec n} (hv : SortedStore v) (span : Span) (s : LSet n) :
    SortedStore (applySemanticInside v span s) := by
  unfold SortedStore; rw [C14_tokens_unchanged hv]; exact hv

/-- Membership after the application, for lexicons that compile. -/
theorem C14_members (hn : n ≤ 32) (span : Span) (s : LSet n) (c : Cell n) (t : Fin n) :
    (addIfInside span s c).semantic.contains t = true ↔
      c.semantic.contains t = true ∨ (c.token.span.Inside span ∧ s.contains t = true) := by
  unfold addIfInside
  have hu : (c.semantic.union s).contains t = true ↔ c.semantic.contains t = true ∨ s.contains t = true := by
    have : ∀ x : LSet n, x.contains t = x.bits.getLsbD t.val := by
      intro x; exact LSet.contains_iff hn x t
    rw [this, this, this]; simp [LSet.union]
  split
  · rename_i h; rw [hu]; simp [h]
  · rename_i h; simp [h]

/-- The types of a stored token are its lexical type and its semantic types. -/
theorem C14_types (hn : n ≤ 32) (c : Cell n) (t : Fin n) :
    c.types.contains t = true ↔ t = c.token.ty ∨ c.semantic.contains t = true := by
  unfold Cell.types
  rw [C15_insert hn, eq_comm (a := c.token.ty)]
  exact or_comm

example : (Cell.mk (n := 3) ⟨⟨0, 1⟩, 0⟩ (LSet.new.insert 2)).types.contains 0 = true ∧
    (Cell.mk (n := 3) ⟨⟨0, 1⟩, 0⟩ (LSet.new.insert 2)).types.contains 1 = false := by decide

/-- Applying twice is the same as applying once. -/
theorem C14_idempotent {v : TokenVec n} (hv : SortedStore v) (span : Span) (s : LSet n) :
    applySemanticInside (applySemanticInside v span s) span s = applySemanticInside v span s := by
  rw [C14_apply (C14_sorted hv span s), C14_apply hv, List.map_map]
  apply List.map_congr_left
  intro c _
  simp only [Function.comp, addIfInside]
  by_cases h : c.token.span.Inside span
  · simp only [h, if_true, LSet.union, BitVec.or_assoc, BitVec.or_self]
  · simp only [h, if_false]

/-- The order of two applications does not matter. -/
theorem C14_commute {v : TokenVec n} (hv : SortedStore v) (sp1 sp2 : Span) (s1 s2 : LSet n) :
    applySemanticInside (applySemanticInside v sp1 s1) sp2 s2 =
    applySemanticInside (applySemanticInside v sp2 s2) sp1 s1 := by
  rw [C14_apply (C14_sorted hv sp1 s1), C14_apply (C14_sorted hv sp2 s2), C14_apply hv, C14_apply hv,
    List.map_map, List.map_map]
  apply List.map_congr_left
  intro c _
  simp only [Function.comp, addIfInside]
  by_cases h1 : c.token.span.Inside sp1 <;> by_cases h2 : c.token.span.Inside sp2 <;>
    simp only [h1, h2, if_true, if_false]
  simp only [LSet.union, BitVec.or_assoc, BitVec.or_comm s1.bits]

/-- Any two orders of the same applications give the same store. -/
theorem C14_order {v : TokenVec n} (hv : SortedStore v) {as bs : List (Span × LSet n)}
    (h : as.Perm bs) :
    as.foldl (fun v a => applySemanticInside v a.1 a.2) v =
    bs.foldl (fun v a => applySemanticInside v a.1 a.2) v := by
  have hs : ∀ (l : List (Span × LSet n)) (v : TokenVec n), SortedStore v →
      SortedStore (l.foldl (fun v a => applySemanticInside v a.1 a.2) v) := by
    intro l
    induction l with
    | nil => intro v hv; exact hv
    | cons a l ih => intro v hv; exact ih _ (C14_sorted hv _ _)
  induction h generalizing v with
  | nil => rfl
  | cons a _ ih => exact ih (C14_sorted hv _ _)
  | swap a b l => simp only [List.foldl_cons]; rw [C14_commute hv]
  | trans _ _ ih1 ih2 => rw [ih1 hv, ih2 hv]

example : (applySemanticInside exStore ⟨3, 6⟩ (LSet.new.insert 0)).map (·.semantic.contains 0) =
    [false, true, false] := by decide

end Teleparse
