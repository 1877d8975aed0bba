import Verif.Model.TokenChecked
import Verif.Props.TokenMut
/-
Property C102: no query of the token store panics, on any store (also one whose tokens are out of order, overlapping or
empty, which `push_unchecked` and `from_slice` allow), any span and any predicate; and the result is always a part of
the store without gaps.
-/
namespace Teleparse
open TokenVec
variable {n : Nat}

/-! ### The search -/

theorem bsLoopC_eq {cmp : Nat → Ordering} {cmp' : Nat → Option Ordering} {len : Nat}
    (hc : ∀ i < len, cmp' i = some (cmp i)) :
    ∀ fuel base size, size ≤ fuel → 0 < size → base + size ≤ len →
      bsLoopC cmp' fuel base size = some (bsLoop cmp fuel base size) ∧ bsLoop cmp fuel base size < len
  | 0, _, _, hf, hs, _ => by omega
  | fuel + 1, base, size, hf, hs, hl => by
    unfold bsLoopC bsLoop
    by_cases h1 : size > 1
    · rw [if_pos h1, if_pos h1]
      have hh : size / 2 < size := Nat.div_lt_self hs (by omega)
      have hh2 : 0 < size / 2 := Nat.div_pos h1 (by omega)
      have hm : base + size / 2 < len := by omega
      simp only [hc _ hm, sub?, Option.bind_eq_bind, Option.bind_some, if_pos (Nat.le_of_lt hh)]
      apply bsLoopC_eq hc
      · omega
      · omega
      · split <;> omega
    · rw [if_neg h1, if_neg h1]
      exact ⟨rfl, by omega⟩

theorem binarySearchC_eq {cmp : Nat → Ordering} {cmp' : Nat → Option Ordering} {len : Nat}
    (hc : ∀ i < len, cmp' i = some (cmp i)) :
    binarySearchC cmp' len = some (binarySearch cmp len) ∧ (binarySearch cmp len).2 ≤ len ∧
      ((binarySearch cmp len).1 = true → (binarySearch cmp len).2 < len) := by
  unfold binarySearchC binarySearch
  by_cases h0 : len = 0
  · simp [h0]
  · rw [if_neg h0, if_neg h0]
    obtain ⟨h1, h2⟩ := bsLoopC_eq hc len 0 len (Nat.le_refl _) (by omega) (by omega)
    simp only [h1, Option.bind_eq_bind, Option.bind_some, hc _ h2]
    cases cmp (bsLoop cmp len 0 len) <;> simp <;> omega

theorem searchLoC_eq (v : TokenVec n) (x : Nat) :
    searchLoC v x = some (searchLo v x) ∧ (searchLo v x).2 ≤ v.length ∧
      ((searchLo v x).1 = true → (searchLo v x).2 < v.length) := by
  refine binarySearchC_eq (cmp := fun i => compare (loAt v i) x) fun i hi => ?_
  simp [loAt, List.getElem?_eq_getElem hi]

theorem searchHiC_eq (v : TokenVec n) (x : Nat) :
    searchHiC v x = some (searchHi v x) ∧ (searchHi v x).2 ≤ v.length ∧
      ((searchHi v x).1 = true → (searchHi v x).2 < v.length) := by
  refine binarySearchC_eq (cmp := fun i => compare (hiAt v i) x) fun i hi => ?_
  simp [hiAt, List.getElem?_eq_getElem hi]

/-! ### Bounds -/

/-- Bounds that can be used for a slice. -/
def InRange (v : TokenVec n) (b : Option (Nat × Nat)) : Prop := ∀ lo hi, b = some (lo, hi) → lo < hi ∧ hi ≤ v.length

theorem insideBoundsC_eq (v : TokenVec n) (span : Span) :
    insideBoundsC v span = some (insideBounds v span) ∧ InRange v (insideBounds v span) := by
  obtain ⟨a1, a2, a3⟩ := searchLoC_eq v span.lo
  obtain ⟨b1, b2, b3⟩ := searchHiC_eq v span.hi
  unfold insideBoundsC insideBounds InRange
  simp only [a1, b1, Option.bind_eq_bind, Option.bind_some]
  generalize searchLo v span.lo = x at *
  generalize searchHi v span.hi = y at *
  obtain ⟨x, i⟩ := x
  obtain ⟨y, j⟩ := y
  cases x <;> cases y <;> simp_all <;> split <;> simp <;> omega

theorem overlapLoC_eq (v : TokenVec n) (span : Span) :
    overlapLoC v span (searchLo v span.lo) = some (ovLo v span.lo) := by
  have hx := (searchLoC_eq v span.lo).2.1
  unfold ovLo
  generalize searchLo v span.lo = x at *
  obtain ⟨x, i⟩ := x
  cases x with
  | true => rfl
  | false =>
    simp only at hx
    unfold overlapLoC
    by_cases h : i > 0
    · have h1 : i - 1 < v.length := by omega
      have h2 : 1 ≤ i := h
      simp only [sub?, if_pos h2, if_pos h, Option.bind_some, List.getElem?_eq_getElem h1, hiAt, Option.map_some,
        Option.getD_some]
      by_cases h3 : v[i - 1].token.span.hi > span.lo
      · rw [if_pos h3, if_pos ⟨h, h3⟩]
      · rw [if_neg h3, if_neg (fun h => h3 h.2)]
    · simp only [if_neg h]
      rw [if_neg (fun h' => h h'.1)]

theorem overlapHiC_eq (v : TokenVec n) (span : Span) :
    ∃ k ≤ v.length, overlapHiC v span (searchHi v span.hi) = some k ∧ ovHi v span.hi = k := by
  obtain ⟨-, hx, hx'⟩ := searchHiC_eq v span.hi
  unfold ovHi
  generalize searchHi v span.hi = x at *
  obtain ⟨x, i⟩ := x
  cases x with
  | true => exact ⟨i + 1, hx' rfl, rfl, rfl⟩
  | false =>
    simp only at hx
    unfold overlapHiC
    by_cases h : i < v.length
    · simp only [if_pos h, Option.bind_some, List.getElem?_eq_getElem h, loAt, Option.map_some, Option.getD_some]
      by_cases h3 : v[i].token.span.lo < span.hi
      · exact ⟨i + 1, h, by rw [if_pos h3], by rw [if_pos ⟨h, h3⟩]⟩
      · exact ⟨i, hx, by rw [if_neg h3], by rw [if_neg (fun h => h3 h.2)]⟩
    · exact ⟨i, hx, by simp only [if_neg h], by simp only; rw [if_neg (fun h' => h h'.1)]⟩

theorem overlapBoundsC_eq (v : TokenVec n) (span : Span) :
    overlapBoundsC v span = some (overlapBounds v span) ∧ InRange v (overlapBounds v span) := by
  obtain ⟨a1, a2, a3⟩ := searchLoC_eq v span.lo
  obtain ⟨b1, b2, b3⟩ := searchHiC_eq v span.hi
  have e1 := overlapLoC_eq v span
  obtain ⟨k, e2, e3, e4⟩ := overlapHiC_eq v span
  rw [overlapBounds_eq, e4]
  unfold overlapBoundsC InRange
  simp only [a1, b1, Option.bind_eq_bind, Option.bind_some, e1, e3]
  refine ⟨by split <;> rfl, ?_⟩
  intro lo hi h
  split at h
  · cases h; exact ⟨by assumption, e2⟩
  · cases h

theorem scanDownC_eq (v : TokenVec n) (p : Cell n → Bool) :
    ∀ i ≤ v.length, scanDownC v p i = some (scanDown v p i) ∧ scanDown v p i ≤ i
  | 0, _ => ⟨rfl, Nat.le_refl _⟩
  | i + 1, h => by
    have hi : i < v.length := h
    unfold scanDownC scanDown
    simp only [List.getElem?_eq_getElem hi, Option.bind_eq_bind, Option.bind_some, Option.map_some, Option.getD_some]
    obtain ⟨h1, h2⟩ := scanDownC_eq v p i (by omega)
    split
    · exact ⟨h1, by omega⟩
    · exact ⟨rfl, Nat.le_refl _⟩

theorem scanUpC_eq (v : TokenVec n) (p : Cell n → Bool) :
    ∀ fuel i, i ≤ v.length → v.length ≤ fuel + i →
      scanUpC v p fuel i = some (scanUp v p fuel i) ∧ scanUp v p fuel i ≤ v.length
  | 0, i, h, hf => by
    unfold scanUpC scanUp
    rw [if_neg (by omega)]
    exact ⟨by simp, h⟩
  | fuel + 1, i, h, hf => by
    unfold scanUpC scanUp
    by_cases hi : i < v.length
    · simp only [hi, if_true, List.getElem?_eq_getElem hi, Option.bind_eq_bind, Option.bind_some, Option.map_some,
        Option.getD_some, true_and]
      obtain ⟨h1, h2⟩ := scanUpC_eq v p fuel (i + 1) (by omega) (by omega)
      split
      · exact ⟨h1, h2⟩
      · exact ⟨rfl, h⟩
    · simp only [hi, if_false, false_and]
      exact ⟨by simp, h⟩

theorem endsAtMatchesBoundsC_eq (v : TokenVec n) (pos : Nat) (p : Cell n → Bool) :
    endsAtMatchesBoundsC v pos p = some (endsAtMatchesBounds v pos p) ∧ InRange v (endsAtMatchesBounds v pos p) := by
  obtain ⟨b1, b2, b3⟩ := searchHiC_eq v pos
  unfold endsAtMatchesBoundsC endsAtMatchesBounds InRange
  simp only [b1, Option.bind_eq_bind, Option.bind_some] at *
  generalize searchHi v pos = y at *
  obtain ⟨y, j⟩ := y
  cases y with
  | false => simp
  | true =>
    have hj : j < v.length := b3 rfl
    obtain ⟨h1, h2⟩ := scanDownC_eq v p (j + 1) hj
    simp only [h1, Option.bind_some]
    refine ⟨by split <;> rfl, ?_⟩
    intro lo hi h
    split at h
    · cases h; exact ⟨by assumption, by omega⟩
    · cases h

theorem beginsAtMatchesBoundsC_eq (v : TokenVec n) (pos : Nat) (p : Cell n → Bool) :
    beginsAtMatchesBoundsC v pos p = some (beginsAtMatchesBounds v pos p) ∧
      InRange v (beginsAtMatchesBounds v pos p) := by
  obtain ⟨b1, b2, b3⟩ := searchLoC_eq v pos
  unfold beginsAtMatchesBoundsC beginsAtMatchesBounds InRange
  simp only [b1, Option.bind_eq_bind, Option.bind_some] at *
  generalize searchLo v pos = y at *
  obtain ⟨y, j⟩ := y
  cases y with
  | false => simp
  | true =>
    obtain ⟨h1, h2⟩ := scanUpC_eq v p v.length j b2 (by omega)
    simp only [h1, Option.bind_some]
    refine ⟨by split <;> rfl, ?_⟩
    intro lo hi h
    split at h
    · cases h; exact ⟨by assumption, by omega⟩
    · cases h

/-! ### C102 -/

/-- What all bounds have in common: `Some((lo, hi))` names a nonempty part of the store. -/
theorem InRange.part {v : TokenVec n} {b : Option (Nat × Nat)} (h : InRange v b) {lo hi : Nat}
    (e : b = some (lo, hi)) : ∃ a s c, v = a ++ s ++ c ∧ a.length = lo ∧ s.length = hi - lo ∧ slice? v lo hi = some s := by
  obtain ⟨h1, h2⟩ := h lo hi e
  refine ⟨v.take lo, (v.drop lo).take (hi - lo), v.drop hi, ?_, ?_, ?_, ?_⟩
  · have e1 : (v.drop lo).drop (hi - lo) = v.drop hi := by rw [List.drop_drop]; congr 1; omega
    rw [← e1, List.append_assoc, List.take_append_drop, List.take_append_drop]
  · rw [List.length_take]; omega
  · rw [List.length_take, List.length_drop]; omega
  · unfold slice?; rw [if_pos ⟨by omega, h2⟩]

/-- "`tokens[lo..hi]` will not panic if `Some` is returned" (lex/vec.rs:167, 206), for all four functions that return
bounds and for every store: none of them panics, and the bounds they return name a nonempty part of the store. -/
theorem C102_bounds (v : TokenVec n) (span : Span) (pos : Nat) (p : Cell n → Bool)
    (r : Option (Option (Nat × Nat)))
    (hr : r = overlapBoundsC v span ∨ r = insideBoundsC v span ∨ r = beginsAtMatchesBoundsC v pos p ∨
      r = endsAtMatchesBoundsC v pos p) :
    ∃ b, r = some b ∧ ∀ lo hi, b = some (lo, hi) → lo < hi ∧
      ∃ a s c, v = a ++ s ++ c ∧ a.length = lo ∧ s.length = hi - lo ∧ slice? v lo hi = some s := by
  have key : ∀ b : Option (Nat × Nat), InRange v b → ∀ lo hi, b = some (lo, hi) → lo < hi ∧
      ∃ a s c, v = a ++ s ++ c ∧ a.length = lo ∧ s.length = hi - lo ∧ slice? v lo hi = some s :=
    fun b hb lo hi e => ⟨(hb lo hi e).1, hb.part e⟩
  rcases hr with rfl | rfl | rfl | rfl
  · obtain ⟨h1, h2⟩ := overlapBoundsC_eq v span; exact ⟨_, h1, key _ h2⟩
  · obtain ⟨h1, h2⟩ := insideBoundsC_eq v span; exact ⟨_, h1, key _ h2⟩
  · obtain ⟨h1, h2⟩ := beginsAtMatchesBoundsC_eq v pos p; exact ⟨_, h1, key _ h2⟩
  · obtain ⟨h1, h2⟩ := endsAtMatchesBoundsC_eq v pos p; exact ⟨_, h1, key _ h2⟩

/-- `inside` and `overlap` return a part of the store, whatever the store; and what they return is what
`Model/TokenVec.lean` says (so that C10, C11 and C85 are about the function with the checks, too). -/
theorem C102_spans (v : TokenVec n) (span : Span) :
    (∃ s, insideC v span = some s ∧ s <:+: v ∧ inside? v span = some s) ∧
    ∃ s, overlapC v span = some s ∧ s <:+: v ∧ overlap? v span = some s := by
  constructor
  · obtain ⟨h1, h2⟩ := insideBoundsC_eq v span
    unfold insideC inside?
    simp only [h1, Option.bind_eq_bind, Option.bind_some]
    cases e : insideBounds v span with
    | none => exact ⟨[], rfl, List.nil_infix, rfl⟩
    | some b =>
      obtain ⟨a, s, c, h3, -, -, h4⟩ := h2.part e
      exact ⟨s, h4, ⟨a, c, h3.symm⟩, h4⟩
  · obtain ⟨h1, h2⟩ := overlapBoundsC_eq v span
    unfold overlapC overlap?
    simp only [h1, Option.bind_eq_bind, Option.bind_some]
    cases e : overlapBounds v span with
    | none => exact ⟨[], rfl, List.nil_infix, rfl⟩
    | some b =>
      obtain ⟨a, s, c, h3, -, -, h4⟩ := h2.part e
      exact ⟨s, h4, ⟨a, c, h3.symm⟩, h4⟩

/-- `at_span` returns a token of the store or nothing, whatever the store, and agrees with `Model/TokenVec.lean` (C12). -/
theorem C102_at_span (v : TokenVec n) (span : Span) :
    atSpanC v span = some (atSpan v span) ∧ ∀ c, atSpan v span = some c → c ∈ v := by
  obtain ⟨h1, h2⟩ := insideBoundsC_eq v span
  unfold atSpanC atSpan
  simp only [h1, Option.bind_eq_bind, Option.bind_some]
  cases e : insideBounds v span with
  | none => simp
  | some b =>
    obtain ⟨lo, hi⟩ := b
    obtain ⟨h3, -⟩ := h2 lo hi e
    have h4 : 1 ≤ hi := by omega
    simp only [sub?, if_pos h4, Option.bind_some]
    constructor
    · split <;> rfl
    · intro c hc
      split at hc
      · cases hc
      · exact List.mem_of_getElem? hc

/-- `begins_at_matches` and `ends_at_matches` return a nonempty part of the store or nothing, whatever the store and the
predicate, and agree with `Model/TokenVec.lean` (C13). -/
theorem C102_matches (v : TokenVec n) (pos : Nat) (p : Cell n → Bool) :
    (∃ r, beginsAtMatchesC v pos p = some r ∧ beginsAtMatches? v pos p = some r ∧
      ∀ s, r = some s → s ≠ [] ∧ s <:+: v) ∧
    ∃ r, endsAtMatchesC v pos p = some r ∧ endsAtMatches? v pos p = some r ∧
      ∀ s, r = some s → s ≠ [] ∧ s <:+: v := by
  constructor
  · obtain ⟨h1, h2⟩ := beginsAtMatchesBoundsC_eq v pos p
    unfold beginsAtMatchesC beginsAtMatches?
    simp only [h1, Option.bind_eq_bind, Option.bind_some]
    cases e : beginsAtMatchesBounds v pos p with
    | none => exact ⟨none, rfl, rfl, by simp⟩
    | some b =>
      obtain ⟨a, s, c, h3, -, h5, h4⟩ := h2.part e
      obtain ⟨h6, -⟩ := h2 _ _ e
      refine ⟨some s, by simp [h4], by simp [h4], ?_⟩
      rintro _ ⟨⟩
      exact ⟨fun h => by subst h; simp at h5; omega, a, c, h3.symm⟩
  · obtain ⟨h1, h2⟩ := endsAtMatchesBoundsC_eq v pos p
    unfold endsAtMatchesC endsAtMatches?
    simp only [h1, Option.bind_eq_bind, Option.bind_some]
    cases e : endsAtMatchesBounds v pos p with
    | none => exact ⟨none, rfl, rfl, by simp⟩
    | some b =>
      obtain ⟨a, s, c, h3, -, h5, h4⟩ := h2.part e
      obtain ⟨h6, -⟩ := h2 _ _ e
      refine ⟨some s, by simp [h4], by simp [h4], ?_⟩
      rintro _ ⟨⟩
      exact ⟨fun h => by subst h; simp at h5; omega, a, c, h3.symm⟩

/-- The queries that give write access do not panic either, whatever the store and whatever is written. -/
theorem C102_mut (v : TokenVec n) (span : Span) (pos : Nat) (p : Cell n → Bool) (f : TokenVec n → TokenVec n)
    (hf : f [] = []) :
    (∃ w, insideMut? v span f = some w) ∧ (∃ w, overlapMut? v span f = some w) ∧
    (∃ w, beginsAtMatchesMut? v pos p f = some w) ∧ ∃ w, endsAtMatchesMut? v pos p f = some w := by
  obtain ⟨⟨s, -, -, h1⟩, s', -, -, h2⟩ := C102_spans v span
  obtain ⟨⟨r, -, h3, -⟩, r', -, h4, -⟩ := C102_matches v pos p
  refine ⟨?_, ?_, ?_, ?_⟩
  · obtain ⟨w, h, -⟩ := C85_inside v span s h1 f hf; exact ⟨w, h⟩
  · obtain ⟨w, h, -⟩ := C85_overlap v span s' h2 f hf; exact ⟨w, h⟩
  · obtain ⟨a, b⟩ := C85_begins_at v pos p f
    cases r with
    | none => exact ⟨_, b.1 h3⟩
    | some s => obtain ⟨w, h, -⟩ := a s h3; exact ⟨_, h⟩
  · obtain ⟨a, b⟩ := C85_ends_at v pos p f
    cases r' with
    | none => exact ⟨_, b.1 h4⟩
    | some s => obtain ⟨w, h, -⟩ := a s h4; exact ⟨_, h⟩

/-- A store that is out of order, with overlapping and backward spans. -/
def exMess : TokenVec 3 :=
  [⟨⟨⟨7, 9⟩, 0⟩, LSet.new⟩, ⟨⟨⟨2, 8⟩, 1⟩, LSet.new⟩, ⟨⟨⟨9, 3⟩, 2⟩, LSet.new⟩]

example : ¬ SortedStore exMess := by unfold SortedStore SortedTokens exMess; decide

/- Results on it are parts of the store, but need not be the tokens asked for: the first token overlaps `2..8` and is
left out. -/
example : overlapC exMess ⟨2, 8⟩ = some (exMess.drop 1) := by decide
example : insideBoundsC exMess ⟨9, 8⟩ = some (some (2, 3)) := by decide

end Teleparse
