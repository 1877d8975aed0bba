import Verif.Model.TokenCost
/-
Counting does not change the results, and binary search looks at few tokens.
-/
namespace Teleparse

@[simp] theorem Tally.pure_fst {α : Type} (a : α) : (pure a : Tally α).val = a := rfl
@[simp] theorem Tally.pure_snd {α : Type} (a : α) : (pure a : Tally α).looks = 0 := rfl
@[simp] theorem Tally.look_fst {α : Type} (a : α) : (Tally.look a).val = a := rfl
@[simp] theorem Tally.look_snd {α : Type} (a : α) : (Tally.look a).looks = 1 := rfl
@[simp] theorem Tally.bind_fst {α β : Type} (x : Tally α) (f : α → Tally β) : (x >>= f).val = (f x.val).val := rfl
@[simp] theorem Tally.bind_snd {α β : Type} (x : Tally α) (f : α → Tally β) : (x >>= f).looks = x.looks + (f x.val).looks := rfl

theorem bsLoopT_fst (cmp : Nat → Tally Ordering) (fuel : Nat) : ∀ base size,
    (bsLoopT cmp fuel base size).val = bsLoop (fun i => (cmp i).val) fuel base size := by
  induction fuel with
  | zero => intro base size; rfl
  | succ fuel ih =>
    intro base size
    simp only [bsLoopT, bsLoop]
    split
    · simp [ih]
    · rfl

theorem bsLoopT_snd (cmp : Nat → Tally Ordering) (hc : ∀ i, (cmp i).looks = 1) (fuel : Nat) : ∀ base size k,
    size ≤ 2 ^ k → (bsLoopT cmp fuel base size).looks ≤ k := by
  induction fuel with
  | zero => intro base size k _; simp [bsLoopT]
  | succ fuel ih =>
    intro base size k hk
    simp only [bsLoopT]
    split
    · rename_i hs
      cases k with
      | zero => simp at hk; omega
      | succ k =>
        simp only [Tally.bind_snd, hc]
        rw [Nat.pow_succ] at hk
        have := ih (if (cmp (base + size / 2)).val = .gt then base else base + size / 2) (size - size / 2) k (by omega)
        omega
    · simp

theorem binarySearchT_fst (cmp : Nat → Tally Ordering) (len : Nat) :
    (binarySearchT cmp len).val = binarySearch (fun i => (cmp i).val) len := by
  simp only [binarySearchT, binarySearch]
  split
  · rfl
  · simp only [Tally.bind_fst, bsLoopT_fst]
    cases (cmp (bsLoop (fun i => (cmp i).val) len 0 len)).val <;> rfl

theorem binarySearchT_snd (cmp : Nat → Tally Ordering) (hc : ∀ i, (cmp i).looks = 1) (len : Nat) :
    (binarySearchT cmp len).looks ≤ len.log2 + 2 := by
  simp only [binarySearchT]
  split
  · simp
  · have := bsLoopT_snd cmp hc len 0 len (len.log2 + 1) (Nat.le_of_lt Nat.lt_log2_self)
    simp only [Tally.bind_snd, hc]
    cases (cmp (bsLoopT cmp len 0 len).val).val <;> simp only [Tally.pure_snd] <;> omega

namespace TokenVec
variable {n : Nat} (v : TokenVec n)

@[simp] theorem searchLoT_fst (lo : Nat) : (searchLoT v lo).val = searchLo v lo := binarySearchT_fst _ _
@[simp] theorem searchHiT_fst (hi : Nat) : (searchHiT v hi).val = searchHi v hi := binarySearchT_fst _ _
theorem searchLoT_snd (lo : Nat) : (searchLoT v lo).looks ≤ v.length.log2 + 2 := binarySearchT_snd _ (fun _ => rfl) _
theorem searchHiT_snd (hi : Nat) : (searchHiT v hi).looks ≤ v.length.log2 + 2 := binarySearchT_snd _ (fun _ => rfl) _

theorem overlapLoT_spec (span : Span) : (overlapLoT v span).val = (match searchLo v span.lo with
    | (true, i) => i
    | (false, i) => if i > 0 ∧ hiAt v (i - 1) > span.lo then i - 1 else i) ∧
    (overlapLoT v span).looks ≤ v.length.log2 + 3 := by
  have h := searchLoT_snd v span.lo
  simp only [overlapLoT, Tally.bind_fst, Tally.bind_snd, searchLoT_fst]
  rcases searchLo v span.lo with ⟨b, i⟩
  cases b with
  | true => simp; omega
  | false =>
    dsimp only
    by_cases hi : i > 0
    · rw [if_pos hi]
      simp only [Tally.bind_fst, Tally.bind_snd, Tally.look_fst, Tally.look_snd]
      by_cases hh : hiAt v (i - 1) > span.lo
      · simp [hh, hi]; omega
      · simp [hh]; omega
    · simp [hi]; omega

theorem overlapHiT_spec (span : Span) : (overlapHiT v span).val = (match searchHi v span.hi with
    | (true, i) => i + 1
    | (false, i) => if i < v.length ∧ loAt v i < span.hi then i + 1 else i) ∧
    (overlapHiT v span).looks ≤ v.length.log2 + 3 := by
  have h := searchHiT_snd v span.hi
  simp only [overlapHiT, Tally.bind_fst, Tally.bind_snd, searchHiT_fst]
  rcases searchHi v span.hi with ⟨b, i⟩
  cases b with
  | true => simp; omega
  | false =>
    dsimp only
    by_cases hi : i < v.length
    · rw [if_pos hi]
      simp only [Tally.bind_fst, Tally.bind_snd, Tally.look_fst, Tally.look_snd]
      by_cases hh : loAt v i < span.hi
      · simp [hh, hi]; omega
      · simp [hh]; omega
    · simp [hi]; omega

theorem overlapBoundsT_spec (span : Span) : (overlapBoundsT v span).val = overlapBounds v span ∧
    (overlapBoundsT v span).looks ≤ 2 * v.length.log2 + 6 := by
  obtain ⟨h1, h2⟩ := overlapLoT_spec v span
  obtain ⟨h3, h4⟩ := overlapHiT_spec v span
  constructor
  · simp only [overlapBoundsT, Tally.bind_fst, Tally.pure_fst, h1, h3]
    rfl
  · simp only [overlapBoundsT, Tally.bind_snd, Tally.pure_snd]
    omega

theorem insideBoundsT_spec (span : Span) : (insideBoundsT v span).val = insideBounds v span ∧
    (insideBoundsT v span).looks ≤ 2 * v.length.log2 + 4 := by
  have h1 := searchLoT_snd v span.lo
  have h2 := searchHiT_snd v span.hi
  constructor
  · simp only [insideBoundsT, Tally.bind_fst, Tally.pure_fst, searchLoT_fst, searchHiT_fst]
    rfl
  · simp only [insideBoundsT, Tally.bind_snd, Tally.pure_snd]
    omega

theorem atSpanT_spec (span : Span) : (atSpanT v span).val = atSpan v span ∧
    (atSpanT v span).looks ≤ 2 * v.length.log2 + 5 := by
  obtain ⟨h1, h2⟩ := insideBoundsT_spec v span
  simp only [atSpanT, atSpan, Tally.bind_fst, Tally.bind_snd, h1]
  rcases insideBounds v span with _ | ⟨lo, hi⟩
  · simp; omega
  · dsimp only
    split
    · simp; omega
    · simp; omega

theorem scanDownT_spec (p : Cell n → Bool) (hi : Nat) : (scanDownT v p hi).val = scanDown v p hi ∧
    (scanDownT v p hi).looks + scanDown v p hi ≤ hi + 1 := by
  induction hi with
  | zero => simp [scanDownT, scanDown]
  | succ lo ih =>
    cases hb : (v[lo]?.map p).getD false with
    | true =>
      simp only [scanDownT, scanDown, hb, Tally.bind_fst, Tally.bind_snd, Tally.look, if_true]
      exact ⟨ih.1, by omega⟩
    | false => simp [scanDownT, scanDown, hb]; omega

theorem scanUpT_spec (p : Cell n → Bool) (fuel : Nat) : ∀ hi, (scanUpT v p fuel hi).val = scanUp v p fuel hi ∧
    (scanUpT v p fuel hi).looks + hi ≤ scanUp v p fuel hi + 1 := by
  induction fuel with
  | zero => intro hi; simp [scanUpT, scanUp]
  | succ fuel ih =>
    intro hi
    by_cases hl : hi < v.length
    · cases hb : (v[hi]?.map p).getD false with
      | true =>
        simp only [scanUpT, scanUp, hl, hb, if_true, and_self, Tally.bind_fst, Tally.bind_snd, Tally.look]
        have := ih (hi + 1)
        exact ⟨this.1, by omega⟩
      | false =>
        simp only [scanUpT, scanUp, hl, hb, if_true, Tally.bind_fst, Tally.bind_snd, Tally.look]
        simp
        omega
    · simp [scanUpT, scanUp, hl]

theorem applySemanticT_spec (s : LSet n) (v : TokenVec n) : (applySemanticT s v).val = applySemantic v s ∧
    (applySemanticT s v).looks = v.length := by
  induction v with
  | nil => exact ⟨rfl, rfl⟩
  | cons c v ih =>
    simp only [applySemanticT, Tally.bind_fst, Tally.bind_snd, Tally.look_fst, Tally.look_snd, Tally.pure_fst,
      Tally.pure_snd, ih.1, ih.2, List.length_cons]
    exact ⟨rfl, by omega⟩

end TokenVec
end Teleparse
