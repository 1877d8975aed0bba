import Verif.Spec.TokenStore
/-
Helper lemmas: binary search contract, index ranges of sorted stores.
-/
namespace Teleparse

/-- Invariant of the halving loop for weakly monotone keys. -/
theorem bsLoop_spec (key : Nat → Nat) (x : Nat) (len : Nat)
    (hmono : ∀ i j, i < j → j < len → key i ≤ key j) :
    ∀ (fuel base size : Nat), size ≤ fuel + 1 → 1 ≤ size → base + size ≤ len →
      (base = 0 ∨ key base ≤ x) → (∀ j, base + size ≤ j → j < len → x < key j) →
      bsLoop (fun i => compare (key i) x) fuel base size < len ∧
      (bsLoop (fun i => compare (key i) x) fuel base size = 0 ∨
        key (bsLoop (fun i => compare (key i) x) fuel base size) ≤ x) ∧
      (∀ j, bsLoop (fun i => compare (key i) x) fuel base size + 1 ≤ j → j < len → x < key j) := by
  intro fuel
  induction fuel with
  | zero =>
    intro base size h1 h2 h3 h4 h5
    have : size = 1 := by omega
    subst this
    exact ⟨by simp [bsLoop]; omega, by simpa [bsLoop] using h4, by simpa [bsLoop] using h5⟩
  | succ fuel ih =>
    intro base size h1 h2 h3 h4 h5
    unfold bsLoop
    by_cases hs : size > 1
    · rw [if_pos hs]
      simp only
      by_cases hc : compare (key (base + size / 2)) x = .gt
      · rw [if_pos hc]
        rw [Nat.compare_eq_gt] at hc
        apply ih base (size - size / 2) (by omega) (by omega) (by omega) h4
        intro j hj hjl
        by_cases hjm : j = base + size / 2
        · subst hjm; exact hc
        · have : base + size / 2 < j := by omega
          exact Nat.lt_of_lt_of_le hc (hmono _ _ this hjl)
      · rw [if_neg hc]
        rw [Nat.compare_eq_gt] at hc
        apply ih (base + size / 2) (size - size / 2) (by omega) (by omega) (by omega)
        · right; omega
        · intro j hj hjl
          exact h5 j (by omega) hjl
    · rw [if_neg hs]
      have : size = 1 := by omega
      subst this
      exact ⟨by omega, h4, h5⟩

/-- Contract of `binary_search_by` on strictly increasing keys: the index splits the keys into those
below `x` and the others. -/
theorem binarySearch_spec (key : Nat → Nat) (x : Nat) (len : Nat)
    (hmono : ∀ i j, i < j → j < len → key i < key j) :
    let r := binarySearch (fun i => compare (key i) x) len
    r.2 ≤ len ∧ (∀ j, j < r.2 → key j < x) ∧
    (r.1 = true → r.2 < len ∧ key r.2 = x ∧ ∀ j, r.2 < j → j < len → x < key j) ∧
    (r.1 = false → ∀ j, r.2 ≤ j → j < len → x < key j) := by
  intro r
  by_cases h0 : len = 0
  · have hr : r = (false, 0) := by simp [r, binarySearch, h0]
    rw [hr]; simp [h0]
  · obtain ⟨h1, h2, h3⟩ := bsLoop_spec key x len (fun i j hi hj => Nat.le_of_lt (hmono i j hi hj))
      len 0 len (by omega) (by omega) (by omega) (by omega) (by omega)
    generalize hb : bsLoop (fun i => compare (key i) x) len 0 len = b at h1 h2 h3
    have hlt : ∀ j, j < b → key j < key b := fun j hj => hmono j b hj h1
    cases hc : compare (key b) x with
    | eq =>
      have hr : r = (true, b) := by simp only [r, binarySearch, h0, if_false, hb, hc]
      rw [Nat.compare_eq_eq] at hc
      rw [hr]
      refine ⟨Nat.le_of_lt h1, fun j hj => hc ▸ hlt j hj, fun _ => ⟨h1, hc, fun j hj hl => h3 j hj hl⟩, ?_⟩
      intro h; cases h
    | lt =>
      have hr : r = (false, b + 1) := by simp only [r, binarySearch, h0, if_false, hb, hc]
      rw [Nat.compare_eq_lt] at hc
      rw [hr]
      refine ⟨h1, fun j hj => ?_, (by intro h; cases h), fun _ j hj hl => h3 j hj hl⟩
      by_cases hj' : j = b
      · subst hj'; exact hc
      · exact Nat.lt_trans (hlt j (by simp only at hj; omega)) hc
    | gt =>
      have hr : r = (false, b) := by simp only [r, binarySearch, h0, if_false, hb, hc]
      rw [Nat.compare_eq_gt] at hc
      rw [hr]
      refine ⟨Nat.le_of_lt h1, fun j hj => ?_, (by intro h; cases h), fun _ j hj hl => ?_⟩
      · simp only at hj; omega
      · by_cases hj' : j = b
        · subst hj'; exact hc
        · exact h3 j (by simp only at hj; omega) hl

end Teleparse

namespace Teleparse

/-- Filtering by a predicate that holds exactly on an index range is slicing. -/
theorem filter_range {α : Type} (P : α → Bool) : ∀ (l : List α) (L H : Nat),
    (∀ i (hi : i < l.length), P l[i] = true ↔ L ≤ i ∧ i < H) →
    l.filter P = (l.drop L).take (H - L) := by
  intro l
  induction l with
  | nil => intro L H _; simp
  | cons a l ih =>
    intro L H h
    have h0 := h 0 (by simp)
    have hs : ∀ i (hi : i < l.length), P l[i] = true ↔ L ≤ i + 1 ∧ i + 1 < H := by
      intro i hi; have := h (i + 1) (by simpa using hi); simpa using this
    simp only [List.getElem_cons_zero] at h0
    cases L with
    | zero =>
      cases H with
      | zero =>
        have hn : P a = false := by cases hp : P a <;> simp_all
        rw [List.filter_cons, hn]
        simp only [Bool.false_eq_true, if_false, Nat.sub_self, List.take_zero]
        rw [ih 0 0 (fun i hi => by rw [hs i hi]; omega)]
        simp
      | succ H =>
        have hp : P a = true := h0.2 ⟨by omega, by omega⟩
        rw [List.filter_cons, hp]
        simp only [if_true, List.drop_zero, Nat.sub_zero, List.take_succ_cons]
        rw [ih 0 H (fun i hi => by rw [hs i hi]; omega)]
        simp
    | succ L =>
      have hn : P a = false := by cases hp : P a <;> simp_all
      rw [List.filter_cons, hn]
      simp only [Bool.false_eq_true, if_false, List.drop_succ_cons]
      rw [ih L (H - 1) (fun i hi => by rw [hs i hi]; omega)]
      congr 1; omega

namespace TokenVec
variable {n : Nat}

theorem loAt_eq (v : TokenVec n) {i : Nat} (h : i < v.length) : loAt v i = v[i].token.span.lo := by
  simp [loAt, h]

theorem hiAt_eq (v : TokenVec n) {i : Nat} (h : i < v.length) : hiAt v i = v[i].token.span.hi := by
  simp [hiAt, h]

theorem sorted_pos {v : TokenVec n} (hv : SortedStore v) {i : Nat} (h : i < v.length) :
    loAt v i < hiAt v i := by
  rw [loAt_eq v h, hiAt_eq v h]
  exact hv.1 _ (List.mem_map_of_mem (List.getElem_mem h))

theorem sorted_lt {v : TokenVec n} (hv : SortedStore v) {i j : Nat} (hij : i < j) (h : j < v.length) :
    hiAt v i ≤ loAt v j := by
  rw [hiAt_eq v (by omega), loAt_eq v h]
  have := List.pairwise_iff_getElem.1 hv.2 i j (by simp; omega) (by simpa using h) hij
  simpa using this

theorem searchLo_spec {v : TokenVec n} (hv : SortedStore v) (x : Nat) :
    (searchLo v x).2 ≤ v.length ∧ (∀ j, j < (searchLo v x).2 → loAt v j < x) ∧
    ((searchLo v x).1 = true → (searchLo v x).2 < v.length ∧ loAt v (searchLo v x).2 = x ∧
      ∀ j, (searchLo v x).2 < j → j < v.length → x < loAt v j) ∧
    ((searchLo v x).1 = false → ∀ j, (searchLo v x).2 ≤ j → j < v.length → x < loAt v j) := by
  apply binarySearch_spec (loAt v) x v.length
  intro i j hij hj
  have h1 := sorted_pos hv (i := i) (by omega)
  have h2 := sorted_lt hv hij hj
  omega

theorem searchHi_spec {v : TokenVec n} (hv : SortedStore v) (x : Nat) :
    (searchHi v x).2 ≤ v.length ∧ (∀ j, j < (searchHi v x).2 → hiAt v j < x) ∧
    ((searchHi v x).1 = true → (searchHi v x).2 < v.length ∧ hiAt v (searchHi v x).2 = x ∧
      ∀ j, (searchHi v x).2 < j → j < v.length → x < hiAt v j) ∧
    ((searchHi v x).1 = false → ∀ j, (searchHi v x).2 ≤ j → j < v.length → x < hiAt v j) := by
  apply binarySearch_spec (hiAt v) x v.length
  intro i j hij hj
  have h1 := sorted_pos hv (i := j) (by omega)
  have h2 := sorted_lt hv hij hj
  omega

/-- Index of the first token starting at or after `x`. -/
theorem loIdx_spec {v : TokenVec n} (hv : SortedStore v) (x j : Nat) (hj : j < v.length) :
    x ≤ loAt v j ↔ (searchLo v x).2 ≤ j := by
  obtain ⟨_, h2, h3, h4⟩ := searchLo_spec hv x
  cases hb : (searchLo v x).1 with
  | true =>
    obtain ⟨_, h6, h7⟩ := h3 hb
    constructor
    · intro h; by_cases hlt : j < (searchLo v x).2
      · have := h2 j hlt; omega
      · omega
    · intro h
      by_cases he : j = (searchLo v x).2
      · rw [he, h6]; omega
      · have := h7 j (by omega) hj; omega
  | false =>
    constructor
    · intro h; by_cases hlt : j < (searchLo v x).2
      · have := h2 j hlt; omega
      · omega
    · intro h; have := h4 hb j h hj; omega

/-- Number of tokens ending at or before `x`. -/
def hiIdx (v : TokenVec n) (x : Nat) : Nat :=
  if (searchHi v x).1 then (searchHi v x).2 + 1 else (searchHi v x).2

theorem hiIdx_spec {v : TokenVec n} (hv : SortedStore v) (x j : Nat) (hj : j < v.length) :
    hiAt v j ≤ x ↔ j < hiIdx v x := by
  obtain ⟨_, h2, h3, h4⟩ := searchHi_spec hv x
  unfold hiIdx
  cases hb : (searchHi v x).1 with
  | true =>
    obtain ⟨_, h6, h7⟩ := h3 hb
    simp only [if_true]
    constructor
    · intro h; by_cases hlt : (searchHi v x).2 < j
      · have := h7 j hlt hj; omega
      · omega
    · intro h
      by_cases he : j = (searchHi v x).2
      · rw [he, h6]; omega
      · have := h2 j (by omega); omega
  | false =>
    simp only [Bool.false_eq_true, if_false]
    constructor
    · intro h; by_cases hlt : (searchHi v x).2 ≤ j
      · have := h4 hb j hlt hj; omega
      · omega
    · intro h; have := h2 j h; omega

theorem hiIdx_le {v : TokenVec n} (hv : SortedStore v) (x : Nat) : hiIdx v x ≤ v.length := by
  obtain ⟨h1, _, h3, _⟩ := searchHi_spec hv x
  unfold hiIdx
  cases hb : (searchHi v x).1 with
  | true => have := (h3 hb).1; simp; omega
  | false => simpa using h1

theorem insideBounds_eq (v : TokenVec n) (span : Span) :
    insideBounds v span =
      if (searchLo v span.lo).2 < hiIdx v span.hi then
        some ((searchLo v span.lo).2, hiIdx v span.hi) else none := by
  unfold insideBounds hiIdx
  rcases searchLo v span.lo with ⟨_ | _, i⟩ <;> rcases searchHi v span.hi with ⟨_ | _, j⟩ <;> rfl

theorem filter_inside {v : TokenVec n} (hv : SortedStore v) (span : Span) :
    v.filter (fun c => decide (c.token.span.Inside span)) =
      (v.drop (searchLo v span.lo).2).take (hiIdx v span.hi - (searchLo v span.lo).2) := by
  apply filter_range
  intro i hi
  have h1 := loIdx_spec hv span.lo i hi
  have h2 := hiIdx_spec hv span.hi i hi
  rw [← h1, ← h2, loAt_eq v hi, hiAt_eq v hi]
  exact decide_eq_true_iff

/-- lower bound computed by `overlap_bounds` -/
def ovLo (v : TokenVec n) (x : Nat) : Nat :=
  match searchLo v x with
  | (true, i) => i
  | (false, i) => if i > 0 ∧ hiAt v (i - 1) > x then i - 1 else i

/-- upper bound computed by `overlap_bounds` -/
def ovHi (v : TokenVec n) (x : Nat) : Nat :=
  match searchHi v x with
  | (true, i) => i + 1
  | (false, i) => if i < v.length ∧ loAt v i < x then i + 1 else i

theorem overlapBounds_eq (v : TokenVec n) (span : Span) :
    overlapBounds v span =
      if ovLo v span.lo < ovHi v span.hi then some (ovLo v span.lo, ovHi v span.hi) else none := rfl

theorem ovLo_spec {v : TokenVec n} (hv : SortedStore v) (x j : Nat) (hj : j < v.length) :
    x < hiAt v j ↔ ovLo v x ≤ j := by
  obtain ⟨h1, h2, h3, h4⟩ := searchLo_spec hv x
  have hp := sorted_pos hv hj
  unfold ovLo
  generalize searchLo v x = r at *
  obtain ⟨b, i⟩ := r
  cases b with
  | true =>
    simp only at *
    obtain ⟨h5, h6, h7⟩ := h3 trivial
    constructor
    · intro h
      by_cases hlt : j < i
      · have := sorted_lt hv hlt h5; omega
      · omega
    · intro h
      by_cases he : j = i
      · subst he; omega
      · have := h7 j (by omega) hj; omega
  | false =>
    simp only at *
    have h5 := h4 trivial
    split
    · rename_i hc
      constructor
      · intro h
        by_cases hlt : j < i - 1
        · have h6 := sorted_lt hv hlt (by omega)
          have h7 := h2 (i - 1) (by omega)
          omega
        · omega
      · intro h
        by_cases he : j = i - 1
        · subst he; omega
        · have := h5 j (by omega) hj; omega
    · rename_i hc
      constructor
      · intro h
        by_cases hlt : j < i
        · by_cases he : j = i - 1
          · exfalso; apply hc; subst he; exact ⟨by omega, h⟩
          · have h6 := sorted_lt hv (i := j) (j := i - 1) (by omega) (by omega)
            have h7 := h2 (i - 1) (by omega)
            omega
        · omega
      · intro h; have := h5 j h hj; omega

theorem ovHi_spec {v : TokenVec n} (hv : SortedStore v) (x j : Nat) (hj : j < v.length) :
    loAt v j < x ↔ j < ovHi v x := by
  obtain ⟨h1, h2, h3, h4⟩ := searchHi_spec hv x
  have hp := sorted_pos hv hj
  unfold ovHi
  generalize searchHi v x = r at *
  obtain ⟨b, i⟩ := r
  cases b with
  | true =>
    simp only at *
    obtain ⟨h5, h6, h7⟩ := h3 trivial
    constructor
    · intro h
      by_cases hlt : i < j
      · have := sorted_lt hv hlt hj; omega
      · omega
    · intro h
      by_cases he : j = i
      · subst he; omega
      · have := h2 j (by omega); omega
  | false =>
    simp only at *
    have h5 := h4 trivial
    split
    · rename_i hc
      constructor
      · intro h
        by_cases hlt : i < j
        · have h6 := sorted_lt hv hlt hj
          have h7 := h5 i (by omega) hc.1
          omega
        · omega
      · intro h
        by_cases he : j = i
        · subst he; omega
        · have := h2 j (by omega); omega
    · rename_i hc
      constructor
      · intro h
        by_cases hlt : j < i
        · exact hlt
        · exfalso
          by_cases he : j = i
          · subst he; exact hc ⟨hj, h⟩
          · have h6 := sorted_lt hv (i := i) (j := j) (by omega) hj
            have h7 := h5 i (by omega) (by omega)
            omega
      · intro h; have := h2 j h; omega

theorem ovHi_le {v : TokenVec n} (hv : SortedStore v) (x : Nat) : ovHi v x ≤ v.length := by
  obtain ⟨h1, h2, h3, h4⟩ := searchHi_spec hv x
  unfold ovHi
  generalize searchHi v x = r at *
  obtain ⟨b, i⟩ := r
  cases b with
  | true => have := (h3 rfl).1; simp only at *; omega
  | false => simp only at *; split <;> omega

theorem filter_overlap {v : TokenVec n} (hv : SortedStore v) (span : Span) :
    v.filter (fun c => decide (c.token.span.lo < span.hi ∧ span.lo < c.token.span.hi)) =
      (v.drop (ovLo v span.lo)).take (ovHi v span.hi - ovLo v span.lo) := by
  apply filter_range
  intro i hi
  have h1 := ovLo_spec hv span.lo i hi
  have h2 := ovHi_spec hv span.hi i hi
  rw [← h1, ← h2, loAt_eq v hi, hiAt_eq v hi]
  simp only [decide_eq_true_eq]
  exact And.comm

theorem slice?_eq (v : TokenVec n) {lo hi : Nat} (h1 : lo ≤ hi) (h2 : hi ≤ v.length) :
    slice? v lo hi = some ((v.drop lo).take (hi - lo)) := by
  simp [slice?, h1, h2]

/-- `scanDown` finds the beginning of the maximal run of matching tokens before index `hi`. -/
theorem scanDown_spec (v : TokenVec n) (p : Cell n → Bool) : ∀ hi, hi ≤ v.length →
    ∃ r, scanDown v p hi = r ∧ r ≤ hi ∧
    (∀ j (hj : j < v.length), r ≤ j → j < hi → p v[j] = true) ∧
    (∀ h : r - 1 < v.length, 0 < r → p v[r - 1] = false) := by
  intro hi
  induction hi with
  | zero => intro _; exact ⟨0, by simp [scanDown]⟩
  | succ hi ih =>
    intro hle
    have hlt : hi < v.length := by omega
    obtain ⟨r, h0, h1, h2, h3⟩ := ih (by omega)
    cases hp : p v[hi] with
    | true =>
      refine ⟨r, by simp [scanDown, hlt, hp, h0], by omega, ?_, h3⟩
      intro j hj h4 h5
      by_cases he : j = hi
      · subst he; exact hp
      · exact h2 j hj h4 (by omega)
    | false =>
      refine ⟨hi + 1, by simp [scanDown, hlt, hp], by omega, fun j hj h4 h5 => by omega, ?_⟩
      intro _ _; simpa using hp

theorem scanUp_spec (v : TokenVec n) (p : Cell n → Bool) : ∀ fuel hi, hi ≤ v.length →
    v.length ≤ hi + fuel →
    ∃ r, scanUp v p fuel hi = r ∧ hi ≤ r ∧ r ≤ v.length ∧
    (∀ j (hj : j < v.length), hi ≤ j → j < r → p v[j] = true) ∧
    (∀ h : r < v.length, p v[r] = false) := by
  intro fuel
  induction fuel with
  | zero =>
    intro hi h1 h2
    exact ⟨hi, by simp [scanUp], by omega, h1, fun j hj h3 h4 => by omega, fun h => by omega⟩
  | succ fuel ih =>
    intro hi h1 h2
    by_cases hlt : hi < v.length
    · cases hp : p v[hi] with
      | true =>
        obtain ⟨r, a0, a1, a2, a3, a4⟩ := ih (hi + 1) (by omega) (by omega)
        refine ⟨r, by simp [scanUp, hlt, hp, a0], by omega, a2, ?_, a4⟩
        intro j hj h3 h4
        by_cases he : j = hi
        · subst he; exact hp
        · exact a3 j hj (by omega) h4
      | false =>
        exact ⟨hi, by simp [scanUp, hlt, hp], by omega, by omega, fun j hj h3 h4 => by omega, fun _ => hp⟩
    · exact ⟨hi, by simp [scanUp, hlt], by omega, h1, fun j hj h3 h4 => by omega, fun h => by omega⟩

end TokenVec
end Teleparse
