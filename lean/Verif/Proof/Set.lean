import Verif.Model.Set
/-
Helper lemmas about the bit set.
-/
namespace Teleparse

theorem bitWidth_ge {n : Nat} (h : n ≤ 128) : n ≤ bitWidth n := by
  unfold bitWidth; repeat' split
  all_goals omega

theorem bitWidth_le32 {n : Nat} (h : n ≤ 32) : bitWidth n ≤ 32 := by
  unfold bitWidth; repeat' split
  all_goals omega

theorem getLsbD_toBit {n : Nat} (hn : n ≤ 32) (t : Fin n) (i : Nat) :
    (toBit t).getLsbD i = decide (i = t.val) := by
  have ht := t.isLt
  have hw := bitWidth_ge (n := n) (by omega)
  have hw' := bitWidth_le32 hn
  have h32 : t.val % 32 = t.val := Nat.mod_eq_of_lt (by omega)
  unfold toBit
  rw [h32, BitVec.getLsbD_signExtend]
  by_cases hi : i < bitWidth n
  · have : i < 32 := by omega
    simp only [hi, this, decide_true, Bool.true_and, if_true, BitVec.getLsbD_shiftLeft]
    by_cases he : i = t.val
    · subst he; simp
    · simp only [he, decide_false]
      by_cases hlt : i < t.val
      · simp [hlt]
      · have : i - t.val ≠ 0 := by omega
        simp [BitVec.getLsbD_one, this]
  · simp only [hi, decide_false, Bool.false_and]
    symm; simp; omega

theorem LSet.contains_iff {n : Nat} (hn : n ≤ 32) (s : LSet n) (t : Fin n) :
    s.contains t = s.bits.getLsbD t.val := by
  have hw := bitWidth_ge (n := n) (by omega)
  have ht := t.isLt
  unfold LSet.contains
  cases hb : s.bits.getLsbD t.val with
  | false =>
    have : s.bits &&& toBit t = 0 := by
      apply BitVec.eq_of_getLsbD_eq
      intro i hi
      rw [BitVec.getLsbD_and, getLsbD_toBit hn]
      by_cases he : i = t.val
      · subst he; simp [hb]
      · simp [he]
    simp [this]
  | true =>
    have : s.bits &&& toBit t ≠ 0 := by
      intro h0
      have := congrArg (fun b => BitVec.getLsbD b t.val) h0
      simp [BitVec.getLsbD_and, getLsbD_toBit hn, hb] at this
    simpa using this

end Teleparse

namespace Teleparse

/-- The token types with id at least `c`, in order. -/
def tysFrom (n c : Nat) : List (Fin n) := (List.finRange n).drop c

theorem tysFrom_ge {n c : Nat} (h : n ≤ c) : tysFrom n c = [] := by
  simp [tysFrom, h]

theorem tysFrom_lt {n c : Nat} (h : c < n) : tysFrom n c = ⟨c, h⟩ :: tysFrom n (c + 1) := by
  unfold tysFrom
  rw [List.drop_eq_getElem_cons (by simpa using h)]
  simp

theorem tyNext?_eq {n : Nat} (t : Fin n) :
    tyNext? t = (tysFrom n (t.val + 1)).head? := by
  have := t.isLt
  unfold tyNext? fromId?
  split
  · rw [tysFrom_ge (by omega)]; rfl
  · rw [dif_pos (by omega), tysFrom_lt (by omega)]; rfl

theorem skip_spec {n : Nat} (s : LSet n) : ∀ (fuel : Nat) (t : Fin n), n - 1 - t.val ≤ fuel →
    (∃ t', SetIter.skip s fuel t = (some t', t'.val) ∧
      (tysFrom n t.val).filter s.contains = t' :: (tysFrom n (t'.val + 1)).filter s.contains) ∨
    (SetIter.skip s fuel t = (none, n - 1) ∧ (tysFrom n t.val).filter s.contains = []) := by
  intro fuel
  induction fuel with
  | zero =>
    intro t ht
    have := t.isLt
    unfold SetIter.skip
    rw [tysFrom_lt t.isLt, List.filter_cons]
    cases hc : s.contains t with
    | true => left; exact ⟨t, by simp [tyId], by simp⟩
    | false =>
      right
      have : t.val = n - 1 := by omega
      rw [tysFrom_ge (c := t.val + 1) (by omega)]
      simp [tyId, this]
  | succ fuel ih =>
    intro t ht
    have htl := t.isLt
    unfold SetIter.skip
    rw [tysFrom_lt t.isLt, List.filter_cons]
    cases hc : s.contains t with
    | true => left; exact ⟨t, by simp [tyId], by simp⟩
    | false =>
      simp only [Bool.false_eq_true, if_false]
      rw [tyNext?_eq]
      by_cases hl : t.val + 1 < n
      · rw [tysFrom_lt hl]
        simp only [List.head?_cons]
        have := ih ⟨t.val + 1, hl⟩ (by simp; omega)
        rw [tysFrom_lt hl] at this
        simpa using this
      · rw [tysFrom_ge (by omega)]
        right
        simp [tyId]; omega

theorem next_spec {n : Nat} (hn : n ≤ 129) (s : LSet n) (c : Nat) (hc : c < n) :
    (∃ t', SetIter.next ⟨s, c⟩ = (some t', ⟨s, t'.val⟩) ∧
      (tysFrom n (c + 1)).filter s.contains = t' :: (tysFrom n (t'.val + 1)).filter s.contains) ∨
    (SetIter.next ⟨s, c⟩ = (none, ⟨s, n - 1⟩) ∧ (tysFrom n (c + 1)).filter s.contains = []) := by
  unfold SetIter.next
  have hne : c ≠ iterStart := by unfold iterStart; omega
  have hf : fromId? n c = some ⟨c, hc⟩ := by simp [fromId?, hc]
  simp only [hne, if_false, hf, Option.bind_some, tyNext?_eq]
  by_cases hl : c + 1 < n
  · rw [tysFrom_lt hl]
    simp only [List.head?_cons]
    have := skip_spec s n ⟨c + 1, hl⟩ (by simp; omega)
    rw [tysFrom_lt hl] at this
    rcases this with ⟨t', h1, h2⟩ | ⟨h1, h2⟩
    · left; exact ⟨t', by simp only [h1], h2⟩
    · right; exact ⟨by simp only [h1], h2⟩
  · rw [tysFrom_ge (by omega)]
    right
    have : c = n - 1 := by omega
    simp [this]

theorem collect_spec {n : Nat} (hn : n ≤ 129) (s : LSet n) : ∀ (fuel c : Nat), c < n → n - c ≤ fuel →
    SetIter.collect fuel ⟨s, c⟩ = (tysFrom n (c + 1)).filter s.contains := by
  intro fuel
  induction fuel with
  | zero => intro c hc hf; omega
  | succ fuel ih =>
    intro c hc hf
    unfold SetIter.collect
    rcases next_spec hn s c hc with ⟨t', h1, h2⟩ | ⟨h1, h2⟩
    · rw [h1, h2]
      have hgt : c + 1 ≤ t'.val := by
        have : t' ∈ (tysFrom n (c + 1)).filter s.contains := by rw [h2]; simp
        have := (List.mem_filter.1 this).1
        unfold tysFrom at this
        obtain ⟨i, hi, he⟩ := List.mem_drop_iff_getElem.1 this
        simp at he
        subst he; simp
      simp only
      rw [ih t'.val t'.isLt (by omega)]
    · rw [h1, h2]

end Teleparse
