import Verif.Proof.Set
/-
Properties C15 (bit set), C16 (iteration), C17 (Span::get), C51 (enumeration of token types).
-/
namespace Teleparse

/-! ## C15 -/

/-- Sets that can be built with the API (`new`, `insert`, `remove`, `union`). -/
inductive LSet.Built {n : Nat} : LSet n → Prop
  | new : Built LSet.new
  | insert {s} (t) : Built s → Built (s.insert t)
  | remove {s} (t) : Built s → Built (s.remove t)
  | union {s o} : Built s → Built o → Built (s.union o)

theorem C15_new {n : Nat} (hn : n ≤ 32) (t : Fin n) : (LSet.new : LSet n).contains t = false := by
  rw [LSet.contains_iff hn]; simp [LSet.new]

theorem C15_insert {n : Nat} (hn : n ≤ 32) (s : LSet n) (a b : Fin n) :
    (s.insert a).contains b = true ↔ s.contains b = true ∨ a = b := by
  rw [LSet.contains_iff hn, LSet.contains_iff hn]
  unfold LSet.insert
  rw [BitVec.getLsbD_or, getLsbD_toBit hn]
  rw [eq_comm (a := a)]
  simp [Fin.ext_iff]

theorem C15_remove {n : Nat} (hn : n ≤ 32) (s : LSet n) (a b : Fin n) :
    (s.remove a).contains b = true ↔ s.contains b = true ∧ a ≠ b := by
  have hw := bitWidth_ge (n := n) (by omega)
  have := b.isLt
  rw [LSet.contains_iff hn, LSet.contains_iff hn]
  unfold LSet.remove
  rw [BitVec.getLsbD_and, BitVec.getLsbD_not, getLsbD_toBit hn]
  have hb : b.val < bitWidth n := by omega
  rw [ne_comm]
  simp [Fin.ext_iff, hb]

theorem C15_union {n : Nat} (hn : n ≤ 32) (s o : LSet n) (b : Fin n) :
    (s.union o).contains b = true ↔ s.contains b = true ∨ o.contains b = true := by
  rw [LSet.contains_iff hn, LSet.contains_iff hn, LSet.contains_iff hn]
  unfold LSet.union
  rw [BitVec.getLsbD_or]; simp

/-- Sets built with the API have no bits outside the ids of the lexicon. -/
theorem LSet.Built.high {n : Nat} (hn : n ≤ 32) {s : LSet n} (h : s.Built) :
    ∀ i, n ≤ i → s.bits.getLsbD i = false := by
  induction h with
  | new => intro i _; simp [LSet.new]
  | @insert s t _ ih =>
    intro i hi
    unfold LSet.insert
    rw [BitVec.getLsbD_or, getLsbD_toBit hn, ih i hi]
    have := t.isLt
    simp; omega
  | @remove s t _ ih =>
    intro i hi
    unfold LSet.remove
    rw [BitVec.getLsbD_and, ih i hi]; simp
  | union _ _ ih1 ih2 =>
    intro i hi
    unfold LSet.union
    rw [BitVec.getLsbD_or, ih1 i hi, ih2 i hi]; rfl

/-- Two sets built with the API are equal iff they have the same members. -/
theorem C15_ext {n : Nat} (hn : n ≤ 32) {s o : LSet n} (hs : s.Built) (ho : o.Built) :
    s = o ↔ ∀ t, s.contains t = o.contains t := by
  constructor
  · rintro rfl t; rfl
  · intro h
    have : s.bits = o.bits := by
      apply BitVec.eq_of_getLsbD_eq
      intro i _
      by_cases hi : i < n
      · have := h ⟨i, hi⟩
        rwa [LSet.contains_iff hn, LSet.contains_iff hn] at this
      · rw [hs.high hn i (by omega), ho.high hn i (by omega)]
    cases s; cases o; simp_all

theorem C15_containsAll {n : Nat} (hn : n ≤ 32) {s o : LSet n} (hs : s.Built) (ho : o.Built) :
    s.containsAll o = true ↔ ∀ t, o.contains t = true → s.contains t = true := by
  unfold LSet.containsAll
  rw [beq_iff_eq]
  constructor
  · intro h t
    rw [LSet.contains_iff hn, LSet.contains_iff hn]
    intro h2
    rw [← h, BitVec.getLsbD_and] at h2
    simp at h2; exact h2.1
  · intro h
    apply BitVec.eq_of_getLsbD_eq
    intro i _
    rw [BitVec.getLsbD_and]
    by_cases hi : i < n
    · have := h ⟨i, hi⟩
      rw [LSet.contains_iff hn, LSet.contains_iff hn] at this
      cases h1 : o.bits.getLsbD i
      · simp
      · simp [this h1]
    · rw [hs.high hn i (by omega), ho.high hn i (by omega)]; rfl

theorem C15_isEmpty {n : Nat} (hn : n ≤ 32) {s : LSet n} (hs : s.Built) :
    s.isEmpty = true ↔ ∀ t, s.contains t = false := by
  have h := C15_ext hn hs (o := LSet.new) .new
  simp only [C15_new hn] at h
  rw [← h]
  cases s
  simp [LSet.isEmpty, LSet.new]

/-- With overflow checks enabled the generated `to_bit` does not panic and has the same value. -/
theorem C15_debug_release {n : Nat} (hn : n ≤ 32) (t : Fin n) : toBitDebug t = some (toBit t) := by
  have := t.isLt
  have h32 : t.val % 32 = t.val := Nat.mod_eq_of_lt (by omega)
  unfold toBitDebug toBit
  rw [h32, if_pos (by omega)]

/-- Beyond 32 variants the generated `to_bit` is wrong for *every* lexicon size: with overflow checks
it panics on the variant with id 32, without them that variant gets the bit of variant 0. Such
lexicons do not compile at present (`[T; N]: Default`, needed by the generated `Map` type, exists
for `N ≤ 32` only), although the macro announces a limit of 128 variants. -/
theorem C15_over32 {n : Nat} (hn : 32 < n) :
    toBitDebug (⟨32, hn⟩ : Fin n) = none ∧
    ((LSet.new : LSet n).insert ⟨32, hn⟩).contains ⟨0, by omega⟩ = true := by
  refine ⟨by simp [toBitDebug], ?_⟩
  have hw : 0 < bitWidth n := by unfold bitWidth; repeat' split
                                 all_goals omega
  have h0 : toBit (⟨32, hn⟩ : Fin n) = toBit (⟨0, by omega⟩ : Fin n) := by simp [toBit]
  have h1 : (toBit (⟨0, by omega⟩ : Fin n)).getLsbD 0 = true := by
    simp [toBit, BitVec.getLsbD_signExtend, hw]
  unfold LSet.contains LSet.insert LSet.new
  rw [h0]
  simp only [bne_iff_ne, ne_eq]
  intro hc
  have := congrArg (fun b => BitVec.getLsbD b 0) hc
  simp [h1] at this

example : (((LSet.new : LSet 9).insert 3).insert 8).contains 8 = true ∧
    ((((LSet.new : LSet 9).insert 3).insert 8).remove 3).contains 3 = false ∧
    (((LSet.new : LSet 9).insert 3).insert 8).containsAll ((LSet.new).insert 3) = true := by decide

/-! ## C16 -/

/-- Iterating yields exactly the members, in increasing order of declaration, each once. -/
theorem C16_iter {n : Nat} (hn : n ≤ 128) (s : LSet n) :
    SetIter.collect (n + 1) (SetIter.new s) = (List.finRange n).filter s.contains := by
  have hall : (List.finRange n) = tysFrom n 0 := by simp [tysFrom]
  unfold SetIter.collect SetIter.next SetIter.new
  simp only [if_true, tyFirst?, fromId?]
  by_cases h : 0 < n
  · rw [dif_pos h]
    simp only
    rcases skip_spec s n ⟨0, h⟩ (by simp) with ⟨t', h1, h2⟩ | ⟨h1, h2⟩
    · simp only [h1]
      rw [collect_spec (by omega) s n t'.val t'.isLt (by omega), hall, ← h2]
    · simp only [h1]
      rw [hall]; exact h2.symm
  · rw [dif_neg h]
    have : n = 0 := by omega
    subst this; simp

/-- The yielded list is strictly increasing (declaration order, no repetition) and has exactly the
members of the set. -/
theorem C16_iter_sorted {n : Nat} (hn : n ≤ 128) (s : LSet n) :
    (SetIter.collect (n + 1) (SetIter.new s)).Pairwise (· < ·) ∧
    ∀ t, t ∈ SetIter.collect (n + 1) (SetIter.new s) ↔ s.contains t = true := by
  rw [C16_iter hn]
  refine ⟨?_, by simp⟩
  apply List.Pairwise.filter
  rw [List.pairwise_iff_getElem]
  intro i j hi hj hij
  simp [hij]

/-- Once exhausted, the iterator keeps returning `None` (for a state reached from a started
iterator). -/
theorem C16_fused {n : Nat} (hn : n ≤ 128) (h0 : 0 < n) (it : SetIter n)
    (hc : it.cur < n ∨ it.cur = iterStart) (h : it.next.1 = none) :
    it.next.2.next.1 = none := by
  obtain ⟨s, c⟩ := it
  have key : SetIter.next ⟨s, c⟩ = (none, ⟨s, n - 1⟩) := by
    rcases hc with hc | hc
    · rcases next_spec (by omega) s c hc with ⟨t', h1, _⟩ | ⟨h1, _⟩
      · rw [h1] at h; simp at h
      · exact h1
    · simp only at hc
      subst hc
      unfold SetIter.next at h ⊢
      simp only [if_true, tyFirst?, fromId?, dif_pos h0] at h ⊢
      rcases skip_spec s n ⟨0, h0⟩ (by simp) with ⟨t', h1, _⟩ | ⟨h1, _⟩
      · rw [h1] at h; simp at h
      · rw [h1]
  rw [key]
  rcases next_spec (by omega) s (n - 1) (by omega) with ⟨t', _, h2⟩ | ⟨h1, _⟩
  · rw [tysFrom_ge (by omega)] at h2; simp at h2
  · rw [h1]

example : SetIter.collect 8 (SetIter.new (((LSet.new : LSet 7).insert 5).insert 2)) = [2, 5] := by
  decide

/-! ## C51 -/

/-- Start with `first` and call `next` until `None`. -/
def enumTys {n : Nat} : Nat → Option (Fin n) → List (Fin n)
  | 0, _ => []
  | _ + 1, none => []
  | fuel + 1, some t => t :: enumTys fuel (tyNext? t)

/-- `first` and repeated `next` visit all variants once in declaration order and then stop. -/
theorem C51_enumeration {n : Nat} (fuel : Nat) (hf : n ≤ fuel) :
    enumTys (fuel + 1) (tyFirst? n) = List.finRange n := by
  have key : ∀ (fuel c : Nat), n - c ≤ fuel → enumTys (fuel + 1) (tysFrom n c).head? = tysFrom n c := by
    intro fuel
    induction fuel with
    | zero => intro c hc; rw [tysFrom_ge (by omega)]; rfl
    | succ fuel ih =>
      intro c hc
      by_cases h : c < n
      · rw [tysFrom_lt h]
        simp only [List.head?_cons]
        show _ :: enumTys (fuel + 1) (tyNext? _) = _
        rw [tyNext?_eq, ih (c + 1) (by omega)]
      · rw [tysFrom_ge (by omega)]; rfl
  have h0 : tyFirst? n = (tysFrom n 0).head? := by
    unfold tyFirst? fromId?
    split
    · rw [tysFrom_lt (by assumption)]; rfl
    · rw [tysFrom_ge (by omega)]; rfl
  rw [h0, key fuel 0 (by omega)]
  simp [tysFrom]

theorem C51_id_fromId {n : Nat} (t : Fin n) : fromId? n (tyId t) = some t := by
  simp [fromId?, tyId]

theorem C51_fromId_id {n : Nat} (i : Nat) (t : Fin n) (h : fromId? n i = some t) : tyId t = i := by
  unfold fromId? at h
  split at h
  · cases h; rfl
  · cases h

example : enumTys 10 (tyFirst? 3) = [0, 1, 2] := by decide

/-! ## C17 -/

/-- What the text of a span is: the bytes at the positions `p` with `lo ≤ p < hi` that exist. -/
def SpanText (sp : Span) (input r : Str) : Prop :=
  r.length = min sp.hi input.length - sp.lo ∧
  ∀ k, k < r.length → r[k]? = input[sp.lo + k]?

theorem spanText_unique {sp : Span} {input r r' : Str} (h : SpanText sp input r)
    (h' : SpanText sp input r') : r = r' := by
  apply List.ext_getElem?
  intro k
  by_cases hk : k < r.length
  · rw [h.2 k hk, h'.2 k (by rw [h'.1, ← h.1]; exact hk)]
  · rw [List.getElem?_eq_none (by omega), List.getElem?_eq_none (by rw [h'.1, ← h.1]; omega)]

/-- C17 for spans that are empty, reversed, or start inside the text: no panic, and the result is
exactly the text of the span, clipped at the end of the input. Missing from the full property: spans
that start past the end of the input, see `C17_false`. -/
theorem C17_get_partial (sp : Span) (input : Str)
    (hlo : sp.lo < sp.hi → sp.lo ≤ input.length ∧ isBoundary input sp.lo = true)
    (hhi : sp.lo < sp.hi → isBoundary input (min sp.hi input.length) = true) :
    ∃ r, sp.get? input = some r ∧ SpanText sp input r := by
  unfold Span.get?
  by_cases h : sp.hi ≤ sp.lo
  · refine ⟨[], by simp [h], ?_, by simp⟩
    simp; omega
  · have h' : sp.lo < sp.hi := by omega
    obtain ⟨h1, h2⟩ := hlo h'
    refine ⟨(input.drop sp.lo).take (min sp.hi input.length - sp.lo), ?_, ?_, ?_⟩
    · rw [if_neg h]
      simp only [sliceStr?]
      rw [if_pos ⟨by omega, by omega, h2, hhi h'⟩]
    · simp; omega
    · intro k hk
      simp at hk
      rw [List.getElem?_take_of_lt (by omega), List.getElem?_drop]

/-- Exactly when `Span::get` panics. -/
theorem C17_panic_iff (sp : Span) (input : Str) :
    sp.get? input = none ↔ sp.lo < sp.hi ∧ (input.length < sp.lo ∨ isBoundary input sp.lo = false ∨
      isBoundary input (min sp.hi input.length) = false) := by
  unfold Span.get? sliceStr?
  by_cases h : sp.hi ≤ sp.lo
  · simp [h]; omega
  · rw [if_neg h]
    simp only [ite_eq_right_iff, reduceCtorEq, imp_false, not_and, Bool.not_eq_true]
    constructor
    · intro h1
      refine ⟨by omega, ?_⟩
      by_cases h2 : input.length < sp.lo
      · exact .inl h2
      · right
        by_cases h3 : isBoundary input sp.lo = true
        · right; exact h1 (by omega) (by omega) h3
        · left; simpa using h3
    · rintro ⟨h0, h1⟩ h2 _ h4
      rcases h1 with h1 | h1 | h1
      · omega
      · rw [h4] at h1; cases h1
      · exact h1

/-- C17 is false as stated: a span that lies entirely past the end of the input is not clipped but
panics. -/
theorem C17_false : (⟨5, 7⟩ : Span).get? [97, 98, 99] = none := by decide

example : (⟨1, 9⟩ : Span).get? [97, 98, 99] = some [98, 99] := by decide
example : (⟨0, 1⟩ : Span).get? [195, 169] = none := by decide

end Teleparse
