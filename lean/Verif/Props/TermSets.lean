import Verif.Proof.Sets
/-
Properties C18 (algebra of literal and terminal sets) and C19 (clear).

The laws are stated through the observable operation `contains`.
-/
namespace Teleparse
variable {n : Nat}

/-! ## C18 -/

theorem C18_lit_empty (x : Str) : LitSet.empty.contains x = false := by
  simp [LitSet.empty, LitSet.contains]

theorem C18_lit_insert (s : LitSet) (l x : Str) :
    ((s.insert l).1.contains x = true ↔ s.contains x = true ∨ x = l) ∧
    ((s.insert l).2 = true ↔ s.contains l = false) :=
  ⟨LitSet.contains_insert s l x, LitSet.insert_changed s l⟩

theorem C18_lit_union (s o : LitSet) :
    (∀ x, (s.union o).1.contains x = true ↔ s.contains x = true ∨ o.contains x = true) ∧
    ((s.union o).2 = true ↔ ∃ x, (s.union o).1.contains x ≠ s.contains x) := by
  refine ⟨LitSet.contains_union s o, ?_⟩
  rw [LitSet.union_changed]
  constructor
  · rintro ⟨x, h1, h2⟩
    exact ⟨x, by rw [(LitSet.contains_union s o x).2 (.inr h1), h2]; simp⟩
  · rintro ⟨x, h⟩
    have hu := LitSet.contains_union s o x
    refine ⟨x, ?_, ?_⟩
    · cases h1 : s.contains x <;> simp_all
    · cases h1 : s.contains x <;> simp_all

theorem C18_lit_intersects (s o : LitSet) :
    s.intersects o = true ↔ ∃ x, s.contains x = true ∧ o.contains x = true :=
  LitSet.intersects_iff s o

theorem C18_lit_intersection (s o : LitSet) (x : Str) :
    (s.intersection o).contains x = true ↔ s.contains x = true ∧ o.contains x = true :=
  LitSet.contains_intersection s o x

theorem C18_lit_isEmpty (s : LitSet) : s.isEmpty = true ↔ ∀ x, s.contains x = false :=
  LitSet.isEmpty_iff s

theorem C18_empty (tok : Option (TokenSrc n)) : (TSet.empty : TSet n).contains tok = false := by
  cases tok with
  | none => rfl
  | some t => simpa [TSet.Mem] using TSet.mem_empty t

/-- Inserting the terminal `(ty, lit)` adds exactly the tokens it stands for, and the flag tells
whether something was added. -/
theorem C18_insert (s : TSet n) (ty : Fin n) (lit : Option Str) :
    (∀ tok, (s.insert ty lit).1.contains (some tok) = true ↔
      s.contains (some tok) = true ∨ (Terminal.mk ty lit).Matches tok) ∧
    (s.insert ty lit).1.contains none = s.contains none ∧
    ((s.insert ty lit).2 = true ↔
      ∃ tok, (s.insert ty lit).1.contains tok ≠ s.contains tok) := by
  refine ⟨TSet.mem_insert s ty lit, TSet.insert_e s ty lit, ?_⟩
  rw [TSet.insert_changed]
  constructor
  · rintro ⟨tok, h1, h2⟩
    refine ⟨some tok, ?_⟩
    rw [(TSet.mem_insert s ty lit tok).2 (.inr h1)]
    intro h; exact h2 h.symm
  · rintro ⟨tok, h⟩
    cases tok with
    | none => exact absurd (TSet.insert_e s ty lit) h
    | some tok =>
      have hm := TSet.mem_insert s ty lit tok
      unfold TSet.Mem at hm
      refine ⟨tok, ?_, ?_⟩
      · cases h1 : s.contains (some tok) <;> simp_all
      · unfold TSet.Mem; cases h1 : s.contains (some tok) <;> simp_all

/-- Union (with or without epsilon): exactly the members of both, and the change flag is exact. -/
theorem C18_union (s o : TSet n) (incl : Bool) :
    (∀ tok, (s.union o incl).1.contains (some tok) = true ↔
      s.contains (some tok) = true ∨ o.contains (some tok) = true) ∧
    ((s.union o incl).1.contains none = true ↔
      s.contains none = true ∨ (incl = true ∧ o.contains none = true)) ∧
    ((s.union o incl).2 = true ↔ ∃ tok, (s.union o incl).1.contains tok ≠ s.contains tok) := by
  have he : (s.union o incl).1.contains none = (s.e || (incl && o.e)) := TSet.union_e s o incl
  refine ⟨TSet.mem_union s o incl, by rw [he]; simp [TSet.contains], ?_⟩
  rw [TSet.union_changed]
  constructor
  · rintro (⟨tok, h1, h2⟩ | ⟨h1, h2, h3⟩)
    · refine ⟨some tok, ?_⟩
      rw [(TSet.mem_union s o incl tok).2 (.inr h1)]
      intro h; exact h2 h.symm
    · refine ⟨none, ?_⟩
      rw [he, TSet.contains_none]; simp [h1, h2, h3]
  · rintro ⟨tok, h⟩
    cases tok with
    | none =>
      right
      rw [he, TSet.contains_none] at h
      cases h1 : s.e <;> cases h2 : o.e <;> cases h3 : incl <;> simp_all
    | some tok =>
      left
      have hm := TSet.mem_union s o incl tok
      unfold TSet.Mem at hm
      refine ⟨tok, ?_, ?_⟩
      · unfold TSet.Mem; cases h1 : s.contains (some tok) <;> simp_all
      · unfold TSet.Mem; cases h1 : s.contains (some tok) <;> simp_all

/-- If the flag says "unchanged", the set is literally the same. -/
theorem C18_union_unchanged (s o : TSet n) (incl : Bool) (h : (s.union o incl).2 = false) :
    (s.union o incl).1 = s := TSet.union_unchanged_eq s o incl h

/-- `intersects` iff there is a common member. -/
theorem C18_intersects (s o : TSet n) (incl : Bool) :
    s.intersects o incl = true ↔ ∃ tok, s.contains tok = true ∧ o.contains tok = true ∧
      (tok = none → incl = true) := by
  rw [TSet.intersects_iff]
  constructor
  · rintro (⟨tok, h1, h2⟩ | ⟨h1, h2, h3⟩)
    · exact ⟨some tok, h1, h2, by simp⟩
    · exact ⟨none, h2, h3, fun _ => h1⟩
  · rintro ⟨tok, h1, h2, h3⟩
    cases tok with
    | none => right; exact ⟨h3 rfl, h1, h2⟩
    | some tok => left; exact ⟨tok, h1, h2⟩

/-- Epsilon (end of input in FOLLOW sets). -/
theorem C18_insert_e (s : TSet n) (tok : Option (TokenSrc n)) :
    (s.insertE.1.contains tok = true ↔ s.contains tok = true ∨ tok = none) ∧
    (s.insertE.2 = true ↔ s.contains none = false) := by
  cases tok <;> simp [TSet.insertE, TSet.contains]

theorem C18_remove_e (s : TSet n) (tok : Option (TokenSrc n)) :
    (s.removeE.1.contains tok = true ↔ s.contains tok = true ∧ tok ≠ none) ∧
    (s.removeE.2 = true ↔ s.contains none = true) := by
  cases tok <;> simp [TSet.removeE, TSet.contains]

example : (((TSet.empty : TSet 2).insert 0 (some [43])).1.union (TSet.one 0 none) false).2 = true ∧
    ((TSet.one 0 none : TSet 2).union (TSet.one 0 (some [43])) false).2 = false := by decide

/-! ## C19 -/

/-- C19 is false as stated: clearing a set with a literal-less terminal leaves that terminal in the
set. -/
theorem C19_false : ∃ (s : TSet 1) (tok : TokenSrc 1), s.clear.contains (some tok) = true :=
  ⟨TSet.one 0 none, ⟨0, [97]⟩, by decide⟩

theorem C19_lit_false : ∃ (s : LitSet) (x : Str), s.clear.contains x = true :=
  ⟨.any, [], by decide⟩

/-- What `clear` really does: a token stays iff all texts of its type were in the set. -/
theorem C19_clear_exact (s : TSet n) (tok : TokenSrc n) :
    s.clear.contains (some tok) = true ↔ ∀ x, s.contains (some ⟨tok.ty, x⟩) = true := by
  simp only [TSet.contains, TSet.clear, Map.get_map]
  cases s.map.get tok.ty with
  | any => simp [LitSet.clear, LitSet.contains]
  | mat a =>
    obtain ⟨x, hx⟩ := LitSet.exists_not_mem a
    simp only [LitSet.clear, LitSet.contains]
    constructor
    · intro h; simp at h
    · intro h; exact absurd (h x) (by simpa using hx)

/-- C19 for sets in which no type is present with all its texts (no literal-less terminal). Missing:
sets with a literal-less terminal. -/
theorem C19_clear_partial (s : TSet n)
    (h : ∀ ty, ∃ x, s.contains (some ⟨ty, x⟩) = false) (tok : Option (TokenSrc n)) :
    s.clear.contains tok = false := by
  cases tok with
  | none => rfl
  | some tok =>
    have := C19_clear_exact s tok
    obtain ⟨x, hx⟩ := h tok.ty
    cases hc : s.clear.contains (some tok) with
    | false => rfl
    | true => have := (this.1 hc) x; rw [hx] at this; cases this

example : (TSet.one 1 (some [43]) : TSet 2).clear.contains (some ⟨1, [43]⟩) = false := by decide

end Teleparse
