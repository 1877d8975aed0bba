import Verif.Proof.Message
import Verif.Proof.Metadata
/-
The productions and terminals named in conflict errors.
-/
set_option linter.unusedSectionVars false
namespace Teleparse
variable {I : Type} {n : Nat} [DecidableEq I]

theorem altTerms_lists (name : Fin n → Str) (first : Tbl I n) (t a b : I) (all l : List I) : ∀ check : TSet n,
    altConflict first t all l check = some (.firstFirst t a b) →
    Lists (fun x => first.den a x ∧ first.den b x) name (altTerms name first all l check) := by
  induction l with
  | nil => intro check h; simp [altConflict] at h
  | cons c l ih =>
    intro check h
    simp only [altConflict] at h
    simp only [altTerms]
    split at h
    · rename_i hi
      rw [if_pos hi]
      split at h
      · rename_i before hb
        rw [hb]
        simp only [Option.some.injEq, GErr.firstFirst.injEq, true_and] at h
        obtain ⟨rfl, rfl⟩ := h
        refine (TSet.intersectionRepr_lists name _ _ true).congr fun x => ?_
        simp [Tbl.den, and_comm]
      · rename_i hb
        rw [hb]
        exact ih _ h
    · rename_i hi
      rw [if_neg hi]
      exact ih _ h

/-- The tokens of an earlier part that the check set of a sequence remembers. -/
def Remembered (first : Tbl I n) (pre : List I) (tok : TokenSrc n) : Prop :=
  ∃ pre1 a mid, pre = pre1 ++ a :: mid ∧ first.den a none ∧ first.den a (some tok) ∧
    ((∀ k ∈ mid, first.den k none) ∨ ∀ x, first.den a (some ⟨tok.ty, x⟩))

theorem Remembered.full {first : Tbl I n} {pre : List I} {a : I} {ty : Fin n} (ha : a ∈ pre)
    (hn : first.den a none) (hf : ∀ x, first.den a (some ⟨ty, x⟩)) (x : Str) :
    Remembered first pre ⟨ty, x⟩ := by
  obtain ⟨p, m, rfl⟩ := List.append_of_mem ha
  exact ⟨p, a, m, rfl, hn, hf x, .inr hf⟩

theorem Remembered.snoc_null {first : Tbl I n} {pre : List I} {c : I} (hc : first.den c none)
    (tok : TokenSrc n) :
    Remembered first (pre ++ [c]) tok ↔ Remembered first pre tok ∨ first.den c (some tok) := by
  constructor
  · rintro ⟨p, a, m, he, h1, h2, h3⟩
    rcases List.eq_nil_or_concat m with rfl | ⟨m', z, rfl⟩
    · obtain ⟨rfl, he⟩ := List.append_inj' he rfl
      simp at he
      subst he
      exact .inr h2
    · have he' : pre ++ [c] = (p ++ a :: m') ++ [z] := by rw [he]; simp
      obtain ⟨rfl, he'⟩ := List.append_inj' he' rfl
      refine .inl ⟨p, a, m', rfl, h1, h2, ?_⟩
      rcases h3 with h3 | h3
      · exact .inl fun k hk => h3 k (by simp [hk])
      · exact .inr h3
  · rintro (⟨p, a, m, rfl, h1, h2, h3⟩ | h)
    · refine ⟨p, a, m ++ [c], by simp, h1, h2, ?_⟩
      rcases h3 with h3 | h3
      · left
        intro k hk
        rcases List.mem_append.1 hk with hk | hk
        · exact h3 k hk
        · simp at hk; subst hk; exact hc
      · exact .inr h3
    · exact ⟨pre, c, [], rfl, hc, h, .inl (by simp)⟩

theorem Remembered.snoc_full {first : Tbl I n} {pre : List I} {c : I} (hc : ¬ first.den c none)
    {tok : TokenSrc n} (h : Remembered first (pre ++ [c]) tok) :
    ∃ a ∈ pre, first.den a none ∧ ∀ x, first.den a (some ⟨tok.ty, x⟩) := by
  obtain ⟨p, a, m, he, h1, h2, h3⟩ := h
  rcases List.eq_nil_or_concat m with rfl | ⟨m', z, rfl⟩
  · obtain ⟨rfl, he⟩ := List.append_inj' he rfl
    simp at he
    subst he
    exact absurd h1 hc
  · have he' : pre ++ [c] = (p ++ a :: m') ++ [z] := by rw [he]; simp
    obtain ⟨rfl, he'⟩ := List.append_inj' he' rfl
    simp at he'
    subst he'
    rcases h3 with h3 | h3
    · exact absurd (h3 c (by simp)) hc
    · exact ⟨a, by simp, h1, h3⟩

/-- The part that is named first in a conflict of a sequence: the last one before that cannot be empty, or
the first one of the sequence. -/
def Blamed (first : Tbl I n) (pre : List I) (cur : I) : Prop :=
  ∃ pre1 mid, pre = pre1 ++ cur :: mid ∧ (∀ k ∈ mid, first.den k none) ∧
    (pre1 = [] ∨ ¬ first.den cur none)

theorem seqTerms_lists (name : Fin n → Str) (first : Tbl I n) (t : I) (l : List I) :
    ∀ (done : List I) (cur : I) (check : TSet n) (e : GErr I),
    (∀ tok, TSet.Mem tok check ↔ Remembered first done tok) →
    (∀ ty, (∀ x, TSet.Mem ⟨ty, x⟩ check) → ∃ a ∈ done, first.den a none ∧ ∀ x, first.den a (some ⟨ty, x⟩)) →
    Blamed first done cur →
    seqConflict first t cur check l = some e →
    ∃ pre b post cur', done ++ l = pre ++ b :: post ∧ e = .firstFollowSeq t cur' b ∧ Blamed first pre cur' ∧
      (∃ tok, first.den b (some tok) ∧ Remembered first pre tok) ∧
      Lists (fun x => first.den b x ∧ ∃ tok, x = some tok ∧ Remembered first pre tok) name
        (seqTerms name first check l) := by
  induction l with
  | nil => intro done cur check e _ _ _ h; simp [seqConflict] at h
  | cons c l ih =>
    intro done cur check e h1 h2 hbl h
    simp only [seqConflict] at h
    simp only [seqTerms]
    split at h
    · rename_i hi
      rw [if_pos hi]
      simp at h
      subst h
      refine ⟨done, c, l, cur, rfl, rfl, hbl, ?_, ?_⟩
      · rcases (TSet.intersects_iff _ _ _).1 hi with ⟨tok, h3, h4⟩ | ⟨h3, _⟩
        · exact ⟨tok, h4, (h1 tok).1 h3⟩
        · cases h3
      · refine (TSet.intersectionRepr_lists name _ _ false).congr fun x => ?_
        cases x with
        | none => simp
        | some tok =>
          have := h1 tok
          simp only [TSet.contains_some, Tbl.den, this]
          simp [and_comm]
    · rename_i hi
      rw [if_neg hi]
      split at h
      · rename_i hc
        rw [if_pos hc]
        have hc' : first.den c none := hc
        obtain ⟨pre, b, post, cur', he, r⟩ := ih (done ++ [c]) cur (check.union (first.get c) false).1 e
          (by intro tok; rw [TSet.mem_union, h1, Remembered.snoc_null hc']; rfl)
          (by
            intro ty hf
            rcases TSet.union_full _ _ _ _ hf with hf | hf
            · obtain ⟨a, ha, r⟩ := h2 ty hf; exact ⟨a, by simp [ha], r⟩
            · exact ⟨c, by simp, hc', hf⟩)
          (by
            obtain ⟨p, m, rfl, hm, hp⟩ := hbl
            refine ⟨p, m ++ [c], by simp, ?_, hp⟩
            intro k hk
            rcases List.mem_append.1 hk with hk | hk
            · exact hm k hk
            · simp at hk; subst hk; exact hc')
          h
        exact ⟨pre, b, post, cur', by rw [← he]; simp, r⟩
      · rename_i hc
        rw [if_neg hc]
        have hc' : ¬ first.den c none := hc
        obtain ⟨pre, b, post, cur', he, r⟩ := ih (done ++ [c]) c check.clear e
          (by
            intro tok
            rw [TSet.mem_clear]
            constructor
            · intro hf
              obtain ⟨a, ha, hn, hf⟩ := h2 _ hf
              exact Remembered.full (by simp [ha]) hn hf tok.src
            · intro hr
              obtain ⟨a, ha, hn, hf⟩ := hr.snoc_full hc'
              intro x
              exact (h1 _).2 (Remembered.full ha hn hf x))
          (by
            intro ty hf
            obtain ⟨a, ha, r⟩ := h2 ty ((TSet.mem_clear _ _).1 (hf []))
            exact ⟨a, by simp [ha], r⟩)
          ⟨done, [], by simp, by simp, .inr hc'⟩
          h
        exact ⟨pre, b, post, cur', by rw [← he]; simp, r⟩

theorem nodeConflict_firstFollowSeq (name : Fin n → Str) {G : Grammar I n} {first follow : Tbl I n} {t s a b : I}
    (h : nodeConflict G first follow t = some (.firstFollowSeq s a b)) :
    s = t ∧ ∃ l pre post, aget? G t = some (.seq l) ∧ l = pre ++ b :: post ∧ Blamed first pre a ∧
      (∃ tok, first.den b (some tok) ∧ Remembered first pre tok) ∧
      Lists (fun x => first.den b x ∧ ∃ tok, x = some tok ∧ Remembered first pre tok) name
        ((GErr.firstFollowSeq t a b).terms name G first follow) := by
  unfold nodeConflict at h
  split at h
  · cases h
  · cases h
  · cases h
  · rename_i l hg
    split at h
    · rename_i e he
      simp at h
      subst h
      have hs := altConflict_spec first t l l [] TSet.empty rfl (by
        intro x; cases x with
        | none => simp [TSet.contains]
        | some tok => simpa [TSet.Mem] using TSet.mem_empty tok)
      rw [he] at hs
      obtain ⟨_, _, _, _, _, _, _, _, _, h5⟩ := hs
      cases h5
    · cases selfConflict_kind _ _ _ _ h
  · cases h
  · rename_i c cs hg
    simp only at h
    split at h
    · rename_i e he
      simp at h
      subst h
      obtain ⟨pre, b', post, cur', h1, h2, h3, h4, h5⟩ := seqTerms_lists name first t cs [c] c _ _ (by
          intro tok
          by_cases hc : (first.get c).containsE = true
          · rw [if_pos hc]
            have := Remembered.snoc_null (pre := []) (c := c) (first := first) hc tok
            rw [List.nil_append] at this
            rw [this]
            constructor
            · exact .inr
            · rintro (⟨p, a, m, he, _⟩ | h)
              · simp at he
              · exact h
          · rw [if_neg hc]
            constructor
            · intro h; exact absurd h (TSet.mem_empty tok)
            · intro h
              obtain ⟨a, ha, _⟩ := Remembered.snoc_full (pre := []) (c := c) (first := first) hc h
              simp at ha)
        (by
          intro ty hf
          by_cases hc : (first.get c).containsE = true
          · rw [if_pos hc] at hf
            exact ⟨c, by simp, hc, hf⟩
          · rw [if_neg hc] at hf
            exact absurd (hf []) (TSet.mem_empty _))
        ⟨[], [], rfl, by simp, .inl rfl⟩ he
      simp only [GErr.firstFollowSeq.injEq] at h2
      obtain ⟨rfl, rfl, rfl⟩ := h2
      refine ⟨rfl, c :: cs, pre, post, hg, h1, h3, h4, ?_⟩
      simp only [GErr.terms, hg]
      exact h5
    · cases selfConflict_kind _ _ _ _ h

theorem nodeConflict_firstFirst_terms (name : Fin n → Str) {G : Grammar I n} {first follow : Tbl I n} {t s a b : I}
    (h : nodeConflict G first follow t = some (.firstFirst s a b)) :
    Lists (fun x => first.den a x ∧ first.den b x) name
        ((GErr.firstFirst s a b).terms name G first follow) := by
  obtain ⟨rfl, l, hg, _⟩ := nodeConflict_firstFirst h
  simp only [GErr.terms, hg]
  unfold nodeConflict at h
  rw [hg] at h
  simp only at h
  split at h
  · rename_i e he
    simp at h
    subst h
    exact altTerms_lists name first s a b l l _ he
  · cases selfConflict_kind _ _ _ _ h

theorem nodeConflict_firstFollow (name : Fin n → Str) {G : Grammar I n} {first follow : Tbl I n} {t s : I}
    (h : nodeConflict G first follow t = some (.firstFollow s)) :
    s = t ∧ first.den t none ∧ (∃ tok, first.den t (some tok) ∧ follow.den t (some tok)) ∧
      Lists (fun x => first.den t x ∧ follow.den t x ∧ x ≠ none) name
        ((GErr.firstFollow t).terms name G first follow) := by
  have hs : selfConflict first follow t = some (.firstFollow s) := by
    unfold nodeConflict at h
    split at h
    · cases h
    · cases h
    · cases h
    · rename_i l hg
      split at h
      · rename_i e he
        simp at h
        subst h
        have hs := altConflict_spec first t l l [] TSet.empty rfl (by
          intro x; cases x with
          | none => simp [TSet.contains]
          | some tok => simpa [TSet.Mem] using TSet.mem_empty tok)
        rw [he] at hs
        obtain ⟨_, _, _, _, _, _, _, _, _, h5⟩ := hs
        cases h5
      · exact h
    · cases h
    · simp only at h
      split at h
      · rename_i e he
        simp at h; subst h
        obtain ⟨a', b', hk⟩ := seqConflict_kind _ _ _ _ _ _ he
        cases hk
      · exact h
  have hk := selfConflict_kind _ _ _ _ hs
  simp at hk
  subst hk
  refine ⟨rfl, ?_, ?_, ?_⟩
  · simp only [selfConflict] at hs
    split at hs
    · cases hs
    · rename_i he
      have he' : (first.get s).containsE = true := by simpa using he
      exact he'
  · simp only [selfConflict] at hs
    split at hs
    · cases hs
    · split at hs
      · rename_i hi
        rcases (TSet.intersects_iff _ _ _).1 hi with ⟨tok, h1, h2⟩ | ⟨h1, _⟩
        · exact ⟨tok, h2, h1⟩
        · cases h1
      · cases hs
  · simp only [GErr.terms, selfTerms]
    refine (TSet.intersectionRepr_lists name _ _ false).congr fun x => ?_
    simp only [Tbl.den]
    constructor
    · rintro ⟨h1, h2, h3⟩; exact ⟨h2, h1, fun h => by simpa using h3 h⟩
    · rintro ⟨h1, h2, h3⟩; exact ⟨h2, h1, fun h => absurd h h3⟩

end Teleparse
