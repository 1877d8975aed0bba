import Verif.Proof.First
/-
The least solution of the FIRST relations is the textbook FIRST.
-/
set_option linter.unusedSectionVars false
namespace Teleparse
variable {I : Type} {n : Nat} [DecidableEq I]

theorem firstSequenceFrom_sat (P : Fam I n) (x : I) (l : List I) : ∀ (set : List I),
    (∀ r ∈ firstSequenceFrom x set l, r.Sat P) ↔
    ((∀ pre j post, l = pre ++ j :: post → (∀ i ∈ set, P i none) → (∀ i ∈ pre, P i none) →
        ∀ tok, P j (some tok) → P x (some tok)) ∧
     ((∀ i ∈ set, P i none) → (∀ i ∈ l, P i none) → P x none)) := by
  induction l with
  | nil =>
    intro set
    simp only [firstSequenceFrom, List.mem_singleton, forall_eq, FirstRel.sat_mkIf]
    constructor
    · intro h
      refine ⟨?_, ?_⟩
      · intro pre j post h; simp at h
      · intro h1 _; exact h h1 none trivial
    · rintro ⟨_, h⟩ h1 x' hx
      cases x' with
      | none => exact h h1 (by simp)
      | some tok => cases hx
  | cons y l ih =>
    intro set
    simp only [firstSequenceFrom, List.mem_cons, forall_eq_or_imp, FirstRel.sat_mkIf, ih,
      mem_bsetInsert]
    constructor
    · rintro ⟨h1, h2, h3⟩
      refine ⟨?_, ?_⟩
      · intro pre j post he hs hp tok ht
        cases pre with
        | nil =>
          simp at he
          obtain ⟨rfl, rfl⟩ := he
          exact h1 hs tok ht
        | cons a pre =>
          simp at he
          obtain ⟨rfl, rfl⟩ := he
          refine h2 pre j post rfl ?_ (fun i hi => hp i (by simp [hi])) tok ht
          rintro i (hi | rfl)
          · exact hs i hi
          · exact hp i (by simp)
      · intro hs hl
        refine h3 ?_ hl.2
        rintro i (hi | rfl)
        · exact hs i hi
        · exact hl.1
    · rintro ⟨h1, h2⟩
      refine ⟨?_, ?_, ?_⟩
      · intro hs tok ht
        exact h1 [] y l rfl hs (by simp) tok ht
      · intro pre j post he hs hp tok ht
        subst he
        refine h1 (y :: pre) j post rfl (fun i hi => hs i (.inl hi)) ?_ tok ht
        intro i hi
        rcases List.mem_cons.1 hi with rfl | hi
        · exact hs i (.inr rfl)
        · exact hp i hi
      · intro hs hl
        exact h2 (fun i hi => hs i (.inl hi)) ⟨hs y (.inr rfl), hl⟩

theorem firstUnion_sat (P : Fam I n) (x : I) (l : List I) :
    (∀ r ∈ firstUnion x l, r.Sat P) ↔ ∀ y ∈ l, ∀ o, P y o → P x o := by
  simp only [firstUnion, List.mem_flatMap, List.mem_cons, List.not_mem_nil, or_false]
  constructor
  · intro h y hy o ho
    cases o with
    | some tok => exact h _ ⟨y, hy, .inl rfl⟩ tok ho
    | none =>
      have := h _ ⟨y, hy, .inr rfl⟩
      rw [FirstRel.sat_mkIf] at this
      exact this (by simpa using ho) none trivial
  · rintro h r ⟨y, hy, rfl | rfl⟩
    · intro tok ht; exact h y hy _ ht
    · rw [FirstRel.sat_mkIf]
      intro hn o ho
      cases o with
      | none => exact h y hy _ (hn y (by simp))
      | some tok => cases ho

/-- The textbook FIRST as a family of sets. -/
def firstFam (G : Grammar I n) : Fam I n
  | i, none => Null G i
  | i, some tok => FirstI G i tok

theorem firstFam_sat (G : Grammar I n) : ∀ p ∈ G, ∀ r ∈ firstRels p.1 p.2, r.Sat (firstFam G) := by
  rintro ⟨x, rule⟩ hp
  cases rule with
  | eps =>
    intro r hr
    simp [firstRels] at hr
    subst hr
    intro o ho
    cases o with
    | none => exact Null.eps hp
    | some tok => cases ho
  | term t =>
    intro r hr
    simp [firstRels] at hr
    subst hr
    intro o ho
    cases o with
    | none => cases ho
    | some tok => exact FirstI.term hp ho
  | seq l =>
    simp only [firstRels]
    rw [firstSequenceFrom_sat]
    refine ⟨?_, ?_⟩
    · intro pre j post he _ hpre tok ht
      subst he
      exact FirstI.seq hp hpre ht
    · intro _ hl
      exact Null.seq hp hl
  | alt l =>
    simp only [firstRels]
    rw [firstUnion_sat]
    intro y hy o ho
    cases o with
    | none => exact Null.alt hp hy ho
    | some tok => exact FirstI.alt hp hy ho

theorem firstFam_le {G : Grammar I n} {P : Fam I n}
    (h : ∀ p ∈ G, ∀ r ∈ firstRels p.1 p.2, r.Sat P) : Fam.le (firstFam G) P := by
  have hn : ∀ i, Null G i → P i none := by
    intro i hi
    induction hi with
    | @eps i hp => exact h _ hp (.insert i .epsilon) (by simp [firstRels]) none trivial
    | seq hp _ ih =>
      have := h _ hp
      simp only [firstRels] at this
      rw [firstSequenceFrom_sat] at this
      exact this.2 (by simp) ih
    | alt hp hj _ ih =>
      have := h _ hp
      simp only [firstRels] at this
      rw [firstUnion_sat] at this
      exact this _ hj _ ih
  have hf : ∀ i tok, FirstI G i tok → P i (some tok) := by
    intro i tok hi
    induction hi with
    | @term i t tok hp hm =>
      exact h _ hp (.insert i (.token t.ty t.lit)) (by simp [firstRels]) (some tok) hm
    | seq hp hpre _ ih =>
      have := h _ hp
      simp only [firstRels] at this
      rw [firstSequenceFrom_sat] at this
      exact this.1 _ _ _ rfl (by simp) (fun k hk => hn k (hpre k hk)) _ ih
    | alt hp hj _ ih =>
      have := h _ hp
      simp only [firstRels] at this
      rw [firstUnion_sat] at this
      exact this _ hj _ ih
  intro i o ho
  cases o with
  | none => exact hn i ho
  | some tok => exact hf i tok ho

/-- The FIRST table has exactly the members of the textbook FIRST. -/
theorem buildFirst_den {fuel : Nat} {G : Grammar I n} {first : Tbl I n}
    (h : buildFirst fuel G = some first) (i : I) (x : Option (TokenSrc n)) :
    first.den i x ↔ firstFam G i x := by
  obtain ⟨_, h2, h3⟩ := firstLoop_least fuel _ _ _ h
  constructor
  · apply h3
    · intro i x hx; exact absurd hx (Tbl.den_empty i x)
    · intro r hr
      obtain ⟨p, hp, hr⟩ := List.mem_flatMap.1 hr
      exact firstFam_sat G p hp r hr
  · apply firstFam_le
    intro p hp r hr
    exact h2 r (List.mem_flatMap.2 ⟨p, hp, hr⟩)

end Teleparse
