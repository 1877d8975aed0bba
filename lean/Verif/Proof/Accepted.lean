import Verif.Proof.LL1
/-
The grammars that are accepted: what `clear` leaves in the set is compared with all later parts.
-/
namespace Teleparse
variable {I : Type} {n : Nat} [DecidableEq I] {G : Grammar I n} {root : I}

theorem seqConflict_keeps (first : Tbl I n) (t : I) (ty : Fin n) (l : List I) : ∀ (cur : I) (check : TSet n),
    seqConflict first t cur check l = none → (∀ x, TSet.Mem ⟨ty, x⟩ check) →
    ∀ b ∈ l, ∀ x, ¬ first.den b (some ⟨ty, x⟩) := by
  induction l with
  | nil => intro _ _ _ _ b hb; cases hb
  | cons c l ih =>
    intro cur check h hall b hb x hx
    simp only [seqConflict] at h
    split at h
    · cases h
    · rename_i hi
      rcases List.mem_cons.1 hb with rfl | hb
      · exact hi ((TSet.intersects_iff _ _ _).2 (.inl ⟨_, hall x, hx⟩))
      · split at h
        · exact ih _ _ h (fun x => (TSet.mem_union _ _ _ _).2 (.inl (hall x))) b hb x hx
        · exact ih _ _ h (fun x => (TSet.mem_clear _ _).2 hall) b hb x hx

theorem seqConflict_bare (first : Tbl I n) (t : I) (ty : Fin n) (pre : List I) : ∀ (cur : I) (check : TSet n)
    (a : I) (rest : List I), seqConflict first t cur check (pre ++ a :: rest) = none →
    first.den a none → (∀ x, first.den a (some ⟨ty, x⟩)) →
    ∀ b ∈ rest, ∀ x, ¬ first.den b (some ⟨ty, x⟩) := by
  induction pre with
  | nil =>
    intro cur check a rest h ha hall
    simp only [List.nil_append, seqConflict] at h
    split at h
    · cases h
    · have ha' : (first.get a).containsE = true := ha
      rw [if_pos ha'] at h
      exact seqConflict_keeps first t ty rest _ _ h fun x => (TSet.mem_union _ _ _ _).2 (.inr (hall x))
  | cons c pre ih =>
    intro cur check a rest h ha hall
    simp only [List.cons_append, seqConflict] at h
    split at h
    · cases h
    · split at h <;> exact ih _ _ a rest h ha hall

theorem nodeConflict_bare {first follow : Tbl I n} {t a : I} {pre rest : List I} {ty : Fin n}
    (hg : aget? G t = some (.seq (pre ++ a :: rest))) (h : nodeConflict G first follow t = none)
    (ha : first.den a none) (hall : ∀ x, first.den a (some ⟨ty, x⟩)) :
    ∀ b ∈ rest, ∀ x, ¬ first.den b (some ⟨ty, x⟩) := by
  cases pre with
  | nil =>
    simp only [nodeConflict, hg, List.nil_append] at h
    split at h
    · cases h
    · rename_i hs
      have ha' : (first.get a).containsE = true := ha
      rw [if_pos ha'] at hs
      exact seqConflict_keeps first t ty rest _ _ hs hall
  | cons c pre =>
    simp only [nodeConflict, hg, List.cons_append] at h
    split at h
    · cases h
    · rename_i hs
      exact seqConflict_bare first t ty pre _ _ a rest hs ha hall

theorem accepted_noBareRepeat {fuel : Nat} {m : Metadata I n} (hfun : G.Functional)
    (h : build fuel G root = some (.ok m)) : NoBareRepeat G root := by
  intro t pre a mid b post ty hr hm ha hall x hx
  obtain ⟨r, hc⟩ := (build_ok h).2.2.1
  have hnode := checkConflicts_ok hc t ((reach_iff hfun _ _).2 hr)
  exact nodeConflict_bare (aget?_of_mem hfun hm) hnode ((build_first_den h _ _).2 (nullable_iff.1 ha))
    (fun x => (build_first_den h _ _).2 (firstOf_iff.1 (hall x))) b (by simp) x
    ((build_first_den h _ _).2 (firstOf_iff.1 hx))

theorem accepted_tested {fuel : Nat} {m : Metadata I n} (hfun : G.Functional)
    (h : build fuel G root = some (.ok m)) : Tested G root where
  variants _ _ hr hm _ _ _ _ hpq hp hq := accepted_alt hfun h hr hm hpq hp hq
  parts _ _ _ _ _ _ hr hm ha hmid tok h1 := accepted_seq hfun h hr hm ha hmid tok h1
  ends _ hr hn tok h1 h2 := firstI_disjoint_followC hfun h hr (nullable_iff.1 hn) tok
    ⟨firstOf_iff.1 h1, (nextTo_iff _ _ _ _).1 h2⟩

theorem Tested.ll1 (hT : Tested G root) (hsk : SkipSafe G) : LL1 G root := by
  intro t l hr hm
  refine ⟨hT.variants t l hr hm, ?_⟩
  intro p q a b hpq hp hq ha tok hb hf
  rcases hf.computed with hf | ⟨e, tok', ho, h1, h2⟩
  · exact hT.ends t hr (nullable_iff.2 (.alt hm (List.mem_iff_getElem?.2 ⟨p, hp⟩) (nullable_iff.1 ha))) tok
      (firstOf_iff.2 (.alt hm (List.mem_iff_getElem?.2 ⟨q, hq⟩) (firstOf_iff.1 hb))) ((nextTo_iff _ _ _ _).2 hf)
  · cases ho
    exact hsk e t l p q a b tok h2 hm hpq hp hq ha hb h1

end Teleparse
