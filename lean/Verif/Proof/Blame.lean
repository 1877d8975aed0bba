import Verif.Proof.RepairLeft
import Verif.Proof.Terms
import Verif.Props.RepairLeft
import Verif.Model.RepairBlame
import Verif.Spec.Blame
/-
The repaired checks of a grammar name the productions that conflict.
-/
namespace Teleparse
variable {I : Type} {n : Nat} [DecidableEq I]

theorem blameSeq_some (first : Tbl I n) (t : I) (l : List I) : ∀ (base pending : List I) e,
    (∀ k ∈ pending, first.den k none) → blameSeq first t pending l = some e →
    ∃ pre a mid b post tok, base ++ pending ++ l = pre ++ a :: (mid ++ b :: post) ∧ e = .firstFollowSeq t a b ∧
      first.den a none ∧ (∀ k ∈ mid, first.den k none) ∧ first.den a (some tok) ∧ first.den b (some tok) := by
  induction l with
  | nil => intro base pending e _ h; simp [blameSeq] at h
  | cons c l ih =>
    intro base pending e hp h
    simp only [blameSeq] at h
    split at h
    · rename_i a ha
      simp at h
      have hi := List.find?_some ha
      obtain ⟨p, m, rfl⟩ := List.append_of_mem (List.mem_of_find?_eq_some ha)
      rw [TSet.intersects_iff] at hi
      rcases hi with ⟨tok, h1, h2⟩ | ⟨h1, _⟩
      · exact ⟨base ++ p, a, m, c, l, tok, by simp, h.symm, hp a (by simp),
          fun k hk => hp k (by simp [hk]), h1, h2⟩
      · cases h1
    · by_cases hc : (first.get c).containsE = true
      · rw [if_pos hc] at h
        obtain ⟨pre, a, mid, b, post, tok, h1, h2⟩ := ih base (pending ++ [c]) e (by
          intro k hk
          rcases List.mem_append.1 hk with hk | hk
          · exact hp k hk
          · simp at hk; subst hk; exact hc) h
        exact ⟨pre, a, mid, b, post, tok, by rw [← h1]; simp, h2⟩
      · rw [if_neg hc] at h
        obtain ⟨pre, a, mid, b, post, tok, h1, h2⟩ := ih (base ++ pending ++ [c]) [] e (by simp) h
        exact ⟨pre, a, mid, b, post, tok, by rw [← h1]; simp, h2⟩

theorem blameConflicts_ok {G : Grammar I n} {first follow : Tbl I n} {fuel : Nat} {root : I}
    {r : List I × Unit} (h : blameConflicts G first follow fuel root = some (.ok r)) :
    ∀ t, Reach G.partsOf root t → blameNode G first follow t = none := by
  obtain ⟨seen, u⟩ := r
  have h1 := (dfs_seen _ _ _ _ _ _ h).exact.2
  have h2 := dfs_inv (fun seen (_ : Unit) => ∀ i ∈ seen, blameNode G first follow i = none)
    (by
      intro t seen s s' _ hp hP i hi
      rcases List.mem_cons.1 hi with rfl | hi
      · cases hn : blameNode G first follow i with
        | none => rfl
        | some e => rw [hn] at hp; cases hp
      · exact hP i hi)
    (by intro t i c seen s _ hP; exact hP) fuel _ _ _ _ _ h (by intro i hi; cases hi)
  intro t ht
  exact h2 t ((h1 t).2 ht)

theorem blameConflicts_error {G : Grammar I n} {first follow : Tbl I n} {fuel : Nat} {root : I}
    {e : GErr I} (h : blameConflicts G first follow fuel root = some (.error e)) :
    ∃ t, Reach G.partsOf root t ∧ blameNode G first follow t = some e := by
  obtain ⟨i, s, hr, hp⟩ := dfs_error _ _ _ _ _ h
  refine ⟨i, hr, ?_⟩
  cases hn : blameNode G first follow i with
  | none => rw [hn] at hp; cases hp
  | some e' => rw [hn] at hp; simp at hp; rw [hp]

variable {G : Grammar I n} {root : I}

theorem selfConflict_some {first follow : Tbl I n} {t : I} {e : GErr I} (h : selfConflict first follow t = some e) :
    e = .firstFollow t ∧ first.den t none ∧ ∃ tok, first.den t (some tok) ∧ follow.den t (some tok) := by
  refine ⟨selfConflict_kind _ _ _ _ h, ?_⟩
  apply Classical.byContradiction
  intro hc
  have : selfConflict first follow t = none := by
    rw [selfConflict_none]
    intro h1 tok h2
    exact hc ⟨h1, tok, h2⟩
  rw [this] at h
  cases h

/-- Every error of the repaired check of a production is true. -/
theorem blameNode_holds {first follow : Tbl I n} {t : I} {e : GErr I} (hfun : G.Functional)
    (hr : Reachable G root t) (hf : ∀ i x, first.den i x ↔ firstFam G i x)
    (hfo : ∀ i tok, follow.den i (some tok) ↔ FollowOf G root i (some tok))
    (h : blameNode G first follow t = some e) : e.Holds G root := by
  have dn : ∀ k, first.den k none ↔ Nullable G k := fun k => (hf k none).trans (firstFam_none _ _)
  have df : ∀ k tok, first.den k (some tok) ↔ FirstOf G k tok := fun k tok => (hf k _).trans (firstFam_some _ _ _)
  have hself : selfConflict first follow t = some e → e.Holds G root := by
    intro hs
    obtain ⟨rfl, h1, tok, h2, h3⟩ := selfConflict_some hs
    exact ⟨hr, (dn _).1 h1, tok, (df _ _).1 h2, (hfo _ _).1 h3⟩
  unfold blameNode at h
  split at h
  · cases h
  · cases h
  · cases h
  · rename_i l hg
    have hm := mem_of_aget? hg
    split at h
    · rename_i e' he
      simp at h; subst h
      have hs := altConflict_spec first t l l [] TSet.empty rfl (by
        intro x; cases x with
        | none => simp [TSet.contains]
        | some tok => simpa [TSet.Mem] using TSet.mem_empty tok)
      rw [he] at hs
      obtain ⟨pre, b, post, a, x, h1, h2, h3, h4, rfl⟩ := hs
      simp at h2
      obtain ⟨p, hp⟩ := List.mem_iff_getElem?.1 h2
      have hlt : p < pre.length := (List.getElem?_eq_some_iff.1 hp).1
      refine ⟨hr, l, hm, p, pre.length, hlt, ?_, ?_, ?_⟩
      · rw [h1, List.getElem?_append_left hlt]; exact hp
      · rw [h1, List.getElem?_append_right (Nat.le_refl _)]; simp
      · exact (overlap_iff _ _ _).2 ⟨x, (hf _ _).1 h3, (hf _ _).1 h4⟩
    · exact hself h
  · rename_i l hg
    have hm := mem_of_aget? hg
    split at h
    · rename_i e' he
      simp at h; subst h
      obtain ⟨pre, a, mid, b, post, tok, h1, rfl, h2, h3, h4, h5⟩ := blameSeq_some first t l [] [] _ (by simp) he
      simp only [List.nil_append] at h1
      rw [h1] at hm
      exact ⟨hr, pre, mid, post, hm, (dn _).1 h2, fun k hk => (dn k).1 (h3 k hk), tok, (df _ _).1 h4, (df _ _).1 h5⟩
    · exact hself h

/-- A true error means that the grammar is left recursive or not LL(1). -/
theorem GErr.Holds.bad {e : GErr I} (h : e.Holds G root) (hfun : G.Functional)
    (hreach : ∀ i r, (i, r) ∈ G → Reachable G root i) :
    ¬ (LL1 G root ∧ ∀ i, Reachable G root i → ¬ LeftDerives G i i) := by
  rintro ⟨hll, hno⟩
  cases e with
  | leftRecursion stack cur =>
    obtain ⟨-, h2, -⟩ := h
    have hc : ∃ r, (cur, r) ∈ G := by
      obtain ⟨k, hk, -⟩ := h2.lsteps
      cases hk with
      | alt hm _ => exact ⟨_, hm⟩
      | seq hm _ => exact ⟨_, hm⟩
    obtain ⟨r, hr⟩ := hc
    exact hno cur (hreach _ _ hr) h2
  | firstFirst t a b =>
    obtain ⟨hr, l, hm, p, q, hpq, hp, hq, ho⟩ := h
    exact (hll t l hr hm).1 p q a b hpq hp hq ho
  | firstFollowSeq t a b =>
    obtain ⟨hr, pre, mid, post, hm, hn, hmid, tok, ha, hb⟩ := h
    exact ll1_disjoint hfun hll (firstOf_iff.1 ha) (.step hr ⟨_, hm, by simp [Rule.parts]⟩) (nullable_iff.1 hn)
      (FollowOf.between hr hm (fun k hk => nullable_iff.1 (hmid k hk)) (firstOf_iff.1 hb))
  | firstFollow t =>
    obtain ⟨hr, hn, tok, h1, h2⟩ := h
    exact ll1_disjoint hfun hll (firstOf_iff.1 h1) hr (nullable_iff.1 hn) h2

/-- What the result of `blameBuild` is made of. -/
theorem blameBuild_cases {fuel : Nat} {r : Except (GErr I) (Metadata I n)} (h : blameBuild fuel G root = some r) :
    ∃ first, buildFirst fuel G = some first ∧
      ((∃ e, fixedLeft G first fuel = some (.error e) ∧ r = .error e) ∨
       ∃ seen follow, fixedLeft G first fuel = some (.ok seen) ∧ fixedFollow fuel first G root = some follow ∧
        ((∃ e, blameConflicts G first follow fuel root = some (.error e) ∧ r = .error e) ∨
         ∃ x s jump, blameConflicts G first follow fuel root = some (.ok x) ∧
          buildJump G first fuel root = some (.ok (s, jump)) ∧ r = .ok ⟨first, follow, jump⟩)) := by
  unfold blameBuild at h
  split at h
  · cases h
  · rename_i first hf
    refine ⟨first, hf, ?_⟩
    split at h
    · cases h
    · rename_i e he
      exact .inl ⟨e, he, by simpa using h.symm⟩
    · rename_i seen hs
      right
      split at h
      · cases h
      · rename_i follow hfo
        refine ⟨seen, follow, hs, hfo, ?_⟩
        split at h
        · cases h
        · rename_i e he
          exact .inl ⟨e, he, by simpa using h.symm⟩
        · rename_i x hx
          right
          split at h
          · rename_i s jump hj
            exact ⟨x, s, jump, hx, hj, by simpa using h.symm⟩
          · cases h

theorem blameBuild_mono {fuel fuel' : Nat} (hle : fuel ≤ fuel') {r : Except (GErr I) (Metadata I n)}
    (h : blameBuild fuel G root = some r) : blameBuild fuel' G root = some r := by
  obtain ⟨first, h1, ⟨e, h2, rfl⟩ | ⟨seen, follow, h2, h3, ⟨e, h4, rfl⟩ | ⟨x, s, jump, h4, h5, rfl⟩⟩⟩ :=
    blameBuild_cases h
  · simp only [blameBuild, buildFirst_mono h1 hle, fixedLeft_mono hle h2]
  · have h4' : blameConflicts G first follow fuel' root = some (.error e) := dfs_mono fuel fuel' hle _ _ _ h4
    simp only [blameBuild, buildFirst_mono h1 hle, fixedLeft_mono hle h2, fixedFollow_mono h3 hle, h4']
  · have h4' : blameConflicts G first follow fuel' root = some (.ok x) := dfs_mono fuel fuel' hle _ _ _ h4
    have h5' : buildJump G first fuel' root = some (.ok (s, jump)) := dfs_mono fuel fuel' hle _ _ _ h5
    simp only [blameBuild, buildFirst_mono h1 hle, fixedLeft_mono hle h2, fixedFollow_mono h3 hle, h4', h5']

theorem blameBuild_total (G : Grammar I n) (root : I) :
    ∃ fuel r, ∀ fuel' ≥ fuel, blameBuild fuel' G root = some r := by
  suffices h : ∃ fuel r, blameBuild fuel G root = some r by
    obtain ⟨fuel, r, h⟩ := h
    exact ⟨fuel, r, fun fuel' hle => blameBuild_mono hle h⟩
  obtain ⟨f1, h1⟩ := buildFirst_total G
  obtain ⟨first, hf1⟩ := h1 f1 (Nat.le_refl _)
  obtain ⟨f2, h2⟩ := fixedFollow_total (buildFirst_within hf1) root
  obtain ⟨f4, r4, hl⟩ := fixedLeft_total G first
  let f3 := (G.universe root).length + 1
  let fuel := f1 + f2 + f3 + f4
  have hlt : (G.universe root).length < fuel := by omega
  have hun : unseen (G.universe root) [] < fuel := by
    unfold unseen
    exact Nat.lt_of_le_of_lt (List.length_filter_le _ _) hlt
  obtain ⟨follow, hf2⟩ := h2 fuel (by omega)
  obtain ⟨r5, h5⟩ : ∃ r, blameConflicts G first follow fuel root = some r :=
    dfs_total _ (G.universe_closed root) fuel root [] () (by simp [Grammar.universe]) hun
  obtain ⟨r6, h6⟩ : ∃ r, buildJump G first fuel root = some r :=
    dfs_total _ (G.universe_closed root) fuel root [] [] (by simp [Grammar.universe]) hun
  refine ⟨fuel, ?_⟩
  simp only [blameBuild, buildFirst_mono hf1 (show f1 ≤ fuel by omega), hl fuel (by omega), hf2, h5]
  cases r4 with
  | error e => exact ⟨_, rfl⟩
  | ok x =>
    cases r5 with
    | error e => exact ⟨_, rfl⟩
    | ok x =>
      simp only [h6]
      cases r6 with
      | error e => cases e
      | ok y => exact ⟨_, rfl⟩

theorem ll1_of_blame (hfun : G.Functional) {fuel : Nat} {first follow : Tbl I n} {r : List I × Unit}
    (hf : buildFirst fuel G = some first) (hfo : fixedFollow fuel first G root = some follow)
    (hc : blameConflicts G first follow fuel root = some (.ok r)) : LL1 G root := by
  have hden := buildFirst_den hf
  intro t l hr hm
  have hnode := blameConflicts_ok hc t ((reach_iff hfun _ _).2 hr)
  simp only [blameNode, aget?_of_mem hfun hm] at hnode
  have hs := altConflict_spec first t l l [] TSet.empty rfl (by
    intro x; cases x with
    | none => simp [TSet.contains]
    | some tok => simpa [TSet.Mem] using TSet.mem_empty tok)
  split at hnode
  · cases hnode
  · rename_i ha
    rw [ha] at hs
    refine ⟨?_, ?_⟩
    · intro p q a b hpq hp hq ho
      obtain ⟨x, h1, h2⟩ := (overlap_iff _ _ _).1 ho
      exact hs (l.take q) b (l.drop (q + 1)) (getElem?_split hq) a (by simpa using mem_take_of hp hpq) x
        ⟨(hden _ _).2 h1, (hden _ _).2 h2⟩
    · intro p q a b hpq hp hq hn tok hb hfol
      refine (selfConflict_none _ _ _).1 hnode ((hden _ _).2 ?_) tok ⟨(hden _ _).2 ?_, ?_⟩
      · exact .alt hm (List.mem_iff_getElem?.2 ⟨p, hp⟩) (nullable_iff.1 hn)
      · exact .alt hm (List.mem_iff_getElem?.2 ⟨q, hq⟩) (firstOf_iff.1 hb)
      · exact (fixedFollow_den hden hfo _ _).2 (.complete hfol)

end Teleparse
