import Verif.Model.Repair
import Verif.Proof.CompleteLoop
/-
`MetadataBuilder::build` with the two repairs.
-/
set_option linter.unusedSectionVars false
namespace Teleparse
variable {I : Type} {n : Nat} [DecidableEq I]

/-! ### FOLLOW -/

theorem followOvers_sat (F P : Fam I n) (y : I) (l : List I) : ∀ (set : List I),
    (∀ r ∈ followOvers y set l, r.Sat F P) ↔
    (∀ a z b, l = a ++ z :: b → (∀ i ∈ set, F i none) → (∀ i ∈ a, F i none) →
      ∀ tok, F z (some tok) → P y (some tok)) := by
  induction l with
  | nil =>
    intro set
    simp [followOvers]
  | cons y' l ih =>
    intro set
    simp only [followOvers, List.mem_cons, forall_eq_or_imp, FollowRel.sat_mkIf, ih, mem_bsetInsert]
    constructor
    · rintro ⟨h1, h2⟩ a j b he hs hp o ho
      cases a with
      | nil =>
        simp at he
        obtain ⟨rfl, rfl⟩ := he
        exact h1 hs o ho
      | cons c a =>
        simp at he
        obtain ⟨rfl, rfl⟩ := he
        refine h2 a j b rfl ?_ (fun i hi => hp i (by simp [hi])) o ho
        rintro i (hi | rfl)
        · exact hs i hi
        · exact hp i (by simp)
    · intro h1
      refine ⟨?_, ?_⟩
      · intro hs o ho
        exact h1 [] y' l rfl hs (by simp) o ho
      · intro a j b he hs hp o ho
        subst he
        refine h1 (y' :: a) j b rfl (fun i hi => hs i (.inl hi)) ?_ o ho
        intro i hi
        rcases List.mem_cons.1 hi with rfl | hi
        · exact hs i (.inr rfl)
        · exact hp i hi

theorem followPairs_sat (F P : Fam I n) (l : List I) :
    (∀ r ∈ followPairs l, r.Sat F P) ↔
    (∀ pre y mid z post, l = pre ++ y :: (mid ++ z :: post) → (∀ i ∈ mid, F i none) →
      ∀ tok, F z (some tok) → P y (some tok)) := by
  induction l with
  | nil => simp [followPairs]
  | cons y l ih =>
    simp only [followPairs, List.mem_append]
    have h := followOvers_sat F P y l []
    constructor
    · intro hr pre y' mid z post he hm tok ht
      cases pre with
      | nil =>
        simp at he
        obtain ⟨rfl, rfl⟩ := he
        exact h.1 (fun r h => hr r (.inr h)) mid z post rfl (by simp) hm tok ht
      | cons c pre =>
        simp at he
        obtain ⟨rfl, rfl⟩ := he
        exact ih.1 (fun r h => hr r (.inl h)) pre y' mid z post rfl hm tok ht
    · intro hs r hr
      rcases hr with hr | hr
      · refine ih.2 ?_ r hr
        intro pre y' mid z post he hm tok ht
        exact hs (y :: pre) y' mid z post (by rw [he]; rfl) hm tok ht
      · refine h.2 ?_ r hr
        intro a z b he _ hm tok ht
        exact hs [] y a z b (by rw [he]; rfl) hm tok ht

theorem fixedSequence_sat (F P : Fam I n) (x : I) (l : List I) :
    (∀ r ∈ fixedSequence x l, r.Sat F P) ↔
    ((∀ pre y post, l = pre ++ y :: post → (∀ i ∈ post, F i none) → ∀ o, P x o → P y o) ∧
     (∀ pre y mid z post, l = pre ++ y :: (mid ++ z :: post) → (∀ i ∈ mid, F i none) →
      ∀ tok, F z (some tok) → P y (some tok))) := by
  simp only [fixedSequence, List.mem_append]
  have h1 := followTails_sat F P x l.reverse []
  have hrev : (∀ a y b, l.reverse = a ++ y :: b → (∀ i ∈ ([] : List I), F i none) →
      (∀ i ∈ a, F i none) → ∀ o, P x o → P y o) ↔
      (∀ pre y post, l = pre ++ y :: post → (∀ i ∈ post, F i none) → ∀ o, P x o → P y o) := by
    constructor
    · intro h pre y post he hp
      refine h post.reverse y pre.reverse (by simp [he]) (by simp) ?_
      intro i hi; exact hp i (by simpa using hi)
    · intro h a y b he _ hp
      refine h b.reverse y a.reverse ?_ ?_
      · have := congrArg List.reverse he
        simpa using this
      · intro i hi; exact hp i (by simpa using hi)
  rw [hrev] at h1
  rw [← h1, ← followPairs_sat]
  exact ⟨fun h => ⟨fun r hr => h r (.inl hr), fun r hr => h r (.inr hr)⟩,
    fun h r hr => hr.elim (h.1 r) (h.2 r)⟩

/-- The repaired FOLLOW table has exactly the members of the textbook rules. -/
theorem fixedFollow_den {fuel : Nat} {G : Grammar I n} {first follow : Tbl I n} {root : I}
    (hf : ∀ i x, first.den i x ↔ firstFam G i x)
    (h : fixedFollow fuel first G root = some follow) (i : I) (x : Option (TokenSrc n)) :
    follow.den i x ↔ FollowX G root i x := by
  have hfd : first.den = firstFam G := by
    funext i x; exact propext (hf i x)
  obtain ⟨h1, h2, h3⟩ := followLoop_least first fuel _ _ _ h
  rw [hfd] at h2 h3
  have hsat : ∀ P : Fam I n,
      (∀ r ∈ G.flatMap (fun p => fixedRels p.1 p.2), r.Sat (firstFam G) P) →
      ∀ p ∈ G, ∀ r ∈ fixedRels p.1 p.2, r.Sat (firstFam G) P := by
    intro P hP p hp r hr
    exact hP r (List.mem_flatMap.2 ⟨p, hp, hr⟩)
  constructor
  · refine h3 (FollowX G root) ?_ ?_ i x
    · intro i x hx
      unfold Tbl.den Tbl.get at hx
      simp only [aget?] at hx
      split at hx
      · rename_i he; subst he
        cases x with
        | none => exact .root
        | some tok =>
          have : TSet.Mem tok (TSet.empty : TSet n) := hx
          exact absurd this (TSet.mem_empty tok)
      · cases x with
        | none => simp [TSet.contains] at hx
        | some tok => exact absurd hx (TSet.mem_empty tok)
    · intro r hr
      obtain ⟨⟨y, rule⟩, hp, hr'⟩ := List.mem_flatMap.1 hr
      clear hr
      cases rule with
      | eps => cases hr'
      | term t => cases hr'
      | seq l =>
        revert r
        simp only [fixedRels]
        rw [fixedSequence_sat]
        refine ⟨?_, ?_⟩
        · intro pre z post he hn o ho; subst he; exact .tail hp hn ho
        · intro pre y mid z post he hn tok ht; subst he; exact .over hp hn ht
      | alt l =>
        revert r
        simp only [fixedRels]
        rw [followUnion_sat]
        intro z hz o ho; exact .alt hp hz ho
  · intro hx
    have h2' := hsat _ h2
    induction hx with
    | root =>
      apply h1
      unfold Tbl.den Tbl.get
      simp [aget?, TSet.contains, TSet.insertE]
    | alt hp hy _ ih =>
      have := h2' _ hp
      simp only [fixedRels] at this
      rw [followUnion_sat] at this
      exact this _ hy _ ih
    | tail hp hn _ ih =>
      have := h2' _ hp
      simp only [fixedRels] at this
      rw [fixedSequence_sat] at this
      exact this.1 _ _ _ rfl hn _ ih
    | over hp hn ht =>
      have := h2' _ hp
      simp only [fixedRels] at this
      rw [fixedSequence_sat] at this
      exact this.2 _ _ _ _ _ rfl hn _ ht

theorem FollowX.sound {G : Grammar I n} {root i : I} {o : Option (TokenSrc n)}
    (hc : G.Connected root) (h : FollowX G root i o) : FollowOf G root i o := by
  induction h with
  | root => exact ⟨[], .refl _⟩
  | alt hp hy _ ih => exact ih.alt hp hy
  | tail hp hn _ ih => exact ih.seq hp hn
  | @over x pre y mid z post tok hp hn ht =>
    obtain ⟨α, β, hd⟩ := hc x _ hp
    obtain ⟨δ, h2⟩ := ht.firstOf
    have e1 := (Derives.one (Expands.seq hp)).ctx α β
    have e2 := (derives_nil_of_all mid (fun k hk => (hn k hk).nullable)).ctx
      (α ++ pre.map .nt ++ [.nt y]) (.nt z :: (post.map .nt ++ β))
    have e3 := h2.ctx (α ++ pre.map .nt ++ [.nt y]) (post.map .nt ++ β)
    refine ⟨α ++ pre.map .nt, δ ++ (post.map .nt ++ β), hd.trans (Derives.trans (by simpa using e1) ?_)⟩
    refine Derives.trans (by simpa using e2) ?_
    simpa using e3

theorem followX_iff {G : Grammar I n} {root i : I} {o : Option (TokenSrc n)} (hc : G.Connected root) :
    FollowX G root i o ↔ FollowOf G root i o := ⟨FollowX.sound hc, FollowX.complete⟩

theorem fixedFollow_mono {G : Grammar I n} {first : Tbl I n} {root : I} {fuel : Nat} {follow : Tbl I n}
    (h : fixedFollow fuel first G root = some follow) {fuel' : Nat} (hle : fuel ≤ fuel') :
    fixedFollow fuel' first G root = some follow := followLoop_mono first fuel _ _ _ h fuel' hle

theorem fixedFollow_total {G : Grammar I n} {first : Tbl I n} (hf : first.Within G.lits) (root : I) :
    ∃ fuel, ∀ fuel' ≥ fuel, ∃ follow, fixedFollow fuel' first G root = some follow := by
  let rs := G.flatMap fun p => fixedRels (n := n) p.1 p.2
  let tbl : Tbl I n := [(root, (TSet.empty.insertE).1)]
  refine ⟨Tbl.room G.lits (rs.map FollowRel.target) tbl + 1, fun fuel' h => ?_⟩
  refine followLoop_total G.lits (rs.map FollowRel.target) hf fuel' rs tbl ?_ ?_ (by omega)
  · intro r hr; exact List.mem_map.2 ⟨r, hr, rfl⟩
  · intro i
    have : Tbl.get tbl i = TSet.empty ∨ Tbl.get tbl i = (TSet.empty.insertE).1 := by
      simp only [tbl, Tbl.get, aget?]
      split
      · right; rfl
      · left; rfl
    rcases this with h | h <;> rw [h]
    · exact TSet.within_empty _
    · exact TSet.within_insertE (TSet.within_empty _)

/-! ### Conflicts -/

theorem TSet.mem_fixedClear (s : TSet n) (tok : TokenSrc n) : ¬ TSet.Mem tok s.fixedClear := by
  rw [TSet.mem_def]
  simp only [TSet.fixedClear, Map.get_map]
  simp [LitSet.fixedClear, LitSet.contains]

theorem fixedSeqConflict_some (first : Tbl I n) (t : I) (l : List I) : ∀ (cur : I) (check : TSet n) e,
    fixedSeqConflict first t cur check l = some e →
    ∃ pre b post tok, l = pre ++ b :: post ∧ first.den b (some tok) ∧
      ((TSet.Mem tok check ∧ (∀ k ∈ pre, first.den k none)) ∨
       ∃ pre1 a mid, pre = pre1 ++ a :: mid ∧ first.den a none ∧ first.den a (some tok) ∧
         (∀ k ∈ mid, first.den k none)) := by
  induction l with
  | nil => intro cur check e h; simp [fixedSeqConflict] at h
  | cons c l ih =>
    intro cur check e h
    simp only [fixedSeqConflict] at h
    split at h
    · rename_i hi
      rw [TSet.intersects_iff] at hi
      rcases hi with ⟨tok, h1, h2⟩ | ⟨h1, _⟩
      · exact ⟨[], c, l, tok, rfl, h2, .inl ⟨h1, by simp⟩⟩
      · cases h1
    · split at h
      · rename_i hc
        obtain ⟨pre, b, post, tok, he, hb, hcase⟩ := ih _ _ _ h
        refine ⟨c :: pre, b, post, tok, by rw [he]; rfl, hb, ?_⟩
        rcases hcase with ⟨hm, hw⟩ | ⟨pre1, a, mid, hp, h1, h2, h3⟩
        · rcases (TSet.mem_union _ _ _ _).1 hm with hm | hm
          · left
            refine ⟨hm, ?_⟩
            intro k hk
            rcases List.mem_cons.1 hk with rfl | hk
            · exact hc
            · exact hw k hk
          · right; exact ⟨[], c, pre, rfl, hc, hm, hw⟩
        · right; exact ⟨c :: pre1, a, mid, by rw [hp]; rfl, h1, h2, h3⟩
      · obtain ⟨pre, b, post, tok, he, hb, hcase⟩ := ih _ _ _ h
        refine ⟨c :: pre, b, post, tok, by rw [he]; rfl, hb, ?_⟩
        rcases hcase with ⟨hm, _⟩ | ⟨pre1, a, mid, hp, h1, h2, h3⟩
        · exact absurd hm (TSet.mem_fixedClear _ _)
        · right; exact ⟨c :: pre1, a, mid, by rw [hp]; rfl, h1, h2, h3⟩

theorem fixedConflicts_ok {G : Grammar I n} {first follow : Tbl I n} {fuel : Nat} {root : I}
    {r : List I × Unit} (h : fixedConflicts G first follow fuel root = some (.ok r)) :
    ∀ t, Reach G.partsOf root t → fixedNodeConflict G first follow t = none := by
  obtain ⟨seen, u⟩ := r
  have h1 := (dfs_seen _ _ _ _ _ _ h).exact.2
  have h2 := dfs_inv (fun seen (_ : Unit) => ∀ i ∈ seen, fixedNodeConflict G first follow i = none)
    (by
      intro t seen s s' _ hp hP i hi
      rcases List.mem_cons.1 hi with rfl | hi
      · cases hn : fixedNodeConflict G first follow i with
        | none => rfl
        | some e => rw [hn] at hp; cases hp
      · exact hP i hi)
    (by intro t i c seen s _ hP; exact hP) fuel _ _ _ _ _ h (by intro i hi; cases hi)
  intro t ht
  exact h2 t ((h1 t).2 ht)

theorem fixedConflicts_error {G : Grammar I n} {first follow : Tbl I n} {fuel : Nat} {root : I}
    {e : GErr I} (h : fixedConflicts G first follow fuel root = some (.error e)) :
    ∃ t, Reach G.partsOf root t ∧ fixedNodeConflict G first follow t = some e := by
  obtain ⟨i, s, hr, hp⟩ := dfs_error _ _ _ _ _ h
  refine ⟨i, hr, ?_⟩
  cases hn : fixedNodeConflict G first follow i with
  | none => rw [hn] at hp; cases hp
  | some e' => rw [hn] at hp; simp at hp; rw [hp]

/-! ### `build` -/

theorem fixedBuild_ok {G : Grammar I n} {fuel : Nat} {root : I} {m : Metadata I n}
    (h : fixedBuild fuel G root = some (.ok m)) :
    buildFirst fuel G = some m.first ∧ fixedFollow fuel m.first G root = some m.follow ∧
    (∃ r, fixedConflicts G m.first m.follow fuel root = some (.ok r)) ∧
    ∃ seen, buildJump G m.first fuel root = some (.ok (seen, m.jump)) := by
  simp only [fixedBuild] at h
  split at h
  · cases h
  · rename_i first hfirst
    split at h
    · cases h
    · cases h
    · split at h
      · cases h
      · rename_i follow hfollow
        split at h
        · cases h
        · cases h
        · rename_i r hr
          split at h
          · rename_i seen jump hj
            simp at h; subst h
            exact ⟨hfirst, hfollow, ⟨r, hr⟩, seen, hj⟩
          · cases h

theorem fixedBuild_error {G : Grammar I n} {fuel : Nat} {root : I} {e : GErr I}
    (h : fixedBuild fuel G root = some (.error e)) :
    ∃ first follow, buildFirst fuel G = some first ∧ fixedFollow fuel first G root = some follow ∧
      fixedConflicts G first follow fuel root = some (.error e) := by
  simp only [fixedBuild] at h
  split at h
  · cases h
  · rename_i first hfirst
    split at h
    · cases h
    · rename_i e' he
      obtain ⟨s', hs, _⟩ := checkLeftRecursive_good G first fuel _ _ _ (fun i h => h) he
      cases hs
    · split at h
      · cases h
      · rename_i follow hfollow
        split at h
        · cases h
        · rename_i e' he
          simp at h; subst h
          exact ⟨first, follow, hfirst, hfollow, he⟩
        · split at h
          · cases h
          · cases h

theorem fixedBuild_mono {G : Grammar I n} {root : I} {fuel fuel' : Nat} (hle : fuel ≤ fuel')
    {r : Except (GErr I) (Metadata I n)} (h : fixedBuild fuel G root = some r) :
    fixedBuild fuel' G root = some r := by
  simp only [fixedBuild] at h ⊢
  cases h1 : buildFirst fuel G with
  | none => rw [h1] at h; cases h
  | some first =>
    rw [h1] at h; rw [buildFirst_mono h1 hle]
    simp only at h ⊢
    cases h2 : checkLeftRecursive G first fuel root ⟨[], [], []⟩ with
    | none => rw [h2] at h; cases h
    | some x =>
      rw [h2] at h; rw [checkLeftRecursive_mono G first fuel fuel' hle _ _ _ h2]
      cases x with
      | error e => exact h
      | ok s =>
        simp only at h ⊢
        cases h3 : fixedFollow fuel first G root with
        | none => rw [h3] at h; cases h
        | some follow =>
          rw [h3] at h; rw [fixedFollow_mono h3 hle]
          simp only at h ⊢
          cases h4 : fixedConflicts G first follow fuel root with
          | none => rw [h4] at h; cases h
          | some x =>
            rw [h4] at h
            have h4' : fixedConflicts G first follow fuel' root = some x :=
              dfs_mono fuel fuel' hle _ _ _ h4
            rw [h4']
            cases x with
            | error e => exact h
            | ok s =>
              simp only at h ⊢
              cases h5 : buildJump G first fuel root with
              | none => rw [h5] at h; cases h
              | some x =>
                rw [h5] at h
                have h5' : buildJump G first fuel' root = some x :=
                  dfs_mono fuel fuel' hle _ _ _ h5
                rw [h5']; exact h

theorem fixedBuild_total (G : Grammar I n) (root : I) :
    ∃ fuel r, ∀ fuel' ≥ fuel, fixedBuild fuel' G root = some r := by
  suffices h : ∃ fuel r, fixedBuild fuel G root = some r by
    obtain ⟨fuel, r, h⟩ := h
    exact ⟨fuel, r, fun fuel' hle => fixedBuild_mono hle h⟩
  obtain ⟨f1, h1⟩ := buildFirst_total G
  obtain ⟨first, hf1⟩ := h1 f1 (Nat.le_refl _)
  obtain ⟨f2, h2⟩ := fixedFollow_total (buildFirst_within hf1) root
  let f3 := (G.universe root).length + 1
  let fuel := max f1 (max f2 f3)
  have hle1 : f1 ≤ fuel := Nat.le_max_left _ _
  have hle2 : f2 ≤ fuel := Nat.le_trans (Nat.le_max_left _ _) (Nat.le_max_right _ _)
  have hle3 : f3 ≤ fuel := Nat.le_trans (Nat.le_max_right _ _) (Nat.le_max_right _ _)
  have hlt : (G.universe root).length < fuel := by omega
  have hun : unseen (G.universe root) [] < fuel := by
    unfold unseen
    exact Nat.lt_of_le_of_lt (List.length_filter_le _ _) hlt
  obtain ⟨follow, hf2⟩ := h2 fuel hle2
  obtain ⟨s, hs⟩ := checkLeftRecursive_total' G first (G.universe root) (G.universe_closed root)
    (t := root) (by simp [Grammar.universe]) hlt
  obtain ⟨r4, h4⟩ : ∃ r, fixedConflicts G first follow fuel root = some r :=
    dfs_total _ (G.universe_closed root) fuel root [] () (by simp [Grammar.universe]) hun
  obtain ⟨r5, h5⟩ : ∃ r, buildJump G first fuel root = some r :=
    dfs_total _ (G.universe_closed root) fuel root [] [] (by simp [Grammar.universe]) hun
  refine ⟨fuel, ?_⟩
  simp only [fixedBuild, buildFirst_mono hf1 hle1, hs, hf2, h4]
  cases r4 with
  | error e => exact ⟨_, rfl⟩
  | ok x =>
    simp only [h5]
    cases r5 with
    | error e => cases e
    | ok y => exact ⟨_, rfl⟩

variable {G : Grammar I n} {root : I}

theorem fixed_of_ll1 (hfun : G.Functional) (hcon : G.Connected root) (hll : LL1 G root) :
    ∃ m fuel, ∀ fuel' ≥ fuel, fixedBuild fuel' G root = some (.ok m) := by
  obtain ⟨fuel, r, hb⟩ := fixedBuild_total G root
  cases r with
  | ok m => exact ⟨m, fuel, hb⟩
  | error e =>
    exfalso
    obtain ⟨first, follow, hf, hfo, hc⟩ := fixedBuild_error (hb fuel (Nat.le_refl _))
    obtain ⟨t, hr, hnode⟩ := fixedConflicts_error hc
    have hr := (reach_iff hfun _ _).1 hr
    have hden := buildFirst_den hf
    have hself : selfConflict first follow t ≠ none → False := by
      intro hne
      apply hne
      rw [selfConflict_none]
      rintro h0 tok ⟨h1, h2⟩
      refine ll1_disjoint hfun hll ((hden _ _).1 h1) hr ((hden _ _).1 h0) ?_
      exact ((fixedFollow_den hden hfo _ _).1 h2).sound hcon
    unfold fixedNodeConflict at hnode
    split at hnode
    · cases hnode
    · cases hnode
    · cases hnode
    · rename_i l hg
      have hm := mem_of_aget? hg
      split at hnode
      · rename_i e' he
        have hs := altConflict_spec first t l l [] TSet.empty rfl (by
          intro x; cases x with
          | none => simp [TSet.contains]
          | some tok => simpa [TSet.Mem] using TSet.mem_empty tok)
        rw [he] at hs
        obtain ⟨pre, b, post, a, x, h1, h2, h3, h4, _⟩ := hs
        simp at h2
        obtain ⟨p, hp⟩ := List.mem_iff_getElem?.1 h2
        have hlt : p < pre.length := (List.getElem?_eq_some_iff.1 hp).1
        refine (hll t l hr hm).1 p pre.length a b hlt ?_ ?_ ?_
        · rw [h1, List.getElem?_append_left hlt]; exact hp
        · rw [h1, List.getElem?_append_right (Nat.le_refl _)]; simp
        · exact (overlap_iff _ _ _).2 ⟨x, (hden _ _).1 h3, (hden _ _).1 h4⟩
      · exact hself (by rw [hnode]; simp)
    · cases hnode
    · rename_i c cs hg
      have hm := mem_of_aget? hg
      simp only at hnode
      split at hnode
      · rename_i e' he
        obtain ⟨pre, b, post, tok, h1, h2, h3⟩ := fixedSeqConflict_some _ _ _ _ _ _ he
        have key : ∀ pre1 a mid, c :: cs = pre1 ++ a :: (mid ++ b :: post) → first.den a none →
            first.den a (some tok) → (∀ k ∈ mid, first.den k none) → False := by
          intro pre1 a mid hl ha hat hw
          rw [hl] at hm
          refine ll1_disjoint hfun hll ((hden _ _).1 hat)
            (.step hr ⟨_, hm, by simp [Rule.parts]⟩) ((hden _ _).1 ha) ?_
          exact FollowOf.between hr hm (fun k hk => (hden _ _).1 (hw k hk)) ((hden _ _).1 h2)
        rcases h3 with ⟨hm', hw⟩ | ⟨pre1, a, mid, hp, ha, hat, hw⟩
        · by_cases hce : (first.get c).containsE = true
          · rw [if_pos hce] at hm'
            exact key [] c pre (by rw [h1]; rfl) hce hm' hw
          · rw [if_neg hce] at hm'
            exact TSet.mem_empty _ hm'
        · exact key (c :: pre1) a mid (by rw [h1, hp]; simp) ha hat hw
      · exact hself (by rw [hnode]; simp)

theorem ll1_of_fixed (hfun : G.Functional) {fuel : Nat} {m : Metadata I n}
    (h : fixedBuild fuel G root = some (.ok m)) : LL1 G root := by
  obtain ⟨hf, hfo, ⟨r, hc⟩, _⟩ := fixedBuild_ok h
  have hden := buildFirst_den hf
  intro t l hr hm
  have hnode := fixedConflicts_ok hc t ((reach_iff hfun _ _).2 hr)
  simp only [fixedNodeConflict, aget?_of_mem hfun hm] at hnode
  have hs := altConflict_spec m.first t l l [] TSet.empty rfl (by
    intro x; cases x with
    | none => simp [TSet.contains]
    | some tok => simpa [TSet.Mem] using TSet.mem_empty tok)
  split at hnode
  · cases hnode
  · rename_i ha
    rw [ha] at hs
    refine ⟨?_, ?_⟩
    · intro p q a b hpq hp hq ho
      obtain ⟨x, h1, h2⟩ := (overlap_iff _ _ _).1 ho
      exact hs (l.take q) b (l.drop (q + 1)) (getElem?_split hq) a (by simpa using mem_take_of hp hpq) x
        ⟨(hden _ _).2 h1, (hden _ _).2 h2⟩
    · intro p q a b hpq hp hq hn tok hb hfol
      refine (selfConflict_none _ _ _).1 hnode ((hden _ _).2 ?_) tok ⟨(hden _ _).2 ?_, ?_⟩
      · exact .alt hm (List.mem_iff_getElem?.2 ⟨p, hp⟩) (nullable_iff.1 hn)
      · exact .alt hm (List.mem_iff_getElem?.2 ⟨q, hq⟩) (firstOf_iff.1 hb)
      · exact (fixedFollow_den hden hfo _ _).2 (.complete hfol)

/-! ### Schemas -/

theorem LL1.congr {G G' : Grammar I n} {root : I} (h1 : ∀ p ∈ G, p ∈ G') (hl : LL1 G' root) : LL1 G root := by
  intro t l hr hm
  obtain ⟨a1, a2⟩ := hl t l (hr.congr h1) (h1 _ hm)
  refine ⟨fun p q a b hpq hp hq ho => a1 p q a b hpq hp hq ?_, fun p q a b hpq hp hq hn tok hf hfo =>
    a2 p q a b hpq hp hq (Derives.congr h1 hn) tok ?_ (hfo.congr h1)⟩
  · rcases ho with ⟨tok, ⟨β, d1⟩, ⟨γ, d2⟩⟩ | ⟨n1, n2⟩
    · exact .inl ⟨tok, ⟨β, d1.congr h1⟩, ⟨γ, d2.congr h1⟩⟩
    · exact .inr ⟨Derives.congr h1 n1, Derives.congr h1 n2⟩
  · obtain ⟨β, d1⟩ := hf
    exact ⟨β, d1.congr h1⟩

section
variable {m : Nat} {S : Schema m n} {md : Metadata (PId m n) n} {root : Ty m n} {G : Grammar (PId m n) n} {fuel : Nat}

theorem fixedMetadata_build (h : S.fixedMetadata fuel root = some (.ok md)) :
    ∃ G', S.IsGrammar root G' ∧ registerFrom S.rule fuel root.pid = some G' ∧
      fixedBuild fuel G' root.pid = some (.ok md) := by
  unfold Schema.fixedMetadata at h
  cases hr : registerFrom S.rule fuel root.pid with
  | none => rw [hr] at h; cases h
  | some G' => rw [hr] at h; exact ⟨G', registerFrom_spec hr, rfl, h⟩

theorem Schema.IsGrammar.connected (hG : S.IsGrammar root G) : G.Connected root.pid :=
  connected_of_reachable fun i r hm => (reach_iff_schema hG i).2 ((hG.2 i r).1 hm).1

theorem fixedMetadata_ll1 (h : S.fixedMetadata fuel root = some (.ok md)) (hG : S.IsGrammar root G) :
    LL1 G root.pid := by
  obtain ⟨G', hG', _, hb⟩ := fixedMetadata_build h
  exact (ll1_of_fixed hG'.1 hb).congr fun p hp => (hG.same hG' p).1 hp

theorem fixedMetadata_follow (h : S.fixedMetadata fuel root = some (.ok md)) (hG : S.IsGrammar root G)
    (i : PId m n) (x : Option (TokenSrc n)) :
    (md.follow.get i).contains x = true ↔ FollowOf G root.pid i x := by
  obtain ⟨G', hG', _, hb⟩ := fixedMetadata_build h
  obtain ⟨h1, h2, _⟩ := fixedBuild_ok hb
  have := (fixedFollow_den (buildFirst_den h1) h2 i x).trans (followX_iff hG'.connected)
  exact this.trans ⟨fun d => d.congr fun p hp => (hG.same hG' p).2 hp,
    fun d => d.congr fun p hp => (hG.same hG' p).1 hp⟩

theorem Tables.of_fixed (h : S.fixedMetadata fuel root = some (.ok md)) (hG : S.IsGrammar root G) :
    Tables S md root G := by
  have hll := fixedMetadata_ll1 h hG
  obtain ⟨G', hG', _, hb⟩ := fixedMetadata_build h
  obtain ⟨h1, _, _, seen, hj⟩ := fixedBuild_ok hb
  have hf : ∀ i x, (md.first.get i).contains x = true ↔ Starts G i x := by
    intro i x
    rw [Starts.congr (hG.same hG')]
    refine (buildFirst_den h1 i x).trans ?_
    cases x with
    | none => exact firstFam_none G' i
    | some tok => exact firstFam_some G' i tok
  refine ⟨hf, ?_⟩
  intro i l hr hi x j c hjc hs
  have hm : (i, Rule.alt l) ∈ G := (hG.2 _ _).2 ⟨(reach_iff_schema hG i).1 hr, hi.symm⟩
  have hr' : Reachable G' root.pid i := (reach_iff_schema hG' i).2 ((reach_iff_schema hG i).1 hr)
  obtain ⟨g1, g2⟩ := buildJump_lookUp hj ((reach_iff hG'.1 _ _).2 hr')
    (aget?_of_mem hG'.1 ((hG.same hG' _).1 hm)) x
  cases hl : md.jump.lookUp i x with
  | none => exact absurd hl (g2 j c hjc ((hf c x).2 hs))
  | some j' =>
    obtain ⟨c', h3, h4⟩ := g1 j' hl
    have h4 := (hf c' x).1 h4
    have ho : ∀ {a b}, Starts G a x → Starts G b x → Overlap G a b := by
      intro a b ha hb
      cases x with
      | none => exact .inr ⟨ha, hb⟩
      | some tok => exact .inl ⟨tok, ha, hb⟩
    rcases Nat.lt_trichotomy j j' with hlt | heq | hlt
    · exact absurd (ho hs h4) ((hll i l hr hm).1 j j' c c' hlt hjc h3)
    · rw [heq]
    · exact absurd (ho h4 hs) ((hll i l hr hm).1 j' j c' c hlt h3 hjc)

theorem Found.of_fixed (h : S.fixedMetadata fuel root = some (.ok md)) (hG : S.IsGrammar root G)
    (henum : ∀ k v vs, S k = .enum v vs → Reachable G root.pid (.user k) → Nullable G (.user k) →
      ∀ tok, ¬ FollowOf G root.pid (.user k) (some tok))
    (hsep : ∀ t p, Reach S.tyParts root (.split t p) → ¬ Nullable G p.pid) : Found S md root G :=
  ⟨⟨hG⟩, .of_fixed h hG, fun _ _ _ _ hf => (fixedMetadata_follow h hG _ _).2 hf,
    fixedMetadata_ll1 h hG, enums_of_last hG henum, hsep⟩

end
end Teleparse
