import Verif.Proof.Conflict
import Verif.Proof.Jump
/-
Registration, totality of `build`, the jump table of an accepted grammar, LL(1).
-/
set_option linter.unusedSectionVars false
namespace Teleparse
variable {I : Type} {n : Nat} [DecidableEq I]

/-! ### Registration -/

theorem registerFrom_spec {ruleOf : I → Rule I n} {fuel : Nat} {root : I} {G : Grammar I n}
    (h : registerFrom ruleOf fuel root = some G) :
    G.Functional ∧ ∀ i r, (i, r) ∈ G ↔ Reach (fun t => (ruleOf t).parts) root i ∧ r = ruleOf i := by
  unfold registerFrom at h
  split at h
  · rename_i seen G' hd
    simp at h; subst h
    have h1 := (dfs_seen _ _ _ _ _ _ hd).exact
    have h2 := dfs_inv (fun seen (G : Grammar I n) => G.map Prod.fst = seen.reverse ∧
        ∀ p ∈ G, p.2 = ruleOf p.1)
      (by
        intro t seen s s' _ hp hP
        simp at hp; subst hp
        refine ⟨by simp [hP.1], ?_⟩
        intro p hp
        rcases List.mem_append.1 hp with hp | hp
        · exact hP.2 p hp
        · simp at hp; subst hp; rfl)
      (by intro t i c seen s _ hP; exact hP) fuel _ _ _ _ _ hd
      (by simp)
    refine ⟨?_, ?_⟩
    · unfold Grammar.Functional
      rw [h2.1]; exact (List.reverse_perm _).nodup_iff.2 h1.1
    · intro i r
      constructor
      · intro hm
        refine ⟨(h1.2 i).1 ?_, h2.2 _ hm⟩
        have : i ∈ G'.map Prod.fst := List.mem_map.2 ⟨_, hm, rfl⟩
        rw [h2.1] at this; simpa using this
      · rintro ⟨hr, rfl⟩
        have : i ∈ G'.map Prod.fst := by rw [h2.1]; simpa using (h1.2 i).2 hr
        obtain ⟨⟨j, r⟩, hm, rfl⟩ := List.mem_map.1 this
        have := h2.2 _ hm
        simp only at this
        rw [← this]; exact hm
  · cases h

theorem registerFrom_total {ruleOf : I → Rule I n} (U : List I)
    (hU : ∀ i ∈ U, ∀ j ∈ (ruleOf i).parts, j ∈ U) {root : I} (hr : root ∈ U) {fuel : Nat}
    (hf : U.length < fuel) : ∃ G, registerFrom ruleOf fuel root = some G := by
  have hlt : unseen U [] < fuel := by
    unfold unseen
    exact Nat.lt_of_le_of_lt (List.length_filter_le _ _) hf
  obtain ⟨r, h⟩ := dfs_total (E := Empty) (parts := fun t => (ruleOf t).parts)
    (pre := fun t G => .ok (G ++ [(t, ruleOf t)])) (edge := fun _ _ _ G => G) U hU fuel root [] []
    hr hlt
  unfold registerFrom
  rw [h]
  cases r with
  | error e => cases e
  | ok p => exact ⟨p.2, rfl⟩

theorem registerFrom_mono {ruleOf : I → Rule I n} {fuel fuel' : Nat} (hle : fuel ≤ fuel') {root : I}
    {G : Grammar I n} (h : registerFrom ruleOf fuel root = some G) :
    registerFrom ruleOf fuel' root = some G := by
  unfold registerFrom at h ⊢
  split at h
  · rename_i seen G' hd
    rw [dfs_mono _ _ hle _ _ _ hd]; exact h
  · cases h

theorem registerFrom_closed {ruleOf : I → Rule I n} {fuel : Nat} {root : I} {G : Grammar I n}
    (h : registerFrom ruleOf fuel root = some G) (i : I) :
    Reachable G root i ↔ Reach (fun t => (ruleOf t).parts) root i := by
  have hs := (registerFrom_spec h).2
  constructor
  · intro hr
    induction hr with
    | refl => exact .refl
    | step _ hp ih =>
      obtain ⟨r, hm, hj⟩ := hp
      obtain ⟨_, rfl⟩ := (hs _ _).1 hm
      exact .step ih hj
  · intro hr
    induction hr with
    | refl => exact .refl
    | step hi hj ih => exact .step ih ⟨_, (hs _ _).2 ⟨hi, rfl⟩, hj⟩

theorem Reachable.connected {G : Grammar I n} {root i : I} (h : Reachable G root i) :
    ∃ α β, Derives G [.nt root] (α ++ .nt i :: β) := by
  induction h with
  | refl => exact ⟨[], [], .refl _⟩
  | @step i j _ hp ih =>
    obtain ⟨α, β, hd⟩ := ih
    obtain ⟨r, hm, hj⟩ := hp
    cases r with
    | eps => cases hj
    | term t => cases hj
    | alt l =>
      refine ⟨α, β, hd.trans ?_⟩
      simpa using (Derives.one (Expands.alt hm hj)).ctx α β
    | seq l =>
      obtain ⟨l1, l2, rfl⟩ := List.append_of_mem hj
      refine ⟨α ++ l1.map .nt, l2.map .nt ++ β, hd.trans ?_⟩
      simpa using (Derives.one (Expands.seq hm)).ctx α β

theorem connected_of_reachable {G : Grammar I n} {root : I}
    (h : ∀ i r, (i, r) ∈ G → Reachable G root i) : G.Connected root :=
  fun i r hm => (h i r hm).connected

theorem registerFrom_connected {ruleOf : I → Rule I n} {fuel : Nat} {root : I} {G : Grammar I n}
    (h : registerFrom ruleOf fuel root = some G) : G.Connected root :=
  connected_of_reachable fun i r hm =>
    (registerFrom_closed h i).2 (((registerFrom_spec h).2 i r).1 hm).1

/-! ### Totality -/

/-- Everything mentioned by the grammar. -/
def Grammar.universe (G : Grammar I n) (root : I) : List I :=
  root :: (G.map Prod.fst ++ G.flatMap fun p => p.2.parts)

theorem Grammar.universe_closed (G : Grammar I n) (root : I) :
    ∀ i ∈ G.universe root, ∀ j ∈ G.partsOf i, j ∈ G.universe root := by
  intro i _ j hj
  unfold Grammar.partsOf at hj
  split at hj
  · rename_i r hr
    refine List.mem_cons_of_mem _ (List.mem_append_right _ ?_)
    exact List.mem_flatMap.2 ⟨(i, r), mem_of_aget? hr, hj⟩
  · cases hj

theorem build_mono {G : Grammar I n} {root : I} {fuel fuel' : Nat} (hle : fuel ≤ fuel')
    {r : Except (GErr I) (Metadata I n)} (h : build fuel G root = some r) :
    build fuel' G root = some r := by
  simp only [build] at h ⊢
  cases h1 : buildFirst fuel G with
  | none => rw [h1] at h; cases h
  | some first =>
    rw [h1] at h; rw [buildFirst_mono h1 hle]
    simp only at h ⊢
    cases h2 : checkLeftRecursive G first fuel root ⟨[], [], []⟩ with
    | none => rw [h2] at h; cases h
    | some x =>
      rw [h2] at h; rw [checkLeftRecursive_mono G first fuel fuel' hle _ _ _ h2]
      cases x with
      | error e => exact h
      | ok s =>
        simp only at h ⊢
        cases h3 : buildFollow fuel first G root with
        | none => rw [h3] at h; cases h
        | some follow =>
          rw [h3] at h; rw [buildFollow_mono h3 hle]
          simp only at h ⊢
          cases h4 : checkConflicts G first follow fuel root with
          | none => rw [h4] at h; cases h
          | some x =>
            rw [h4] at h
            have h4' : checkConflicts G first follow fuel' root = some x :=
              dfs_mono fuel fuel' hle _ _ _ h4
            rw [h4']
            cases x with
            | error e => exact h
            | ok s =>
              simp only at h ⊢
              cases h5 : buildJump G first fuel root with
              | none => rw [h5] at h; cases h
              | some x =>
                rw [h5] at h
                have h5' : buildJump G first fuel' root = some x :=
                  dfs_mono fuel fuel' hle _ _ _ h5
                rw [h5']; exact h

theorem build_total (G : Grammar I n) (root : I) :
    ∃ fuel r, ∀ fuel' ≥ fuel, build fuel' G root = some r := by
  suffices h : ∃ fuel r, build fuel G root = some r by
    obtain ⟨fuel, r, h⟩ := h
    exact ⟨fuel, r, fun fuel' hle => build_mono hle h⟩
  obtain ⟨f1, h1⟩ := buildFirst_total G
  obtain ⟨first, hf1⟩ := h1 f1 (Nat.le_refl _)
  obtain ⟨f2, h2⟩ := buildFollow_total (buildFirst_within hf1) root
  let f3 := (G.universe root).length + 1
  let fuel := max f1 (max f2 f3)
  have hle1 : f1 ≤ fuel := Nat.le_max_left _ _
  have hle2 : f2 ≤ fuel := Nat.le_trans (Nat.le_max_left _ _) (Nat.le_max_right _ _)
  have hle3 : f3 ≤ fuel := Nat.le_trans (Nat.le_max_right _ _) (Nat.le_max_right _ _)
  have hlt : (G.universe root).length < fuel := by omega
  have hun : unseen (G.universe root) [] < fuel := by
    unfold unseen
    exact Nat.lt_of_le_of_lt (List.length_filter_le _ _) hlt
  obtain ⟨follow, hf2⟩ := h2 fuel hle2
  obtain ⟨s, hs⟩ := checkLeftRecursive_total' G first (G.universe root) (G.universe_closed root)
    (t := root) (by simp [Grammar.universe]) hlt
  obtain ⟨r4, h4⟩ : ∃ r, checkConflicts G first follow fuel root = some r :=
    dfs_total _ (G.universe_closed root) fuel root [] () (by simp [Grammar.universe]) hun
  obtain ⟨r5, h5⟩ : ∃ r, buildJump G first fuel root = some r :=
    dfs_total _ (G.universe_closed root) fuel root [] [] (by simp [Grammar.universe]) hun
  refine ⟨fuel, ?_⟩
  simp only [build, buildFirst_mono hf1 hle1, hs, hf2, h4]
  cases r4 with
  | error e => exact ⟨_, rfl⟩
  | ok x =>
    simp only [h5]
    cases r5 with
    | error e => cases e
    | ok y => exact ⟨_, rfl⟩

/-! ### The tables of an accepted grammar -/

theorem build_first_den {G : Grammar I n} {fuel : Nat} {root : I} {m : Metadata I n}
    (h : build fuel G root = some (.ok m)) (i : I) (x : Option (TokenSrc n)) :
    m.first.den i x ↔ firstFam G i x := buildFirst_den (build_ok h).1 i x

theorem build_follow_den {G : Grammar I n} {fuel : Nat} {root : I} {m : Metadata I n}
    (h : build fuel G root = some (.ok m)) (i : I) (x : Option (TokenSrc n)) :
    m.follow.den i x ↔ FollowC G root i x :=
  buildFollow_den (build_first_den h) (build_ok h).2.1 i x

theorem firstFam_some (G : Grammar I n) (i : I) (tok : TokenSrc n) :
    firstFam G i (some tok) ↔ FirstOf G i tok := firstOf_iff.symm

theorem firstFam_none (G : Grammar I n) (i : I) : firstFam G i none ↔ Nullable G i :=
  nullable_iff.symm

theorem overlap_iff (G : Grammar I n) (a b : I) :
    Overlap G a b ↔ ∃ x, firstFam G a x ∧ firstFam G b x := by
  constructor
  · rintro (⟨tok, h1, h2⟩ | ⟨h1, h2⟩)
    · exact ⟨some tok, (firstFam_some _ _ _).2 h1, (firstFam_some _ _ _).2 h2⟩
    · exact ⟨none, (firstFam_none _ _).2 h1, (firstFam_none _ _).2 h2⟩
  · rintro ⟨x, h1, h2⟩
    cases x with
    | none => right; exact ⟨(firstFam_none _ _).1 h1, (firstFam_none _ _).1 h2⟩
    | some tok => left; exact ⟨tok, (firstFam_some _ _ _).1 h1, (firstFam_some _ _ _).1 h2⟩

theorem getElem?_split {l : List I} {p : Nat} {a : I} (h : l[p]? = some a) :
    l = l.take p ++ a :: l.drop (p + 1) := by
  obtain ⟨hp, rfl⟩ := List.getElem?_eq_some_iff.1 h
  rw [← List.drop_eq_getElem_cons hp, List.take_append_drop]

theorem mem_take_of {l : List I} {p q : Nat} {a : I} (h : l[p]? = some a) (hpq : p < q) :
    a ∈ l.take q := by
  rw [List.mem_iff_getElem?]
  exact ⟨p, by rw [List.getElem?_take_of_lt hpq]; exact h⟩

/-- The conflict check at a union, in terms of positions. -/
theorem nodeConflict_alt_none {G : Grammar I n} {first follow : Tbl I n} {t : I} {l : List I}
    (hg : aget? G t = some (.alt l)) (h : nodeConflict G first follow t = none) :
    (∀ (p q : Nat) a b, p < q → l[p]? = some a → l[q]? = some b →
      ∀ x, ¬ (first.den a x ∧ first.den b x)) ∧
    (first.den t none → ∀ tok, ¬ (first.den t (some tok) ∧ follow.den t (some tok))) := by
  simp only [nodeConflict, hg] at h
  have hs := altConflict_spec first t l l [] TSet.empty rfl (by
    intro x; cases x with
    | none => simp [TSet.contains]
    | some tok => simpa [TSet.Mem] using TSet.mem_empty tok)
  split at h
  · cases h
  · rename_i ha
    rw [ha] at hs
    refine ⟨?_, (selfConflict_none _ _ _).1 h⟩
    intro p q a b hpq hp hq
    exact hs (l.take q) b (l.drop (q + 1)) (getElem?_split hq) a (by simpa using mem_take_of hp hpq)

/-- The conflict check at a sequence. -/
theorem nodeConflict_seq_none {G : Grammar I n} {first follow : Tbl I n} {t : I} {l : List I}
    (hg : aget? G t = some (.seq l)) (h : nodeConflict G first follow t = none) :
    (∀ pre a mid b post, l = pre ++ a :: (mid ++ b :: post) → first.den a none →
      (∀ k ∈ mid, first.den k none) → ∀ tok, ¬ (first.den a (some tok) ∧ first.den b (some tok))) ∧
    (l ≠ [] → first.den t none → ∀ tok, ¬ (first.den t (some tok) ∧ follow.den t (some tok))) := by
  cases l with
  | nil =>
    refine ⟨?_, fun h => absurd rfl h⟩
    intro pre a mid b post he; simp at he
  | cons c cs =>
    simp only [nodeConflict, hg] at h
    split at h
    · cases h
    · rename_i hs
      refine ⟨?_, fun _ => (selfConflict_none _ _ _).1 h⟩
      intro pre a mid b post he ha hmid
      cases pre with
      | nil =>
        simp at he
        obtain ⟨rfl, rfl⟩ := he
        have ha' : (first.get c).containsE = true := ha
        rw [if_pos ha'] at hs
        intro tok hx
        exact seqConflict_none first t _ _ _ hs mid b post rfl hmid tok hx
      | cons c' pre =>
        simp at he
        obtain ⟨rfl, rfl⟩ := he
        exact seqConflict_none' first t pre _ _ a mid b post hs ha hmid

theorem nodeConflict_firstFirst {G : Grammar I n} {first follow : Tbl I n} {t s a b : I}
    (h : nodeConflict G first follow t = some (.firstFirst s a b)) :
    s = t ∧ ∃ l, aget? G t = some (.alt l) ∧ ∃ (p q : Nat), p < q ∧ l[p]? = some a ∧ l[q]? = some b ∧
      ∃ x, first.den a x ∧ first.den b x := by
  unfold nodeConflict at h
  split at h
  · cases h
  · cases h
  · cases h
  · rename_i l hg
    have hs := altConflict_spec first t l l [] TSet.empty rfl (by
      intro x; cases x with
      | none => simp [TSet.contains]
      | some tok => simpa [TSet.Mem] using TSet.mem_empty tok)
    split at h
    · rename_i e he
      rw [he] at hs
      obtain ⟨pre, b', post, a', x, h1, h2, h3, h4, h5⟩ := hs
      simp at h; subst h
      simp at h5
      obtain ⟨rfl, rfl, rfl⟩ := h5
      refine ⟨rfl, l, hg, ?_⟩
      simp at h2
      obtain ⟨p, hp⟩ := List.mem_iff_getElem?.1 h2
      have hlt : p < pre.length := (List.getElem?_eq_some_iff.1 hp).1
      refine ⟨p, pre.length, hlt, ?_, ?_, x, h3, h4⟩
      · rw [h1, List.getElem?_append_left hlt]; exact hp
      · rw [h1, List.getElem?_append_right (Nat.le_refl _)]; simp
    · have := selfConflict_kind _ _ _ _ h
      cases this
  · cases h
  · rename_i c cs hg
    simp only at h
    split at h
    · rename_i e he
      simp at h; subst h
      obtain ⟨a', b', hk⟩ := seqConflict_kind _ _ _ _ _ _ he
      cases hk
    · have := selfConflict_kind _ _ _ _ h
      cases this

/-! ### The jump table -/

/-- The registrations `build_jump` makes. -/
theorem buildJump_regs {G : Grammar I n} {first : Tbl I n} {fuel : Nat} {root : I} {seen : List I}
    {jump : Jump I n} (h : buildJump G first fuel root = some (.ok (seen, jump))) :
    ∃ hist, jump = Jump.registerAll [] hist ∧ ∀ t l, Reach G.partsOf root t →
      aget? G t = some (.alt l) → regsOf hist t = l.zipIdx.map fun p => (first.get p.1, p.2) := by
  have h1 := (dfs_seen _ _ _ _ _ _ h).exact.2
  obtain ⟨evs, hfold, hev⟩ := dfs_events fuel _ _ _ _ _ h
  let conv : I × Nat × I → Option (I × TSet n × Nat) := fun e =>
    if G.isAlt e.1 then some (e.1, first.get e.2.2, e.2.1) else none
  refine ⟨evs.filterMap conv, ?_, ?_⟩
  · rw [hfold]
    clear hfold hev h h1
    generalize ([] : Jump I n) = j
    induction evs generalizing j with
    | nil => rfl
    | cons e evs ih =>
      rw [List.foldl_cons, ih]
      by_cases hg : G.isAlt e.1 = true
      · have : conv e = some (e.1, first.get e.2.2, e.2.1) := by simp only [conv]; rw [if_pos hg]
        rw [if_pos hg, List.filterMap_cons_some this]; rfl
      · have : conv e = none := by simp only [conv]; rw [if_neg hg]
        rw [if_neg hg, List.filterMap_cons_none this]
  · intro t l hr hg
    have hev' := hev t
    rw [if_pos ⟨(h1 t).2 hr, by simp⟩] at hev'
    have hia : G.isAlt t = true := by simp [Grammar.isAlt, hg]
    have hparts : G.partsOf t = l := by simp [Grammar.partsOf, hg, Rule.parts]
    rw [hparts] at hev'
    have hcomm : ((evs.filterMap conv).filter fun r => r.1 = t) =
        (evs.filter fun e => e.1 = t).filterMap conv := by
      clear hev' hfold hev
      induction evs with
      | nil => rfl
      | cons e evs ih =>
        simp only [List.filterMap_cons, List.filter_cons]
        by_cases ht : e.1 = t
        · have : conv e = some (e.1, first.get e.2.2, e.2.1) := by
            simp [conv, ht, hia]
          simp [ht, this, ih]
        · cases hc : conv e with
          | none => simp [ht, ih]
          | some r =>
            have : r.1 = e.1 := by
              simp only [conv] at hc
              split at hc
              · simp at hc; rw [← hc]
              · cases hc
            simp [ht, ih, this]
    unfold regsOf
    rw [hcomm, hev', List.filterMap_map]
    have : ∀ (xs : List (I × Nat)), (xs.filterMap (conv ∘ fun p => (t, p.2, p.1))).map Prod.snd =
        xs.map fun p => (first.get p.1, p.2) := by
      intro xs
      induction xs with
      | nil => rfl
      | cons x xs ih =>
        have : (conv ∘ fun p => (t, p.2, p.1)) x = some (t, first.get x.1, x.2) := by
          simp [conv, hia]
        rw [List.filterMap_cons_some this, List.map_cons, ih, List.map_cons]
    exact this _

theorem buildJump_lookUp {G : Grammar I n} {first : Tbl I n} {fuel : Nat} {root : I} {seen : List I}
    {jump : Jump I n} (h : buildJump G first fuel root = some (.ok (seen, jump))) {t : I} {l : List I}
    (hr : Reach G.partsOf root t) (hg : aget? G t = some (.alt l)) (x : Option (TokenSrc n)) :
    (∀ i, jump.lookUp t x = some i → ∃ c, l[i]? = some c ∧ first.den c x) ∧
    (∀ (i : Nat) c, l[i]? = some c → first.den c x → jump.lookUp t x ≠ none) := by
  obtain ⟨hist, rfl, hregs⟩ := buildJump_regs h
  have hinv := Jump.inv_registerAll hist t
  rw [hregs t l hr hg] at hinv
  rw [Jump.lookUp_eq]
  constructor
  · intro i hi
    obtain ⟨F, hF, hc⟩ := hinv.lookUp_sound hi
    obtain ⟨⟨c, k⟩, hck, he⟩ := List.mem_map.1 hF
    simp at he
    obtain ⟨rfl, rfl⟩ := he
    have := List.mk_mem_zipIdx_iff_getElem?.1 hck
    exact ⟨c, this, hc⟩
  · intro i c hi hc
    refine hinv.lookUp_complete (F := first.get c) (i := i) ?_ hc
    exact List.mem_map.2 ⟨(c, i), List.mk_mem_zipIdx_iff_getElem?.2 hi, rfl⟩

/-! ### LL(1) -/

theorem firstI_disjoint_followC {G : Grammar I n} (hfun : G.Functional) {fuel : Nat} {root : I}
    {m : Metadata I n} (h : build fuel G root = some (.ok m)) {t : I} (hr : Reachable G root t)
    (hn : Null G t) (tok : TokenSrc n) : ¬ (FirstI G t tok ∧ FollowC G root t (some tok)) := by
  rintro ⟨h1, h2⟩
  obtain ⟨r, hc⟩ := (build_ok h).2.2.1
  have hnode := checkConflicts_ok hc t ((reach_iff hfun _ _).2 hr)
  have d1 : m.first.den t none := (build_first_den h _ _).2 hn
  have d2 : m.first.den t (some tok) := (build_first_den h _ _).2 h1
  have d3 : m.follow.den t (some tok) := (build_follow_den h _ _).2 h2
  cases h1 with
  | term hm hx =>
    have hg := aget?_of_mem hfun hm
    cases hn with
    | eps hm' => have := aget?_of_mem hfun hm'; rw [hg] at this; cases this
    | seq hm' _ => have := aget?_of_mem hfun hm'; rw [hg] at this; cases this
    | alt hm' _ _ => have := aget?_of_mem hfun hm'; rw [hg] at this; cases this
  | alt hm hj _ =>
    exact (nodeConflict_alt_none (aget?_of_mem hfun hm) hnode).2 d1 tok ⟨d2, d3⟩
  | seq hm _ _ =>
    exact (nodeConflict_seq_none (aget?_of_mem hfun hm) hnode).2 (by simp) d1 tok ⟨d2, d3⟩

end Teleparse
