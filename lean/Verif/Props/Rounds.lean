import Verif.Proof.Rounds
import Verif.Model.Syntax
/-
C115: how much work the grammar analysis is. A round of the FIRST (FOLLOW) loop looks at every relation once; the rounds
are what the fuel of `buildFirst` and `buildFollow` counts.
-/
set_option linter.unusedSectionVars false
namespace Teleparse
variable {I : Type} {n m : Nat} [DecidableEq I]

/-- FIRST takes at most two rounds per production, and one more. -/
theorem C115_first (G : Grammar I n) : ∃ first, ∀ fuel ≥ 2 * G.length + 1, buildFirst fuel G = some first := by
  obtain ⟨first, h⟩ := buildFirst_rounds G
  exact ⟨first, fun fuel hf => buildFirst_mono h hf⟩

theorem registered_closed {ruleOf : I → Rule I n} {fuel : Nat} {root : I} {G : Grammar I n}
    (h : registerFrom ruleOf fuel root = some G) :
    root ∈ G.map Prod.fst ∧ ∀ i r, (i, r) ∈ G → ∀ j ∈ r.parts, j ∈ G.map Prod.fst := by
  have hs := (registerFrom_spec h).2
  refine ⟨List.mem_map.2 ⟨_, (hs root _).2 ⟨.refl, rfl⟩, rfl⟩, fun i r hm j hj => ?_⟩
  obtain ⟨hr, rfl⟩ := (hs i r).1 hm
  exact List.mem_map.2 ⟨_, (hs j _).2 ⟨hr.step hj, rfl⟩, rfl⟩

/-- FOLLOW takes at most one round per registered production, and one more. -/
theorem C115_follow (ruleOf : I → Rule I n) (fuel : Nat) (root : I) (G : Grammar I n)
    (h : registerFrom ruleOf fuel root = some G) (f : Nat) (first : Tbl I n) (hf : buildFirst f G = some first) :
    ∃ follow, ∀ fuel ≥ G.length + 1, buildFollow fuel first G root = some follow := by
  obtain ⟨h1, h2⟩ := registered_closed h
  obtain ⟨follow, hb⟩ := buildFollow_rounds (buildFirst_within hf) h1 h2
  rw [List.length_map] at hb
  exact ⟨follow, fun fuel hf => buildFollow_mono hb hf⟩

/-- Registration recurses no deeper than the number of productions it finds. -/
theorem C115_register (ruleOf : I → Rule I n) (fuel : Nat) (root : I) (G : Grammar I n)
    (h : registerFrom ruleOf fuel root = some G) : ∀ fuel ≥ G.length + 1, registerFrom ruleOf fuel root = some G := by
  obtain ⟨h1, h2⟩ := registered_closed h
  have hs := (registerFrom_spec h).2
  obtain ⟨G', hG'⟩ := registerFrom_total (ruleOf := ruleOf) (G.map Prod.fst) (fun i hi j hj => by
    obtain ⟨⟨i', r⟩, hp, rfl⟩ := List.mem_map.1 hi
    obtain ⟨_, rfl⟩ := (hs i' r).1 hp
    exact h2 _ _ hp j hj) h1 (fuel := G.length + 1) (by simp)
  have h3 := registerFrom_mono (Nat.le_max_left fuel (G.length + 1)) h
  have h4 := registerFrom_mono (Nat.le_max_right fuel (G.length + 1)) hG'
  rw [h3] at h4
  cases h4
  exact fun f hf => registerFrom_mono hf hG'

/-- The whole analysis: the rounds of both loops and the depth of every recursion are at most twice the number of
productions, plus one. -/
theorem C115_build (ruleOf : I → Rule I n) (fuel : Nat) (root : I) (G : Grammar I n)
    (h : registerFrom ruleOf fuel root = some G) :
    ∃ r, ∀ fuel ≥ 2 * G.length + 1, buildFor ruleOf fuel root = some r := by
  obtain ⟨hroot, hparts⟩ := registered_closed h
  obtain ⟨first, hf⟩ := C115_first G
  obtain ⟨follow, hw⟩ := C115_follow ruleOf fuel root G h _ first (hf _ (Nat.le_refl _))
  have hU : ∀ i ∈ G.map Prod.fst, ∀ j ∈ G.partsOf i, j ∈ G.map Prod.fst := by
    intro i _ j hj
    unfold Grammar.partsOf at hj
    split at hj
    · rename_i r hr; exact hparts i r (mem_of_aget? hr) j hj
    · cases hj
  suffices hb : ∃ r, build (2 * G.length + 1) G root = some r by
    obtain ⟨r, hb⟩ := hb
    refine ⟨r, fun fuel' hle => ?_⟩
    unfold buildFor
    rw [C115_register ruleOf fuel root G h fuel' (by omega)]
    exact build_mono hle hb
  have hlt : (G.map Prod.fst).length < 2 * G.length + 1 := by rw [List.length_map]; omega
  have hun : unseen (G.map Prod.fst) [] < 2 * G.length + 1 := by
    unfold unseen
    exact Nat.lt_of_le_of_lt (List.length_filter_le _ _) hlt
  obtain ⟨s, hs⟩ := checkLeftRecursive_total' G first (G.map Prod.fst) hU hroot hlt
  obtain ⟨r4, h4⟩ : ∃ r, checkConflicts G first follow (2 * G.length + 1) root = some r :=
    dfs_total _ hU _ root [] () hroot hun
  obtain ⟨r5, h5⟩ : ∃ r, buildJump G first (2 * G.length + 1) root = some r :=
    dfs_total _ hU _ root [] [] hroot hun
  simp only [build, hf _ (Nat.le_refl _), hs, hw (2 * G.length + 1) (by omega), h4]
  cases r4 with
  | error e => exact ⟨_, rfl⟩
  | ok x =>
    simp only [h5]
    cases r5 with
    | error e => cases e
    | ok y => exact ⟨_, rfl⟩

/-- The same for the types of a program. -/
theorem C115_schema (S : Schema m n) (root : Ty m n) (fuel : Nat) (G : Grammar (PId m n) n)
    (h : registerFrom S.rule fuel root.pid = some G) :
    ∃ r, ∀ fuel ≥ 2 * G.length + 1, S.metadata fuel root = some r :=
  C115_build S.rule fuel root.pid G h

/-- The productions and their parts, as written. -/
def Grammar.size (G : Grammar I n) : Nat := (G.map fun p => 1 + p.2.parts.length).sum

theorem firstRels_length (x : I) (r : Rule I n) : (firstRels x r).length ≤ 2 * (1 + r.parts.length) := by
  have hseq : ∀ (l : List I) set, (firstSequenceFrom (n := n) x set l).length = l.length + 1 := by
    intro l
    induction l with
    | nil => intro set; rfl
    | cons y l ih => intro set; simp [firstSequenceFrom, ih]
  cases r with
  | eps => simp [firstRels]; omega
  | term t => simp [firstRels]; omega
  | seq l => simp only [firstRels, hseq, Rule.parts]; omega
  | alt l =>
    have : (firstRels (n := n) x (.alt l)).length = 2 * l.length := by
      simp only [firstRels, firstUnion]
      induction l with
      | nil => rfl
      | cons y l ih => simp only [List.flatMap_cons, List.length_append, List.length_cons, List.length_nil, ih]; omega
    rw [this]; simp only [Rule.parts]; omega

theorem followRels_length (x : I) (r : Rule I n) : (followRels x r).length ≤ 2 * (1 + r.parts.length) := by
  have htail : ∀ (l : List I) set, (followTails x set l).length = l.length := by
    intro l
    induction l with
    | nil => intro set; rfl
    | cons y l ih => intro set; simp [followTails, ih]
  have hwin : ∀ l : List I, (windows2 l).length ≤ l.length := by
    intro l
    fun_induction windows2 l with
    | case1 a b rest ih => simp only [List.length_cons] at ih ⊢; omega
    | case2 => simp
  cases r with
  | eps => simp [followRels]
  | term t => simp [followRels]
  | seq l =>
    have := hwin l
    simp only [followRels, followSequence, List.length_append, htail, List.length_reverse, List.length_map, Rule.parts]
    omega
  | alt l => simp only [followRels, followUnion, List.length_map, Rule.parts]; omega

/-- In a round no more than two relations are looked at for each production and each part. -/
theorem C115_relations (G : Grammar I n) : (G.flatMap fun p => firstRels p.1 p.2).length ≤ 2 * G.size ∧
    (G.flatMap fun p => followRels p.1 p.2).length ≤ 2 * G.size := by
  unfold Grammar.size
  induction G with
  | nil => simp
  | cons p G ih =>
    have h1 := firstRels_length p.1 p.2
    have h2 := followRels_length p.1 p.2
    simp only [List.flatMap_cons, List.length_append, List.map_cons, List.sum_cons]
    omega

/-! ### The order of the bound cannot be improved -/

/-- `0 = 1; 1 = 2; ..; k = a` -/
def chainRule (k i : Nat) : Rule Nat 1 := if i < k then .seq [i + 1] else .term ⟨0, none⟩
def chainG (k : Nat) : Grammar Nat 1 := (List.range (k + 1)).map fun i => (i, chainRule k i)

/-- What is known in the middle of round `j + 1`, when the relations of the productions before `a` have been looked at. -/
def chainQ (k j a : Nat) : Fam Nat 1 := fun i x => x ≠ none ∧ (i < a → k ≤ i + j) ∧ (a ≤ i → k + 1 ≤ i + j)

theorem chainQ_mono (k j : Nat) {a b : Nat} (h : a ≤ b) : Fam.le (chainQ k j a) (chainQ k j b) := by
  intro i x ⟨h1, h2, h3⟩
  refine ⟨h1, fun hi => ?_, fun hi => h3 (by omega)⟩
  by_cases hia : i < a
  · exact h2 hia
  · have := h3 (by omega); omega

/-- A relation of the chain, at any time. -/
def ChainOK (k j : Nat) (r : FirstRel Nat 1) : Prop := r.target ≤ k ∧ ∀ j' ≥ j, r.Sat (chainQ k j' (r.target + 1))

theorem chain_pass (k j : Nat) (rs : List (FirstRel Nat 1)) : ∀ (tbl : Tbl Nat 1) (a : Nat), a ≤ k + 1 →
    Fam.le tbl.den (chainQ k j a) → rs.Pairwise (fun r r' => r.target ≤ r'.target) →
    (∀ r ∈ rs, a ≤ r.target + 1 ∧ ChainOK k j r) →
    Fam.le (firstPass rs tbl).2.1.den (chainQ k j (k + 1)) ∧
    ((firstPass rs tbl).1.map FirstRel.target).Sublist (rs.map FirstRel.target) ∧
    ∀ r' ∈ (firstPass rs tbl).1, ∃ r ∈ rs, r'.target = r.target ∧
      ∀ P, Fam.le (firstPass rs tbl).2.1.den P → r.Sat P → r'.Sat P := by
  induction rs with
  | nil =>
    intro tbl a ha h _ _
    exact ⟨fun i x hx => chainQ_mono k j ha i x (h i x hx), by simp [firstPass], by simp [firstPass]⟩
  | cons r rs ih =>
    intro tbl a ha h hp hr
    have g := r.process_good tbl
    have ht : (r.process tbl).rel.target = r.target := by
      have : ∀ (r : FirstRel Nat 1) tbl, (r.process tbl).rel.target = r.target := by
        intro r
        induction r with
        | insert t ins => intro tbl; rfl
        | unionMinusEpsilon a b => intro tbl; rfl
        | ifEpsilonInAll set inner ih =>
          intro tbl
          simp only [FirstRel.process]
          split
          · exact ih tbl
          · rfl
      exact this r tbl
    obtain ⟨hr1, hr2, hr3⟩ := hr r (by simp)
    have hs := (g.sound _ (fun i x hx => chainQ_mono k j hr1 i x (h i x hx)) (hr3 j (Nat.le_refl _))).1
    simp only [firstPass]
    generalize r.process tbl = s at g ht hs ⊢
    obtain ⟨p1, p2, p3⟩ := ih s.tbl (r.target + 1) (Nat.succ_le_succ hr2) hs (List.pairwise_cons.1 hp).2
      (fun r' h' => ⟨Nat.succ_le_succ ((List.pairwise_cons.1 hp).1 r' h'), (hr r' (by simp [h'])).2⟩)
    have gp := (firstPass_good rs s.tbl).mono
    generalize firstPass rs s.tbl = p at p1 p2 p3 gp ⊢
    refine ⟨p1, ?_, ?_⟩
    · split
      · simp only [List.map_cons, ht]; exact p2.cons_cons _
      · exact p2.cons _
    · intro r' h'
      have hrest : r' ∈ p.1 → ∃ r'' ∈ r :: rs, r'.target = r''.target ∧
          ∀ P, Fam.le p.2.1.den P → r''.Sat P → r'.Sat P := by
        intro h'
        obtain ⟨r'', h1, h2⟩ := p3 r' h'
        exact ⟨r'', List.mem_cons_of_mem _ h1, h2⟩
      split at h'
      · rcases List.mem_cons.1 h' with rfl | h'
        · refine ⟨r, List.mem_cons_self .., ht, fun P hP hS => (g.sound P ?_ hS).2⟩
          intro i x hx
          exact hP i x (gp i x (g.mono i x hx))
        · exact hrest h'
      · exact hrest h'

theorem chain_run (k j : Nat) : ∀ (rs : List (FirstRel Nat 1)) (tbl : Tbl Nat 1) (d : Nat),
    Fam.le tbl.den (chainQ k d 0) → rs.Pairwise (fun r r' => r.target ≤ r'.target) → (∀ r ∈ rs, ChainOK k d r) →
    Fam.le (firstRun rs tbl j).2.den (chainQ k (d + j) 0) := by
  induction j with
  | zero => intro rs tbl d h _ _; exact h
  | succ j ih =>
    intro rs tbl d h hp hr
    obtain ⟨p1, p2, p3⟩ := chain_pass k d rs tbl 0 (Nat.zero_le _) h hp (fun r h => ⟨Nat.zero_le _, hr r h⟩)
    have hnext : ∀ d' ≥ d + 1, ∀ a, Fam.le (firstPass rs tbl).2.1.den (chainQ k d' a) := by
      intro d' hd a i x hx
      obtain ⟨h1, h2, h3⟩ := p1 i x hx
      refine ⟨h1, fun _ => ?_, fun _ => ?_⟩
      · by_cases hi : i ≤ k
        · have := h2 (by omega); omega
        · omega
      · by_cases hi : i ≤ k
        · have := h2 (by omega); omega
        · omega
    have := ih (firstPass rs tbl).1 (firstPass rs tbl).2.1 (d + 1) (hnext _ (Nat.le_refl _) _)
      (List.pairwise_map.1 ((List.pairwise_map.2 hp).sublist p2)) (by
        intro r' h'
        obtain ⟨r, hm, ht, hS⟩ := p3 r' h'
        refine ⟨ht ▸ (hr r hm).1, fun j' hj' => hS _ (hnext _ hj' _) ?_⟩
        rw [ht]; exact (hr r hm).2 j' (by omega))
    rw [show d + (j + 1) = d + 1 + j by omega]
    exact this

/-- For the chain of `k + 1` productions as many rounds are not enough. -/
theorem C115_tight (k : Nat) : (chainG k).length = k + 1 ∧ buildFirst (k + 1) (chainG k) = none := by
  refine ⟨by simp [chainG], ?_⟩
  let rs : List (FirstRel Nat 1) := (chainG k).flatMap fun p => firstRels p.1 p.2
  have hblock : ∀ i r, r ∈ firstRels i (chainRule k i) → r.target = i := by
    intro i r hr
    unfold chainRule at hr
    split at hr
    · simp only [firstRels, firstSequenceFrom, List.mem_cons, List.not_mem_nil, or_false] at hr
      rcases hr with rfl | rfl <;> rfl
    · simp only [firstRels, List.mem_cons, List.not_mem_nil, or_false] at hr
      subst hr; rfl
  have hmem : ∀ r ∈ rs, ∃ i ≤ k, r ∈ firstRels i (chainRule k i) := by
    intro r hr
    obtain ⟨p, hp, hr⟩ := List.mem_flatMap.1 hr
    obtain ⟨i, hi, rfl⟩ := List.mem_map.1 hp
    exact ⟨i, by have := List.mem_range.1 hi; omega, hr⟩
  have hpair : rs.Pairwise (fun r r' => r.target ≤ r'.target) := by
    rw [List.pairwise_flatMap]
    constructor
    · intro p hp
      obtain ⟨i, _, rfl⟩ := List.mem_map.1 hp
      refine (List.pairwise_iff_forall_sublist).2 ?_
      intro a b hab
      have ha : a ∈ firstRels i (chainRule k i) := hab.subset (by simp)
      have hb : b ∈ firstRels i (chainRule k i) := hab.subset (by simp)
      rw [hblock i a ha, hblock i b hb]; exact Nat.le_refl _
    · unfold chainG
      rw [List.pairwise_map]
      refine List.pairwise_lt_range.imp ?_
      intro i i' hlt a ha b hb
      rw [hblock i a ha, hblock i' b hb]; exact Nat.le_of_lt hlt
  have hok : ∀ r ∈ rs, ChainOK k 0 r := by
    intro r hr
    obtain ⟨i, hi, hr⟩ := hmem r hr
    have ht := hblock i r hr
    refine ⟨by omega, fun j' _ => ?_⟩
    rw [ht]
    unfold chainRule at hr
    split at hr
    · simp only [firstRels, firstSequenceFrom, List.mem_cons, List.not_mem_nil, or_false] at hr
      rcases hr with rfl | rfl
      · intro tok ⟨_, h2, h3⟩
        refine ⟨by simp, fun _ => ?_, fun h => absurd h (by omega)⟩
        have := h3 (Nat.le_refl _); omega
      · intro hs
        exact absurd rfl (hs (i + 1) (by simp [bsetInsert])).1
    · simp only [firstRels, List.mem_cons, List.not_mem_nil, or_false] at hr
      subst hr
      intro x hx
      refine ⟨?_, fun _ => by omega, fun h => absurd h (by omega)⟩
      rintro rfl; exact hx
  have hup : ∀ j, Fam.le (firstRun rs [] j).2.den (chainQ k j 0) := by
    intro j
    have := chain_run k j rs [] 0 (fun i x h => absurd h (Tbl.den_empty i x)) hpair hok
    simpa using this
  have hlow : ∀ j, j ≤ k → (firstRun rs [] (j + 1)).2.den (k - j) (some ⟨0, []⟩) := by
    intro j
    induction j with
    | zero =>
      intro _
      have h1 : FirstRel.insert k (.token 0 none) ∈ rs := by
        refine List.mem_flatMap.2 ⟨_, List.mem_map.2 ⟨k, by simp, rfl⟩, ?_⟩
        simp [chainRule, firstRels]
      exact firstRun_imm 0 rs [] _ h1 (some ⟨0, []⟩) ⟨rfl, by simp⟩
    | succ j ih =>
      intro hj
      have h1 : FirstRel.unionMinusEpsilon (k - (j + 1)) (k - (j + 1) + 1) ∈ rs := by
        refine List.mem_flatMap.2 ⟨_, List.mem_map.2 ⟨k - (j + 1), List.mem_range.2 (by omega), rfl⟩, ?_⟩
        unfold chainRule
        rw [if_pos (by omega)]
        simp [firstRels, firstSequenceFrom, FirstRel.mkIf]
      refine firstRun_imm (j + 1) rs [] _ h1 ⟨0, []⟩ ?_
      rw [show k - (j + 1) + 1 = k - j by omega]
      exact ih (by omega)
  have hchanged : ∀ j ≤ k, (firstPass (firstRun rs [] j).1 (firstRun rs [] j).2).2.2 = true := by
    intro j hj
    cases hc : (firstPass (firstRun rs [] j).1 (firstRun rs [] j).2).2.2 with
    | true => rfl
    | false =>
      exfalso
      have h1 := hlow j hj
      rw [firstRun_succ] at h1
      have h2 := ((firstPass_good _ _).stable hc).1 (k - j)
      have h3 : (firstRun rs [] j).2.den (k - j) (some ⟨0, []⟩) := by
        unfold Tbl.den at h1 ⊢
        rw [← h2]; exact h1
      obtain ⟨_, h4, h5⟩ := hup j _ _ h3
      have := h5 (Nat.zero_le _)
      omega
  cases hb : buildFirst (k + 1) (chainG k) with
  | none => rfl
  | some t =>
    exfalso
    have : ∀ (f : Nat) (rs : List (FirstRel Nat 1)) (tbl : Tbl Nat 1), firstLoop f rs tbl = some t →
        ∃ j < f, (firstPass (firstRun rs tbl j).1 (firstRun rs tbl j).2).2.2 = false := by
      intro f
      induction f with
      | zero => intro rs tbl h; cases h
      | succ f ih =>
        intro rs tbl h
        simp only [firstLoop] at h
        split at h
        · obtain ⟨j, hj, hc⟩ := ih _ _ h
          exact ⟨j + 1, by omega, hc⟩
        · rename_i hc
          exact ⟨0, by omega, by simpa [firstRun] using hc⟩
    obtain ⟨j, hj, hc⟩ := this _ _ _ hb
    rw [hchanged j (by omega)] at hc
    cases hc

example : registerFrom (chainRule 3) 5 0 = some (chainG 3) := by decide

/-- A list of words separated by commas, `List = Ident Tail; Tail = "," List | ε`: six productions. -/
def roundsList : Nat → Rule Nat 2
  | 0 => .seq [1, 2]
  | 1 => .term ⟨0, none⟩
  | 2 => .alt [3, 5]
  | 3 => .seq [4, 0]
  | 4 => .term ⟨1, some [44]⟩
  | _ => .eps

example : ∃ G r, registerFrom roundsList 7 0 = some G ∧ G.length = 6 ∧ buildFor roundsList 13 0 = some r := by
  have h : registerFrom roundsList 7 0 = some
      [(0, .seq [1, 2]), (1, .term ⟨0, none⟩), (2, .alt [3, 5]), (3, .seq [4, 0]), (4, .term ⟨1, some [44]⟩), (5, .eps)] := by
    decide
  obtain ⟨r, hr⟩ := C115_build roundsList 7 0 _ h
  exact ⟨_, r, h, rfl, hr 13 (by decide)⟩

end Teleparse
