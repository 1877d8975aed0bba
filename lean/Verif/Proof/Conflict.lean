import Verif.Model.Metadata
import Verif.Proof.Follow
import Verif.Proof.LeftRec
/-
The conflict checks at one production.
-/
set_option linter.unusedSectionVars false
namespace Teleparse
variable {I : Type} {n : Nat} [DecidableEq I]

theorem TSet.full_iff (s : TSet n) (ty : Fin n) :
    (∀ x, TSet.Mem ⟨ty, x⟩ s) ↔ s.map.get ty = .any := by
  simp only [TSet.mem_def]
  constructor
  · intro h
    cases hg : s.map.get ty with
    | any => rfl
    | mat ls =>
      obtain ⟨x, hx⟩ := LitSet.exists_not_mem ls
      have := h x
      rw [hg] at this
      simp [LitSet.contains, hx] at this
  · intro h x
    rw [h]; rfl

theorem TSet.mem_clear (s : TSet n) (tok : TokenSrc n) :
    TSet.Mem tok s.clear ↔ ∀ x, TSet.Mem ⟨tok.ty, x⟩ s := by
  rw [TSet.full_iff, TSet.mem_def]
  simp only [TSet.clear, Map.get_map]
  cases s.map.get tok.ty <;> simp [LitSet.clear, LitSet.contains]

theorem TSet.union_full (s o : TSet n) (b : Bool) (ty : Fin n)
    (h : ∀ x, TSet.Mem ⟨ty, x⟩ (s.union o b).1) :
    (∀ x, TSet.Mem ⟨ty, x⟩ s) ∨ (∀ x, TSet.Mem ⟨ty, x⟩ o) := by
  rw [TSet.full_iff] at h ⊢
  rw [TSet.full_iff]
  simp only [TSet.union, Map.get_map, Map.get_zipWith] at h
  cases h1 : s.map.get ty <;> cases h2 : o.map.get ty <;> simp_all [LitSet.union]

/-! ### Unions -/

theorem altConflict_spec (first : Tbl I n) (t : I) (all : List I) (l : List I) :
    ∀ (done : List I) (check : TSet n), all = done ++ l →
    (∀ x, check.contains x = true ↔ ∃ d ∈ done, first.den d x) →
    match altConflict first t all l check with
    | none => ∀ pre b post, l = pre ++ b :: post → ∀ a ∈ done ++ pre,
        ∀ x, ¬ (first.den a x ∧ first.den b x)
    | some e => ∃ pre b post a x, l = pre ++ b :: post ∧ a ∈ done ++ pre ∧
        first.den a x ∧ first.den b x ∧ e = .firstFirst t a b := by
  have hint : ∀ (s : TSet n) (b : I), s.intersects (first.get b) true = true ↔
      ∃ x, s.contains x = true ∧ first.den b x := by
    intro s b
    rw [TSet.intersects_iff]
    constructor
    · rintro (⟨tok, h1, h2⟩ | ⟨_, h1, h2⟩)
      · exact ⟨some tok, h1, h2⟩
      · exact ⟨none, h1, h2⟩
    · rintro ⟨x, h1, h2⟩
      cases x with
      | none => right; exact ⟨rfl, h1, h2⟩
      | some tok => left; exact ⟨tok, h1, h2⟩
  induction l with
  | nil =>
    intro done check _ _
    simp [altConflict]
  | cons c l ih =>
    intro done check hall hcheck
    simp only [altConflict]
    have hstep : ∀ x, (check.union (first.get c) true).1.contains x = true ↔
        ∃ d ∈ done ++ [c], first.den d x := by
      intro x
      have : (check.union (first.get c) true).1.contains x = true ↔
          check.contains x = true ∨ first.den c x := by
        cases x with
        | none => rw [TSet.contains_none, TSet.union_e]; simp [TSet.contains, Tbl.den]
        | some tok => exact TSet.mem_union _ _ _ _
      rw [this, hcheck]
      simp [or_and_right, exists_or]
    have hrec := ih (done ++ [c]) _ (by rw [hall]; simp) hstep
    by_cases hi : check.intersects (first.get c) true = true
    · rw [if_pos hi]
      obtain ⟨x, hx1, hx2⟩ := (hint check c).1 hi
      obtain ⟨d, hd, hdx⟩ := (hcheck x).1 hx1
      have hfind : ∃ b ∈ done, all.find? (fun before =>
          (first.get c).intersects (first.get before) true) = some b ∧
          (first.get c).intersects (first.get b) true = true := by
        have hs : (done.find? (fun before =>
            (first.get c).intersects (first.get before) true)).isSome = true := by
          rw [List.find?_isSome]
          exact ⟨d, hd, (hint _ d).2 ⟨x, hx2, hdx⟩⟩
        obtain ⟨b, hb⟩ := Option.isSome_iff_exists.1 hs
        refine ⟨b, List.mem_of_find?_eq_some hb, ?_, (List.find?_some (p := fun before => (first.get c).intersects (first.get before) true) hb)⟩
        rw [hall, List.find?_append, hb]; rfl
      obtain ⟨b, hb, hf, hbi⟩ := hfind
      rw [hf]
      obtain ⟨y, hy1, hy2⟩ := (hint _ b).1 hbi
      exact ⟨[], c, l, b, y, rfl, by simpa using hb, hy2, hy1, rfl⟩
    · rw [if_neg hi]
      cases hr : altConflict first t all l (check.union (first.get c) true).1 with
      | none =>
        rw [hr] at hrec
        intro pre b post he a ha x hx
        cases pre with
        | nil =>
          simp at he ha
          obtain ⟨rfl, rfl⟩ := he
          exact hi ((hint _ _).2 ⟨x, (hcheck x).2 ⟨a, ha, hx.1⟩, hx.2⟩)
        | cons c' pre =>
          simp at he
          obtain ⟨rfl, rfl⟩ := he
          exact hrec pre b post rfl a (by simpa using ha) x hx
      | some e =>
        rw [hr] at hrec
        obtain ⟨pre, b, post, a, x, he, ha, h1, h2, h3⟩ := hrec
        exact ⟨c :: pre, b, post, a, x, by rw [he]; rfl, by simpa using ha, h1, h2, h3⟩

/-! ### Sequences -/

theorem seqConflict_none (first : Tbl I n) (t : I) (l : List I) : ∀ (cur : I) (check : TSet n),
    seqConflict first t cur check l = none →
    ∀ pre b post, l = pre ++ b :: post → (∀ k ∈ pre, first.den k none) →
    ∀ tok, ¬ (TSet.Mem tok check ∧ first.den b (some tok)) := by
  induction l with
  | nil => intro cur check _ pre b post he; simp at he
  | cons c l ih =>
    intro cur check h pre b post he hn tok hx
    simp only [seqConflict] at h
    split at h
    · cases h
    · rename_i hi
      rw [TSet.intersects_iff] at hi
      cases pre with
      | nil =>
        simp at he
        obtain ⟨rfl, rfl⟩ := he
        exact hi (.inl ⟨tok, hx.1, hx.2⟩)
      | cons c' pre =>
        simp at he
        obtain ⟨rfl, rfl⟩ := he
        have hc : (first.get c).containsE = true := hn c (by simp)
        rw [if_pos hc] at h
        exact ih _ _ h pre b post rfl (fun k hk => hn k (by simp [hk])) tok
          ⟨(TSet.mem_union _ _ _ _).2 (.inl hx.1), hx.2⟩

theorem seqConflict_none' (first : Tbl I n) (t : I) (pre : List I) : ∀ (cur : I) (check : TSet n)
    (a : I) (mid : List I) (b : I) (post : List I),
    seqConflict first t cur check (pre ++ a :: (mid ++ b :: post)) = none →
    first.den a none → (∀ k ∈ mid, first.den k none) →
    ∀ tok, ¬ (first.den a (some tok) ∧ first.den b (some tok)) := by
  induction pre with
  | nil =>
    intro cur check a mid b post h ha hmid tok hx
    simp only [List.nil_append, seqConflict] at h
    split at h
    · cases h
    · have ha' : (first.get a).containsE = true := ha
      rw [if_pos ha'] at h
      exact seqConflict_none first t _ _ _ h mid b post rfl hmid tok
        ⟨(TSet.mem_union _ _ _ _).2 (.inr hx.1), hx.2⟩
  | cons c pre ih =>
    intro cur check a mid b post h ha hmid tok hx
    simp only [List.cons_append, seqConflict] at h
    split at h
    · cases h
    · split at h
      · exact ih _ _ a mid b post h ha hmid tok hx
      · exact ih _ _ a mid b post h ha hmid tok hx

/-- Where a reported conflict comes from. The second disjuncts are due to `clear` leaving the
literal-less terminals. -/
theorem seqConflict_some (first : Tbl I n) (t : I) (l : List I) : ∀ (cur : I) (check : TSet n) e,
    seqConflict first t cur check l = some e →
    ∃ pre b post tok, l = pre ++ b :: post ∧ first.den b (some tok) ∧
      ((TSet.Mem tok check ∧ ((∀ k ∈ pre, first.den k none) ∨ ∀ x, TSet.Mem ⟨tok.ty, x⟩ check)) ∨
       ∃ pre1 a mid, pre = pre1 ++ a :: mid ∧ first.den a none ∧ first.den a (some tok) ∧
         ((∀ k ∈ mid, first.den k none) ∨ ∀ x, first.den a (some ⟨tok.ty, x⟩))) := by
  induction l with
  | nil => intro cur check e h; simp [seqConflict] at h
  | cons c l ih =>
    intro cur check e h
    simp only [seqConflict] at h
    split at h
    · rename_i hi
      rw [TSet.intersects_iff] at hi
      rcases hi with ⟨tok, h1, h2⟩ | ⟨h1, _⟩
      · exact ⟨[], c, l, tok, rfl, h2, .inl ⟨h1, .inl (by simp)⟩⟩
      · cases h1
    · split at h
      · rename_i hc
        obtain ⟨pre, b, post, tok, he, hb, hcase⟩ := ih _ _ _ h
        refine ⟨c :: pre, b, post, tok, by rw [he]; rfl, hb, ?_⟩
        rcases hcase with ⟨hm, hw⟩ | ⟨pre1, a, mid, hp, h1, h2, h3⟩
        · rcases hw with hw | hw
          · rcases (TSet.mem_union _ _ _ _).1 hm with hm | hm
            · left
              refine ⟨hm, .inl ?_⟩
              intro k hk
              rcases List.mem_cons.1 hk with rfl | hk
              · exact hc
              · exact hw k hk
            · right; exact ⟨[], c, pre, rfl, hc, hm, .inl hw⟩
          · rcases TSet.union_full _ _ _ _ hw with hw | hw
            · left; exact ⟨hw tok.src, .inr hw⟩
            · right; exact ⟨[], c, pre, rfl, hc, hw tok.src, .inr hw⟩
        · right; exact ⟨c :: pre1, a, mid, by rw [hp]; rfl, h1, h2, h3⟩
      · obtain ⟨pre, b, post, tok, he, hb, hcase⟩ := ih _ _ _ h
        refine ⟨c :: pre, b, post, tok, by rw [he]; rfl, hb, ?_⟩
        rcases hcase with ⟨hm, _⟩ | ⟨pre1, a, mid, hp, h1, h2, h3⟩
        · left
          have := (TSet.mem_clear _ _).1 hm
          exact ⟨this tok.src, .inr this⟩
        · right; exact ⟨c :: pre1, a, mid, by rw [hp]; rfl, h1, h2, h3⟩

theorem seqConflict_kind (first : Tbl I n) (t : I) (l : List I) : ∀ (cur : I) (check : TSet n) e,
    seqConflict first t cur check l = some e → ∃ a b, e = .firstFollowSeq t a b := by
  induction l with
  | nil => intro cur check e h; simp [seqConflict] at h
  | cons c l ih =>
    intro cur check e h
    simp only [seqConflict] at h
    split at h
    · simp at h; subst h; exact ⟨_, _, rfl⟩
    · split at h <;> exact ih _ _ _ h

theorem selfConflict_none (first follow : Tbl I n) (t : I) : selfConflict first follow t = none ↔
    (first.den t none → ∀ tok, ¬ (first.den t (some tok) ∧ follow.den t (some tok))) := by
  simp only [selfConflict]
  by_cases he : first.den t none
  · have he' : (first.get t).containsE = true := he
    simp only [he', Bool.not_true, Bool.false_eq_true, if_false]
    constructor
    · intro h _ tok hx
      split at h
      · cases h
      · rename_i hi
        exact hi ((TSet.intersects_iff _ _ _).2 (.inl ⟨tok, hx.2, hx.1⟩))
    · intro h
      rw [if_neg]
      intro hi
      rcases (TSet.intersects_iff _ _ _).1 hi with ⟨tok, h1, h2⟩ | ⟨h1, _⟩
      · exact h he tok ⟨h2, h1⟩
      · cases h1
  · have he' : (first.get t).containsE = false := by simpa [Tbl.den, TSet.contains, TSet.containsE] using he
    simp [he', he]

theorem selfConflict_kind (first follow : Tbl I n) (t : I) (e : GErr I)
    (h : selfConflict first follow t = some e) : e = .firstFollow t := by
  simp only [selfConflict] at h
  split at h
  · cases h
  · split at h
    · simpa using h.symm
    · cases h

/-! ### The traversal -/

theorem partsOf_iff {G : Grammar I n} (hfun : G.Functional) (i j : I) :
    j ∈ G.partsOf i ↔ PartOf G i j := by
  unfold Grammar.partsOf PartOf
  constructor
  · intro h
    split at h
    · rename_i r hr; exact ⟨r, mem_of_aget? hr, h⟩
    · cases h
  · rintro ⟨r, hr, hj⟩
    rw [aget?_of_mem hfun hr]; exact hj

theorem reach_iff {G : Grammar I n} (hfun : G.Functional) (root i : I) :
    Reach G.partsOf root i ↔ Reachable G root i := by
  constructor
  · intro h
    induction h with
    | refl => exact .refl
    | step _ hj ih => exact .step ih ((partsOf_iff hfun _ _).1 hj)
  · intro h
    induction h with
    | refl => exact .refl
    | step _ hj ih => exact .step ih ((partsOf_iff hfun _ _).2 hj)

theorem checkConflicts_ok {G : Grammar I n} {first follow : Tbl I n} {fuel : Nat} {root : I}
    {r : List I × Unit} (h : checkConflicts G first follow fuel root = some (.ok r)) :
    ∀ t, Reach G.partsOf root t → nodeConflict G first follow t = none := by
  obtain ⟨seen, u⟩ := r
  have h1 := (dfs_seen _ _ _ _ _ _ h).exact.2
  have h2 := dfs_inv (fun seen (_ : Unit) => ∀ i ∈ seen, nodeConflict G first follow i = none)
    (by
      intro t seen s s' _ hp hP i hi
      rcases List.mem_cons.1 hi with rfl | hi
      · cases hn : nodeConflict G first follow i with
        | none => rfl
        | some e => rw [hn] at hp; cases hp
      · exact hP i hi)
    (by intro t i c seen s _ hP; exact hP) fuel _ _ _ _ _ h (by intro i hi; cases hi)
  intro t ht
  exact h2 t ((h1 t).2 ht)

theorem checkConflicts_error {G : Grammar I n} {first follow : Tbl I n} {fuel : Nat} {root : I}
    {e : GErr I} (h : checkConflicts G first follow fuel root = some (.error e)) :
    ∃ t, Reach G.partsOf root t ∧ nodeConflict G first follow t = some e := by
  obtain ⟨i, s, hr, hp⟩ := dfs_error _ _ _ _ _ h
  refine ⟨i, hr, ?_⟩
  cases hn : nodeConflict G first follow i with
  | none => rw [hn] at hp; cases hp
  | some e' => rw [hn] at hp; simp at hp; rw [hp]

/-! ### `build` -/

theorem build_ok {G : Grammar I n} {fuel : Nat} {root : I} {m : Metadata I n}
    (h : build fuel G root = some (.ok m)) :
    buildFirst fuel G = some m.first ∧ buildFollow fuel m.first G root = some m.follow ∧
    (∃ r, checkConflicts G m.first m.follow fuel root = some (.ok r)) ∧
    ∃ seen, buildJump G m.first fuel root = some (.ok (seen, m.jump)) := by
  simp only [build] at h
  split at h
  · cases h
  · rename_i first hfirst
    split at h
    · cases h
    · cases h
    · split at h
      · cases h
      · rename_i follow hfollow
        split at h
        · cases h
        · cases h
        · rename_i r hr
          split at h
          · rename_i seen jump hj
            simp at h; subst h
            exact ⟨hfirst, hfollow, ⟨r, hr⟩, seen, hj⟩
          · cases h

theorem build_error {G : Grammar I n} {fuel : Nat} {root : I} {e : GErr I}
    (h : build fuel G root = some (.error e)) :
    ∃ first follow, buildFirst fuel G = some first ∧ buildFollow fuel first G root = some follow ∧
      checkConflicts G first follow fuel root = some (.error e) := by
  simp only [build] at h
  split at h
  · cases h
  · rename_i first hfirst
    split at h
    · cases h
    · rename_i e' he
      obtain ⟨s', hs, _⟩ := checkLeftRecursive_good G first fuel _ _ _ (fun i h => h) he
      cases hs
    · split at h
      · cases h
      · rename_i follow hfollow
        split at h
        · cases h
        · rename_i e' he
          simp at h; subst h
          exact ⟨first, follow, hfirst, hfollow, he⟩
        · split at h
          · cases h
          · cases h

end Teleparse
