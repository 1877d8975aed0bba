import Verif.Proof.Metadata
/-
How many rounds the FIRST and FOLLOW loops make: after a round that adds a given token (or epsilon) nowhere, no later
round adds it, once epsilon is settled. So every token is settled after as many rounds as there are productions.
-/
set_option linter.unusedSectionVars false
namespace Teleparse
variable {I : Type} {n : Nat} [DecidableEq I]

/-! ### Counting -/

/-- A bounded sequence that never decreases does not increase at some step. -/
theorem exists_flat {c : Nat → Nat} {N : Nat} (hm : ∀ j, c j ≤ c (j + 1)) (hN : ∀ j, c j ≤ N) (k : Nat) :
    ∃ j, k ≤ j ∧ j ≤ k + N ∧ c (j + 1) = c j := by
  apply Classical.byContradiction
  intro h
  have h1 : ∀ i, i ≤ N + 1 → i ≤ c (k + i) := by
    intro i
    induction i with
    | zero => intro _; omega
    | succ i ih =>
      intro hi
      have h2 := ih (by omega)
      have h3 := hm (k + i)
      have h4 : c (k + i + 1) ≠ c (k + i) := fun e => h ⟨k + i, by omega, by omega, e⟩
      rw [← Nat.add_assoc]; omega
  have := h1 (N + 1) (Nat.le_refl _)
  have := hN (k + (N + 1))
  omega

/-- The productions whose set has `x`. -/
def Tbl.having (Is : List I) (x : Option (TokenSrc n)) (t : Tbl I n) : List I :=
  Is.filter fun i => (t.get i).contains x

theorem Tbl.having_flat {Is : List I} {x : Option (TokenSrc n)} {t t' : Tbl I n} (hle : Fam.le t.den t'.den)
    (hin : ∀ i x, t'.den i x → i ∈ Is) (h : (t'.having Is x).length = (t.having Is x).length) :
    ∀ i, t'.den i x → t.den i x := by
  intro i hi
  apply Classical.byContradiction
  intro hn
  have := filter_length_lt (p := fun i => (t.get i).contains x) (q := fun i => (t'.get i).contains x) (l := Is)
    (fun j _ hj => hle j x hj) (a := i) (hin i x hi) (by simpa [Tbl.den] using hn) hi
  unfold Tbl.having at h
  omega

/-- Tables that only grow, with entries for `Is` only: between any `k` and `k + |Is|` there is a step at which `x` is
added nowhere. -/
theorem exists_settled {T : Nat → Tbl I n} {Is : List I} (hm : ∀ j, Fam.le (T j).den (T (j + 1)).den)
    (hin : ∀ j i x, (T j).den i x → i ∈ Is) (k : Nat) (x : Option (TokenSrc n)) :
    ∃ j, k ≤ j ∧ j ≤ k + Is.length ∧ ∀ i, (T (j + 1)).den i x → (T j).den i x := by
  obtain ⟨j, h1, h2, h3⟩ := exists_flat (c := fun j => ((T j).having Is x).length) (N := Is.length)
    (fun j => filter_length_le (fun i _ h => hm j i x h)) (fun j => List.length_filter_le _ _) k
  exact ⟨j, h1, h2, Tbl.having_flat (hm j) (hin (j + 1)) h3⟩

theorem chain_le {T : Nat → Tbl I n} (hm : ∀ j, Fam.le (T j).den (T (j + 1)).den) {a b : Nat} (h : a ≤ b) :
    Fam.le (T a).den (T b).den := by
  induction h with
  | refl => intro i x h; exact h
  | step _ ih => intro i x h; exact hm _ _ _ (ih i x h)

/-! ### FIRST -/

/-- The relation holds if the premises are looked up in `P` and the conclusion in `Q`. -/
def FirstRel.Imm (P Q : Fam I n) : FirstRel I n → Prop
  | .insert t ins => ∀ x, ins.In x → Q t x
  | .unionMinusEpsilon a b => ∀ tok, P b (some tok) → Q a (some tok)
  | .ifEpsilonInAll set inner => (∀ i ∈ set, P i none) → inner.Imm P Q

theorem FirstRel.Imm.mono {P P' Q Q' : Fam I n} (hp : Fam.le P' P) (hq : Fam.le Q Q') {r : FirstRel I n}
    (h : r.Imm P Q) : r.Imm P' Q' := by
  induction r with
  | insert t ins => intro x hx; exact hq _ _ (h x hx)
  | unionMinusEpsilon a b => intro tok ht; exact hq _ _ (h tok (hp _ _ ht))
  | ifEpsilonInAll set inner ih => intro hs; exact ih (h fun i hi => hp _ _ (hs i hi))

theorem FirstRel.process_imm (r : FirstRel I n) : ∀ tbl : Tbl I n,
    r.Imm tbl.den (r.process tbl).tbl.den ∧
    ∀ U V : Fam I n, Fam.le (r.process tbl).tbl.den V → ((r.process tbl).retain = true → (r.process tbl).rel.Imm U V) →
      r.Imm U V := by
  induction r with
  | insert t ins =>
    intro tbl
    have hx : ∀ x, ins.In x → Tbl.den (aset tbl t (ins.apply (tbl.get t)).1) t x := by
      intro x hx
      unfold Tbl.den
      rw [Tbl.get_aset, if_pos rfl]
      exact (insert_den _ _ _).2 (.inr hx)
    simp only [FirstRel.process]
    exact ⟨hx, fun U V hV _ x h => hV _ _ (hx x h)⟩
  | unionMinusEpsilon a b =>
    intro tbl
    simp only [FirstRel.process]
    refine ⟨?_, fun U V _ h => h trivial⟩
    intro tok ht
    unfold Tbl.den
    rw [Tbl.get_aset, if_pos rfl]
    exact ((unionInto_spec tbl a b false).1 tok).2 (.inr ht)
  | ifEpsilonInAll set inner ih =>
    intro tbl
    simp only [FirstRel.process]
    have hmem : ∀ t, t ∈ set.filter tbl.lacksEpsilon ↔ (t ∈ set ∧ ¬ tbl.den t none) := by
      intro t; rw [List.mem_filter, lacksEpsilon_iff]
    revert hmem
    generalize set.filter tbl.lacksEpsilon = set'
    intro hmem
    by_cases he : set'.isEmpty = true
    · rw [if_pos he]
      exact ⟨fun _ => (ih tbl).1, fun U V hV h _ => (ih tbl).2 U V hV h⟩
    · rw [if_neg he]
      refine ⟨fun h => ?_, fun U V _ h hs => h rfl fun i hi => hs i ((hmem i).1 hi).1⟩
      exfalso
      apply he
      rw [List.isEmpty_iff, List.eq_nil_iff_forall_not_mem]
      intro i hi
      exact ((hmem i).1 hi).2 (h i ((hmem i).1 hi).1)

theorem firstPass_imm (rs : List (FirstRel I n)) : ∀ tbl : Tbl I n,
    (∀ r ∈ rs, r.Imm tbl.den (firstPass rs tbl).2.1.den) ∧
    ∀ U V : Fam I n, Fam.le (firstPass rs tbl).2.1.den V → (∀ r ∈ (firstPass rs tbl).1, r.Imm U V) →
      ∀ r ∈ rs, r.Imm U V := by
  induction rs with
  | nil => intro tbl; exact ⟨by simp, by simp⟩
  | cons r rs ih =>
    intro tbl
    obtain ⟨h1, h2⟩ := r.process_imm tbl
    have g := (r.process_good tbl).mono
    simp only [firstPass]
    generalize r.process tbl = s at h1 h2 g ⊢
    obtain ⟨p1, p2⟩ := ih s.tbl
    have gp := (firstPass_good rs s.tbl).mono
    generalize firstPass rs s.tbl = p at p1 p2 gp ⊢
    refine ⟨?_, ?_⟩
    · intro r' hr'
      rcases List.mem_cons.1 hr' with rfl | hr'
      · exact h1.mono (fun _ _ h => h) gp
      · exact (p1 r' hr').mono g (fun _ _ h => h)
    · intro U V hV hI
      have hp : ∀ r ∈ p.1, r.Imm U V := by
        intro r hr; apply hI
        split
        · exact List.mem_cons_of_mem _ hr
        · exact hr
      intro r' hr'
      rcases List.mem_cons.1 hr' with rfl | hr'
      · refine h2 U V (fun i x h => hV i x (gp i x h)) fun hre => hI _ ?_
        rw [if_pos hre]; exact List.mem_cons_self ..
      · exact p2 U V hV hp r' hr'

/-- The relations and the table after `k` rounds. -/
def firstRun (rs : List (FirstRel I n)) (tbl : Tbl I n) : Nat → List (FirstRel I n) × Tbl I n
  | 0 => (rs, tbl)
  | k + 1 => firstRun (firstPass rs tbl).1 (firstPass rs tbl).2.1 k

theorem firstRun_succ (k : Nat) : ∀ (rs : List (FirstRel I n)) (tbl : Tbl I n),
    firstRun rs tbl (k + 1) = ((firstPass (firstRun rs tbl k).1 (firstRun rs tbl k).2).1,
      (firstPass (firstRun rs tbl k).1 (firstRun rs tbl k).2).2.1) := by
  induction k with
  | zero => intro rs tbl; rfl
  | succ k ih => intro rs tbl; exact ih _ _

theorem firstLoop_none (fuel : Nat) : ∀ (rs : List (FirstRel I n)) (tbl : Tbl I n), firstLoop fuel rs tbl = none →
    ∀ j < fuel, (firstPass (firstRun rs tbl j).1 (firstRun rs tbl j).2).2.2 = true := by
  induction fuel with
  | zero => intro rs tbl _ j hj; omega
  | succ fuel ih =>
    intro rs tbl h j hj
    simp only [firstLoop] at h
    split at h
    · rename_i hc
      cases j with
      | zero => exact hc
      | succ j => exact ih _ _ h j (by omega)
    · cases h

theorem firstRun_mono (rs : List (FirstRel I n)) (tbl : Tbl I n) (j : Nat) :
    Fam.le (firstRun rs tbl j).2.den (firstRun rs tbl (j + 1)).2.den := by
  rw [firstRun_succ]; exact (firstPass_good _ _).mono

theorem firstRun_imm (j : Nat) : ∀ (rs : List (FirstRel I n)) (tbl : Tbl I n), ∀ r ∈ rs,
    r.Imm (firstRun rs tbl j).2.den (firstRun rs tbl (j + 1)).2.den := by
  induction j with
  | zero => intro rs tbl r hr; exact (firstPass_imm rs tbl).1 r hr
  | succ j ih =>
    intro rs tbl
    have hle := chain_le (T := fun k => (firstRun (firstPass rs tbl).1 (firstPass rs tbl).2.1 k).2)
      (firstRun_mono _ _) (Nat.zero_le (j + 1))
    exact (firstPass_imm rs tbl).2 _ _ hle (ih (firstPass rs tbl).1 (firstPass rs tbl).2.1)

theorem firstRun_sound (j : Nat) : ∀ (rs : List (FirstRel I n)) (tbl : Tbl I n) (P : Fam I n),
    Fam.le tbl.den P → (∀ r ∈ rs, r.Sat P) → Fam.le (firstRun rs tbl j).2.den P := by
  induction j with
  | zero => intro rs tbl P h _; exact h
  | succ j ih =>
    intro rs tbl P h1 h2
    have h3 := (firstPass_good rs tbl).sound P h1 h2
    exact ih _ _ P h3.1 h3.2

theorem FirstRel.sat_target {Is : List I} {r : FirstRel I n} (h : r.target ∈ Is) :
    r.Sat fun i _ => i ∈ Is := by
  induction r with
  | insert t ins => intro x _; exact h
  | unionMinusEpsilon a b => intro tok _; exact h
  | ifEpsilonInAll set inner ih => intro _; exact ih h

/-- A step that adds neither epsilon nor `x` leaves a solution as far as these are concerned. -/
theorem FirstRel.sat_settled {T T' : Tbl I n} {x : Option (TokenSrc n)} (hn : ∀ i, T'.den i none → T.den i none)
    (hx : ∀ i, T'.den i x → T.den i x) {r : FirstRel I n} (h : r.Imm T.den T'.den) :
    r.Sat fun i y => y = none ∨ y = x → T.den i y := by
  induction r with
  | insert t ins =>
    intro y hy hy'
    rcases hy' with rfl | rfl
    · exact hn _ (h _ hy)
    · exact hx _ (h _ hy)
  | unionMinusEpsilon a b =>
    intro tok hb hy
    rcases hy with hy | rfl
    · cases hy
    · exact hx _ (h _ (hb (.inr rfl)))
  | ifEpsilonInAll set inner ih => intro hs; exact ih (h fun i hi => hs i hi (.inl rfl))

theorem firstRun_term (Ls : List Str) (Is : List I) (j : Nat) : ∀ (rs : List (FirstRel I n)) (tbl : Tbl I n),
    (∀ r ∈ rs, r.LitsIn Ls ∧ r.target ∈ Is) → tbl.Within Ls →
    (∀ r ∈ (firstRun rs tbl j).1, r.LitsIn Ls ∧ r.target ∈ Is) ∧ (firstRun rs tbl j).2.Within Ls := by
  induction j with
  | zero => intro rs tbl h1 h2; exact ⟨h1, h2⟩
  | succ j ih =>
    intro rs tbl h1 h2
    have h := firstPass_term Ls Is rs tbl h1 h2
    exact ih _ _ h.2.1 h.1

/-- Twice as many rounds as there are productions, and one to notice that nothing changes. -/
theorem buildFirst_rounds (G : Grammar I n) : ∃ first, buildFirst (2 * G.length + 1) G = some first := by
  cases hb : buildFirst (2 * G.length + 1) G with
  | some first => exact ⟨first, rfl⟩
  | none =>
    exfalso
    let rs : List (FirstRel I n) := G.flatMap fun p => firstRels p.1 p.2
    have hr : ∀ r ∈ rs, r.LitsIn G.lits ∧ r.target ∈ G.map Prod.fst := firstRels_targets G
    let T : Nat → Tbl I n := fun j => (firstRun rs [] j).2
    have hm : ∀ j, Fam.le (T j).den (T (j + 1)).den := firstRun_mono rs []
    have hin : ∀ j i x, (T j).den i x → i ∈ G.map Prod.fst := fun j =>
      firstRun_sound j rs [] (fun i _ => i ∈ G.map Prod.fst) (fun i x h => absurd h (Tbl.den_empty i x))
        (fun r h => FirstRel.sat_target (hr r h).2)
    have hlen : (G.map Prod.fst).length = G.length := List.length_map ..
    have settled : ∀ j x, (∀ i, (T (j + 1)).den i none → (T j).den i none) →
        (∀ i, (T (j + 1)).den i x → (T j).den i x) →
        ∀ k i y, y = none ∨ y = x → (T k).den i y → (T j).den i y := by
      intro j x h1 h2 k i y hy h
      exact firstRun_sound k rs [] (fun i y => y = none ∨ y = x → (T j).den i y)
        (fun i x h => absurd h (Tbl.den_empty i x))
        (fun r hr' => FirstRel.sat_settled h1 h2 (firstRun_imm j rs [] r hr')) i y h hy
    obtain ⟨j0, _, hj0, h0⟩ := exists_settled hm hin 0 none
    have hnone : ∀ k i, (T k).den i none → (T j0).den i none :=
      fun k i h => settled j0 none h0 h0 k i none (.inl rfl) h
    have hall : ∀ k, Fam.le (T k).den (T (2 * G.length)).den := by
      intro k i x h
      obtain ⟨j1, h1, h2, h3⟩ := exists_settled hm hin G.length x
      have h4 := settled j1 x
        (fun i h => chain_le hm (by omega) _ _ (hnone _ _ h)) h3 k i x (.inr rfl) h
      exact chain_le hm (by omega) _ _ h4
    have hc := firstLoop_none _ _ _ hb (2 * G.length) (by omega)
    have ht := firstRun_term G.lits (G.map Prod.fst) (2 * G.length) rs [] hr (Tbl.within_nil _)
    have hlt := (firstPass_term G.lits (G.map Prod.fst) _ _ ht.1 ht.2).2.2 hc
    have hle := Tbl.room_le (Ls := G.lits) (Is := G.map Prod.fst) (hall (2 * G.length + 1))
    simp only [T, firstRun_succ] at hle
    omega

/-! ### FOLLOW -/

def FollowRel.Imm (F P Q : Fam I n) : FollowRel I → Prop
  | .unionFirstMinusEpsilon a b => ∀ tok, F b (some tok) → Q a (some tok)
  | .unionFollow a b => ∀ o, P b o → Q a o
  | .ifEpsilonInAllFirst set inner => (∀ i ∈ set, F i none) → inner.Imm F P Q

theorem FollowRel.Imm.mono {F P P' Q Q' : Fam I n} (hp : Fam.le P' P) (hq : Fam.le Q Q') {r : FollowRel I}
    (h : r.Imm F P Q) : r.Imm F P' Q' := by
  induction r with
  | unionFirstMinusEpsilon a b => intro tok ht; exact hq _ _ (h tok ht)
  | unionFollow a b => intro o ho; exact hq _ _ (h o (hp _ _ ho))
  | ifEpsilonInAllFirst set inner ih => intro hs; exact ih (h hs)

theorem FollowRel.process_imm (first : Tbl I n) (r : FollowRel I) : ∀ tbl : Tbl I n,
    r.Imm first.den tbl.den (r.process first tbl).2.1.den ∧
    ∀ U V : Fam I n, (r.process first tbl).1.Imm first.den U V → r.Imm first.den U V := by
  induction r with
  | unionFirstMinusEpsilon a b =>
    intro tbl
    simp only [FollowRel.process]
    refine ⟨?_, fun U V h => h⟩
    intro tok ht
    unfold Tbl.den
    rw [Tbl.get_aset, if_pos rfl]
    exact (TSet.mem_union _ _ _ _).2 (.inr ht)
  | unionFollow a b =>
    intro tbl
    simp only [FollowRel.process]
    refine ⟨?_, fun U V h => h⟩
    intro o ho
    obtain ⟨h1, h2, _⟩ := unionInto_spec tbl a b true
    unfold Tbl.den
    rw [Tbl.get_aset, if_pos rfl]
    cases o with
    | some tok => exact (h1 tok).2 (.inr ho)
    | none =>
      have hb : (tbl.get b).e = true := ho
      show (tbl.unionInto a b true).1.e = true
      rw [h2, hb]; simp
  | ifEpsilonInAllFirst set inner ih =>
    intro tbl
    simp only [FollowRel.process]
    have hmem : ∀ t, t ∈ (set.filter fun t => !(first.get t).containsE) ↔
        (t ∈ set ∧ ¬ first.den t none) := by
      intro t; rw [List.mem_filter]
      simp [Tbl.den, TSet.contains, TSet.containsE]
    generalize (set.filter fun t => !(first.get t).containsE) = set' at hmem ⊢
    by_cases he : set'.isEmpty = true
    · rw [if_pos he]
      exact ⟨fun _ => (ih tbl).1, fun U V h _ => (ih tbl).2 U V h⟩
    · rw [if_neg he]
      refine ⟨fun h => ?_, fun U V h hs => h fun i hi => hs i ((hmem i).1 hi).1⟩
      exfalso
      apply he
      rw [List.isEmpty_iff, List.eq_nil_iff_forall_not_mem]
      intro i hi
      exact ((hmem i).1 hi).2 (h i ((hmem i).1 hi).1)

theorem followPass_imm (first : Tbl I n) (rs : List (FollowRel I)) : ∀ tbl : Tbl I n,
    (∀ r ∈ rs, r.Imm first.den tbl.den (followPass first rs tbl).2.1.den) ∧
    ∀ U V : Fam I n, (∀ r ∈ (followPass first rs tbl).1, r.Imm first.den U V) → ∀ r ∈ rs, r.Imm first.den U V := by
  induction rs with
  | nil => intro tbl; exact ⟨by simp, by simp⟩
  | cons r rs ih =>
    intro tbl
    obtain ⟨h1, h2⟩ := r.process_imm first tbl
    have g := (r.process_good first tbl).mono
    simp only [followPass]
    generalize r.process first tbl = s at h1 h2 g ⊢
    obtain ⟨p1, p2⟩ := ih s.2.1
    have gp := (followPass_good first rs s.2.1).mono
    generalize followPass first rs s.2.1 = p at p1 p2 gp ⊢
    refine ⟨?_, ?_⟩
    · intro r' hr'
      rcases List.mem_cons.1 hr' with rfl | hr'
      · exact h1.mono (fun _ _ h => h) gp
      · exact (p1 r' hr').mono g (fun _ _ h => h)
    · intro U V hI r' hr'
      rcases List.mem_cons.1 hr' with rfl | hr'
      · exact h2 U V (hI _ (List.mem_cons_self ..))
      · exact p2 U V (fun r hr => hI r (List.mem_cons_of_mem _ hr)) r' hr'

def followRun (first : Tbl I n) (rs : List (FollowRel I)) (tbl : Tbl I n) : Nat → List (FollowRel I) × Tbl I n
  | 0 => (rs, tbl)
  | k + 1 => followRun first (followPass first rs tbl).1 (followPass first rs tbl).2.1 k

theorem followRun_succ (first : Tbl I n) (k : Nat) : ∀ (rs : List (FollowRel I)) (tbl : Tbl I n),
    followRun first rs tbl (k + 1) =
      ((followPass first (followRun first rs tbl k).1 (followRun first rs tbl k).2).1,
        (followPass first (followRun first rs tbl k).1 (followRun first rs tbl k).2).2.1) := by
  induction k with
  | zero => intro rs tbl; rfl
  | succ k ih => intro rs tbl; exact ih _ _

theorem followLoop_none (first : Tbl I n) (fuel : Nat) : ∀ (rs : List (FollowRel I)) (tbl : Tbl I n),
    followLoop first fuel rs tbl = none →
    ∀ j < fuel, (followPass first (followRun first rs tbl j).1 (followRun first rs tbl j).2).2.2 = true := by
  induction fuel with
  | zero => intro rs tbl _ j hj; omega
  | succ fuel ih =>
    intro rs tbl h j hj
    simp only [followLoop] at h
    split at h
    · rename_i hc
      cases j with
      | zero => exact hc
      | succ j => exact ih _ _ h j (by omega)
    · cases h

theorem followRun_mono (first : Tbl I n) (rs : List (FollowRel I)) (tbl : Tbl I n) (j : Nat) :
    Fam.le (followRun first rs tbl j).2.den (followRun first rs tbl (j + 1)).2.den := by
  rw [followRun_succ]; exact (followPass_good _ _ _).mono

theorem followRun_imm (first : Tbl I n) (j : Nat) : ∀ (rs : List (FollowRel I)) (tbl : Tbl I n), ∀ r ∈ rs,
    r.Imm first.den (followRun first rs tbl j).2.den (followRun first rs tbl (j + 1)).2.den := by
  induction j with
  | zero => intro rs tbl r hr; exact (followPass_imm first rs tbl).1 r hr
  | succ j ih =>
    intro rs tbl
    exact (followPass_imm first rs tbl).2 _ _ (ih (followPass first rs tbl).1 (followPass first rs tbl).2.1)

theorem followRun_sound (first : Tbl I n) (j : Nat) : ∀ (rs : List (FollowRel I)) (tbl : Tbl I n) (P : Fam I n),
    Fam.le tbl.den P → (∀ r ∈ rs, r.Sat first.den P) → Fam.le (followRun first rs tbl j).2.den P := by
  induction j with
  | zero => intro rs tbl P h _; exact h
  | succ j ih =>
    intro rs tbl P h1 h2
    have g := followPass_good first rs tbl
    exact ih _ _ P (g.sound P h1 h2) ((g.same P).2 h2)

theorem FollowRel.sat_target {F : Fam I n} {Is : List I} {r : FollowRel I} (h : r.target ∈ Is) :
    r.Sat F fun i _ => i ∈ Is := by
  induction r with
  | unionFirstMinusEpsilon a b => intro tok _; exact h
  | unionFollow a b => intro o _; exact h
  | ifEpsilonInAllFirst set inner ih => intro _; exact ih h

theorem FollowRel.sat_settled {F : Fam I n} {T T' : Tbl I n} {x : Option (TokenSrc n)}
    (hx : ∀ i, T'.den i x → T.den i x) {r : FollowRel I} (h : r.Imm F T.den T'.den) :
    r.Sat F fun i y => y = x → T.den i y := by
  induction r with
  | unionFirstMinusEpsilon a b => intro tok hb hy; subst hy; exact hx _ (h _ hb)
  | unionFollow a b => intro o ho hy; subst hy; exact hx _ (h _ (ho rfl))
  | ifEpsilonInAllFirst set inner ih => intro hs; exact ih (h hs)

theorem followRun_term (Ls : List Str) (Is : List I) {first : Tbl I n} (hf : first.Within Ls) (j : Nat) :
    ∀ (rs : List (FollowRel I)) (tbl : Tbl I n), (∀ r ∈ rs, r.target ∈ Is) → tbl.Within Ls →
    (∀ r ∈ (followRun first rs tbl j).1, r.target ∈ Is) ∧ (followRun first rs tbl j).2.Within Ls := by
  induction j with
  | zero => intro rs tbl h1 h2; exact ⟨h1, h2⟩
  | succ j ih =>
    intro rs tbl h1 h2
    have h := followPass_term Ls Is hf rs tbl h1 h2
    exact ih _ _ h.2.1 h.1

theorem followTails_target (x : I) (l : List I) : ∀ set, ∀ r ∈ followTails x set l, r.target ∈ l := by
  induction l with
  | nil => intro set r hr; cases hr
  | cons y l ih =>
    intro set r hr
    simp only [followTails, List.mem_cons] at hr
    rcases hr with rfl | hr
    · have : (FollowRel.mkIf set (.unionFollow y x)).target = y := by unfold FollowRel.mkIf; split <;> rfl
      rw [this]; exact List.mem_cons_self ..
    · exact List.mem_cons_of_mem _ (ih _ r hr)

theorem windows2_fst (l : List I) : ∀ w ∈ windows2 l, w.1 ∈ l := by
  fun_induction windows2 l with
  | case1 a b rest ih =>
    intro w hw
    rcases List.mem_cons.1 hw with rfl | hw
    · simp
    · exact List.mem_cons_of_mem _ (ih w hw)
  | case2 => intro w hw; cases hw

/-- What the FOLLOW relations of a production write to are its parts. -/
theorem followRels_target (x : I) (rule : Rule I n) : ∀ r ∈ followRels x rule, r.target ∈ rule.parts := by
  intro r hr
  cases rule with
  | eps => cases hr
  | term t => cases hr
  | seq l =>
    simp only [followRels, followSequence, List.mem_append, List.mem_map, List.mem_reverse] at hr
    rcases hr with hr | ⟨w, hw, rfl⟩
    · exact List.mem_reverse.1 (followTails_target x _ _ r hr)
    · exact windows2_fst l w hw
  | alt l =>
    simp only [followRels, followUnion, List.mem_map] at hr
    obtain ⟨y, hy, rfl⟩ := hr
    exact hy

/-- As many rounds as there are productions, and one to notice that nothing changes. `Is` has the root and all parts. -/
theorem buildFollow_rounds {G : Grammar I n} {first : Tbl I n} (hf : first.Within G.lits) {root : I} {Is : List I}
    (hroot : root ∈ Is) (hparts : ∀ i r, (i, r) ∈ G → ∀ j ∈ r.parts, j ∈ Is) :
    ∃ follow, buildFollow (Is.length + 1) first G root = some follow := by
  cases hb : buildFollow (Is.length + 1) first G root with
  | some follow => exact ⟨follow, rfl⟩
  | none =>
    exfalso
    let rs : List (FollowRel I) := G.flatMap fun p => followRels p.1 p.2
    let tbl : Tbl I n := [(root, (TSet.empty.insertE).1)]
    have hr : ∀ r ∈ rs, r.target ∈ Is := by
      intro r h
      obtain ⟨p, hp, h⟩ := List.mem_flatMap.1 h
      exact hparts p.1 p.2 hp _ (followRels_target _ _ r h)
    have htbl : ∀ i, tbl.get i = TSet.empty ∨ (i = root ∧ tbl.get i = (TSet.empty.insertE).1) := by
      intro i
      simp only [tbl, Tbl.get, aget?]
      split
      · rename_i h; exact .inr ⟨h.symm, rfl⟩
      · exact .inl rfl
    have hw : tbl.Within G.lits := by
      intro i
      rcases htbl i with h | ⟨_, h⟩ <;> rw [h]
      · exact TSet.within_empty _
      · exact TSet.within_insertE (TSet.within_empty _)
    let T : Nat → Tbl I n := fun j => (followRun first rs tbl j).2
    have hm : ∀ j, Fam.le (T j).den (T (j + 1)).den := followRun_mono first rs tbl
    have hin : ∀ j i x, (T j).den i x → i ∈ Is := fun j =>
      followRun_sound first j rs tbl (fun i _ => i ∈ Is) (fun i x h => by
        rcases htbl i with h' | ⟨h', _⟩
        · exact absurd (show Tbl.den ([] : Tbl I n) i x by
            unfold Tbl.den at h ⊢; rw [h'] at h; exact h) (Tbl.den_empty i x)
        · exact h' ▸ hroot) (fun r h => FollowRel.sat_target (hr r h))
    have hall : ∀ k, Fam.le (T k).den (T Is.length).den := by
      intro k i x h
      obtain ⟨j1, h1, h2, h3⟩ := exists_settled hm hin 0 x
      have h4 := followRun_sound first k rs tbl (fun i y => y = x → (T j1).den i y)
        (fun i y h _ => chain_le hm (Nat.zero_le j1) i y h)
        (fun r hr' => FollowRel.sat_settled h3 (followRun_imm first j1 rs tbl r hr')) i x h rfl
      exact chain_le hm (by omega) _ _ h4
    have hc := followLoop_none first _ _ _ hb Is.length (by omega)
    have ht := followRun_term G.lits Is hf Is.length rs tbl hr hw
    have hlt := (followPass_term G.lits Is hf _ _ ht.1 ht.2).2.2 hc
    have hle := Tbl.room_le (Ls := G.lits) (Is := Is) (hall (Is.length + 1))
    simp only [T, followRun_succ] at hle
    omega

end Teleparse
