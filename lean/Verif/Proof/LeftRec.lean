import Verif.Proof.Dfs
/-
`check_left_recursive` never reports an error, terminates, and does not depend on the fuel.
-/
set_option linter.unusedSectionVars false
namespace Teleparse
variable {I : Type} {n : Nat} [DecidableEq I]

/-- The set of the current path only holds visited productions. -/
def LR.Ok (s : LR I) : Prop := ∀ i ∈ s.set, i ∈ s.seen

theorem LR.Ok.leave {s : LR I} (h : s.Ok) (t : I) : (s.leave t).Ok := by
  intro i hi
  simp only [LR.leave, List.mem_filter] at hi
  exact h i hi.1

/-- What a step of the check guarantees. -/
def LRGood (rec : I → LR I → Option (Except (GErr I) (LR I))) : Prop :=
  ∀ t s r, s.Ok → rec t s = some r → ∃ s', r = .ok s' ∧ s'.Ok ∧ ∀ i ∈ s.seen, i ∈ s'.seen

theorem lrAlts_good {rec : I → LR I → Option (Except (GErr I) (LR I))} (h : LRGood rec)
    (cs : List I) : ∀ s r, s.Ok → lrAlts rec cs s = some r →
    ∃ s', r = .ok s' ∧ s'.Ok ∧ ∀ i ∈ s.seen, i ∈ s'.seen := by
  induction cs with
  | nil => intro s r hs hr; simp [lrAlts] at hr; subst hr; exact ⟨s, rfl, hs, fun i h => h⟩
  | cons c cs ih =>
    intro s r hs hr
    simp only [lrAlts] at hr
    cases hc : rec c s with
    | none => rw [hc] at hr; cases hr
    | some x =>
      obtain ⟨s1, rfl, h1, h2⟩ := h c s x hs hc
      rw [hc] at hr
      obtain ⟨s2, rfl, h3, h4⟩ := ih s1 r h1 hr
      exact ⟨s2, rfl, h3, fun i hi => h4 i (h2 i hi)⟩

theorem lrRest_good {rec : I → LR I → Option (Except (GErr I) (LR I))} (h : LRGood rec)
    (first : Tbl I n) (t : I) (cs : List I) : ∀ s temp r, s.Ok →
    (∀ p, temp = some p → ∀ i ∈ p.1, i ∈ s.seen) →
    lrRest rec first t cs s temp = some r →
    ∃ s', r = .ok s' ∧ s'.Ok ∧ ∀ i ∈ s.seen, i ∈ s'.seen := by
  induction cs with
  | nil =>
    intro s temp r hs ht hr
    cases temp with
    | none =>
      simp [lrRest] at hr; subst hr
      exact ⟨_, rfl, hs.leave t, fun i h => h⟩
    | some p => simp [lrRest] at hr; subst hr; exact ⟨s, rfl, hs, fun i h => h⟩
  | cons c cs ih =>
    intro s temp r hs ht hr
    cases temp with
    | none =>
      simp only [lrRest] at hr
      cases hc : rec c s with
      | none => rw [hc] at hr; cases hr
      | some x =>
        obtain ⟨s1, rfl, h1, h2⟩ := h c s x hs hc
        rw [hc] at hr
        simp only at hr
        split at hr
        · obtain ⟨s2, rfl, h3, h4⟩ := ih s1 none r h1 (by simp) hr
          exact ⟨s2, rfl, h3, fun i hi => h4 i (h2 i hi)⟩
        · obtain ⟨s2, rfl, h3, h4⟩ := ih _ _ r (h1.leave t) (by simp) hr
          exact ⟨s2, rfl, h3, fun i hi => h4 i (h2 i hi)⟩
    | some p =>
      obtain ⟨tset, tstack⟩ := p
      simp only [lrRest] at hr
      have hok : LR.Ok (I := I) ⟨s.seen, tset, tstack⟩ := ht _ rfl
      cases hc : rec c ⟨s.seen, tset, tstack⟩ with
      | none => rw [hc] at hr; cases hr
      | some x =>
        obtain ⟨s1, rfl, h1, h2⟩ := h c _ x hok hc
        rw [hc] at hr
        simp only at hr h2
        have hs' : LR.Ok { s with seen := s1.seen } := fun i hi => h2 i (hs i hi)
        split at hr
        · obtain ⟨s2, rfl, h3, h4⟩ := ih _ _ r hs' (by intro p hp; cases hp; exact h1) hr
          exact ⟨s2, rfl, h3, fun i hi => h4 i (h2 i hi)⟩
        · obtain ⟨s2, rfl, h3, h4⟩ := ih _ _ r hs' (by simp) hr
          exact ⟨s2, rfl, h3, fun i hi => h4 i (h2 i hi)⟩

theorem checkLeftRecursive_good (G : Grammar I n) (first : Tbl I n) (fuel : Nat) :
    LRGood (checkLeftRecursive G first fuel) := by
  induction fuel with
  | zero => intro t s r _ h; cases h
  | succ fuel ih =>
    intro t s r hs h
    simp only [checkLeftRecursive] at h
    split at h
    · simp at h; subst h; exact ⟨s, rfl, hs, fun i h => h⟩
    · rename_i hns
      split at h
      · rename_i hset
        exact absurd (hs t hset) hns
      · have hs1 : LR.Ok (I := I) ⟨t :: s.seen, t :: s.set, s.stack⟩ := by
          intro i hi
          simp only [List.mem_cons] at hi ⊢
          rcases hi with rfl | hi
          · left; rfl
          · right; exact hs i hi
        have hs2 : LR.Ok (I := I) ⟨t :: s.seen, t :: s.set, s.stack ++ [t]⟩ := hs1
        have leafOk : ∃ s' : LR I, (Except.ok (⟨t :: s.seen, (t :: s.set).filter (· ≠ t), s.stack⟩ : LR I) :
            Except (GErr I) (LR I)) = .ok s' ∧
            s'.Ok ∧ ∀ i ∈ s.seen, i ∈ s'.seen :=
          ⟨_, rfl, fun i hi => hs1 i (List.mem_filter.1 hi).1, fun i hi => by simp [hi]⟩
        split at h
        · simp only [Option.some.injEq] at h; subst h; exact leafOk
        · simp only [Option.some.injEq] at h; subst h; exact leafOk
        · simp only [Option.some.injEq] at h; subst h; exact leafOk
        · rename_i types _
          cases hc : lrAlts (checkLeftRecursive G first fuel) types
              ⟨t :: s.seen, t :: s.set, s.stack ++ [t]⟩ with
          | none => rw [hc] at h; cases h
          | some x =>
            obtain ⟨s3, rfl, h3, h4⟩ := lrAlts_good ih types _ _ hs2 hc
            rw [hc] at h
            simp only [Option.some.injEq] at h; subst h
            exact ⟨_, rfl, h3.leave t, fun i hi => h4 i (by simp [hi])⟩
        · simp only [Option.some.injEq] at h; subst h
          exact ⟨_, rfl, hs2.leave t, fun i hi => by simp [LR.leave, hi]⟩
        · rename_i c cs _
          cases hc : checkLeftRecursive G first fuel c
              ⟨t :: s.seen, t :: s.set, s.stack ++ [t]⟩ with
          | none => rw [hc] at h; cases h
          | some x =>
            obtain ⟨s3, rfl, h3, h4⟩ := ih c _ _ hs2 hc
            rw [hc] at h
            simp only at h
            split at h
            · obtain ⟨s5, rfl, h5, h6⟩ := lrRest_good ih first t cs _ _ r h3 (by simp) h
              exact ⟨s5, rfl, h5, fun i hi => h6 i (h4 i (by simp [hi]))⟩
            · obtain ⟨s5, rfl, h5, h6⟩ := lrRest_good ih first t cs _ _ r (h3.leave t) (by simp) h
              exact ⟨s5, rfl, h5, fun i hi => h6 i (h4 i (by simp [hi]))⟩

/-! ### Fuel -/

def LRMono (rec rec' : I → LR I → Option (Except (GErr I) (LR I))) : Prop :=
  ∀ c s r, rec c s = some r → rec' c s = some r

theorem lrAlts_mono {rec rec' : I → LR I → Option (Except (GErr I) (LR I))} (h : LRMono rec rec')
    (cs : List I) : ∀ s r, lrAlts rec cs s = some r → lrAlts rec' cs s = some r := by
  induction cs with
  | nil => intro s r hr; exact hr
  | cons c cs ih =>
    intro s r hr
    simp only [lrAlts] at hr ⊢
    cases hc : rec c s with
    | none => rw [hc] at hr; cases hr
    | some x =>
      rw [hc] at hr; rw [h _ _ _ hc]
      cases x with
      | error e => exact hr
      | ok s1 => exact ih _ _ hr

theorem lrRest_mono {rec rec' : I → LR I → Option (Except (GErr I) (LR I))} (h : LRMono rec rec')
    (first : Tbl I n) (t : I) (cs : List I) : ∀ s temp r, lrRest rec first t cs s temp = some r →
    lrRest rec' first t cs s temp = some r := by
  induction cs with
  | nil => intro s temp r hr; cases temp <;> exact hr
  | cons c cs ih =>
    intro s temp r hr
    cases temp with
    | none =>
      simp only [lrRest] at hr ⊢
      cases hc : rec c s with
      | none => rw [hc] at hr; cases hr
      | some x =>
        rw [hc] at hr; rw [h _ _ _ hc]
        cases x with
        | error e => exact hr
        | ok s1 =>
          simp only at hr ⊢
          split
          · rename_i he; rw [if_pos he] at hr; exact ih _ _ _ hr
          · rename_i he; rw [if_neg he] at hr; exact ih _ _ _ hr
    | some p =>
      obtain ⟨tset, tstack⟩ := p
      simp only [lrRest] at hr ⊢
      cases hc : rec c ⟨s.seen, tset, tstack⟩ with
      | none => rw [hc] at hr; cases hr
      | some x =>
        rw [hc] at hr; rw [h _ _ _ hc]
        cases x with
        | error e => exact hr
        | ok s1 =>
          simp only at hr ⊢
          split
          · rename_i he; rw [if_pos he] at hr; exact ih _ _ _ hr
          · rename_i he; rw [if_neg he] at hr; exact ih _ _ _ hr

theorem checkLeftRecursive_mono (G : Grammar I n) (first : Tbl I n) (fuel : Nat) :
    ∀ fuel', fuel ≤ fuel' →
    LRMono (checkLeftRecursive G first fuel) (checkLeftRecursive G first fuel') := by
  induction fuel with
  | zero => intro fuel' _ t s r h; cases h
  | succ fuel ih =>
    intro fuel' hle t s r h
    obtain ⟨f, rfl⟩ : ∃ f, fuel' = f + 1 := ⟨fuel' - 1, by omega⟩
    have ih := ih f (by omega)
    simp only [checkLeftRecursive] at h ⊢
    split
    · rename_i hx; rw [if_pos hx] at h; exact h
    · rename_i hx; rw [if_neg hx] at h
      split
      · rename_i hy; rw [if_pos hy] at h; exact h
      · rename_i hy; rw [if_neg hy] at h
        cases hg : aget? G t with
        | none => rw [hg] at h; exact h
        | some rule =>
          rw [hg] at h
          cases rule with
          | eps => exact h
          | term t => exact h
          | alt types =>
            simp only at h ⊢
            cases hc : lrAlts (checkLeftRecursive G first fuel) types
                ⟨t :: s.seen, t :: s.set, s.stack ++ [t]⟩ with
            | none => rw [hc] at h; cases h
            | some x => rw [hc] at h; rw [lrAlts_mono ih _ _ _ hc]; exact h
          | seq l =>
            cases l with
            | nil => exact h
            | cons c cs =>
              simp only at h ⊢
              cases hc : checkLeftRecursive G first fuel c
                  ⟨t :: s.seen, t :: s.set, s.stack ++ [t]⟩ with
              | none => rw [hc] at h; cases h
              | some x =>
                rw [hc] at h; rw [ih _ _ _ hc]
                cases x with
                | error e => exact h
                | ok s1 =>
                  simp only at h ⊢
                  split
                  · rename_i he; rw [if_pos he] at h; exact lrRest_mono ih _ _ _ _ _ _ h
                  · rename_i he; rw [if_neg he] at h; exact lrRest_mono ih _ _ _ _ _ _ h

theorem checkLeftRecursive_total (G : Grammar I n) (first : Tbl I n) (U : List I)
    (hU : ∀ i ∈ U, ∀ j ∈ G.partsOf i, j ∈ U) (fuel : Nat) : ∀ t s, s.Ok → t ∈ U →
    unseen U s.seen < fuel → ∃ r, checkLeftRecursive G first fuel t s = some r := by
  induction fuel with
  | zero => intro t s _ _ h; omega
  | succ fuel ih =>
    have hgood := checkLeftRecursive_good G first fuel
    have alts : ∀ cs s, s.Ok → (∀ c ∈ cs, c ∈ U) → unseen U s.seen < fuel →
        ∃ r, lrAlts (checkLeftRecursive G first fuel) cs s = some r := by
      intro cs
      induction cs with
      | nil => intro s _ _ _; exact ⟨_, rfl⟩
      | cons c cs ihc =>
        intro s hs hc hlt
        simp only [lrAlts]
        obtain ⟨r, hr⟩ := ih c s hs (hc c (by simp)) hlt
        obtain ⟨s1, rfl, h1, h2⟩ := hgood _ _ _ hs hr
        rw [hr]
        have := unseen_le (U := U) h2
        exact ihc s1 h1 (fun c h => hc c (by simp [h])) (by omega)
    have rest : ∀ t cs s temp, s.Ok → (∀ p, temp = some p → ∀ i ∈ p.1, i ∈ s.seen) →
        (∀ c ∈ cs, c ∈ U) → unseen U s.seen < fuel →
        ∃ r, lrRest (checkLeftRecursive G first fuel) first t cs s temp = some r := by
      intro t cs
      induction cs with
      | nil => intro s temp _ _ _ _; cases temp <;> exact ⟨_, rfl⟩
      | cons c cs ihc =>
        intro s temp hs ht hc hlt
        cases temp with
        | none =>
          simp only [lrRest]
          obtain ⟨r, hr⟩ := ih c s hs (hc c (by simp)) hlt
          obtain ⟨s1, rfl, h1, h2⟩ := hgood _ _ _ hs hr
          rw [hr]
          have := unseen_le (U := U) h2
          simp only
          split
          · exact ihc _ _ h1 (by simp) (fun c h => hc c (by simp [h])) (by omega)
          · refine ihc _ _ (h1.leave t) (by simp) (fun c h => hc c (by simp [h])) ?_
            simp only [LR.leave]; omega
        | some p =>
          obtain ⟨tset, tstack⟩ := p
          simp only [lrRest]
          have hok : LR.Ok (I := I) ⟨s.seen, tset, tstack⟩ := ht _ rfl
          obtain ⟨r, hr⟩ := ih c ⟨s.seen, tset, tstack⟩ hok (hc c (by simp)) hlt
          obtain ⟨s1, rfl, h1, h2⟩ := hgood _ _ _ hok hr
          rw [hr]
          have := unseen_le (U := U) h2
          simp only at this h2 ⊢
          have hs' : LR.Ok { s with seen := s1.seen } := fun i hi => h2 i (hs i hi)
          split
          · exact ihc _ _ hs' (by intro p hp; cases hp; exact h1)
              (fun c h => hc c (by simp [h])) (by simp only; omega)
          · exact ihc _ _ hs' (by simp) (fun c h => hc c (by simp [h])) (by simp only; omega)
    intro t s hs ht hlt
    simp only [checkLeftRecursive]
    split
    · exact ⟨_, rfl⟩
    · rename_i hns
      have hl := unseen_lt ht hns
      split
      · exact ⟨_, rfl⟩
      · have hs2 : LR.Ok (I := I) ⟨t :: s.seen, t :: s.set, s.stack ++ [t]⟩ := by
          intro i hi
          simp only [List.mem_cons] at hi ⊢
          rcases hi with rfl | hi
          · left; rfl
          · right; exact hs i hi
        have hparts : ∀ r, aget? G t = some r → ∀ j ∈ r.parts, j ∈ U := by
          intro r hr j hj
          refine hU t ht j ?_
          simp only [Grammar.partsOf, hr]; exact hj
        cases hg : aget? G t with
        | none => exact ⟨_, rfl⟩
        | some rule =>
          have hp := hparts rule hg
          cases rule with
          | eps => exact ⟨_, rfl⟩
          | term t => exact ⟨_, rfl⟩
          | alt types =>
            simp only
            obtain ⟨r, hr⟩ := alts types ⟨t :: s.seen, t :: s.set, s.stack ++ [t]⟩ hs2 hp
              (by simp only; omega)
            obtain ⟨s1, rfl, h1, h2⟩ := lrAlts_good hgood _ _ _ hs2 hr
            rw [hr]; exact ⟨_, rfl⟩
          | seq l =>
            cases l with
            | nil => exact ⟨_, rfl⟩
            | cons c cs =>
              simp only
              obtain ⟨r, hr⟩ := ih c ⟨t :: s.seen, t :: s.set, s.stack ++ [t]⟩ hs2
                (hp c (by simp [Rule.parts])) (by simp only; omega)
              obtain ⟨s1, rfl, h1, h2⟩ := hgood _ _ _ hs2 hr
              rw [hr]
              have := unseen_le (U := U) h2
              simp only at this ⊢
              have hcs : ∀ c ∈ cs, c ∈ U := fun c h => hp c (by simp [Rule.parts, h])
              split
              · exact rest _ _ _ _ h1 (by simp) hcs (by omega)
              · exact rest _ _ _ _ (h1.leave t) (by simp) hcs (by simp only [LR.leave]; omega)

/-! ### What it visits -/

def LRSeen (parts : I → List I) (rec : I → LR I → Option (Except (GErr I) (LR I))) : Prop :=
  ∀ t s s', rec t s = some (.ok s') → DfsSeen parts [t] s.seen s'.seen

theorem lrAlts_seen {parts : I → List I} {rec : I → LR I → Option (Except (GErr I) (LR I))}
    (h : LRSeen parts rec) (cs : List I) : ∀ s s', lrAlts rec cs s = some (.ok s') →
    DfsSeen parts cs s.seen s'.seen := by
  induction cs with
  | nil => intro s s' hr; simp [lrAlts] at hr; subst hr; exact .nil _
  | cons c cs ih =>
    intro s s' hr
    simp only [lrAlts] at hr
    split at hr
    · cases hr
    · cases hr
    · rename_i s1 hc
      exact (h _ _ _ hc).cons (ih _ _ hr)

theorem lrRest_seen {parts : I → List I} {rec : I → LR I → Option (Except (GErr I) (LR I))}
    (h : LRSeen parts rec) (first : Tbl I n) (t : I) (cs : List I) : ∀ s temp s',
    lrRest rec first t cs s temp = some (.ok s') → DfsSeen parts cs s.seen s'.seen := by
  induction cs with
  | nil =>
    intro s temp s' hr
    cases temp <;> (simp [lrRest] at hr; subst hr; exact .nil _)
  | cons c cs ih =>
    intro s temp s' hr
    cases temp with
    | none =>
      simp only [lrRest] at hr
      split at hr
      · cases hr
      · cases hr
      · rename_i s1 hc
        split at hr
        · have hx := ih _ _ _ hr
          exact (h _ _ _ hc).cons hx
        · have hx := ih _ _ _ hr
          exact (h _ _ _ hc).cons hx
    | some p =>
      obtain ⟨tset, tstack⟩ := p
      simp only [lrRest] at hr
      split at hr
      · cases hr
      · cases hr
      · rename_i s1 hc
        split at hr
        · have hx := ih _ _ _ hr
          exact (h _ _ _ hc).cons hx
        · have hx := ih _ _ _ hr
          exact (h _ _ _ hc).cons hx

theorem checkLeftRecursive_seen (G : Grammar I n) (first : Tbl I n) (fuel : Nat) :
    LRSeen G.partsOf (checkLeftRecursive G first fuel) := by
  induction fuel with
  | zero => intro t s s' h; cases h
  | succ fuel ih =>
    intro t s s' h
    simp only [checkLeftRecursive] at h
    split at h
    · rename_i hx; simp at h; subst h; exact .visited hx
    · rename_i hx
      split at h
      · simp at h
      · refine DfsSeen.enter hx ?_
        simp only [Grammar.partsOf]
        cases hg : aget? G t with
        | none => rw [hg] at h; simp at h; subst h; exact .nil _
        | some rule =>
          rw [hg] at h
          cases rule with
          | eps => simp at h; subst h; exact .nil _
          | term t => simp at h; subst h; exact .nil _
          | alt types =>
            simp only at h
            split at h
            · cases h
            · cases h
            · rename_i s1 hc
              simp at h; subst h
              exact lrAlts_seen ih _ _ _ hc
          | seq l =>
            cases l with
            | nil => simp at h; subst h; exact .nil _
            | cons c cs =>
              simp only at h
              split at h
              · cases h
              · cases h
              · rename_i s1 hc
                split at h
                · have hx := lrRest_seen ih _ _ _ _ _ _ h
                  exact (ih _ _ _ hc).cons hx
                · have hx := lrRest_seen ih _ _ _ _ _ _ h
                  exact (ih _ _ _ hc).cons hx

/-- The left recursion check always succeeds. -/
theorem checkLeftRecursive_total' (G : Grammar I n) (first : Tbl I n) (U : List I)
    (hU : ∀ i ∈ U, ∀ j ∈ G.partsOf i, j ∈ U) {t : I} (ht : t ∈ U) {fuel : Nat}
    (hf : U.length < fuel) : ∃ s', checkLeftRecursive G first fuel t ⟨[], [], []⟩ = some (.ok s') := by
  have hlt : unseen U [] < fuel := by
    unfold unseen
    exact Nat.lt_of_le_of_lt (List.length_filter_le _ _) hf
  obtain ⟨r, hr⟩ := checkLeftRecursive_total G first U hU fuel t ⟨[], [], []⟩ (fun i h => h) ht hlt
  obtain ⟨s1, rfl, _⟩ := checkLeftRecursive_good G first fuel _ _ _ (fun i h => h) hr
  exact ⟨s1, hr⟩

end Teleparse
