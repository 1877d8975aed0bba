import Verif.Model.Metadata
import Verif.Spec.Grammar
/-
The depth-first traversal with a visited set: what it visits, its effect, its termination.
-/
set_option linter.unusedSectionVars false
namespace Teleparse
variable {I : Type} {n : Nat} [DecidableEq I] {σ E : Type}
variable {parts : I → List I} {pre : I → σ → Except E σ} {edge : I → Nat → I → σ → σ}

theorem Reach.trans {a b c : I} (h : Reach parts a b) (h2 : Reach parts b c) : Reach parts a c := by
  induction h2 with
  | refl => exact h
  | step _ hp ih => exact .step ih hp

theorem Reach.head {a b c : I} (h : b ∈ parts a) (h2 : Reach parts b c) : Reach parts a c :=
  (Reach.step .refl h).trans h2

/-- The visited productions after a traversal from `ts`. -/
structure DfsSeen (parts : I → List I) (ts : List I) (seen seen' : List I) : Prop where
  ex : ∃ new, seen' = new ++ seen ∧ new.Nodup ∧ (∀ i ∈ new, i ∉ seen) ∧
    (∀ i ∈ new, ∃ t ∈ ts, Reach parts t i) ∧ (∀ i ∈ new, ∀ j ∈ parts i, j ∈ seen')
  root : ∀ t ∈ ts, t ∈ seen'

theorem DfsSeen.sub {ts seen seen' : List I} (h : DfsSeen parts ts seen seen') :
    ∀ i ∈ seen, i ∈ seen' := by
  obtain ⟨new, rfl, _⟩ := h.ex
  intro i hi; simp [hi]

theorem DfsSeen.cons {c : I} {cs seen s1 s2 : List I} (h1 : DfsSeen parts [c] seen s1)
    (h2 : DfsSeen parts cs s1 s2) : DfsSeen parts (c :: cs) seen s2 := by
  have hs := h2.sub
  obtain ⟨n1, rfl, d1, e1, r1, p1⟩ := h1.ex
  obtain ⟨n2, rfl, d2, e2, r2, p2⟩ := h2.ex
  refine ⟨⟨n2 ++ n1, by simp, ?_, ?_, ?_, ?_⟩, ?_⟩
  · rw [List.nodup_append]
    refine ⟨d2, d1, ?_⟩
    intro a ha b hb hab
    subst hab
    exact e2 a ha (by simp [hb])
  · intro i hi
    rcases List.mem_append.1 hi with hi | hi
    · intro h; exact e2 i hi (by simp [h])
    · exact e1 i hi
  · intro i hi
    rcases List.mem_append.1 hi with hi | hi
    · obtain ⟨t, ht, hr⟩ := r2 i hi; exact ⟨t, by simp [ht], hr⟩
    · obtain ⟨t, ht, hr⟩ := r1 i hi
      simp at ht; subst ht
      exact ⟨t, by simp, hr⟩
  · intro i hi j hj
    rcases List.mem_append.1 hi with hi | hi
    · exact p2 i hi j hj
    · exact hs _ (p1 i hi j hj)
  · intro t ht
    rcases List.mem_cons.1 ht with rfl | ht
    · exact hs _ (h1.root t (by simp))
    · exact h2.root t ht

theorem DfsSeen.nil (seen : List I) : DfsSeen parts [] seen seen :=
  ⟨⟨[], rfl, by simp, by simp, by simp, by simp⟩, by simp⟩

theorem DfsSeen.visited {t : I} {seen : List I} (h : t ∈ seen) : DfsSeen parts [t] seen seen :=
  ⟨⟨[], rfl, by simp, by simp, by simp, by simp⟩, by simpa using h⟩

theorem DfsSeen.enter {t : I} {seen s' : List I} (ht : t ∉ seen)
    (h : DfsSeen parts (parts t) (t :: seen) s') : DfsSeen parts [t] seen s' := by
  have hs := h.sub
  obtain ⟨n1, rfl, d1, e1, r1, p1⟩ := h.ex
  refine ⟨⟨n1 ++ [t], by simp, ?_, ?_, ?_, ?_⟩, ?_⟩
  · rw [List.nodup_append]
    refine ⟨d1, by simp, ?_⟩
    intro a ha b hb hab
    subst hab
    simp at hb; subst hb
    exact e1 a ha (by simp)
  · intro i hi
    rcases List.mem_append.1 hi with hi | hi
    · intro h; exact e1 i hi (by simp [h])
    · simp at hi; subst hi; exact ht
  · intro i hi
    refine ⟨t, by simp, ?_⟩
    rcases List.mem_append.1 hi with hi | hi
    · obtain ⟨c, hc, hr⟩ := r1 i hi; exact Reach.head hc hr
    · simp at hi; subst hi; exact .refl
  · intro i hi j hj
    rcases List.mem_append.1 hi with hi | hi
    · exact p1 i hi j hj
    · simp at hi; subst hi; exact h.root j hj
  · intro c hc; simp at hc; subst hc; exact hs _ (by simp)

/-- From the empty set, exactly the reachable productions are visited, each once. -/
theorem DfsSeen.exact {t : I} {s' : List I} (h : DfsSeen parts [t] [] s') :
    s'.Nodup ∧ ∀ i, i ∈ s' ↔ Reach parts t i := by
  have hroot := h.root t (by simp)
  obtain ⟨new, rfl, d, e, r, p⟩ := h.ex
  simp only [List.append_nil] at *
  refine ⟨d, fun i => ⟨?_, ?_⟩⟩
  · intro hi
    obtain ⟨c, hc, hr⟩ := r i hi
    simp at hc; subst hc; exact hr
  · intro hr
    induction hr with
    | refl => exact hroot
    | step _ hj ih => exact p _ ih _ hj

theorem dfsParts_seen {rec : I → List I × σ → Option (Except E (List I × σ))}
    (hrec : ∀ c seen s seen' s', rec c (seen, s) = some (.ok (seen', s')) →
      DfsSeen parts [c] seen seen') (t : I) (cs : List I) :
    ∀ i seen s seen' s', dfsParts rec edge t i cs (seen, s) = some (.ok (seen', s')) →
      DfsSeen parts cs seen seen' := by
  induction cs with
  | nil =>
    intro i seen s seen' s' h
    simp [dfsParts] at h
    obtain ⟨rfl, rfl⟩ := h
    exact .nil _
  | cons c cs ih =>
    intro i seen s seen' s' h
    simp only [dfsParts] at h
    split at h
    · cases h
    · cases h
    · rename_i st hst
      exact (hrec _ _ _ _ _ hst).cons (ih _ _ _ _ _ h)

theorem dfs_seen (fuel : Nat) : ∀ t seen s seen' s',
    dfs parts pre edge fuel t (seen, s) = some (.ok (seen', s')) → DfsSeen parts [t] seen seen' := by
  induction fuel with
  | zero => intro t seen s seen' s' h; cases h
  | succ fuel ih =>
    intro t seen s seen' s' h
    simp only [dfs] at h
    split at h
    · rename_i ht
      simp at h; obtain ⟨rfl, rfl⟩ := h
      exact .visited ht
    · rename_i ht
      split at h
      · cases h
      · exact .enter ht (dfsParts_seen ih t _ _ _ _ _ _ h)

/-- Invariants of the traversal. -/
theorem dfsParts_inv (P : List I → σ → Prop)
    (hedge : ∀ t i c seen s, t ∈ seen → P seen s → P seen (edge t i c s))
    {rec : I → List I × σ → Option (Except E (List I × σ))}
    (hrec : ∀ c seen s seen' s', rec c (seen, s) = some (.ok (seen', s')) → P seen s →
      P seen' s' ∧ ∀ i ∈ seen, i ∈ seen') (t : I) (cs : List I) :
    ∀ i seen s seen' s', t ∈ seen → dfsParts rec edge t i cs (seen, s) = some (.ok (seen', s')) →
      P seen s → P seen' s' := by
  induction cs with
  | nil =>
    intro i seen s seen' s' _ h hP
    simp [dfsParts] at h
    obtain ⟨rfl, rfl⟩ := h
    exact hP
  | cons c cs ih =>
    intro i seen s seen' s' ht h hP
    simp only [dfsParts] at h
    split at h
    · cases h
    · cases h
    · rename_i st hst
      obtain ⟨h1, h2⟩ := hrec _ _ _ _ _ hst (hedge _ _ _ _ _ ht hP)
      exact ih _ _ _ _ _ (h2 t ht) h h1

theorem dfs_inv (P : List I → σ → Prop)
    (hpre : ∀ t seen s s', t ∉ seen → pre t s = .ok s' → P seen s → P (t :: seen) s')
    (hedge : ∀ t i c seen s, t ∈ seen → P seen s → P seen (edge t i c s)) (fuel : Nat) :
    ∀ t seen s seen' s', dfs parts pre edge fuel t (seen, s) = some (.ok (seen', s')) →
      P seen s → P seen' s' := by
  induction fuel with
  | zero => intro t seen s seen' s' h; cases h
  | succ fuel ih =>
    intro t seen s seen' s' h hP
    simp only [dfs] at h
    split at h
    · simp at h; obtain ⟨rfl, rfl⟩ := h; exact hP
    · rename_i ht
      split at h
      · cases h
      · rename_i s1 hs1
        refine dfsParts_inv P hedge (fun c seen s seen' s' hc hp =>
          ⟨ih _ _ _ _ _ hc hp, (dfs_seen _ _ _ _ _ _ hc).sub⟩) t _ _ _ _ _ _ ?_ h
          (hpre _ _ _ _ ht hs1 hP)
        simp

/-- An error comes from a reachable production. -/
theorem dfs_error (fuel : Nat) : ∀ t seen s e,
    dfs parts pre edge fuel t (seen, s) = some (.error e) →
    ∃ i s', Reach parts t i ∧ pre i s' = .error e := by
  induction fuel with
  | zero => intro t seen s e h; cases h
  | succ fuel ih =>
    intro t seen s e h
    simp only [dfs] at h
    split at h
    · cases h
    · split at h
      · rename_i e' he
        simp at h; subst h
        exact ⟨t, s, .refl, he⟩
      · have key : ∀ cs i seen s, (∀ c ∈ cs, c ∈ parts t) →
            dfsParts (dfs parts pre edge fuel) edge t i cs (seen, s) = some (.error e) →
            ∃ i s', Reach parts t i ∧ pre i s' = .error e := by
          intro cs
          induction cs with
          | nil => intro i seen s _ h; simp [dfsParts] at h
          | cons c cs ihc =>
            intro i seen s hc h
            simp only [dfsParts] at h
            split at h
            · cases h
            · rename_i e' he
              simp at h; subst h
              obtain ⟨j, s', hr, hj⟩ := ih _ _ _ _ he
              exact ⟨j, s', Reach.head (hc c (by simp)) hr, hj⟩
            · exact ihc _ _ _ (fun c h => hc c (by simp [h])) h
        exact key _ _ _ _ (fun c h => h) h

theorem dfsParts_mono {rec rec' : I → List I × σ → Option (Except E (List I × σ))}
    (hrec : ∀ c st r, rec c st = some r → rec' c st = some r) (t : I) (cs : List I) :
    ∀ i st r, dfsParts rec edge t i cs st = some r → dfsParts rec' edge t i cs st = some r := by
  induction cs with
  | nil => intro i st r h; exact h
  | cons c cs ih =>
    intro i st r h
    simp only [dfsParts] at h ⊢
    cases hc : rec c (st.1, edge t i c st.2) with
    | none => rw [hc] at h; cases h
    | some x =>
      rw [hc] at h
      rw [hrec _ _ _ hc]
      cases x with
      | error e => exact h
      | ok st' => exact ih _ _ _ h

theorem dfs_mono (fuel : Nat) : ∀ fuel', fuel ≤ fuel' → ∀ t st r,
    dfs parts pre edge fuel t st = some r → dfs parts pre edge fuel' t st = some r := by
  induction fuel with
  | zero => intro fuel' _ t st r h; cases h
  | succ fuel ih =>
    intro fuel' hle t st r h
    obtain ⟨f, rfl⟩ : ∃ f, fuel' = f + 1 := ⟨fuel' - 1, by omega⟩
    obtain ⟨seen, s⟩ := st
    simp only [dfs] at h ⊢
    split
    · rename_i ht; rw [if_pos ht] at h; exact h
    · rename_i ht
      rw [if_neg ht] at h
      cases hp : pre t s with
      | error e => rw [hp] at h; exact h
      | ok s1 =>
        rw [hp] at h
        exact dfsParts_mono (fun c st r => ih f (by omega) c st r) t _ _ _ _ h

/-- The number of productions of the universe not yet visited. -/
def unseen (U seen : List I) : Nat := (U.filter (· ∉ seen)).length

theorem unseen_le {U a b : List I} (h : ∀ i ∈ a, i ∈ b) : unseen U b ≤ unseen U a := by
  unfold unseen
  induction U with
  | nil => simp
  | cons x U ih =>
    simp only [List.filter_cons]
    by_cases hb : x ∈ b
    · by_cases ha : x ∈ a
      · simpa [ha, hb] using ih
      · simp [ha, hb]; simp at ih; omega
    · have ha : x ∉ a := fun h' => hb (h x h')
      simpa [ha, hb] using ih

theorem unseen_lt {U seen : List I} {t : I} (h : t ∈ U) (ht : t ∉ seen) :
    unseen U (t :: seen) < unseen U seen := by
  unfold unseen
  induction U with
  | nil => cases h
  | cons x U ih =>
    simp only [List.filter_cons]
    have hle := unseen_le (U := U) (a := seen) (b := t :: seen) (by simp_all)
    unfold unseen at hle
    by_cases hx : x = t
    · subst hx
      simp only [ht, List.mem_cons, true_or, not_true_eq_false, decide_false, not_false_eq_true,
        decide_true, if_true, Bool.false_eq_true, if_false, List.length_cons]
      simp only [List.mem_cons] at hle
      omega
    · have := ih (by rcases List.mem_cons.1 h with h | h; exact absurd h.symm hx; exact h)
      by_cases hs : x ∈ seen
      · simpa [hx, hs] using this
      · simpa [hx, hs] using this

theorem dfs_total (U : List I) (hU : ∀ i ∈ U, ∀ j ∈ parts i, j ∈ U) (fuel : Nat) :
    ∀ t seen s, t ∈ U → unseen U seen < fuel → ∃ r, dfs parts pre edge fuel t (seen, s) = some r := by
  induction fuel with
  | zero => intro t seen s _ h; omega
  | succ fuel ih =>
    intro t seen s ht hlt
    simp only [dfs]
    split
    · exact ⟨_, rfl⟩
    · rename_i hns
      cases hp : pre t s with
      | error e => exact ⟨_, rfl⟩
      | ok s1 =>
        have hl := unseen_lt ht hns
        have key : ∀ cs i seen s, (∀ c ∈ cs, c ∈ U) → unseen U seen < fuel →
            ∃ r, dfsParts (dfs parts pre edge fuel) edge t i cs (seen, s) = some r := by
          intro cs
          induction cs with
          | nil => intro i seen s _ _; exact ⟨_, rfl⟩
          | cons c cs ihc =>
            intro i seen s hc hlt
            simp only [dfsParts]
            obtain ⟨r, hr⟩ := ih c seen (edge t i c s) (hc c (by simp)) hlt
            rw [hr]
            cases r with
            | error e => exact ⟨_, rfl⟩
            | ok st =>
              have := (dfs_seen _ _ _ _ _ _ hr).sub
              have := unseen_le (U := U) this
              exact ihc _ _ _ (fun c h => hc c (by simp [h])) (by omega)
        exact key _ _ _ _ (hU t ht) (by omega)

/-! ### The events of a traversal without `pre` -/

/-- `evs` are the edges handled while going from `seen` to `seen'`: those of each newly visited
production, in order and once. -/
def EdgeEvents (parts : I → List I) (seen seen' : List I) (evs : List (I × Nat × I)) : Prop :=
  ∀ t, evs.filter (fun e => e.1 = t) =
    if t ∈ seen' ∧ t ∉ seen then (parts t).zipIdx.map (fun p => (t, p.2, p.1)) else []

theorem dfs_events (fuel : Nat) : ∀ t seen (s : σ) seen' s',
    dfs (E := E) parts (fun _ s => .ok s) edge fuel t (seen, s) = some (.ok (seen', s')) →
    ∃ evs : List (I × Nat × I), s' = evs.foldl (fun s e => edge e.1 e.2.1 e.2.2 s) s ∧ EdgeEvents parts seen seen' evs := by
  induction fuel with
  | zero => intro t seen s seen' s' h; cases h
  | succ fuel ih =>
    intro t seen s seen' s' h
    have hseen := dfs_seen _ _ _ _ _ _ h
    simp only [dfs] at h
    split at h
    · simp at h; obtain ⟨rfl, rfl⟩ := h
      refine ⟨[], rfl, ?_⟩
      intro x; rw [if_neg (fun h => h.2 h.1)]; rfl
    · rename_i ht
      have key : ∀ cs i seen s seen' s', t ∈ seen →
          dfsParts (dfs (E := E) parts (fun _ s => .ok s) edge fuel) edge t i cs (seen, s) =
            some (.ok (seen', s')) →
          ∃ evs : List (I × Nat × I), s' = evs.foldl (fun s e => edge e.1 e.2.1 e.2.2 s) s ∧
            (∀ x, evs.filter (fun e => e.1 = x) =
              if x = t then (cs.zipIdx i).map (fun p => (t, p.2, p.1)) else
              if x ∈ seen' ∧ x ∉ seen then (parts x).zipIdx.map (fun p => (x, p.2, p.1)) else []) := by
        intro cs
        induction cs with
        | nil =>
          intro i seen s seen' s' hts h
          simp [dfsParts] at h; obtain ⟨rfl, rfl⟩ := h
          refine ⟨[], rfl, ?_⟩
          intro x
          split
          · rfl
          · rw [if_neg (fun h => h.2 h.1)]; rfl
        | cons c cs ihc =>
          intro i seen s seen' s' hts h
          simp only [dfsParts] at h
          split at h
          · cases h
          · cases h
          · rename_i st hst
            obtain ⟨e1, h1, h2⟩ := ih _ _ _ _ _ hst
            have hsub1 := (dfs_seen _ _ _ _ _ _ hst).sub
            obtain ⟨e2, h3, h4⟩ := ihc _ _ _ _ _ (hsub1 t hts) h
            have hsub2 := (dfsParts_seen (dfs_seen fuel) t _ _ _ _ _ _ h).sub
            refine ⟨(t, i, c) :: (e1 ++ e2), ?_, ?_⟩
            · rw [List.foldl_cons, List.foldl_append, ← h1, ← h3]
            · intro x
              rw [List.filter_cons, List.filter_append, h2 x, h4 x]
              by_cases hx : x = t
              · subst hx
                simp [hts]
              · have hx' : ¬ (t = x) := fun h => hx h.symm
                simp only [hx, hx', decide_false, if_false, Bool.false_eq_true]
                by_cases ha : x ∈ seen
                · have hb := hsub1 x ha
                  simp [ha, hb]
                · by_cases hb : x ∈ st.1
                  · have hc := hsub2 x hb
                    simp [ha, hb, hc]
                  · simp [ha, hb]
      obtain ⟨evs, h1, h2⟩ := key _ _ _ _ _ _ (by simp) h
      refine ⟨evs, h1, ?_⟩
      intro x
      rw [h2 x]
      by_cases hx : x = t
      · subst hx
        have := hseen.root x (by simp)
        simp [ht, this]
      · simp [hx]

end Teleparse
