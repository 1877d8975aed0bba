import Verif.Model.Jump
import Verif.Proof.First
/-
The predictive table: invariant over registrations.
-/
set_option linter.unusedSectionVars false
namespace Teleparse
variable {I : Type} {n : Nat} [DecidableEq I]

/-- What a table says about a history of registrations `(FIRST set, id)`. -/
structure JumpTable.Inv (hist : List (TSet n × Nat)) (t : JumpTable n) : Prop where
  lit_sound : ∀ ty src i, aget? (t.map.get ty).2 src = some i →
    ∃ F, (F, i) ∈ hist ∧ ∃ ls, F.map.get ty = .mat ls ∧ src ∈ ls
  any_sound : ∀ ty i, (t.map.get ty).1 = some i → ∃ F, (F, i) ∈ hist ∧ F.map.get ty = .any
  eps_sound : ∀ i, t.epsilon = some i → ∃ F, (F, i) ∈ hist ∧ F.e = true
  lit_complete : ∀ F i ty ls src, (F, i) ∈ hist → F.map.get ty = .mat ls → src ∈ ls →
    aget? (t.map.get ty).2 src ≠ none
  any_complete : ∀ F i ty, (F, i) ∈ hist → F.map.get ty = .any → (t.map.get ty).1 ≠ none
  eps_complete : ∀ F i, (F, i) ∈ hist → F.e = true → t.epsilon ≠ none

theorem JumpTable.inv_empty : JumpTable.Inv [] (JumpTable.empty : JumpTable n) := by
  constructor <;> simp [JumpTable.empty, aget?]

/-- The set lists the literal explicitly. -/
def LitSet.hasLit : LitSet → Str → Bool
  | .mat ls, src => decide (src ∈ ls)
  | .any, _ => false

theorem LitSet.hasLit_iff (s : LitSet) (src : Str) :
    s.hasLit src = true ↔ ∃ ls, s = .mat ls ∧ src ∈ ls := by
  cases s <;> simp [LitSet.hasLit]

/-- Effect of the literals of one type. -/
theorem LitSet.addToJumpTable_spec (s : LitSet) (ty : Fin n) (t : JumpTable n) (v : Nat) :
    (s.addToJumpTable ty t v).epsilon = t.epsilon ∧
    (∀ ty', ((s.addToJumpTable ty t v).map.get ty').1 =
      if ty' = ty ∧ s = .any then some v else (t.map.get ty').1) ∧
    (∀ ty' src, aget? ((s.addToJumpTable ty t v).map.get ty').2 src =
      if ty' = ty ∧ s.hasLit src = true then some v else aget? (t.map.get ty').2 src) := by
  cases s with
  | any =>
    simp only [LitSet.addToJumpTable, JumpTable.register]
    refine ⟨trivial, ?_, ?_⟩
    · intro ty'; rw [Map.get_set]; split <;> simp_all
    · intro ty' src; rw [Map.get_set]; split <;> simp_all [LitSet.hasLit]
  | mat ls =>
    simp only [LitSet.addToJumpTable]
    induction ls generalizing t with
    | nil => simp [LitSet.hasLit]
    | cons l ls ih =>
      rw [List.foldl_cons]
      obtain ⟨h1, h2, h3⟩ := ih (t.registerLit v ty l)
      refine ⟨h1, ?_, ?_⟩
      · intro ty'
        rw [h2]
        simp only [JumpTable.registerLit, Map.get_set]
        by_cases h : ty' = ty
        · subst h; simp
        · simp [h]
      · intro ty' src
        rw [h3]
        simp only [JumpTable.registerLit, Map.get_set]
        by_cases h : ty' = ty
        · subst h
          simp only [if_true, aget?_aset, true_and, LitSet.hasLit, decide_eq_true_eq, List.mem_cons]
          by_cases h' : src ∈ ls
          · simp [h']
          · by_cases hl : src = l
            · simp [hl]
            · simp [h', hl]
        · simp [h]

theorem TSet.addToJumpTable_spec (s : TSet n) (t : JumpTable n) (v : Nat) :
    (s.addToJumpTable t v).epsilon = (if s.e then some v else t.epsilon) ∧
    (∀ ty, ((s.addToJumpTable t v).map.get ty).1 =
      if s.map.get ty = .any then some v else (t.map.get ty).1) ∧
    (∀ ty src, aget? ((s.addToJumpTable t v).map.get ty).2 src =
      if (s.map.get ty).hasLit src = true then some v else aget? (t.map.get ty).2 src) := by
  have key : ∀ (tys : List (Fin n)) (t : JumpTable n),
      let r := tys.foldl (fun t ty => (s.map.get ty).addToJumpTable ty t v) t
      r.epsilon = t.epsilon ∧
      (∀ ty, (r.map.get ty).1 =
        if ty ∈ tys ∧ s.map.get ty = .any then some v else (t.map.get ty).1) ∧
      (∀ ty src, aget? (r.map.get ty).2 src =
        if ty ∈ tys ∧ (s.map.get ty).hasLit src = true then some v
        else aget? (t.map.get ty).2 src) := by
    intro tys
    induction tys with
    | nil => intro t; simp
    | cons ty0 tys ih =>
      intro t
      simp only [List.foldl_cons]
      obtain ⟨h1, h2, h3⟩ := ih ((s.map.get ty0).addToJumpTable ty0 t v)
      obtain ⟨g1, g2, g3⟩ := LitSet.addToJumpTable_spec (s.map.get ty0) ty0 t v
      refine ⟨h1.trans g1, ?_, ?_⟩
      · intro ty
        rw [h2, g2]
        by_cases h : ty = ty0
        · subst h; by_cases ha : s.map.get ty = .any <;> simp [ha]
        · simp [h]
      · intro ty src
        rw [h3, g3]
        by_cases h : ty = ty0
        · subst h
          cases ha : (s.map.get ty).hasLit src <;> simp
        · simp [h]
  obtain ⟨h1, h2, h3⟩ := key (List.finRange n) (if s.containsE then t.registerEpsilon v else t)
  simp only [TSet.addToJumpTable]
  refine ⟨?_, ?_, ?_⟩
  · rw [h1]; cases he : s.e <;> simp [TSet.containsE, he, JumpTable.registerEpsilon]
  · intro ty
    rw [h2]
    have : ((if s.containsE then t.registerEpsilon v else t).map) = t.map := by split <;> rfl
    rw [this]; simp
  · intro ty src
    rw [h3]
    have : ((if s.containsE then t.registerEpsilon v else t).map) = t.map := by split <;> rfl
    rw [this]; simp

theorem JumpTable.Inv.add {hist : List (TSet n × Nat)} {t : JumpTable n} (h : t.Inv hist)
    (s : TSet n) (v : Nat) : (s.addToJumpTable t v).Inv (hist ++ [(s, v)]) := by
  obtain ⟨he, ha, hl⟩ := s.addToJumpTable_spec t v
  constructor
  · intro ty src i hi
    rw [hl] at hi
    split at hi
    · rename_i hc
      cases hi
      exact ⟨s, by simp, (LitSet.hasLit_iff _ _).1 hc⟩
    · obtain ⟨F, hF, hx⟩ := h.lit_sound _ _ _ hi
      exact ⟨F, by simp [hF], hx⟩
  · intro ty i hi
    rw [ha] at hi
    split at hi
    · rename_i hc
      cases hi
      exact ⟨s, by simp, hc⟩
    · obtain ⟨F, hF, hx⟩ := h.any_sound _ _ hi
      exact ⟨F, by simp [hF], hx⟩
  · intro i hi
    rw [he] at hi
    split at hi
    · rename_i hc
      cases hi
      exact ⟨s, by simp, hc⟩
    · obtain ⟨F, hF, hx⟩ := h.eps_sound _ hi
      exact ⟨F, by simp [hF], hx⟩
  · intro F i ty ls src hF hx hs
    rw [hl]
    split
    · simp
    · rename_i hc
      rcases List.mem_append.1 hF with hF | hF
      · exact h.lit_complete _ _ _ _ _ hF hx hs
      · simp at hF; obtain ⟨rfl, rfl⟩ := hF; exact absurd ((LitSet.hasLit_iff _ _).2 ⟨ls, hx, hs⟩) hc
  · intro F i ty hF hx
    rw [ha]
    split
    · simp
    · rename_i hc
      rcases List.mem_append.1 hF with hF | hF
      · exact h.any_complete _ _ _ hF hx
      · simp at hF; obtain ⟨rfl, rfl⟩ := hF; exact absurd hx hc
  · intro F i hF hx
    rw [he]
    split
    · simp
    · rename_i hc
      rcases List.mem_append.1 hF with hF | hF
      · exact h.eps_complete _ _ hF hx
      · simp at hF; obtain ⟨rfl, rfl⟩ := hF; exact absurd hx hc

theorem JumpTable.Inv.lookUp_sound {hist : List (TSet n × Nat)} {t : JumpTable n} (h : t.Inv hist)
    {tok : Option (TokenSrc n)} {i : Nat} (hl : t.lookUp tok = some i) :
    ∃ F, (F, i) ∈ hist ∧ F.contains tok = true := by
  cases tok with
  | none => exact h.eps_sound i hl
  | some tok =>
    simp only [JumpTable.lookUp, JumpTable.lookUpToken] at hl
    split at hl
    · rename_i v hv
      cases hl
      obtain ⟨F, hF, ls, h1, h2⟩ := h.lit_sound _ _ _ hv
      exact ⟨F, hF, by simp [TSet.contains, h1, LitSet.contains, h2]⟩
    · obtain ⟨F, hF, h1⟩ := h.any_sound _ _ hl
      exact ⟨F, hF, by simp [TSet.contains, h1, LitSet.contains]⟩

theorem JumpTable.Inv.lookUp_complete {hist : List (TSet n × Nat)} {t : JumpTable n} (h : t.Inv hist)
    {tok : Option (TokenSrc n)} {F : TSet n} {i : Nat} (hF : (F, i) ∈ hist)
    (hc : F.contains tok = true) : t.lookUp tok ≠ none := by
  cases tok with
  | none => exact h.eps_complete F i hF hc
  | some tok =>
    simp only [JumpTable.lookUp, JumpTable.lookUpToken]
    split
    · simp
    · rename_i hn
      simp only [TSet.contains] at hc
      cases hg : F.map.get tok.ty with
      | any => exact h.any_complete _ _ _ hF hg
      | mat ls =>
        rw [hg] at hc
        simp only [LitSet.contains, decide_eq_true_eq] at hc
        exact absurd hn (h.lit_complete _ _ _ _ _ hF hg hc)

/-- Registrations in order. -/
def Jump.registerAll (j : Jump I n) (hist : List (I × TSet n × Nat)) : Jump I n :=
  hist.foldl (fun j r => j.register r.1 r.2.1 r.2.2) j

/-- The registrations made for `t`. -/
def regsOf (hist : List (I × TSet n × Nat)) (t : I) : List (TSet n × Nat) :=
  (hist.filter (fun r => r.1 = t)).map Prod.snd

theorem Jump.inv_registerAll (hist : List (I × TSet n × Nat)) :
    ∀ (t : I), JumpTable.Inv (regsOf hist t)
      ((aget? (Jump.registerAll ([] : Jump I n) hist) t).getD JumpTable.empty) := by
  suffices h : ∀ (hist done : List (I × TSet n × Nat)) (j : Jump I n),
      (∀ t, JumpTable.Inv (regsOf done t) ((aget? j t).getD JumpTable.empty)) →
      ∀ t, JumpTable.Inv (regsOf (done ++ hist) t)
        ((aget? (j.registerAll hist) t).getD JumpTable.empty) by
    intro t
    have := h hist [] [] (fun t => by simpa [regsOf, aget?] using JumpTable.inv_empty) t
    simpa using this
  intro hist
  induction hist with
  | nil => intro done j h t; simpa [Jump.registerAll] using h t
  | cons r hist ih =>
    intro done j h t
    have := ih (done ++ [r]) (j.register r.1 r.2.1 r.2.2) (by
      intro t
      simp only [Jump.register, aget?_aset]
      by_cases ht : t = r.1
      · subst ht
        simp only [if_true, Option.getD_some]
        have := (h r.1).add r.2.1 r.2.2
        simpa [regsOf, List.filter_append] using this
      · have ht' : ¬ r.1 = t := fun h => ht h.symm
        simp only [ht, if_false]
        have := h t
        simpa [regsOf, List.filter_append, ht'] using this) t
    simpa [Jump.registerAll] using this

theorem Jump.lookUp_eq (j : Jump I n) (t : I) (tok : Option (TokenSrc n)) :
    j.lookUp t tok = ((aget? j t).getD JumpTable.empty).lookUp tok := by
  unfold Jump.lookUp
  cases aget? j t with
  | some e => rfl
  | none => cases tok <;> simp [JumpTable.lookUp, JumpTable.lookUpToken, JumpTable.empty, aget?]

end Teleparse
