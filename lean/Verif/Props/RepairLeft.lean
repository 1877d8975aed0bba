import Verif.Proof.RepairLeft
import Verif.Props.Repair
import Verif.Props.RepairEnum
/-
Property C114: reporting left recursion.
-/
namespace Teleparse
variable {I : Type} {n : Nat} [DecidableEq I]

/-! ## C114 -/

theorem first_null {fuel : Nat} {G : Grammar I n} {first : Tbl I n} (h : buildFirst fuel G = some first) (i : I) :
    (first.get i).contains none = true ↔ Null G i := buildFirst_den h i none

theorem fixedSeqConflict_kind (first : Tbl I n) (t : I) (l : List I) : ∀ (cur : I) (check : TSet n) e,
    fixedSeqConflict first t cur check l = some e → ∃ a b, e = .firstFollowSeq t a b := by
  induction l with
  | nil => intro cur check e h; simp [fixedSeqConflict] at h
  | cons c l ih =>
    intro cur check e h
    simp only [fixedSeqConflict] at h
    split at h
    · exact ⟨_, _, by simpa using h.symm⟩
    · split at h
      · exact ih _ _ _ h
      · exact ih _ _ _ h

/-- The repaired checks for conflicts report no left recursion. -/
theorem fixedNodeConflict_ne (G : Grammar I n) (first follow : Tbl I n) (t : I) (stack : List I) (cur : I) :
    fixedNodeConflict G first follow t ≠ some (.leftRecursion stack cur) := by
  intro hn
  unfold fixedNodeConflict at hn
  split at hn
  · cases hn
  · cases hn
  · cases hn
  · rename_i l hg
    have hs := altConflict_spec first t l l [] TSet.empty rfl (by
      intro x; cases x with
      | none => simp [TSet.contains]
      | some tok => simpa [TSet.Mem] using TSet.mem_empty tok)
    split at hn
    · rename_i e he
      rw [he] at hs
      simp at hn; subst hn
      obtain ⟨_, _, _, _, _, _, _, _, _, h5⟩ := hs
      cases h5
    · cases selfConflict_kind _ _ _ _ hn
  · cases hn
  · rename_i c cs hg
    simp only at hn
    split at hn
    · rename_i e he
      simp at hn; subst hn
      obtain ⟨_, _, hk⟩ := fixedSeqConflict_kind _ _ _ _ _ _ he
      cases hk
    · cases selfConflict_kind _ _ _ _ hn

/-- Building ends. -/
theorem C114_terminates (G : Grammar I n) (root : I) :
    ∃ fuel r, ∀ fuel' ≥ fuel, leftBuild fuel' G root = some r := leftBuild_total G root

/-- What is reported is true: the productions on the stack, with the last one, are a path of leftmost symbols, and the
last one is on the stack. -/
theorem C114_truthful (ruleOf : I → Rule I n) (fuel : Nat) (root : I) (G : Grammar I n)
    (hG : registerFrom ruleOf fuel root = some G) (fuel' : Nat) (stack : List I) (cur : I)
    (h : leftBuild fuel' G root = some (.error (.leftRecursion stack cur))) :
    cur ∈ stack ∧ LeftDerives G cur cur ∧ ∀ (k : Nat) (a b : I), (stack ++ [cur])[k]? = some a →
      (stack ++ [cur])[k + 1]? = some b → LeftDerives G a b := by
  have hfun := (registerFrom_spec hG).1
  unfold leftBuild at h
  split at h
  · cases h
  · rename_i first hf
    split at h
    · cases h
    · rename_i e he
      cases h
      obtain ⟨c, -, s, hc⟩ := leftAll_error _ _ he
      obtain ⟨st, cu, e1, hm, hp⟩ := leftSearch_error _ [] c s _ (by
        intro k a b _ hb
        simp at hb) hc
      cases e1
      refine ⟨hm, ?_, fun k a b ha hb => hp.derives hfun (first_null hf) 0 k a b ha hb⟩
      obtain ⟨k, hk, hk'⟩ := List.mem_iff_getElem.1 hm
      refine hp.derives hfun (first_null hf) (stack.length - k - 1) k cur cur ?_ ?_
      · rw [List.getElem?_append_left hk, List.getElem?_eq_getElem hk, hk']
      · rw [show k + (stack.length - k - 1) + 1 = stack.length by omega, List.getElem?_append_right (Nat.le_refl _)]
        simp
    · obtain ⟨first, follow, _, _, h3⟩ := fixedBuild_error h
      obtain ⟨t, _, hn⟩ := fixedConflicts_error h3
      exact absurd hn (fixedNodeConflict_ne _ _ _ _ _ _)

/-- If nothing is reported there is no left recursion. -/
theorem fixedLeft_none {fuel fuel' : Nat} {G : Grammar I n} {first : Tbl I n} {seen : List I} (hfun : G.Functional)
    (h1 : buildFirst fuel G = some first) (h2 : fixedLeft G first fuel' = some (.ok seen)) (i : I) :
    ¬ LeftDerives G i i := by
  intro hl
  have hi : i ∈ G.map (·.1) := by
    obtain ⟨k, hk, -⟩ := hl.lsteps
    cases hk with
    | alt hm _ => exact List.mem_map.2 ⟨_, hm, rfl⟩
    | seq hm _ => exact List.mem_map.2 ⟨_, hm, rfl⟩
  have := (leftAll_ok (next := G.lefts first) (stack := [])
    (fun c s s' => leftSearch_ok fuel' [] c s s') _ [] seen (by simp) h2).1 i hi
  exact this.no_cycle hfun (first_null h1) hl

/-- Left recursion is reported exactly if some production that is registered is left recursive (what C29 claims). -/
theorem C114_reports (ruleOf : I → Rule I n) (fuel : Nat) (root : I) (G : Grammar I n)
    (hG : registerFrom ruleOf fuel root = some G) :
    (∃ stack cur N, ∀ fuel' ≥ N, leftBuild fuel' G root = some (.error (.leftRecursion stack cur))) ↔
      ∃ i, Reachable G root i ∧ LeftDerives G i i := by
  have hfun := (registerFrom_spec hG).1
  constructor
  · rintro ⟨stack, cur, N, h⟩
    obtain ⟨-, h2, -⟩ := C114_truthful ruleOf fuel root G hG N stack cur (h N (Nat.le_refl _))
    refine ⟨cur, ?_, h2⟩
    have hc : ∃ r, (cur, r) ∈ G := by
      obtain ⟨k, hk, -⟩ := h2.lsteps
      cases hk with
      | alt hm _ => exact ⟨_, hm⟩
      | seq hm _ => exact ⟨_, hm⟩
    obtain ⟨r, hr⟩ := hc
    exact (registerFrom_closed hG cur).2 (((registerFrom_spec hG).2 cur r).1 hr).1
  · rintro ⟨i, -, hl⟩
    obtain ⟨N, r, h⟩ := leftBuild_total G root
    have h0 := h N (Nat.le_refl _)
    unfold leftBuild at h0
    split at h0
    · cases h0
    · rename_i first hf
      split at h0
      · cases h0
      · rename_i e he
        cases h0
        obtain ⟨c, -, s, hc⟩ := leftAll_error _ _ he
        obtain ⟨st, cu, rfl, -⟩ := leftSearch_error _ [] c s _ (by
          intro k a b _ hb
          simp at hb) hc
        exact ⟨st, cu, N, h⟩
      · rename_i seen hs
        exact absurd hl (fixedLeft_none hfun hf hs i)

/-- A grammar is accepted exactly if it is LL(1) and not left recursive. -/
theorem C114_accepts (ruleOf : I → Rule I n) (fuel : Nat) (root : I) (G : Grammar I n)
    (hG : registerFrom ruleOf fuel root = some G) :
    (∃ md N, ∀ fuel' ≥ N, leftBuild fuel' G root = some (.ok md)) ↔
      LL1 G root ∧ ∀ i, Reachable G root i → ¬ LeftDerives G i i := by
  have hfun := (registerFrom_spec hG).1
  constructor
  · rintro ⟨md, N, h⟩
    have h0 := h N (Nat.le_refl _)
    unfold leftBuild at h0
    split at h0
    · cases h0
    · rename_i first hf
      split at h0
      · cases h0
      · cases h0
      · rename_i seen hs
        exact ⟨ll1_of_fixed hfun h0, fun i _ => fixedLeft_none hfun hf hs i⟩
  · rintro ⟨hll, hno⟩
    obtain ⟨N, r, h⟩ := leftBuild_total G root
    cases r with
    | ok md => exact ⟨md, N, h⟩
    | error e =>
      exfalso
      obtain ⟨md, N', hb⟩ := (C110_exact ruleOf fuel root G hG).2 hll
      have h0 := h (max N N') (Nat.le_max_left _ _)
      unfold leftBuild at h0
      split at h0
      · cases h0
      · rename_i first hf
        split at h0
        · cases h0
        · rename_i e' he
          cases h0
          obtain ⟨c, -, s, hc⟩ := leftAll_error _ _ he
          obtain ⟨st, cu, rfl, -⟩ := leftSearch_error _ [] c s _ (by
            intro k a b _ hb
            simp at hb) hc
          obtain ⟨i, h1, h2⟩ := (C114_reports ruleOf fuel root G hG).1 ⟨st, cu, N, h⟩
          exact hno i h1 h2
        · rw [hb _ (Nat.le_max_right _ _)] at h0
          cases h0

/-- If every production derives some finite text nothing else is refused than without the search: the search only says
better what is wrong. -/
theorem C114_conservative (ruleOf : I → Rule I n) (fuel : Nat) (root : I) (G : Grammar I n)
    (hG : registerFrom ruleOf fuel root = some G) (hprod : ∀ i, Reachable G root i → Productive G i) :
    (∃ md N, ∀ fuel' ≥ N, leftBuild fuel' G root = some (.ok md)) ↔
      ∃ md N, ∀ fuel' ≥ N, fixedBuild fuel' G root = some (.ok md) := by
  rw [C114_accepts ruleOf fuel root G hG, C110_exact ruleOf fuel root G hG]
  exact ⟨fun h => h.1, fun h => ⟨h, fun i hi => C112_left G root (registerFrom_spec hG).1 hprod h i hi⟩⟩

/-! ### The obvious repair -/

/-- `p = t | w | c`, `t = "x" q`, `w = q "y"`, `q = p`: left recursive, because `p` begins with `w`, `w` with `q`, and
`q` with `p`. -/
def lrRule : Nat → Rule Nat 3
  | 0 => .alt [1, 2, 6]
  | 1 => .seq [4, 3]
  | 2 => .seq [3, 5]
  | 3 => .seq [0]
  | 4 => .term ⟨0, none⟩
  | 5 => .term ⟨1, none⟩
  | _ => .term ⟨2, none⟩
def lrG : Grammar Nat 3 := (registerFrom lrRule 20 0).getD []

/-- Exchanging the two tests is not enough: the search comes to `q` by way of `t` first, with an empty stack, and does
not go there again. -/
theorem C114_swap_misses : registerFrom lrRule 20 0 = some lrG ∧ LeftDerives lrG 0 0 ∧
    ∃ first, buildFirst 20 lrG = some first ∧
      ∃ s, checkLeftSwapped lrG first 20 0 ⟨[], [], []⟩ = some (.ok s) := by
  refine ⟨rfl, ?_, ?_⟩
  · have h1 : LeftDerives lrG 0 2 := ⟨[.nt 2], [], .alt (l := [1, 2, 6]) (by decide) (by decide), .refl _⟩
    have h2 : LeftDerives lrG 2 3 := ⟨[.nt 3, .nt 5], [.nt 5], .seq (l := [3, 5]) (by decide), .refl _⟩
    have h3 : LeftDerives lrG 3 0 := ⟨[.nt 0], [], .seq (l := [0]) (by decide), .refl _⟩
    exact (h1.trans h2).trans h3
  · refine ⟨(buildFirst 20 lrG).getD [], rfl, ?_⟩
    have : ((checkLeftSwapped lrG ((buildFirst 20 lrG).getD []) 20 0 ⟨[], [], []⟩).map
      fun r => match r with | .ok _ => true | .error _ => false) = some true := by decide +kernel
    revert this
    generalize checkLeftSwapped lrG ((buildFirst 20 lrG).getD []) 20 0 ⟨[], [], []⟩ = r
    intro h
    match r, h with
    | some (.ok s), _ => exact ⟨s, rfl⟩
    | some (.error e), h => simp at h
    | none, h => simp at h

/-! ### Examples -/

/-- The search reports it. -/
example : leftBuild 20 lrG 0 = some (.error (.leftRecursion [0, 2, 3] 0)) := by rfl

/-- `E = E a` of `C29_false` is reported. -/
example : (∃ m, build 20 exLeftG 0 = some (.ok m)) ∧ leftBuild 20 exLeftG 0 = some (.error (.leftRecursion [0] 0)) :=
  ⟨okB_iff (by decide), by rfl⟩

/-- A grammar that is accepted, with recursion that is not at the left: `S = a S | b`. -/
def lsRule : Nat → Rule Nat 2
  | 0 => .alt [1, 3]
  | 1 => .seq [2, 0]
  | 2 => .term ⟨0, none⟩
  | _ => .term ⟨1, none⟩
def lsG : Grammar Nat 2 := (registerFrom lsRule 20 0).getD []
example : registerFrom lsRule 20 0 = some lsG ∧ ∃ md, leftBuild 20 lsG 0 = some (.ok md) := ⟨rfl, ⟨_, rfl⟩⟩

end Teleparse
