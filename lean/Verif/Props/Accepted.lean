import Verif.Proof.Accepted
import Verif.Props.Analysis
/-
Property C121: exactly which grammars are accepted, and exactly what is in the FOLLOW sets.
-/
namespace Teleparse
variable {I : Type} {n : Nat} [DecidableEq I]

/-! ## C121: the grammar test as it is -/

/-- The FOLLOW sets contain exactly what is next to a production, for any collection of productions. -/
theorem C121_follow (G : Grammar I n) (root : I) (fuel fuel' : Nat) (first follow : Tbl I n)
    (h1 : buildFirst fuel G = some first) (h2 : buildFollow fuel' first G root = some follow) (i : I)
    (x : Option (TokenSrc n)) : (follow.get i).contains x = true ↔ NextTo G root i x :=
  (buildFollow_den (buildFirst_den h1) h2 i x).trans (nextTo_iff G root i x).symm

/-- For the productions registered from any types: accepted iff the test of the book holds, and no part of a sequence can
begin with a token type that an earlier part can begin with in any text and that can be empty. -/
theorem C121_accepts (ruleOf : I → Rule I n) (fuel : Nat) (root : I) (G : Grammar I n)
    (hG : registerFrom ruleOf fuel root = some G) :
    (∃ md N, ∀ fuel' ≥ N, buildFor ruleOf fuel' root = some (.ok md)) ↔ Tested G root ∧ NoBareRepeat G root := by
  have hfun := (registerFrom_spec hG).1
  have hfor : ∀ fuel' ≥ fuel, buildFor ruleOf fuel' root = build fuel' G root := by
    intro fuel' hle
    unfold buildFor
    rw [registerFrom_mono hle hG]
  constructor
  · rintro ⟨md, N, h⟩
    have hb := h (max N fuel) (Nat.le_max_left _ _)
    rw [hfor _ (Nat.le_max_right _ _)] at hb
    exact ⟨accepted_tested hfun hb, accepted_noBareRepeat hfun hb⟩
  · rintro ⟨hT, hnb⟩
    obtain ⟨md, N, h⟩ := tested_accepted hfun hT hnb
    exact ⟨md, max N fuel, fun fuel' hle => by rw [hfor _ (by omega)]; exact h _ (by omega)⟩

/-- Otherwise it is rejected. -/
theorem C121_rejects (ruleOf : I → Rule I n) (fuel : Nat) (root : I) (G : Grammar I n)
    (hG : registerFrom ruleOf fuel root = some G) :
    (∃ e N, ∀ fuel' ≥ N, buildFor ruleOf fuel' root = some (.error e)) ↔ ¬ (Tested G root ∧ NoBareRepeat G root) := by
  rw [← C121_accepts ruleOf fuel root G hG]
  constructor
  · rintro ⟨e, N, h⟩ ⟨md, N', h'⟩
    have a := h (max N N') (Nat.le_max_left _ _)
    rw [h' (max N N') (Nat.le_max_right _ _)] at a
    cases a
  · intro hno
    obtain ⟨N, r, h⟩ := build_total G root
    have hall : ∀ fuel' ≥ max N fuel, buildFor ruleOf fuel' root = some r := by
      intro fuel' hle
      unfold buildFor
      rw [registerFrom_mono (by omega) hG]
      exact h fuel' (by omega)
    cases r with
    | error e => exact ⟨e, _, hall⟩
    | ok md => exact absurd ⟨md, _, hall⟩ hno

/-- Of the LL(1) grammars exactly those are accepted in which no such part is repeated (C28). -/
theorem C121_ll1 (ruleOf : I → Rule I n) (fuel : Nat) (root : I) (G : Grammar I n)
    (hG : registerFrom ruleOf fuel root = some G) (hll : LL1 G root) :
    (∃ md N, ∀ fuel' ≥ N, buildFor ruleOf fuel' root = some (.ok md)) ↔ NoBareRepeat G root :=
  (C121_accepts ruleOf fuel root G hG).trans
    ⟨And.right, fun h => ⟨hll.tested (registerFrom_spec hG).1 (registerFrom_connected hG), h⟩⟩

/-- Of the grammars that pass the test of the book exactly those are LL(1) in which no choice at the end of a part is in
doubt because of a token that comes beyond an empty part (C27). -/
theorem C121_tested (ruleOf : I → Rule I n) (fuel : Nat) (root : I) (G : Grammar I n)
    (hG : registerFrom ruleOf fuel root = some G) : LL1 G root ↔ Tested G root ∧ SkipSafe G := by
  have hfun := (registerFrom_spec hG).1
  have hall : ∀ x r, (x, r) ∈ G → Reachable G root x := fun x r hm =>
    (registerFrom_closed hG x).2 (((registerFrom_spec hG).2 x r).1 hm).1
  exact ⟨fun hll => ⟨hll.tested hfun (registerFrom_connected hG), ll1_skipSafe hall hll⟩, fun h => h.1.ll1 h.2⟩

/-- A grammar with the properties. -/
example : Tested exListG 0 ∧ NoBareRepeat exListG 0 := by
  obtain ⟨m, hm⟩ := exList_ok
  have hfun := (registerFrom_spec exList_registered).1
  exact ⟨accepted_tested hfun hm, accepted_noBareRepeat hfun hm⟩

/-- The grammar of `C27_false` passes the test, though it is not LL(1): a token beyond an empty part is not next to what is
before the empty part. -/
example : Tested exSkipG 0 ∧ ¬ LL1 exSkipG 0 := by
  obtain ⟨m, hm⟩ : ∃ m, build 20 exSkipG 0 = some (.ok m) := okB_iff (by decide)
  exact ⟨accepted_tested (registerFrom_spec exSkip_registered).1 hm, exSkip_not_ll1⟩

/-- `S = Ident? "+" Ident` passes the test and is rejected, because `Ident` is repeated. -/
example : Tested exBareG 0 ∧ ¬ NoBareRepeat exBareG 0 := by
  have hfun := (registerFrom_spec exBare_registered).1
  refine ⟨exBare_ll1.tested hfun (registerFrom_connected exBare_registered), fun hnb => ?_⟩
  have f3 : ∀ x, FirstOf exBareG 3 ⟨0, x⟩ := fun x =>
    ⟨[], Derives.one (Expands.term (t := ⟨0, none⟩) (by decide) ⟨rfl, by simp⟩)⟩
  refine hnb 0 [] 1 [2] 3 [] 0 .refl (by decide) ?_ ?_ [] (f3 [])
  · exact nullable_iff.2 (.alt (l := [3, 4]) (j := 4) (by decide) (by decide) (.eps (by decide)))
  · exact fun x => firstOf_iff.2 (.alt (l := [3, 4]) (j := 3) (by decide) (by decide) (firstOf_iff.1 (f3 x)))

/-- In `S = P Q b; P = a b?; Q = c?` the token `c` is next to `P`, and the token `b` is not. -/
example : NextTo exSkipG 0 1 (some ⟨2, []⟩) ∧ ¬ NextTo exSkipG 0 1 (some ⟨1, []⟩) := by
  constructor
  · refine .next (pre := []) (z := 2) (post := [8]) (x := 0) (by decide) (firstOf_iff.2 ?_)
    exact .alt (l := [4, 5]) (j := 4) (by decide) (by decide) (.term (t := ⟨2, none⟩) (by decide) ⟨rfl, by simp⟩)
  · have h : ((buildFirst 10 exSkipG).bind fun f => (buildFollow 10 f exSkipG 0).map fun fo =>
      (fo.get 1).contains (some ⟨1, []⟩)) = some false := by decide
    cases h1 : buildFirst 10 exSkipG with
    | none => rw [h1] at h; cases h
    | some first =>
      cases h2 : buildFollow 10 first exSkipG 0 with
      | none => rw [h1] at h; simp [h2] at h
      | some follow =>
        rw [h1] at h
        simp [h2] at h
        rw [← C121_follow exSkipG 0 10 10 first follow h1 h2, h]
        simp

end Teleparse
