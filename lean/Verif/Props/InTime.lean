import Verif.Proof.KeptView
import Verif.Props.Viable
/-
Property C132: a parser that keeps the first error of a failed part never reports the first error late.
-/
namespace Teleparse
variable {m n : Nat}

/-! ## C132: the first error in time, by a repair -/

/-- `T::produce` with the repairs returns. -/
def YieldsKeep (ext : Fin n → Bool) (S : Schema m n) (md : Metadata (PId m n) n) (t : Ty m n) (p : Parser n)
    (r : Res n (Tree n)) (p' : Parser n) : Prop :=
  ∃ fuel, produceKeep (Parser.ops ext) S md fuel t p = .ok r p'

/-- If producing the root reports errors, the tokens before the first one are the beginning of a sentence. What is
left of the conditions of `C70_produce_partial` is that the types derive something. -/
theorem C132_produce (ext : Fin n → Bool) (S : Schema m n) (md : Metadata (PId m n) n) (root : Ty m n)
    (G : Grammar (PId m n) n) (hG : S.IsGrammar root G)
    (hprod : ∀ i, Reachable G root.pid i → Productive G i)
    (source : Str) (items : List (Item n)) (hw : ItemsWF source items) (p p' : Parser n)
    (hp : Reached ext source items p) (r : Res n (Tree n)) (hy : YieldsKeep ext S md root p r p')
    (he : r.errs ≠ []) : FirstErrorInTime G root.pid source (p.view ext).rest r.errs := by
  obtain ⟨fuel, hy⟩ := hy
  have hv := produceKeep_view ext S md fuel root p
  rw [hy] at hv
  have hv : produceKeep View.ops S md fuel root (p.view ext) = .ok r (p'.view ext) := hv
  have hrun := Kept.run_of_produce S md fuel root _ _ _ hv
  have E : Kept.VEnv S source root G := ⟨hG, fun i hi => hprod i ((reach_iff_schema hG i).2 hi)⟩
  obtain ⟨h1, h2⟩ := hrun.viable E (hp.ready hw) .refl
  have key : Viab (Der G root.pid) source (p.view ext).rest r.errs (p'.view ext).rest := by
    cases r with
    | success x => exact absurd rfl he
    | recovered x e => exact (h1 x e (.recovered x e)).2 he
    | panic e => exact h2 e rfl he
  obtain ⟨ts, us, ws, h3, h4, h5, h6⟩ := key
  refine ⟨ts, _, ws, h3, ?_, ?_, h6⟩
  · intro e he
    rw [← suffixPos_eq]
    exact h4 e he
  · obtain ⟨e, h7, h8⟩ := List.mem_map.1 h5
    exact ⟨e, h7, by rw [← suffixPos_eq]; exact h8⟩

/-- And a failure is never silent. -/
theorem C132_loud (ext : Fin n → Bool) (S : Schema m n) (md : Metadata (PId m n) n) (t : Ty m n)
    (p p' : Parser n) (e : List (Err n)) (hy : YieldsKeep ext S md t p (.panic e) p') : e ≠ [] := by
  obtain ⟨fuel, hy⟩ := hy
  have hv := produceKeep_view ext S md fuel t p
  rw [hy] at hv
  exact (Kept.run_of_produce S md fuel t _ _ _ hv).loud e rfl

/-! ### Example -/

def vtMd : Metadata (PId 0 3) 3 := okOf ⟨[], [], []⟩ (exS.metadata 30 vtT)

/-- The input of `C70_false`: the parser as it is reports an error at the third token only, the repaired one at the
second, which cannot be there. -/
example : exS.metadata 30 vtT = some (.ok vtMd) ∧
    (∃ r p', Yields noExt exS vtMd vtT (Parser.new vtSource vtItems) r p' ∧ r.errs.map (·.span.lo) = [4]) ∧
    ∃ r p', YieldsKeep noExt exS vtMd vtT (Parser.new vtSource vtItems) r p' ∧ r.errs.map (·.span.lo) = [2] ∧
      FirstErrorInTime vtG vtT.pid vtSource (streamOf noExt vtItems) r.errs :=
  ⟨by rfl, ⟨_, _, ⟨30, by rfl⟩, by rfl⟩, _, _, ⟨30, by rfl⟩, by rfl,
    C132_produce noExt exS vtMd vtT vtG vtG_ok (productive_of_check vtG_ok 6 (by decide +kernel)) vtSource vtItems
      (by unfold ItemsWF vtItems; decide) _ _ .new _ ⟨30, by rfl⟩ (by decide)⟩

end Teleparse
