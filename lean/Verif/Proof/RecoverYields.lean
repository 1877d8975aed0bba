import Verif.Spec.RepairRecover
import Verif.Proof.RecoverSame
import Verif.Proof.Lead
import Verif.Proof.Whole
/-
Results of the parser with the repaired `Recover`.
-/
namespace Teleparse
variable {m n : Nat} {ext : Fin n → Bool} {S : Schema m n} {md : Metadata (PId m n) n}

theorem YieldsFix.run {t : Ty m n} {p p' : Parser n} {r : Res n (Tree n)} (h : YieldsFix ext S md t p r p') :
    RunX true S (.ty t (p.view ext) r (p'.view ext)) := by
  obtain ⟨fuel, h⟩ := h
  have hs := produceFix_view ext S md fuel t p
  rw [h] at hs
  exact run_of_produceFix S md fuel t _ _ _ hs

theorem yieldsFix_of_view {fuel : Nat} {t : Ty m n} {p : Parser n} {r : Res n (Tree n)} {v : View n}
    (h : produceFix View.ops S md fuel t (p.view ext) = .ok r v) :
    ∃ p', YieldsFix ext S md t p r p' ∧ p'.view ext = v := by
  obtain ⟨p', h1, h2⟩ := Sim.run (produceFix_view ext S md fuel t) h
  exact ⟨p', ⟨fuel, h1⟩, h2⟩

theorem DoesX.yieldsFix {t : Ty m n} {p : Parser n} {source : Str} {x : Tree n} {w : View n}
    (hs : InSource source (p.view ext)) (h : DoesX true S md t (p.view ext) x w) :
    ∃ p', YieldsFix ext S md t p (.success x) p' ∧ p'.view ext = w := by
  obtain ⟨N, o, h1, h2, h3⟩ := h
  have h1 := h1 N N (Nat.le_refl _) (Nat.le_refl _)
  cases o with
  | fuel => exact absurd rfl h2
  | crash => exact absurd h1 ((produceFix_safe S md N t _ hs).1)
  | ok r v =>
    obtain ⟨rfl, rfl⟩ := h3 r v rfl
    exact yieldsFix_of_view h1

theorem YieldsFix.sound {source : Str} {items : List (Item n)} {p p' : Parser n} {t : Ty m n} {r : Res n (Tree n)}
    (h : YieldsFix ext S md t p r p') (hp : Reached ext source items p) (hw : ItemsWF source items) :
    TySoundX true S source t (p.view ext) r (p'.view ext) :=
  h.run.sound (.inl (.inr rfl)) (hp.sortedView hw) .refl

theorem Yields.twin {p p' : Parser n} {t : Ty m n} {r : Res n (Tree n)} (h : Yields ext S md t p r p') :
    ∃ r', YieldsFix ext S md t p r' p' ∧ Twin r r' := by
  obtain ⟨f, h⟩ := h
  have := produce_twin (settled ext) S md f t p p rfl
  rw [h] at this
  generalize ho : produceFix (Parser.ops ext) S md f t p = o at this
  cases this with
  | ok h1 h2 => subst h2; exact ⟨_, ⟨f, ho⟩, h1⟩

theorem YieldsFix.twin {p p' : Parser n} {t : Ty m n} {r : Res n (Tree n)} (h : YieldsFix ext S md t p r p') :
    ∃ r', Yields ext S md t p r' p' ∧ Twin r' r := by
  obtain ⟨f, h⟩ := h
  have := produce_twin (settled ext) S md f t p p rfl
  rw [h] at this
  generalize ho : produce (Parser.ops ext) S md f t p = o at this
  cases this with
  | ok h1 h2 => subst h2; exact ⟨_, ⟨f, ho⟩, h1⟩

theorem YieldsFix.unique {p p' q' : Parser n} {t : Ty m n} {r r' : Res n (Tree n)} (h : YieldsFix ext S md t p r p')
    (h' : YieldsFix ext S md t p r' q') : r = r' ∧ p' = q' := by
  obtain ⟨f, h⟩ := h
  obtain ⟨f', h'⟩ := h'
  have e1 := produceFix_mono (Parser.ops ext) S md (Nat.le_max_left f f') t p (by rw [h]; simp)
  have e2 := produceFix_mono (Parser.ops ext) S md (Nat.le_max_right f f') t p (by rw [h']; simp)
  rw [e1, h, h'] at e2
  cases e2
  exact ⟨rfl, rfl⟩

theorem Yields.keep {p p' : Parser n} {t : Ty m n} {r : Res n (Tree n)} (h : Yields ext S md t p r p')
    (hr : (p'.view ext).rest ≠ []) : YieldsFix ext S md t p r p' := by
  obtain ⟨r', h', -⟩ := h.twin
  obtain ⟨f, h⟩ := h
  have hs := produce_view ext S md f t p
  rw [h] at hs
  have := (keep_produce S md f t _ _ _ hs).2 hr
  obtain ⟨q, h2, -⟩ := yieldsFix_of_view (p := p) this
  obtain ⟨rfl, rfl⟩ := h2.unique h'
  exact h'

theorem YieldsFix.keep {p p' : Parser n} {t : Ty m n} {r : Res n (Tree n)} (h : YieldsFix ext S md t p r p')
    (hr : (p'.view ext).rest ≠ []) : Yields ext S md t p r p' := by
  obtain ⟨r', h', -⟩ := h.twin
  obtain ⟨rfl, -⟩ := (h'.keep hr).unique h
  exact h'

end Teleparse
