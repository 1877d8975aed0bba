import Verif.Model.RepairAll
import Verif.Proof.RecoverYields
import Verif.Proof.State
import Verif.Spec.Layout
/-
`Root::parse` with all repairs.
-/
namespace Teleparse
variable {m n : Nat} {ext : Fin n → Bool} {S : Schema m n} {md : Metadata (PId m n) n}

theorem parseWithMetaFix_eq {fuel : Nat} {t : Ty m n} {p q : Parser n} {r : Res n (Tree n)}
    (h : produceFix (Parser.ops ext) S md fuel t p = .ok r q) :
    p.parseWithMetaFix ext S md fuel t =
      .ok r.tree? { q with info := { q.info with errors := q.info.errors ++ r.errs } } := by
  unfold Parser.parseWithMetaFix
  rw [h]
  cases r with
  | success x => simp [Res.tree?, Res.errs]
  | recovered x e => rfl
  | panic e => rfl

theorem parseFix_eq {fuel : Nat} {t : Ty m n} {p q : Parser n} {r : Res n (Tree n)}
    (hmd : S.exactMetadata fuel t = some (.ok md))
    (h : produceFix (Parser.ops ext) S md fuel t p = .ok r q) :
    p.parseFix ext S fuel t =
      .ok (.ok r.tree?) { q with info := { q.info with errors := q.info.errors ++ r.errs } } := by
  unfold Parser.parseFix
  rw [hmd]
  dsimp only
  rw [parseWithMetaFix_eq h]

theorem parseFix_ok {fuel : Nat} {t : Ty m n} {p p' : Parser n} {x : Option (Tree n)}
    (h : p.parseFix ext S fuel t = .ok (.ok x) p') :
    ∃ md r q, S.exactMetadata fuel t = some (.ok md) ∧ produceFix (Parser.ops ext) S md fuel t p = .ok r q ∧
      x = r.tree? ∧ p' = { q with info := { q.info with errors := q.info.errors ++ r.errs } } := by
  cases hm : S.exactMetadata fuel t with
  | none => unfold Parser.parseFix at h; rw [hm] at h; cases h
  | some y =>
    cases y with
    | error e => unfold Parser.parseFix at h; rw [hm] at h; cases h
    | ok md =>
      cases hp : produceFix (Parser.ops ext) S md fuel t p with
      | fuel => unfold Parser.parseFix Parser.parseWithMetaFix at h; rw [hm] at h; dsimp only at h; rw [hp] at h; cases h
      | crash => unfold Parser.parseFix Parser.parseWithMetaFix at h; rw [hm] at h; dsimp only at h; rw [hp] at h; cases h
      | ok r q =>
        rw [parseFix_eq hm hp] at h
        cases h
        exact ⟨md, r, q, rfl, hp, rfl, rfl⟩

theorem YieldsFix.kinds {t : Ty m n} {p p' : Parser n} {r : Res n (Tree n)} (h : YieldsFix ext S md t p r p')
    (e : Err n) (he : e ∈ r.errs) : e.kind ≠ .unexpectedCharacters := by
  have hg := h.run.good (E := fun _ => True)
    ⟨trivial, trivial, fun _ _ => ⟨trivial, trivial⟩, fun _ _ => ⟨trivial, trivial⟩⟩
  exact (Res.Good.errs hg e he).2

theorem YieldsFix.grows {t : Ty m n} {p p' : Parser n} {r : Res n (Tree n)} (h : YieldsFix ext S md t p r p') :
    Grows p p' := by
  obtain ⟨r', ⟨f, h'⟩, -⟩ := h.twin
  exact produce_grows h'

/-- The syntax errors of a parse are those of the result. -/
theorem YieldsFix.syntaxErrors {t : Ty m n} {p q : Parser n} {r : Res n (Tree n)} (h : YieldsFix ext S md t p r q) :
    Teleparse.syntaxErrors (q.info.errors ++ r.errs) = Teleparse.syntaxErrors p.info.errors ++ r.errs := by
  obtain ⟨chars, h1, h2⟩ := h.grows
  unfold Teleparse.syntaxErrors
  rw [h1, List.filter_append, List.filter_append, (List.filter_eq_nil_iff (l := chars)).2, List.append_nil,
    (List.filter_eq_self (l := r.errs)).2]
  · intro e he
    simpa using h.kinds e he
  · intro e he
    simpa using h2 e he

end Teleparse
