import Verif.Proof.Never
/-
Shapes of repetitions, for all results.
-/
namespace Teleparse
variable {m n : Nat} {S : Schema m n}

def JShape : Judg m n → Prop
  | .ty _ _ r v' => r = .panic [] → v'.rest = []
  | .seq _ _ _ _ (.ok _) _ => True
  | .seq _ _ _ errs (.error e') v' => ∃ e, e' = errs ++ e ∧ (e = [] → v'.rest = [])
  | .iter _ _ acc _ _ acc' _ _ _ => ∃ new, acc' = acc ++ new
  | .loop _ _ _ _ _ _ _ => True
  | .inner _ q _ a _ _ a' _ => (∃ x, a'.elems = a.elems ++ [x] ∧ a'.puncts = a.puncts ++ [q]) ∨
      (a'.elems = a.elems ∧ a'.puncts = a.puncts)
  | .outer _ _ _ a a' _ => ∃ es ps, a'.elems = a.elems ++ es ∧ a'.puncts = a.puncts ++ ps ∧
      es.length = ps.length
  | .pinner _ _ a _ go a' v' => ∃ e, a'.errs = a.errs ++ e ∧ a'.puncts = a.puncts ∧
      ((go = true ∧ ∃ x, a'.elems = a.elems ++ [x]) ∨
       (a'.elems = a.elems ∧ (e = [] → go = true → v'.rest = [])))
  | .pouter _ _ v a a' _ => ∃ e es ps, a'.errs = a.errs ++ e ∧ a'.elems = a.elems ++ es ∧
      a'.puncts = a.puncts ++ ps ∧ (e = [] → ps.length = es.length ∨ ps.length = es.length + 1) ∧
      (v.rest = [] → es = [] ∧ ps = [])
  | .head _ _ _ _ => True
  | .tail _ _ _ _ x _ _ v' => x = none → v'.rest = []

theorem Adv.rest_nil {v v' : View n} (h : Adv v v') (hv : v.rest = []) : v'.rest = [] := by
  obtain ⟨ts, h1, _⟩ := h.cons
  rw [hv] at h1
  exact (List.append_eq_nil_iff.1 h1.symm).2

theorem ofPair_ne_panic {x : Tree n} {e : List (Err n)} : Res.ofPair x e ≠ .panic [] := by
  unfold Res.ofPair; split <;> simp

theorem mergePanic_none {panic : Option (Err n)} {e : List (Err n)} (h : mergePanic panic e = none) :
    panic = none ∧ e = [] := by
  unfold mergePanic at h
  cases hl : e.getLast? with
  | none => rw [hl] at h; exact ⟨h, List.getLast?_eq_none_iff.1 hl⟩
  | some a => rw [hl] at h; cases panic <;> cases h

theorem Note.some {v : View n} {p p' : Option (Err n)} (h : Note v p p') : p' ≠ none := by
  cases h <;> simp

theorem RunX.shape {j : Judg m n} {fx : Bool} (h : RunX fx S j) : JShape j := by
  induction h with
  | tok => intro h; cases h
  | tokRecovered => intro h; cases h
  | tokPanic => intro h; cases h
  | seqNil => trivial
  | @seqGive t ts v acc errs r x e v1 res v' _ _ _ i1 i2 =>
    match res with
    | .ok (l, e) => trivial
    | .error e' =>
      obtain ⟨e2, h1, h2⟩ := i2
      exact ⟨e ++ e2, by simp [h1], fun he => h2 (List.append_eq_nil_iff.1 he).2⟩
  | seqPanic _ i => exact ⟨_, rfl, fun he => i (by rw [he])⟩
  | struct => exact fun h => absurd h ofPair_ne_panic
  | structPanic _ _ i =>
    intro h
    obtain ⟨e, h1, h2⟩ := i
    cases h
    exact h2 (by simpa using h1.symm)
  | tuple => exact fun h => absurd h ofPair_ne_panic
  | tuplePanic _ _ i =>
    intro h
    obtain ⟨e, h1, h2⟩ := i
    cases h
    exact h2 (by simpa using h1.symm)
  | enumSuccess => intro h; cases h
  | enumRecovered => intro h; cases h
  | enumPanic _ _ _ i => exact i
  | enumNone => intro h; cases h
  | box _ i => exact i
  | optNone => intro h; cases h
  | optSuccess => intro h; cases h
  | optRecovered => intro h; cases h
  | optPanic => intro h; cases h
  | textSuccess => intro h; cases h
  | textRecovered => intro h; cases h
  | textPanic _ _ i => exact i
  | plus => exact fun h => absurd h ofPair_ne_panic
  | plusPanic _ i => exact i
  | iterStop => exact ⟨[], by simp⟩
  | iterGive _ _ _ _ _ i2 =>
    obtain ⟨new, h⟩ := i2
    exact ⟨_ :: new, by rw [h, List.append_assoc]; rfl⟩
  | iterPanic => exact ⟨[], by simp⟩
  | loopEmpty => exact fun h => absurd h ofPair_ne_panic
  | loopList => exact fun h => absurd h ofPair_ne_panic
  | loopStop => trivial
  | loopSkip => trivial
  | loopGive => trivial
  | loopPanic => trivial
  | loopGiveStuck => trivial
  | loopPanicStuck => trivial
  | split => exact fun h => absurd h ofPair_ne_panic
  | splitPanic _ i => exact i
  | outerStop => exact ⟨[], [], by simp⟩
  | outerPanic => exact ⟨[], [], by simp⟩
  | outerGo _ _ _ _ _ _ i2 i3 =>
    obtain ⟨es, ps, h1, h2, h3⟩ := i3
    rcases i2 with ⟨x, h4, h5⟩ | ⟨h4, h5⟩
    · exact ⟨x :: es, _ :: ps, by rw [h1, h4, List.append_assoc]; rfl, by rw [h2, h5, List.append_assoc]; rfl,
        by simp [h3]⟩
    · exact ⟨es, ps, by rw [h1, h4], by rw [h2, h5], h3⟩
  | outerBreak _ _ _ _ _ i2 =>
    rcases i2 with ⟨x, h4, h5⟩ | ⟨h4, h5⟩
    · exact ⟨[x], [_], h4, h5, rfl⟩
    · exact ⟨[], [], by simpa using h4, by simpa using h5, rfl⟩
  | innerGive => exact .inl ⟨_, rfl, rfl⟩
  | innerFailLeave => exact .inr ⟨rfl, rfl⟩
  | innerFailGo _ _ _ i2 => exact i2
  | innerNoteLeave => exact .inr ⟨rfl, rfl⟩
  | innerNoteGo _ _ i => exact i
  | punct => exact fun h => absurd h ofPair_ne_panic
  | punctPanic _ i => exact i
  | pouterStop => exact ⟨[], [], [], by simp⟩
  | pouterPanic => exact ⟨_, [], [], rfl, by simp⟩
  | @pouterGo t p v a r q e v1 a1 v2 a' v' hne _ _ _ _ _ i2 i3 =>
    obtain ⟨e3, es, ps, h1, h2, h3, h4, h5⟩ := i3
    obtain ⟨e2, g1, g2, g3⟩ := i2
    rcases g3 with ⟨_, x, g3⟩ | ⟨g3, g4⟩
    · refine ⟨e ++ e2 ++ e3, x :: es, q :: ps, by rw [h1, g1]; simp, by rw [h2, g3]; simp,
        by rw [h3, g2]; simp, ?_, fun h => absurd h hne⟩
      intro he
      have := h4 (List.append_eq_nil_iff.1 he).2
      simpa using this
    · refine ⟨e ++ e2 ++ e3, es, q :: ps, by rw [h1, g1]; simp, by rw [h2, g3],
        by rw [h3, g2]; simp, ?_, fun h => absurd h hne⟩
      intro he
      obtain ⟨he', _⟩ := List.append_eq_nil_iff.1 he
      obtain ⟨rfl, rfl⟩ := h5 (g4 (List.append_eq_nil_iff.1 he').2 rfl)
      exact .inr rfl
  | @pouterBreak t p v a r q e v1 a1 v2 hne _ _ _ _ i2 =>
    obtain ⟨e2, g1, g2, g3⟩ := i2
    rcases g3 with ⟨h, _⟩ | ⟨g3, _⟩
    · cases h
    · exact ⟨e ++ e2, [], [q], by rw [g1]; simp, by simp [g3], g2, fun _ => .inr rfl, fun h => absurd h hne⟩
  | @pinnerGive t v a panic r x e v1 _ _ _ =>
    exact ⟨panic.toList ++ e, by simp, rfl, .inl ⟨rfl, x, rfl⟩⟩
  | pinnerStop => exact ⟨_, rfl, rfl, .inr ⟨rfl, fun _ h => by cases h⟩⟩
  | pinnerFailLeave _ i =>
    refine ⟨_, rfl, rfl, .inr ⟨rfl, fun he _ => ?_⟩⟩
    obtain ⟨_, he⟩ := mergePanic_none (by simpa using he)
    exact i (by rw [he])
  | pinnerFailGo _ _ _ i2 => exact i2
  | pinnerNoteLeave hn =>
    exact ⟨_, rfl, rfl, .inr ⟨rfl, fun he _ => absurd (by simpa using he) hn.some⟩⟩
  | pinnerNoteGo _ _ i => exact i
  | recover => exact fun h => absurd h ofPair_ne_panic
  | recoverPanic _ _ _ i2 => exact fun _ => i2 rfl
  | headGive => trivial
  | headPanic => trivial
  | headNone => trivial
  | tailGive => intro h; cases h
  | tailPanic hv h1 _ => exact fun _ => h1.adv.rest_nil hv
  | tailNote _ hv => exact fun _ => hv
  | tailStop hv => exact fun _ => hv
  | tailFail _ _ _ _ _ i2 => exact i2
  | tailSkip _ _ _ i => exact i

end Teleparse
