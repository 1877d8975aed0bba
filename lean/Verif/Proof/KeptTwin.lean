import Verif.Proof.KeptView
import Verif.Proof.RecoverTwin
/-
The parser that keeps the first error of a failed part consumes the same tokens and builds the same trees as the code.
-/
namespace Teleparse
variable {m n : Nat} {σ : Type}

namespace TwinStep
variable {o : Ops σ n}

theorem bind_pure' {α : Type} (x : M σ α) : x >>= Pure.pure = x := by
  funext s
  show M.bind x Pure.pure s = x s
  unfold M.bind
  cases x s <;> rfl

theorem earliest_quiet {e e' : List (Err n)} (h : Quieter e e') : Quieter e (earliest e').toList := by
  intro hn
  refine h (Classical.byContradiction fun hne => ?_)
  obtain ⟨d, hd⟩ := Kept.earliest_some hne
  rw [hd] at hn
  cases hn

theorem clipR {p p' : P σ n} (h : TP p p') : TP p (clip p') := by
  have := h.bind (f := Pure.pure) (g := fun r => match r with
    | .panic e => Pure.pure (.panic (earliest e).toList)
    | r => Pure.pure r) (Q := Twin) (fun r r' hr => ?_)
  · rw [bind_pure'] at this; exact this
  · cases hr with
    | succ t => exact .pure (.succ t)
    | note t e => exact .pure (.note t e)
    | mend t he => exact .pure (.mend t he)
    | fail he => exact .pure (.fail (earliest_quiet he))

theorem clipL {p p' : P σ n} (h : TP p p') : TP (clip p) p' := by
  have := h.bind (g := Pure.pure) (f := fun r => match r with
    | .panic e => Pure.pure (.panic (earliest e).toList)
    | r => Pure.pure r) (Q := Twin) (fun r r' hr => ?_)
  · rw [bind_pure'] at this; exact this
  · cases hr with
    | succ t => exact .pure (.succ t)
    | note t e => exact .pure (.note t e)
    | mend t he => exact .pure (.mend t he)
    | fail he => exact .pure (.fail fun h => by rw [he h]; rfl)

theorem splitKeepR {ef pf fol : TSet n} {pt pt' pp pp' : P σ n} (h : TP pt pt') (hp : TP pp pp') (fuel : Nat) :
    TP (produceSplit o ef pf fol pt pp fuel) (produceSplitKeep o ef pf fol pt' pp' fuel) := by
  refine h.bind fun r r' hr => ?_
  cases hr with
  | succ t => exact (splitOuter (clipR h) hp fuel ⟨rfl, rfl, .nil⟩).bind fun a b hab => .pure (splitDone hab)
  | note t e => exact (splitOuter (clipR h) hp fuel (b := ⟨[t], [], e⟩) (a := ⟨[t], [], []⟩) ⟨rfl, rfl, .nil⟩).bind fun a b hab => .pure (splitDone hab)
  | @mend t e e' he => exact (splitOuter (clipR h) hp fuel (b := ⟨[t], [], e'⟩) (a := ⟨[t], [], e⟩) ⟨rfl, rfl, he⟩).bind fun a b hab => .pure (splitDone hab)
  | fail he => exact .pure (.fail he)

theorem splitKeepL {ef pf fol : TSet n} {pt pt' pp pp' : P σ n} (h : TP pt pt') (hp : TP pp pp') (fuel : Nat) :
    TP (produceSplitKeep o ef pf fol pt pp fuel) (produceSplit o ef pf fol pt' pp' fuel) := by
  refine h.bind fun r r' hr => ?_
  cases hr with
  | succ t => exact (splitOuter (clipL h) hp fuel ⟨rfl, rfl, .nil⟩).bind fun a b hab => .pure (splitDone hab)
  | note t e => exact (splitOuter (clipL h) hp fuel (b := ⟨[t], [], e⟩) (a := ⟨[t], [], []⟩) ⟨rfl, rfl, .nil⟩).bind fun a b hab => .pure (splitDone hab)
  | @mend t e e' he => exact (splitOuter (clipL h) hp fuel (b := ⟨[t], [], e'⟩) (a := ⟨[t], [], e⟩) ⟨rfl, rfl, he⟩).bind fun a b hab => .pure (splitDone hab)
  | fail he => exact .pure (.fail he)

theorem punctKeepR {ef pf fol : TSet n} {pt pt' pp pp' : P σ n} (h : TP pt pt') (hp : TP pp pp') (fuel : Nat) :
    TP (producePunct o ef pf fol pt pp fuel) (producePunctKeep o ef pf fol pt' pp' fuel) := by
  refine h.bind fun r r' hr => ?_
  cases hr with
  | succ t => exact (punctOuter (clipR h) hp fuel ⟨rfl, rfl, .nil⟩).bind fun a b hab => .pure (punctDone hab)
  | note t e => exact (punctOuter (clipR h) hp fuel (b := ⟨[t], [], e⟩) (a := ⟨[t], [], []⟩) ⟨rfl, rfl, .nil⟩).bind fun a b hab => .pure (punctDone hab)
  | @mend t e e' he => exact (punctOuter (clipR h) hp fuel (b := ⟨[t], [], e'⟩) (a := ⟨[t], [], e⟩) ⟨rfl, rfl, he⟩).bind fun a b hab => .pure (punctDone hab)
  | fail he => exact .pure (.fail he)

theorem punctKeepL {ef pf fol : TSet n} {pt pt' pp pp' : P σ n} (h : TP pt pt') (hp : TP pp pp') (fuel : Nat) :
    TP (producePunctKeep o ef pf fol pt pp fuel) (producePunct o ef pf fol pt' pp' fuel) := by
  refine h.bind fun r r' hr => ?_
  cases hr with
  | succ t => exact (punctOuter (clipL h) hp fuel ⟨rfl, rfl, .nil⟩).bind fun a b hab => .pure (punctDone hab)
  | note t e => exact (punctOuter (clipL h) hp fuel (b := ⟨[t], [], e⟩) (a := ⟨[t], [], []⟩) ⟨rfl, rfl, .nil⟩).bind fun a b hab => .pure (punctDone hab)
  | @mend t e e' he => exact (punctOuter (clipL h) hp fuel (b := ⟨[t], [], e'⟩) (a := ⟨[t], [], e⟩) ⟨rfl, rfl, he⟩).bind fun a b hab => .pure (punctDone hab)
  | fail he => exact .pure (.fail he)

theorem recoverLoopFix (ho : Settled o) {tf : TSet n} {pr pr' : P σ n} (h : TP pr pr') :
    ∀ fuel {errs errs' : List (Err n)} {x y : Option (Err n)}, Quieter errs errs' → QuietP x y →
    SRel TailRel (Teleparse.recoverLoopFix o tf pr fuel errs x) (Teleparse.recoverLoopFix o tf pr' fuel errs' y) := by
  intro fuel
  induction fuel with
  | zero => intro errs errs' x y he hx; exact .fuel
  | succ fuel ih =>
    intro errs errs' x y he hx
    rintro s _ rfl
    show Relab.OutRel Eq TailRel (M.bind o.mPeekSrc _ s) (M.bind o.mPeekSrc _ s)
    unfold M.bind
    cases hpk : o.mPeekSrc s with
    | fuel => exact .fuel
    | crash => exact .crash
    | ok tok s' =>
      try dsimp only
      by_cases hn : tok.isNone = true
      · rw [if_pos hn, if_pos hn]
        cases tf.containsE
        · obtain ⟨sp, hsp⟩ := peekSrc_none ho hpk hn
          have hexp : ∀ errs : List (Err n), (o.mExpecting tf >>= fun e =>
              (Pure.pure (none, errs, some e) : M σ (Option (Tree n) × List (Err n) × Option (Err n)))) s' =
              .ok (none, errs, some ⟨sp, .expecting tf⟩) s' := by
            intro errs
            simp only [Ops.mExpecting, bind_ok, pure_ok]
            exact ⟨_, _, ⟨_, _, hsp, rfl, rfl⟩, rfl, rfl⟩
          simp only [Bool.false_eq_true, if_false]
          cases y with
          | some q =>
            cases x with
            | some p => exact .ok ⟨rfl, he, hx⟩ rfl
            | none =>
              dsimp only
              rw [hexp]
              exact .ok ⟨rfl, he, by simp [QuietP]⟩ rfl
          | none =>
            cases hx rfl
            dsimp only
            rw [hexp, hexp]
            exact .ok ⟨rfl, he, by simp [QuietP]⟩ rfl
        · refine Relab.MRel.bind (SR := Eq) h (fun r r' hr => ?_) s' s' rfl
          cases hr with
          | succ t => exact .pure ⟨rfl, he, hx⟩
          | note t e => exact .pure ⟨rfl, he.left, hx⟩
          | mend t h => exact .pure ⟨rfl, he.append h, hx⟩
          | fail h => exact .pure ⟨rfl, he, hx.merge h⟩
      · rw [if_neg hn, if_neg hn]
        cases (tf.contains tok || tf.containsE)
        · exact Relab.MRel.bind (SR := Eq) (recoverSkip hx) (fun a b hab => ih he hab) s' s' rfl
        · refine Relab.MRel.bind (SR := Eq) h (fun r r' hr => ?_) s' s' rfl
          cases hr with
          | succ t => exact .pure ⟨rfl, he, hx⟩
          | note t e => exact .pure ⟨rfl, he.left, hx⟩
          | mend t h => exact .pure ⟨rfl, he.append h, hx⟩
          | fail h => exact Relab.MRel.bind (recoverSkip (hx.merge h)) fun a b hab => ih he hab

theorem recoverFix (ho : Settled o) {hf tf : TSet n} {pt pt' pr pr' : P σ n} (h : TP pt pt') (hp : TP pr pr') (fuel : Nat) :
    TP (produceRecoverFix o hf tf pt pr fuel) (produceRecoverFix o hf tf pt' pr' fuel) := by
  refine (recoverHead h).bind fun a b hab => ?_
  obtain ⟨h1, h2, h3, h4⟩ := hab
  have hmk : ∀ t, mkRecover a t = mkRecover b t := by intro t; unfold mkRecover; rw [h1, h2]
  refine (recoverLoopFix ho hp fuel h3 h4).bind fun x y hxy => ?_
  obtain ⟨x1, x2, x3⟩ := x
  obtain ⟨y1, y2, y3⟩ := y
  obtain ⟨g1, g2, g3⟩ := hxy
  dsimp only at g1 g2 g3
  subst g1
  cases x1 with
  | none => exact .pure (.fail (g2.append g3.toList))
  | some t =>
    try dsimp only
    rw [hmk]
    exact .pure (.ofPair (g2.append g3.toList))

theorem stepKeepR (ho : Settled o) (S : Schema m n) (md : Metadata (PId m n) n) (fuel : Nat) {rec rec' : Ty m n → P σ n}
    (hr : ∀ t, TP (rec t) (rec' t)) (t : Ty m n) :
    TP (produceStep o S md fuel rec t) (produceStepKeep o S md fuel rec' t) := by
  by_cases h1 : ∃ a b, t = .split a b
  · obtain ⟨a, b, rfl⟩ := h1
    exact splitKeepR (hr a) (hr b) _
  by_cases h2 : ∃ a b, t = .punct a b
  · obtain ⟨a, b, rfl⟩ := h2
    exact punctKeepR (hr a) (hr b) _
  by_cases h3 : ∃ a b, t = .recover a b
  · obtain ⟨a, b, rfl⟩ := h3
    exact recover ho (clipR (hr a)) (clipR (hr b)) _
  have h1 : ∀ a b, t ≠ .split a b := fun a b e => h1 ⟨a, b, e⟩
  have h2 : ∀ a b, t ≠ .punct a b := fun a b e => h2 ⟨a, b, e⟩
  have h3 : ∀ a b, t ≠ .recover a b := fun a b e => h3 ⟨a, b, e⟩
  have := step ho S md fuel hr t
  rw [produceStepFix_eq h3] at this
  rw [Kept.step_eq h1 h2 h3]
  exact this

theorem stepKeepL (ho : Settled o) (S : Schema m n) (md : Metadata (PId m n) n) (fuel : Nat) {rec rec' : Ty m n → P σ n}
    (hr : ∀ t, TP (rec t) (rec' t)) (t : Ty m n) :
    TP (produceStepKeep o S md fuel rec t) (produceStepFix o S md fuel rec' t) := by
  by_cases h1 : ∃ a b, t = .split a b
  · obtain ⟨a, b, rfl⟩ := h1
    rw [produceStepFix_eq (by simp)]
    exact splitKeepL (hr a) (hr b) _
  by_cases h2 : ∃ a b, t = .punct a b
  · obtain ⟨a, b, rfl⟩ := h2
    rw [produceStepFix_eq (by simp)]
    exact punctKeepL (hr a) (hr b) _
  by_cases h3 : ∃ a b, t = .recover a b
  · obtain ⟨a, b, rfl⟩ := h3
    exact recoverFix ho (clipL (hr a)) (clipL (hr b)) _
  have h1 : ∀ a b, t ≠ .split a b := fun a b e => h1 ⟨a, b, e⟩
  have h2 : ∀ a b, t ≠ .punct a b := fun a b e => h2 ⟨a, b, e⟩
  have h3 : ∀ a b, t ≠ .recover a b := fun a b e => h3 ⟨a, b, e⟩
  rw [Kept.step_eq h1 h2 h3]
  exact step ho S md fuel hr t

theorem stepFixKeep (ho : Settled o) (S : Schema m n) (md : Metadata (PId m n) n) (fuel : Nat) {rec rec' : Ty m n → P σ n}
    (hr : ∀ t, TP (rec t) (rec' t)) (t : Ty m n) :
    TP (produceStepFix o S md fuel rec t) (produceStepKeep o S md fuel rec' t) := by
  by_cases h1 : ∃ a b, t = .split a b
  · obtain ⟨a, b, rfl⟩ := h1
    rw [produceStepFix_eq (by simp)]
    exact splitKeepR (hr a) (hr b) _
  by_cases h2 : ∃ a b, t = .punct a b
  · obtain ⟨a, b, rfl⟩ := h2
    rw [produceStepFix_eq (by simp)]
    exact punctKeepR (hr a) (hr b) _
  by_cases h3 : ∃ a b, t = .recover a b
  · obtain ⟨a, b, rfl⟩ := h3
    exact recoverFix ho (clipR (hr a)) (clipR (hr b)) _
  have h1 : ∀ a b, t ≠ .split a b := fun a b e => h1 ⟨a, b, e⟩
  have h2 : ∀ a b, t ≠ .punct a b := fun a b e => h2 ⟨a, b, e⟩
  have h3 : ∀ a b, t ≠ .recover a b := fun a b e => h3 ⟨a, b, e⟩
  have := step ho S md fuel hr t
  rw [produceStepFix_eq h3] at this
  rw [produceStepFix_eq h3, Kept.step_eq h1 h2 h3]
  exact this

end TwinStep

theorem keep_twin {o : Ops σ n} (ho : TwinStep.Settled o) (S : Schema m n) (md : Metadata (PId m n) n) :
    ∀ fuel (t : Ty m n), TP (produce o S md fuel t) (produceKeep o S md fuel t)
  | 0, _ => .fuel
  | fuel + 1, t => TwinStep.stepKeepR ho S md fuel (keep_twin ho S md fuel) t

theorem keep_fix_twin {o : Ops σ n} (ho : TwinStep.Settled o) (S : Schema m n) (md : Metadata (PId m n) n) :
    ∀ fuel (t : Ty m n), TP (produceKeep o S md fuel t) (produceFix o S md fuel t)
  | 0, _ => .fuel
  | fuel + 1, t => TwinStep.stepKeepL ho S md fuel (keep_fix_twin ho S md fuel) t

theorem fix_keep_twin {o : Ops σ n} (ho : TwinStep.Settled o) (S : Schema m n) (md : Metadata (PId m n) n) :
    ∀ fuel (t : Ty m n), TP (produceFix o S md fuel t) (produceKeep o S md fuel t)
  | 0, _ => .fuel
  | fuel + 1, t => TwinStep.stepFixKeep ho S md fuel (fix_keep_twin ho S md fuel) t

end Teleparse
