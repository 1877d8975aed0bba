import Verif.Proof.Kept
/-
The parser that keeps the first error of a failed part: relations between two runs.
-/
namespace Teleparse
variable {m n : Nat} {σ τ : Type}

namespace Core
variable {k : Nat} {C : ∀ {α : Type}, M σ α → M τ α → Prop} {o : Ops σ n} {o' : Ops τ n}

theorem clip (h : Core k C o o') {p : P σ n} {p' : P τ n} (hp : C p p') : C (clip p) (clip p') := by
  refine h.bind hp fun r => ?_
  cases r <;> exact h.pure _

theorem splitKeep (h : Core k C o o') (ef pf fol : TSet n) {pt pp : P σ n} {pt' pp' : P τ n}
    (hp : C pt pt') (hq : C pp pp') {f f' : Nat} (hf : f' = f + k) :
    C (produceSplitKeep o ef pf fol pt pp f) (produceSplitKeep o' ef pf fol pt' pp' f') := by
  refine h.bind hp fun r => ?_
  cases r with
  | panic e => exact h.pure _
  | success t => exact h.bind (h.splitOuter ef pf fol (h.clip hp) hq hf _) fun _ => h.pure _
  | recovered t e => exact h.bind (h.splitOuter ef pf fol (h.clip hp) hq hf _) fun _ => h.pure _

theorem punctKeep (h : Core k C o o') (ef pf fol : TSet n) {pt pp : P σ n} {pt' pp' : P τ n}
    (hp : C pt pt') (hq : C pp pp') {f f' : Nat} (hf : f' = f + k) :
    C (producePunctKeep o ef pf fol pt pp f) (producePunctKeep o' ef pf fol pt' pp' f') := by
  refine h.bind hp fun r => ?_
  cases r with
  | panic e => exact h.pure _
  | success t => exact h.bind (h.punctOuter ef pf fol (h.clip hp) hq hf _) fun _ => h.pure _
  | recovered t e => exact h.bind (h.punctOuter ef pf fol (h.clip hp) hq hf _) fun _ => h.pure _

theorem stepKeep (h : Core k C o o') (S : Schema m n) (md : Metadata (PId m n) n) {f f' : Nat} (hf : f' = f + k)
    {rec : Ty m n → P σ n} {rec' : Ty m n → P τ n} (hr : ∀ t, C (rec t) (rec' t))
    (htext : ∀ t, C (produceText o (rec t)) (produceText o' (rec' t))) (t : Ty m n) :
    C (produceStepKeep o S md f rec t) (produceStepKeep o' S md f' rec' t) := by
  by_cases h1 : ∃ a b, t = .split a b
  · obtain ⟨a, b, rfl⟩ := h1
    exact h.splitKeep _ _ _ (hr a) (hr b) hf
  by_cases h2 : ∃ a b, t = .punct a b
  · obtain ⟨a, b, rfl⟩ := h2
    exact h.punctKeep _ _ _ (hr a) (hr b) hf
  by_cases h3 : ∃ a b, t = .recover a b
  · obtain ⟨a, b, rfl⟩ := h3
    exact h.recoverFix _ _ (h.clip (hr a)) (h.clip (hr b)) hf
  have h1 : ∀ a b, t ≠ .split a b := fun a b e => h1 ⟨a, b, e⟩
  have h2 : ∀ a b, t ≠ .punct a b := fun a b e => h2 ⟨a, b, e⟩
  have h3 : ∀ a b, t ≠ .recover a b := fun a b e => h3 ⟨a, b, e⟩
  rw [Kept.step_eq h1 h2 h3, Kept.step_eq h1 h2 h3]
  exact h.step S md hf hr htext t

theorem produceKeep (h : Core k C o o') (S : Schema m n) (md : Metadata (PId m n) n)
    (htext : ∀ f t, C (produceKeep o S md f t) (produceKeep o' S md (f + k) t) →
      C (produceText o (Teleparse.produceKeep o S md f t)) (produceText o' (Teleparse.produceKeep o' S md (f + k) t))) :
    ∀ (f : Nat) (t : Ty m n), C (produceKeep o S md f t) (produceKeep o' S md (f + k) t)
  | 0, t => h.fuel _ (fun hk => by subst hk; rfl)
  | f + 1, t => by
    have e : f + 1 + k = (f + k) + 1 := by omega
    rw [e]
    exact h.stepKeep S md rfl (fun t => Core.produceKeep h S md htext f t)
      (fun t => htext f t (Core.produceKeep h S md htext f t)) t

end Core

/-- A closed relation holds between `produceKeep` with fuel `f` and with fuel `f + k`. -/
theorem Closed.produceKeep {k : Nat} {C : ∀ {α : Type}, M σ α → M τ α → Prop} {o : Ops σ n} {o' : Ops τ n}
    (h : Closed k C o o') (S : Schema m n) (md : Metadata (PId m n) n) (f : Nat)
    (t : Ty m n) : C (produceKeep o S md f t) (produceKeep o' S md (f + k) t) :=
  h.core.produceKeep S md (fun _ _ hp => h.text hp) f t

theorem produceKeep_view (ext : Fin n → Bool) (S : Schema m n) (md : Metadata (PId m n) n) (fuel : Nat)
    (t : Ty m n) (p : Parser n) :
    produceKeep View.ops S md fuel t (p.view ext) =
      (produceKeep (Parser.ops ext) S md fuel t p).mapState (Parser.view ext) :=
  (sim_closed ext).produceKeep S md fuel t p

theorem produceKeep_mono {σ : Type} (o : Ops σ n) (S : Schema m n) (md : Metadata (PId m n) n) {f f' : Nat}
    (hf : f ≤ f') (t : Ty m n) (s : σ) (h : produceKeep o S md f t s ≠ .fuel) :
    produceKeep o S md f' t s = produceKeep o S md f t s := by
  obtain ⟨k, rfl⟩ := Nat.exists_eq_add_of_le hf
  exact (mono_closed o k).produceKeep S md f t s h

end Teleparse
