import Verif.Proof.RecoverTwin
/-
With input left at the end the repaired `Recover` changes nothing.
-/
namespace Teleparse
variable {m n : Nat}

/-- Once the input is used up it stays so; with input left the other does the same. -/
def Keep {α : Type} (x y : M (View n) α) : Prop :=
  ∀ v a v', x v = .ok a v' → (v.rest = [] → v'.rest = []) ∧ (v'.rest ≠ [] → y v = .ok a v')

theorem Keep.bind {α β : Type} {x y : M (View n) α} {f g : α → M (View n) β} (h : Keep x y)
    (hf : ∀ a, Keep (f a) (g a)) : Keep (x >>= f) (y >>= g) := by
  intro v b v' hb
  obtain ⟨a, v1, h1, h2⟩ := bind_ok.1 hb
  obtain ⟨k1, k2⟩ := h v a v1 h1
  obtain ⟨k3, k4⟩ := hf a v1 b v' h2
  exact ⟨fun e => k3 (k1 e), fun e => bind_ok.2 ⟨a, v1, k2 fun e' => e (k3 e'), k4 e⟩⟩

theorem Keep.of {α : Type} {x : M (View n) α} (h : ∀ v a v', x v = .ok a v' → v.rest = [] → v'.rest = []) : Keep x x :=
  fun v a v' hx => ⟨h v a v' hx, fun _ => hx⟩

theorem keep_closed : Closed 0 (fun {α} (x y : M (View n) α) => Keep x y) View.ops View.ops where
  pure a := .of fun v b v' h e => by obtain ⟨rfl, rfl⟩ := pure_ok.1 h; exact e
  bind h hf := h.bind hf
  fuel y _ := fun v a v' h => by cases h
  crash := fun v a v' h => by cases h
  peek := .of fun v b v' h e => by cases h; exact e
  consume := .of fun v b v' h e => by
    obtain ⟨-, rfl⟩ := mConsume_ok.1 h
    simp [View.skip, View.consume, e]
  source := .of fun v b v' h e => by cases h; exact e
  emptySpan := .of fun v b v' h e => by cases h; exact e
  apply sp sem := .of fun v b v' h e => by cases h; exact e

theorem keep_recoverLoop {tf : TSet n} {pr pr' : P (View n) n} (h : Keep pr pr') : ∀ fuel errs panic,
    Keep (recoverLoop View.ops tf pr fuel errs panic) (recoverLoopFix View.ops tf pr' fuel errs panic) := by
  intro fuel
  induction fuel with
  | zero => intro errs panic v a v' h; cases h
  | succ fuel ih =>
    intro errs panic v a v' hr
    have hself : Keep pr pr := .of fun v a v' hx => (h v a v' hx).1
    refine ⟨(keep_closed.core.recoverLoop (f' := fuel + 1) tf hself rfl errs panic v a v' hr).1, fun hne => ?_⟩
    have hv : v.rest ≠ [] := fun e =>
      hne ((keep_closed.core.recoverLoop (f' := fuel + 1) tf hself rfl errs panic v a v' hr).1 e)
    obtain ⟨tok, v1, h1, h2⟩ := bind_ok.1 hr
    refine bind_ok.2 ⟨tok, v1, h1, ?_⟩
    obtain ⟨rfl, rfl, -⟩ := mPeekSrc_ok.1 h1
    have hn : ¬ v1.look.isNone = true := fun e => hv ((look_isNone _).1 e)
    rw [if_neg hn] at h2 ⊢
    revert h2 hne
    cases (tf.contains v1.look || tf.containsE)
    · intro hne h2
      exact (Keep.bind (keep_closed.core.recoverSkip _ _) (fun _ => ih _ _) v1 a v' h2).2 hne
    · intro hne h2
      refine (Keep.bind h (fun r => ?_) v1 a v' h2).2 hne
      cases r with
      | success t => exact keep_closed.pure _
      | recovered t e => exact keep_closed.pure _
      | panic e => exact Keep.bind (keep_closed.core.recoverSkip _ _) fun _ => ih _ _

theorem keep_recover {hf tf : TSet n} {pt pt' pr pr' : P (View n) n} (h : Keep pt pt') (hp : Keep pr pr') (fuel : Nat) :
    Keep (produceRecover View.ops hf tf pt pr fuel) (produceRecoverFix View.ops hf tf pt' pr' fuel) := by
  refine Keep.bind (keep_closed.core.recoverHead hf h) fun r => Keep.bind (keep_recoverLoop hp fuel _ _) fun x => ?_
  obtain ⟨tail, errs, panic⟩ := x
  cases tail <;> exact keep_closed.pure _

theorem keep_produce (S : Schema m n) (md : Metadata (PId m n) n) :
    ∀ fuel (t : Ty m n), Keep (produce View.ops S md fuel t) (produceFix View.ops S md fuel t) := by
  intro fuel
  induction fuel with
  | zero => intro t v a v' h; cases h
  | succ fuel ih =>
    intro t
    show Keep (produceStep View.ops S md fuel _ t) (produceStepFix View.ops S md fuel _ t)
    by_cases ht : ∃ a b, t = .recover a b
    · obtain ⟨a, b, rfl⟩ := ht
      exact keep_recover (ih a) (ih b) fuel
    · have ht : ∀ a b, t ≠ .recover a b := fun a b e => ht ⟨a, b, e⟩
      rw [produceStepFix_eq ht]
      exact keep_closed.core.step S md rfl ih (fun t => keep_closed.text (ih t)) t

end Teleparse
