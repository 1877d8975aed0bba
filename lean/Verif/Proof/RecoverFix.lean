import Verif.Model.RepairRecover
import Verif.Proof.State
/-
The repaired `Recover`: relations between two runs, and the description of its results.
-/
namespace Teleparse
variable {m n : Nat} {σ τ : Type}

theorem produceStepFix_eq {o : Ops σ n} {S : Schema m n} {md : Metadata (PId m n) n} {fuel : Nat} {rec : Ty m n → P σ n}
    {t : Ty m n} (h : ∀ a b, t ≠ .recover a b) : produceStepFix o S md fuel rec t = produceStep o S md fuel rec t := by
  cases t with
  | recover a b => exact absurd rfl (h a b)
  | _ => rfl

namespace Core
variable {k : Nat} {C : ∀ {α : Type}, M σ α → M τ α → Prop} {o : Ops σ n} {o' : Ops τ n}

theorem recoverLoopFix (h : Core k C o o') (tf : TSet n) {pr : P σ n} {pr' : P τ n} (hp : C pr pr')
    {f f' : Nat} (hf : f' = f + k) : ∀ errs panic,
    C (recoverLoopFix o tf pr f errs panic) (recoverLoopFix o' tf pr' f' errs panic) := by
  induction f generalizing f' with
  | zero => intro _ _; exact h.fuel _ (fun hk => by subst hk; subst hf; rfl)
  | succ f ih =>
    intro errs panic
    obtain ⟨f', rfl⟩ : ∃ i, f' = i + 1 := ⟨f' - 1, by omega⟩
    refine h.bind h.peekSrc fun tok => ?_
    try dsimp only
    cases tok.isNone
    · cases (tf.contains tok || tf.containsE)
      · exact h.bind (h.recoverSkip _ _) fun _ => ih (by omega) _ _
      · refine h.bind hp fun r => ?_
        cases r with
        | success t => exact h.pure _
        | recovered t e => exact h.pure _
        | panic e => exact h.bind (h.recoverSkip _ _) fun _ => ih (by omega) _ _
    · cases tf.containsE
      · cases panic with
        | none => exact h.bind (h.expecting _) fun _ => h.pure _
        | some p => exact h.pure _
      · refine h.bind hp fun r => ?_
        cases r with
        | success t => exact h.pure _
        | recovered t e => exact h.pure _
        | panic e => exact h.pure _

theorem recoverFix (h : Core k C o o') (hf tf : TSet n) {pt pr : P σ n} {pt' pr' : P τ n}
    (hp : C pt pt') (hq : C pr pr') {f f' : Nat} (hle : f' = f + k) :
    C (produceRecoverFix o hf tf pt pr f) (produceRecoverFix o' hf tf pt' pr' f') := by
  refine h.bind (h.recoverHead hf hp) fun r => h.bind (h.recoverLoopFix tf hq hle _ _) fun x => ?_
  obtain ⟨tail, errs, panic⟩ := x
  cases tail <;> exact h.pure _

theorem stepFix (h : Core k C o o') (S : Schema m n) (md : Metadata (PId m n) n) {f f' : Nat} (hf : f' = f + k)
    {rec : Ty m n → P σ n} {rec' : Ty m n → P τ n} (hr : ∀ t, C (rec t) (rec' t))
    (htext : ∀ t, C (produceText o (rec t)) (produceText o' (rec' t))) (t : Ty m n) :
    C (produceStepFix o S md f rec t) (produceStepFix o' S md f' rec' t) := by
  by_cases ht : ∃ a b, t = .recover a b
  · obtain ⟨a, b, rfl⟩ := ht
    exact h.recoverFix _ _ (hr a) (hr b) hf
  · have ht : ∀ a b, t ≠ .recover a b := fun a b e => ht ⟨a, b, e⟩
    rw [produceStepFix_eq ht, produceStepFix_eq ht]
    exact h.step S md hf hr htext t

theorem produceFix (h : Core k C o o') (S : Schema m n) (md : Metadata (PId m n) n)
    (htext : ∀ f t, C (produceFix o S md f t) (produceFix o' S md (f + k) t) →
      C (produceText o (Teleparse.produceFix o S md f t)) (produceText o' (Teleparse.produceFix o' S md (f + k) t))) :
    ∀ (f : Nat) (t : Ty m n), C (produceFix o S md f t) (produceFix o' S md (f + k) t)
  | 0, t => h.fuel _ (fun hk => by subst hk; rfl)
  | f + 1, t => by
    have e : f + 1 + k = (f + k) + 1 := by omega
    rw [e]
    exact h.stepFix S md rfl (fun t => Core.produceFix h S md htext f t)
      (fun t => htext f t (Core.produceFix h S md htext f t)) t

end Core

/-- A closed relation holds between `produceFix` with fuel `f` and with fuel `f + k`. -/
theorem Closed.produceFix {k : Nat} {C : ∀ {α : Type}, M σ α → M τ α → Prop} {o : Ops σ n} {o' : Ops τ n}
    (h : Closed k C o o') (S : Schema m n) (md : Metadata (PId m n) n) (f : Nat)
    (t : Ty m n) : C (produceFix o S md f t) (produceFix o' S md (f + k) t) :=
  h.core.produceFix S md (fun _ _ hp => h.text hp) f t

theorem produceFix_view (ext : Fin n → Bool) (S : Schema m n) (md : Metadata (PId m n) n) (fuel : Nat)
    (t : Ty m n) (p : Parser n) :
    produceFix View.ops S md fuel t (p.view ext) =
      (produceFix (Parser.ops ext) S md fuel t p).mapState (Parser.view ext) :=
  (sim_closed ext).produceFix S md fuel t p

theorem produceFix_mono {σ : Type} (o : Ops σ n) (S : Schema m n) (md : Metadata (PId m n) n) {f f' : Nat}
    (hf : f ≤ f') (t : Ty m n) (s : σ) (h : produceFix o S md f t s ≠ .fuel) :
    produceFix o S md f' t s = produceFix o S md f t s := by
  obtain ⟨k, rfl⟩ := Nat.exists_eq_add_of_le hf
  exact (mono_closed o k).produceFix S md f t s h

/-! ### Description -/

theorem run_tailFix {S : Schema m n} {t : Ty m n} {p : P (View n) n} (h : DescX true S p t) (tf : TSet n) :
    ∀ (fuel : Nat) (v : View n) errs panic r v',
      recoverLoopFix View.ops tf p fuel errs panic v = .ok r v' →
      RunX true S (.tail t v errs panic r.1 r.2.1 r.2.2 v') := by
  intro fuel
  induction fuel with
  | zero => intro v errs panic r v' hr; cases hr
  | succ fuel ih =>
    intro v errs panic r v' hr
    simp only [recoverLoopFix, bind_ok, mPeekSrc_ok] at hr
    obtain ⟨tok, _, ⟨rfl, rfl, -⟩, hr⟩ := hr
    rename_i v
    split at hr
    · rename_i hn
      have hnil := (look_isNone _).1 hn
      split at hr
      · simp only [bind_ok] at hr
        obtain ⟨r1, v1, h1, h2⟩ := hr
        have hd := h _ _ _ h1
        cases r1 with
        | success x =>
          simp only [pure_ok] at h2
          obtain ⟨rfl, rfl⟩ := h2
          simpa using RunX.tailGive hd (.success x) (errs := errs) (panic := panic)
        | recovered x e =>
          simp only [pure_ok] at h2
          obtain ⟨rfl, rfl⟩ := h2
          exact .tailGive hd (.recovered x e)
        | panic e =>
          simp only [pure_ok] at h2
          obtain ⟨rfl, rfl⟩ := h2
          exact .tailPanic hnil hd
      · cases panic with
        | some e =>
          simp only [pure_ok] at hr
          obtain ⟨rfl, rfl⟩ := hr
          exact .tailStop hnil (by simp)
        | none =>
          simp only [bind_ok, mExpecting_ok, pure_ok] at hr
          obtain ⟨_, _, ⟨rfl, rfl⟩, rfl, rfl⟩ := hr
          exact .tailNote rfl hnil
    · rename_i hn
      have hne : v.rest ≠ [] := fun h => hn ((look_isNone _).2 h)
      split at hr
      · simp only [bind_ok] at hr
        obtain ⟨r1, v1, h1, h2⟩ := hr
        have hd := h _ _ _ h1
        cases r1 with
        | success x =>
          simp only [pure_ok] at h2
          obtain ⟨rfl, rfl⟩ := h2
          simpa using RunX.tailGive hd (.success x) (errs := errs) (panic := panic)
        | recovered x e =>
          simp only [pure_ok] at h2
          obtain ⟨rfl, rfl⟩ := h2
          exact .tailGive hd (.recovered x e)
        | panic e =>
          simp only [bind_ok] at h2
          obtain ⟨p1, v2, h2, h3⟩ := h2
          obtain ⟨hn, rfl⟩ := recoverSkip_ok h2
          exact .tailFail hne hd hn (ih _ _ _ _ _ h3)
      · simp only [bind_ok] at hr
        obtain ⟨p1, v2, h2, h3⟩ := hr
        obtain ⟨hn, rfl⟩ := recoverSkip_ok h2
        exact .tailSkip hne hn (ih _ _ _ _ _ h3)

theorem desc_recoverFix {S : Schema m n} {t u : Ty m n} {pt pp : P (View n) n} (ht : DescX true S pt t)
    (hu : DescX true S pp u) (hf tf : TSet n) (fuel : Nat) :
    DescX true S (produceRecoverFix View.ops hf tf pt pp fuel) (.recover t u) := by
  intro v r v' hr
  simp only [produceRecoverFix, bind_ok] at hr
  obtain ⟨h, v1, h1, ⟨tl, errs, panic⟩, v2, h2, h3⟩ := hr
  have hh := run_head ht h1
  have ht := run_tailFix hu _ _ _ _ _ _ _ h2
  cases tl with
  | some x =>
    simp only [pure_ok] at h3
    obtain ⟨rfl, rfl⟩ := h3
    exact .recover hh ht
  | none =>
    simp only [pure_ok] at h3
    obtain ⟨rfl, rfl⟩ := h3
    exact .recoverPanic hh ht

/-- Every result of `produceFix` is described. -/
theorem run_of_produceFix (S : Schema m n) (md : Metadata (PId m n) n) :
    ∀ (fuel : Nat) (t : Ty m n), DescX true S (produceFix View.ops S md fuel t) t := by
  intro fuel
  induction fuel with
  | zero => intro t v r v' h; cases h
  | succ fuel ih =>
    intro t
    show DescX true S (produceStepFix View.ops S md fuel (produceFix View.ops S md fuel) t) t
    cases t with
    | term i k => exact desc_term i k _
    | user k =>
      rw [produceStepFix_eq (by simp)]
      cases hS : S k with
      | struct f fs => simp only [produceStep, hS]; exact desc_struct hS ih
      | enum f fs => simp only [produceStep, hS]; exact desc_enum hS ih _ _
    | box t => exact fun v r v' h => .box (ih t v r v' h)
    | option t => exact desc_option (.option t) (ih t) _
    | exist t => exact desc_option (.exist t) (ih t) _
    | quote t => exact desc_text (.quote t) (ih t)
    | parse t => exact desc_text (.parse t) (ih t)
    | plus t => exact desc_plus (ih t) _ _
    | star t => exact desc_option (.star t) (desc_plus (ih t) _ _) _
    | loop t => exact desc_loop (ih t) _ _
    | split t p => exact desc_split (ih t) (ih p) _ _ _ _
    | punct t p => exact desc_punct (ih t) (ih p) _ _ _ _
    | recover t r => exact desc_recoverFix (ih t) (ih r) _ _ _
    | tup2 a b => exact desc_tuple (.tup2 a b) ih
    | tup3 a b c => exact desc_tuple (.tup3 a b c) ih
    | tup4 a b c d => exact desc_tuple (.tup4 a b c d) ih
    | tup5 a b c d e => exact desc_tuple (.tup5 a b c d e) ih

theorem produceFix_safe {source : Str} (S : Schema m n) (md : Metadata (PId m n) n) (fuel : Nat) (t : Ty m n) :
    Safe source (produceFix View.ops S md fuel t) := by
  have hc : Core 0 (fun {α} (x _ : M (View n) α) => Safe source x) View.ops View.ops :=
    ⟨fun a => .pure a, fun hx hf => hx.bind' hf,
      fun y _ v hv => ⟨fun h => (by cases h), fun a v' h => (by cases h)⟩, .peekSrc, .currentSpan,
      .consume, .emptySpan, .apply, .term⟩
  refine hc.produceFix S md ?_ fuel t
  intro f t hp
  refine hp.bind fun v r v' hv hr hv' => ?_
  have hg := (run_of_produceFix S md f t v r v' hr).good hv.good
  cases r with
  | success x =>
    exact Safe.bind' (Safe.getSrc (Tree.AllSpans.self hg)) (fun _ => Safe.pure _) v' hv'
  | recovered x e =>
    exact Safe.bind' (Safe.getSrc (Tree.AllSpans.self hg.1)) (fun _ => Safe.pure _) v' hv'
  | panic e => exact Safe.pure _ v' hv'

end Teleparse
