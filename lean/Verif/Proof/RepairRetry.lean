import Verif.Spec.RepairRetry
import Verif.Proof.Steps
/-
The `Recover` that tries again where an attempt stopped: relations between two runs, its steps and its end.
-/
namespace Teleparse
variable {m n : Nat} {σ τ : Type}

namespace Core
variable {k : Nat} {C : ∀ {α : Type}, M σ α → M τ α → Prop} {o : Ops σ n} {o' : Ops τ n}

theorem recoverLoopRetry (h : Core k C o o') (tf : TSet n) {pr : P σ n} {pr' : P τ n} (hp : C pr pr')
    {f f' : Nat} (hf : f' = f + k) : ∀ errs panic,
    C (recoverLoopRetry o tf pr f errs panic) (recoverLoopRetry o' tf pr' f' errs panic) := by
  induction f generalizing f' with
  | zero => intro _ _; exact h.fuel _ (fun hk => by subst hk; subst hf; rfl)
  | succ f ih =>
    intro errs panic
    obtain ⟨f', rfl⟩ : ∃ i, f' = i + 1 := ⟨f' - 1, by omega⟩
    refine h.bind h.peekSrc fun tok => ?_
    try dsimp only
    cases tok.isNone
    · cases (tf.contains tok || tf.containsE)
      · exact h.bind (h.recoverSkip _ _) fun _ => ih (by omega) _ _
      · refine h.bind h.currentSpan fun before => h.bind hp fun r => ?_
        cases r with
        | success t => exact h.pure _
        | recovered t e => exact h.pure _
        | panic e =>
          refine h.bind h.currentSpan fun after => ?_
          by_cases hc : before.lo = after.lo
          · simp only [hc, if_true]
            exact h.bind (h.recoverSkip _ _) fun _ => ih (by omega) _ _
          · simp only [hc, if_false]
            exact ih (by omega) _ _
    · cases tf.containsE
      · exact h.pure _
      · refine h.bind hp fun r => ?_
        cases r with
        | success t => exact h.pure _
        | recovered t e => exact h.pure _
        | panic e => exact h.pure _

theorem recoverRetry (h : Core k C o o') (hf tf : TSet n) {pt pr : P σ n} {pt' pr' : P τ n}
    (hp : C pt pt') (hq : C pr pr') {f f' : Nat} (hle : f' = f + k) :
    C (produceRecoverRetry o hf tf pt pr f) (produceRecoverRetry o' hf tf pt' pr' f') := by
  refine h.bind (h.recoverHead hf hp) fun r => h.bind (h.recoverLoopRetry tf hq hle _ _) fun x => ?_
  obtain ⟨tail, errs, panic⟩ := x
  cases tail <;> exact h.pure _

end Core

theorem retry_view (ext : Fin n → Bool) (S : Schema m n) (md : Metadata (PId m n) n) (t u : Ty m n) (f : Nat) (p : Parser n) :
    produceRecoverRetry View.ops (md.first.get t.pid) (md.first.get u.pid) (produce View.ops S md f t)
      (produce View.ops S md f u) f (p.view ext) =
    (produceRecoverRetry (Parser.ops ext) (md.first.get t.pid) (md.first.get u.pid)
      (produce (Parser.ops ext) S md f t) (produce (Parser.ops ext) S md f u) f p).mapState (Parser.view ext) :=
  (sim_closed ext).core.recoverRetry _ _ ((sim_closed ext).produce S md f t) ((sim_closed ext).produce S md f u) rfl p

theorem retry_safe {source : Str} (S : Schema m n) (md : Metadata (PId m n) n) (t u : Ty m n) (f : Nat) :
    Safe source (produceRecoverRetry View.ops (md.first.get t.pid) (md.first.get u.pid) (produce View.ops S md f t)
      (produce View.ops S md f u) f) := by
  have hc : Core 0 (fun {α} (x _ : M (View n) α) => Safe source x) View.ops View.ops :=
    ⟨fun a => .pure a, fun hx hf => hx.bind' hf,
      fun y _ v hv => ⟨fun h => (by cases h), fun a v' h => (by cases h)⟩, .peekSrc, .currentSpan,
      .consume, .emptySpan, .apply, .term⟩
  exact hc.recoverRetry (pt' := produce View.ops S md f t) (pr' := produce View.ops S md f u) _ _
    (produce_safe S md f t) (produce_safe S md f u) (f' := f) rfl

section loop
variable {S : Schema m n} {md : Metadata (PId m n) n} {G : Grammar (PId m n) n} {t : Ty m n} {first : TSet n}
  {source : Str}

/-- The search with the repair. -/
theorem retry_steps (hf : ∀ x, first.contains x = true ↔ Starts G t.pid x) (fuel0 : Nat) :
    ∀ (fuel : Nat) (v : View n) errs panic r v', Ready source v →
      recoverLoopRetry View.ops first (produce View.ops S md fuel0 t) fuel errs panic v = .ok r v' →
      ∃ tail, EachStop S md G t v tail v' ∧ r.1 = triedTree tail ∧ r.2.1 = errs ++ triedErrs tail ∧
        (r.1.isSome = true ↔ ∃ r2, tail = some r2) := by
  intro fuel
  induction fuel with
  | zero => intro v errs panic r v' _ hr; cases hr
  | succ fuel ih =>
    intro v errs panic r v' hv hr
    simp only [recoverLoopRetry, bind_ok, mPeekSrc_ok] at hr
    obtain ⟨tok, _, ⟨rfl, rfl, -⟩, hr⟩ := hr
    rename_i v
    split at hr
    · rename_i hn
      have hnil := (look_isNone _).1 hn
      split at hr
      · rename_i he
        simp only [bind_ok] at hr
        obtain ⟨r1, v1, h1, h2⟩ := hr
        have hd : On S md t v r1 v1 := ⟨fuel0, h1⟩
        cases r1 with
        | success x =>
          simp only [pure_ok] at h2
          obtain ⟨rfl, rfl⟩ := h2
          exact ⟨_, .found hd rfl, rfl, (by simp [triedErrs]), by simp⟩
        | recovered x e =>
          simp only [pure_ok] at h2
          obtain ⟨rfl, rfl⟩ := h2
          exact ⟨_, .found hd rfl, rfl, rfl, by simp⟩
        | panic e =>
          simp only [pure_ok] at h2
          obtain ⟨rfl, rfl⟩ := h2
          exact ⟨none, .eof hnil (.inr ⟨_, hd⟩), rfl, (by simp [triedErrs]), by simp⟩
      · rename_i he
        simp only [pure_ok] at hr
        obtain ⟨rfl, rfl⟩ := hr
        exact ⟨none, .eof hnil (.inl ⟨rfl, fun h => he ((hf none).2 h)⟩), rfl, (by simp [triedErrs]), by simp⟩
    · rename_i hn
      have hne : v.rest ≠ [] := fun h => hn ((look_isNone _).2 h)
      split at hr
      · simp only [bind_ok, mCurrentSpan_ok] at hr
        obtain ⟨_, v0, ⟨rfl, hv0⟩, r1, v1, h1, h2⟩ := hr
        rw [hv0] at h1
        have hd : On S md t v r1 v1 := ⟨fuel0, h1⟩
        cases r1 with
        | success x =>
          simp only [pure_ok] at h2
          obtain ⟨rfl, rfl⟩ := h2
          exact ⟨_, .found hd rfl, rfl, (by simp [triedErrs]), by simp⟩
        | recovered x e =>
          simp only [pure_ok] at h2
          obtain ⟨rfl, rfl⟩ := h2
          exact ⟨_, .found hd rfl, rfl, rfl, by simp⟩
        | panic e =>
          simp only [bind_ok, mCurrentSpan_ok] at h2
          obtain ⟨_, v3, ⟨rfl, hv3⟩, h2⟩ := h2
          rw [hv3] at h2
          have hv1 := hv.adv hd.adv
          split at h2
          · rename_i hlo
            have hrest := (hv.cur_lo hd.adv hne).1 hlo
            simp only [bind_ok] at h2
            obtain ⟨p1, v2, h2, h3⟩ := h2
            obtain ⟨-, rfl⟩ := recoverSkip_hi h2
            obtain ⟨tail, k1, k2⟩ := ih _ _ _ _ _ hv1.skip h3
            cases hr1 : v1.rest with
            | nil => exact absurd (hrest ▸ hr1) hne
            | cons y b =>
              have hps := Passed.skip hr1
              have := hps.rest
              simp only [List.singleton_append] at this
              exact ⟨tail, .fails (by rw [← hrest, this]) hd hps k1, k2⟩
          · rename_i hlo
            obtain ⟨tail, k1, k2⟩ := ih _ _ _ _ _ hv1 h2
            obtain ⟨ts, hts, hcons⟩ := hd.adv.cons
            refine ⟨tail, .moved (ts := ts) hd ?_ ?_ k1, k2⟩
            · rintro rfl
              exact hlo ((hv.cur_lo hd.adv hne).2 (by simpa using hts.symm))
            · exact hts
      · rename_i hc
        rw [starts_or hf hv, not_or] at hc
        simp only [bind_ok] at hr
        obtain ⟨p1, v2, h2, h3⟩ := hr
        obtain ⟨-, rfl⟩ := recoverSkip_hi h2
        obtain ⟨tail, k1, k2⟩ := ih _ _ _ _ _ hv.skip h3
        cases hr1 : v.rest with
        | nil => exact absurd hr1 hne
        | cons y b =>
          have hno : ¬ FirstOf G t.pid (y.word v.source) := by
            have := hc.1
            rw [View.word, hr1] at this
            exact this
          exact ⟨tail, .cannot (Passed.skip hr1) hno hc.2 k1, k2⟩

/-- If failing attempts consume nothing, the repair changes nothing. -/
theorem retry_same {fuel0 : Nat} (hfail : ∀ v e v1, On S md t v (.panic e) v1 → v1.rest = v.rest) :
    ∀ (fuel : Nat) (v : View n) errs panic, Ready source v →
      recoverLoopRetry View.ops first (produce View.ops S md fuel0 t) fuel errs panic v =
      recoverLoop View.ops first (produce View.ops S md fuel0 t) fuel errs panic v := by
  intro fuel
  induction fuel with
  | zero => intro v errs panic _; rfl
  | succ fuel ih =>
    intro v errs panic hv
    change M.bind _ _ v = M.bind _ _ v
    unfold M.bind
    cases hk : (View.ops (n := n)).mPeekSrc v with
    | fuel => rfl
    | crash => rfl
    | ok tok w =>
      obtain ⟨rfl, hw, -⟩ := mPeekSrc_ok.1 hk
      rw [hw]
      dsimp only
      split
      · rfl
      · rename_i hn
        have hne : v.rest ≠ [] := fun h => hn ((look_isNone _).2 h)
        split
        · change M.bind _ _ v = M.bind _ _ v
          conv => lhs; unfold M.bind
          rw [(mCurrentSpan_ok (v := v) (v' := v)).2 ⟨rfl, rfl⟩]
          change M.bind _ _ v = M.bind _ _ v
          unfold M.bind
          cases hr : produce View.ops S md fuel0 t v with
          | fuel => rfl
          | crash => rfl
          | ok r1 v1 =>
            have hd : On S md t v r1 v1 := ⟨fuel0, hr⟩
            cases r1 with
            | success x => rfl
            | recovered x e => rfl
            | panic e =>
              change M.bind _ _ v1 = M.bind _ _ v1
              conv => lhs; unfold M.bind
              rw [(mCurrentSpan_ok (v := v1) (v' := v1)).2 ⟨rfl, rfl⟩]
              dsimp only
              rw [if_pos ((hv.cur_lo hd.adv hne).2 (hfail _ _ _ hd))]
              change M.bind _ _ v1 = M.bind _ _ v1
              unfold M.bind
              cases hs : recoverSkip View.ops first (mergePanic panic e) v1 with
              | fuel => rfl
              | crash => rfl
              | ok p2 v2 =>
                obtain ⟨-, rfl⟩ := recoverSkip_hi hs
                exact ih _ _ _ (hv.adv hd.adv).skip
        · change M.bind _ _ v = M.bind _ _ v
          unfold M.bind
          cases hs : recoverSkip View.ops first panic v with
          | fuel => rfl
          | crash => rfl
          | ok p2 v2 =>
            obtain ⟨-, rfl⟩ := recoverSkip_hi hs
            exact ih _ _ _ hv.skip

/-- The search ends if every attempt ends. -/
theorem retry_halts {tf : TSet n} {p : Nat → P (View n) n} {I : View n → Prop} (hR : ∀ w, I w → Ready source w)
    (hI : ∀ w, I w → I w.skip) (hp : ∀ w : View n, I w → Halts (fun _ j => p j) w (fun _ w' => Adv w w' ∧ I w')) :
    ∀ (v : View n) errs panic, I v →
      Halts (fun i j => recoverLoopRetry View.ops tf (p j) i errs panic) v (fun _ _ => True) := by
  intro v
  generalize hk : v.len = k
  induction k using Nat.strongRecOn generalizing v with
  | ind k ih =>
    intro errs panic hL
    subst hk
    refine .succ ?_
    simp only [recoverLoopRetry]
    refine .bind (Q := fun x w => x = v.look ∧ w = v) (.peekSrc ⟨rfl, rfl⟩) ?_
    rintro _ _ ⟨rfl, rfl⟩
    rename_i v
    refine .ite (fun hc => ?_) (fun hc => ?_)
    · refine .ite (fun he => ?_) (fun he => .pure trivial)
      refine .bind (hp v hL) ?_
      rintro r w -
      cases r <;> exact .pure trivial
    have hne : v.rest ≠ [] := fun h => hc ((look_isNone v).2 h)
    refine .ite (fun hg => ?_) (fun hg => ?_)
    · refine .bind (Q := fun x w => x = v.cur ∧ w = v) (.currentSpan ⟨rfl, rfl⟩) ?_
      rintro _ _ ⟨rfl, rfl⟩
      rename_i v
      refine .bind (hp v hL) ?_
      rintro r w ⟨ha, hi⟩
      cases r with
      | success t => exact .pure trivial
      | recovered t e => exact .pure trivial
      | panic e =>
        refine .bind (Q := fun x w' => x = w.cur ∧ w' = w) (.currentSpan ⟨rfl, rfl⟩) ?_
        rintro _ _ ⟨rfl, rfl⟩
        rename_i w
        refine .ite (fun hlo => ?_) (fun hlo => ?_)
        · refine .bind recoverSkip_halts ?_
          rintro panic1 _ rfl
          exact ih _ (skip_len_lt ha hne) w.skip rfl errs panic1 (hI _ hi)
        · have hlt : w.len < v.len := by
            obtain ⟨ts, hts, -⟩ := ha.cons
            cases ts with
            | nil => exact absurd (((hR v hL).cur_lo ha hne).2 (by simpa using hts.symm)) hlo
            | cons a l =>
              have := congrArg List.length hts
              simp only [List.length_append, List.length_cons] at this
              unfold View.len
              omega
          exact ih _ hlt w rfl errs _ hi
    · refine .bind recoverSkip_halts ?_
      rintro panic1 _ rfl
      exact ih _ (skip_len hne) v.skip rfl errs panic1 (hI _ hL)

theorem mergePanic_some {panic : Option (Err n)} {e : List (Err n)} (h : panic ≠ none ∨ e ≠ []) :
    mergePanic panic e ≠ none := by
  unfold mergePanic
  cases he : e.getLast? with
  | none =>
    rcases h with h | h
    · simpa using h
    · exact absurd (List.getLast?_eq_none_iff.1 he) h
  | some x => cases panic <;> simp

/-- An error stays, and without one the tail was produced at once. -/
theorem retry_silent (hloud : ∀ v e v1, On S md t v (.panic e) v1 → e ≠ []) (fuel0 : Nat) :
    ∀ (fuel : Nat) (v : View n) errs panic r v',
      recoverLoopRetry View.ops first (produce View.ops S md fuel0 t) fuel errs panic v = .ok r v' →
      (panic ≠ none → r.2.2 ≠ none) ∧
      (r.2.2 = none → ∀ y, r.1 = some y → ∃ r2, On S md t v r2 v' ∧ r2.tree? = some y ∧ r.2.1 = errs ++ r2.errs) := by
  intro fuel
  induction fuel with
  | zero => intro v errs panic r v' hr; cases hr
  | succ fuel ih =>
    intro v errs panic r v' hr
    simp only [recoverLoopRetry, bind_ok, mPeekSrc_ok] at hr
    obtain ⟨tok, v0, ⟨rfl, hv0, -⟩, hr⟩ := hr
    rw [hv0] at hr
    split at hr
    · split at hr
      · simp only [bind_ok] at hr
        obtain ⟨r1, v1, h1, h2⟩ := hr
        have hd : On S md t v r1 v1 := ⟨fuel0, h1⟩
        cases r1 with
        | success x =>
          simp only [pure_ok] at h2
          obtain ⟨rfl, rfl⟩ := h2
          exact ⟨id, fun _ y hy => ⟨_, hd, hy, by simp [Res.errs]⟩⟩
        | recovered x e =>
          simp only [pure_ok] at h2
          obtain ⟨rfl, rfl⟩ := h2
          exact ⟨id, fun _ y hy => ⟨_, hd, hy, rfl⟩⟩
        | panic e =>
          simp only [pure_ok] at h2
          obtain ⟨rfl, rfl⟩ := h2
          exact ⟨fun h => mergePanic_some (.inl h), fun _ y hy => (by cases hy)⟩
      · simp only [pure_ok] at hr
        obtain ⟨rfl, rfl⟩ := hr
        exact ⟨id, fun _ y hy => (by cases hy)⟩
    · split at hr
      · simp only [bind_ok, mCurrentSpan_ok] at hr
        obtain ⟨_, v2, ⟨rfl, hv2⟩, r1, v1, h1, h2⟩ := hr
        rw [hv2] at h1
        have hd : On S md t v r1 v1 := ⟨fuel0, h1⟩
        cases r1 with
        | success x =>
          simp only [pure_ok] at h2
          obtain ⟨rfl, rfl⟩ := h2
          exact ⟨id, fun _ y hy => ⟨_, hd, hy, by simp [Res.errs]⟩⟩
        | recovered x e =>
          simp only [pure_ok] at h2
          obtain ⟨rfl, rfl⟩ := h2
          exact ⟨id, fun _ y hy => ⟨_, hd, hy, rfl⟩⟩
        | panic e =>
          simp only [bind_ok, mCurrentSpan_ok] at h2
          obtain ⟨_, v3, ⟨rfl, hv3⟩, h2⟩ := h2
          rw [hv3] at h2
          split at h2
          · simp only [bind_ok] at h2
            obtain ⟨p1, v4, h2, h3⟩ := h2
            obtain ⟨⟨e1, rfl, -⟩, -⟩ := recoverSkip_hi h2
            have := (ih _ _ _ _ _ h3).1 (by simp)
            exact ⟨fun _ => this, fun h => absurd h this⟩
          · have := (ih _ _ _ _ _ h2).1 (mergePanic_some (.inr (hloud _ _ _ hd)))
            exact ⟨fun _ => this, fun h => absurd h this⟩
      · simp only [bind_ok] at hr
        obtain ⟨p1, v4, h2, h3⟩ := hr
        obtain ⟨⟨e1, rfl, -⟩, -⟩ := recoverSkip_hi h2
        have := (ih _ _ _ _ _ h3).1 (by simp)
        exact ⟨fun _ => this, fun h => absurd h this⟩

/-- Without an error the head was produced. -/
theorem head_silent (hloud : ∀ v e v1, On S md t v (.panic e) v1 → e ≠ []) {fuel : Nat} {v v' : View n} {h}
    (hr : recoverHead View.ops first (produce View.ops S md fuel t) v = .ok h v') (hp : h.panic = none) :
    ∃ r x, On S md t v r v' ∧ r.tree? = some x ∧ h.head = some x ∧ h.errs = r.errs ∧ h.span = x.span := by
  simp only [recoverHead, bind_ok, mPeekSrc_ok] at hr
  obtain ⟨tok, v0, ⟨rfl, hv0, -⟩, hr⟩ := hr
  rw [hv0] at hr
  split at hr
  · simp only [bind_ok] at hr
    obtain ⟨r1, v1, h1, h2⟩ := hr
    have hd : On S md t v r1 v1 := ⟨fuel, h1⟩
    cases r1 with
    | success x =>
      simp only [pure_ok] at h2
      obtain ⟨rfl, rfl⟩ := h2
      exact ⟨_, x, hd, rfl, rfl, rfl, rfl⟩
    | recovered x e =>
      simp only [pure_ok] at h2
      obtain ⟨rfl, rfl⟩ := h2
      exact ⟨_, x, hd, rfl, rfl, rfl, rfl⟩
    | panic e =>
      simp only [bind_ok, mEmptySpan_ok, pure_ok] at h2
      obtain ⟨_, _, ⟨rfl, rfl⟩, rfl, rfl⟩ := h2
      exact absurd (List.getLast?_eq_none_iff.1 hp) (hloud _ _ _ hd)
  · simp only [bind_ok, mEmptySpan_ok, mExpecting_ok, pure_ok] at hr
    obtain ⟨_, _, ⟨rfl, rfl⟩, _, _, ⟨rfl, rfl⟩, rfl, rfl⟩ := hr
    cases hp

/-- In the code an error stays as well. -/
theorem loop_keeps {pr : P (View n) n} : ∀ (fuel : Nat) (v : View n) errs panic r v',
    recoverLoop View.ops first pr fuel errs panic v = .ok r v' → panic ≠ none → r.2.2 ≠ none := by
  intro fuel
  induction fuel with
  | zero => intro v errs panic r v' hr; cases hr
  | succ fuel ih =>
    intro v errs panic r v' hr hp
    simp only [recoverLoop, bind_ok, mPeekSrc_ok] at hr
    obtain ⟨tok, v0, -, hr⟩ := hr
    split at hr
    · split at hr
      · simp only [bind_ok] at hr
        obtain ⟨r1, v1, -, h2⟩ := hr
        cases r1 with
        | success x => simp only [pure_ok] at h2; obtain ⟨rfl, rfl⟩ := h2; exact hp
        | recovered x e => simp only [pure_ok] at h2; obtain ⟨rfl, rfl⟩ := h2; exact hp
        | panic e => simp only [pure_ok] at h2; obtain ⟨rfl, rfl⟩ := h2; exact mergePanic_some (.inl hp)
      · simp only [pure_ok] at hr
        obtain ⟨rfl, rfl⟩ := hr
        exact hp
    · split at hr
      · simp only [bind_ok] at hr
        obtain ⟨r1, v1, -, h2⟩ := hr
        cases r1 with
        | success x => simp only [pure_ok] at h2; obtain ⟨rfl, rfl⟩ := h2; exact hp
        | recovered x e => simp only [pure_ok] at h2; obtain ⟨rfl, rfl⟩ := h2; exact hp
        | panic e =>
          simp only [bind_ok] at h2
          obtain ⟨p1, v4, h2, h3⟩ := h2
          obtain ⟨⟨e1, rfl, -⟩, -⟩ := recoverSkip_hi h2
          exact ih _ _ _ _ _ h3 (by simp)
      · simp only [bind_ok] at hr
        obtain ⟨p1, v4, h2, h3⟩ := hr
        obtain ⟨⟨e1, rfl, -⟩, -⟩ := recoverSkip_hi h2
        exact ih _ _ _ _ _ h3 (by simp)

/-- A search without an error is the same with and without the repair. -/
theorem retry_once (hloud : ∀ v e v1, On S md t v (.panic e) v1 → e ≠ []) (fuel0 fuel : Nat) (v : View n) errs panic
    r v' (hn : r.2.2 = none) :
    recoverLoopRetry View.ops first (produce View.ops S md fuel0 t) fuel errs panic v = .ok r v' ↔
    recoverLoop View.ops first (produce View.ops S md fuel0 t) fuel errs panic v = .ok r v' := by
  cases fuel with
  | zero => exact Iff.rfl
  | succ fuel =>
    simp only [recoverLoopRetry, recoverLoop, bind_ok, mPeekSrc_ok]
    refine exists_congr fun tok => exists_congr fun v0 => and_congr_right fun _ => ?_
    split
    · exact Iff.rfl
    · split
      · simp only [bind_ok, mCurrentSpan_ok]
        constructor
        · rintro ⟨_, w, ⟨rfl, rfl⟩, r1, v1, h1, h2⟩
          refine ⟨r1, v1, h1, ?_⟩
          cases r1 with
          | success x => exact h2
          | recovered x e => exact h2
          | panic e =>
            exfalso
            simp only [bind_ok, mCurrentSpan_ok] at h2
            obtain ⟨_, v3, -, h2⟩ := h2
            split at h2
            · simp only [bind_ok] at h2
              obtain ⟨p1, v4, h2, h3⟩ := h2
              obtain ⟨⟨e1, rfl, -⟩, -⟩ := recoverSkip_hi h2
              exact (retry_silent hloud fuel0 _ _ _ _ _ _ h3).1 (by simp) hn
            · exact (retry_silent hloud fuel0 _ _ _ _ _ _ h2).1
                (mergePanic_some (.inr (hloud _ _ _ ⟨fuel0, h1⟩))) hn
        · rintro ⟨r1, v1, h1, h2⟩
          refine ⟨_, v0, ⟨rfl, rfl⟩, r1, v1, h1, ?_⟩
          cases r1 with
          | success x => exact h2
          | recovered x e => exact h2
          | panic e =>
            exfalso
            simp only [bind_ok] at h2
            obtain ⟨p1, v4, h2, h3⟩ := h2
            obtain ⟨⟨e1, rfl, -⟩, -⟩ := recoverSkip_hi h2
            exact loop_keeps _ _ _ _ _ _ h3 (by simp) hn
      · simp only [bind_ok]
        constructor
        · rintro ⟨p1, v4, h2, h3⟩
          obtain ⟨⟨e1, rfl, -⟩, -⟩ := recoverSkip_hi h2
          exact absurd hn ((retry_silent hloud fuel0 _ _ _ _ _ _ h3).1 (by simp))
        · rintro ⟨p1, v4, h2, h3⟩
          obtain ⟨⟨e1, rfl, -⟩, -⟩ := recoverSkip_hi h2
          exact absurd hn (loop_keeps _ _ _ _ _ _ h3 (by simp))

end loop
end Teleparse
