import Verif.Proof.CostAll
import Verif.Proof.Depth
/-
The number of stream operations is linear in the number of consumed tokens whenever producing ends, for any tables. A
call that returns does not call its own type at the place where it began, and no loop goes round without a token.
-/
set_option linter.unusedSectionVars false
namespace Teleparse
namespace CostRun
open Depth (Same)
variable {m n : Nat} {F : Frame n} {v : View n} {k u : Nat}

/-! ### Parts -/

/-- A call costs one unit; if it consumes a token it pays for itself. -/
def Costs (F : Frame n) (p : P (View n × Nat) n) : Prop :=
  ∀ (v : View n) k u, F.At (u + 1) (v, k) →
    Tri p (v, k) (fun _ s => Adv v s.1 ∧ F.At u s ∧ (s.1.len < v.len → F.At (u + 17) s))

/-- At the same place the result is the same. -/
def Blind (p : P (View n × Nat) n) : Prop :=
  ∀ v k r s, p (v, k) = .ok r s → ∀ v' k', Same v v' → Tri p (v', k') (fun r' s' => r' = r ∧ Same s.1 s'.1)

theorem same_refl (v : View n) : Same v v := ⟨rfl, rfl, rfl⟩

theorem same_symm {v w : View n} (h : Same v w) : Same w v := ⟨h.source.symm, h.rest.symm, h.pos.symm⟩

theorem same_of_adv {v w : View n} (h : Adv v w) (hl : ¬ w.len < v.len) : Same v w := by
  obtain ⟨ts, h1, h2⟩ := h.cons
  have : ts = [] := by
    apply List.eq_nil_of_length_eq_zero
    simp only [View.len, h1, List.length_append] at hl
    omega
  subst this
  refine ⟨h.src.symm, by simpa using h1, ?_⟩
  have key : ∀ c : TokenVec n, (c.getLast?).map (·.token.span.hi) = ((c.map (·.token)).getLast?).map (·.span.hi) := by
    intro c
    rw [List.getLast?_map, Option.map_map]
    rfl
  unfold View.pos
  rw [key, key, h2, List.append_nil]

theorem same_look {v w : View n} (h : Same v w) : w.look = v.look := by
  unfold View.look
  rw [h.rest, h.source]

theorem same_len {v w : View n} (h : Same v w) : w.len = v.len := by
  unfold View.len
  rw [h.rest]

theorem self {σ α : Type} {x : M σ α} {s : σ} {Q : α → σ → Prop} (h : Tri x s Q) :
    Tri x s (fun a s' => x s = .ok a s' ∧ Q a s') := fun a s' e => ⟨e, h a s' e⟩

theorem seq_cost : ∀ (ps : List (P (View n × Nat) n)) (v : View n) k acc errs, (∀ p ∈ ps, Costs F p) →
    F.At (ps.length + u) (v, k) → Tri (seqLoop ps acc errs) (v, k) (fun _ s => F.At u s) := by
  intro ps
  induction ps with
  | nil => intro v k acc errs _ h; exact .pure (h.weaken (by simp))
  | cons p ps ih =>
    intro v k acc errs hp h
    simp only [seqLoop]
    refine .bind (hp p (by simp) v k (ps.length + u) (h.weaken (by simp; omega))) ?_
    rintro r ⟨w, k'⟩ ⟨-, hat, -⟩
    cases r with
    | success x => exact ih _ _ _ _ (fun p hp' => hp p (by simp [hp'])) hat
    | recovered x e => exact ih _ _ _ _ (fun p hp' => hp p (by simp [hp'])) hat
    | panic e => exact .pure (hat.weaken (by omega))

theorem enum_cost {look : Option (TokenSrc n) → Option Nat} {f : TSet n} {ps : List (P (View n × Nat) n × Option (LSet n))}
    (hp : ∀ p ∈ ps, Costs F p.1) (h : F.At (u + 3) (v, k)) :
    Tri (produceEnum (VO n) look f ps) (v, k) (fun _ s => F.At u s) := by
  unfold produceEnum
  refine .bind (Q := fun x s => x = v.look ∧ s = (v, k + 1)) (.peekSrc ⟨rfl, rfl⟩) ?_
  rintro _ _ ⟨rfl, rfl⟩
  have fail : Tri ((VO n).mExpecting f >>= fun e => (pure (.panic [e]) : P (View n × Nat) n)) (v, k + 1)
      (fun _ s => F.At u s) := by
    refine .bind (Q := fun _ s => s = (v, k + 2)) (.expecting fun _ => rfl) ?_
    rintro _ _ rfl
    exact .pure (h.op.op.weaken (by omega))
  cases look v.look with
  | none => exact fail
  | some j =>
    cases hg : ps[j]? with
    | none => simp only [hg]; exact fail
    | some q =>
      simp only [hg]
      refine .bind (hp q (List.mem_of_getElem? hg) v (k + 1) (u + 1) h.op) ?_
      rintro r ⟨w', k'⟩ ⟨-, h2, -⟩
      exact mapVariant_cost h2

/-! ### Lists -/

section
variable {p : P (View n × Nat) n}

/-- Without a token the loop does not end. -/
theorem iter_stuck {f : TSet n} (hb : Blind p) {k0 : Nat} {r : Res n (Tree n)} {s : View n × Nat}
    (hr : p (v, k0) = .ok r s) (hs : Same v s.1) (hne : ∀ e, r ≠ .panic e)
    (hc : (v.look.isSome && f.contains v.look) = true) :
    ∀ fuel (v' : View n) k' acc errs hi, Same v v' →
      Tri (iterLoop (VO n) f p fuel acc errs hi) (v', k') (fun _ _ => False) := by
  intro fuel
  induction fuel with
  | zero => intros; exact .fuel
  | succ fuel ih =>
    intro v' k' acc errs hi hv
    unfold iterLoop
    refine .bind (Q := fun x s => x = v'.look ∧ s = (v', k' + 1)) (.peekSrc ⟨rfl, rfl⟩) ?_
    rintro _ _ ⟨rfl, rfl⟩
    rw [same_look hv]
    refine .ite (fun _ => ?_) (fun h => absurd hc h)
    refine .bind (hb v k0 r s hr v' (k' + 1) hv) ?_
    rintro r' ⟨w, k''⟩ ⟨rfl, hw⟩
    cases r' with
    | success t => exact ih _ _ _ _ _ (hs.trans hw)
    | recovered t e => exact ih _ _ _ _ _ (hs.trans hw)
    | panic e => exact absurd rfl (hne e)

theorem iter_cost {f : TSet n} (hp : Costs F p) (hb : Blind p) :
    ∀ fuel (v : View n) k acc errs hi, F.At (u + 2) (v, k) →
    Tri (iterLoop (VO n) f p fuel acc errs hi) (v, k) (fun _ s => F.At u s) := by
  intro fuel
  induction fuel with
  | zero => intros; exact .fuel
  | succ fuel ih =>
    intro v k acc errs hi h
    unfold iterLoop
    refine .bind (Q := fun x s => x = v.look ∧ s = (v, k + 1)) (.peekSrc ⟨rfl, rfl⟩) ?_
    rintro _ _ ⟨rfl, rfl⟩
    refine .ite (fun hc => ?_) (fun _ => .pure (h.op.weaken (by omega)))
    refine .bind (self (hp v (k + 1) u h.op)) ?_
    rintro r ⟨w, k'⟩ ⟨hr, ha, hs, hg⟩
    have go : (∀ e, r ≠ .panic e) → ∀ acc errs hi,
        Tri (iterLoop (VO n) f p fuel acc errs hi) (w, k') (fun _ s => F.At u s) := by
      intro hne acc errs hi
      by_cases hl : w.len < v.len
      · exact ih _ _ _ _ _ ((hg hl).weaken (by omega))
      · exact (iter_stuck hb hr (same_of_adv ha hl) hne hc fuel w k' acc errs hi (same_of_adv ha hl)).mono
          fun _ _ h => h.elim
    cases r with
    | success t => exact go (by simp) _ _ _
    | recovered t e => exact go (by simp) _ _ _
    | panic e => exact .pure hs

theorem plus_cost {f : TSet n} (hp : Costs F p) (hb : Blind p) {fuel : Nat} (h : F.At (u + 3) (v, k)) :
    Tri (producePlus (VO n) f p fuel) (v, k) (fun _ s => F.At u s) := by
  unfold producePlus
  refine .bind (hp v k (u + 2) h) ?_
  rintro r ⟨w, k'⟩ ⟨-, hs, -⟩
  have rest : ∀ t errs, Tri (plusRest (VO n) f p fuel t errs) (w, k') (fun _ s => F.At u s) := by
    intro t errs
    unfold plusRest
    refine .bind (iter_cost hp hb fuel w k' [t] errs _ hs) ?_
    exact fun _ _ h => .pure h
  cases r with
  | success t => exact rest _ _
  | recovered t e => exact rest _ _
  | panic e => exact .pure (hs.weaken (by omega))

theorem loopElem_cost (hp : Costs F p) {out errs} (h : F.At (u + 3) (v, k)) :
    Tri (loopElem (VO n) p out errs) (v, k) (fun r s => F.At u s ∧ (r.1 = true → F.At (u + 17) s)) := by
  unfold loopElem
  refine .bind (Q := fun x s => x = v.cur ∧ s = (v, k + 1)) (.currentSpan ⟨rfl, rfl⟩) ?_
  rintro _ _ ⟨rfl, rfl⟩
  refine .bind (hp v (k + 1) (u + 1) h.op) ?_
  rintro r ⟨w, k'⟩ ⟨ha, hs, hg⟩
  dsimp only
  refine .bind (Q := fun x s => x = w.cur ∧ s = (w, k' + 1)) (.currentSpan ⟨rfl, rfl⟩) ?_
  rintro _ _ ⟨rfl, rfl⟩
  refine .ite (fun _ => .pure ⟨hs.op, by simp⟩) (fun hc => .pure ⟨hs.op, fun _ => ?_⟩)
  have hl : w.len < v.len := by
    refine Nat.lt_of_not_le fun hl => hc ?_
    rw [ha.cur_eq hl]
  exact (hg hl).op.weaken (by omega)

theorem loop_cost {f : TSet n} (hp : Costs F p) :
    ∀ fuel (v : View n) k out errs, F.At (u + 6) (v, k) →
    Tri (loopLoop (VO n) f p fuel out errs) (v, k) (fun _ s => F.At u s) := by
  intro fuel
  induction fuel with
  | zero => intros; exact .fuel
  | succ fuel ih =>
    intro v k out errs h
    unfold loopLoop
    refine .bind (Q := fun x s => x = v.look ∧ s = (v, k + 1)) (.peekSrc ⟨rfl, rfl⟩) ?_
    rintro _ _ ⟨rfl, rfl⟩
    refine .ite (fun _ => .pure (h.op.weaken (by omega))) (fun hsome => ?_)
    have hne : v.rest ≠ [] := look_some.1 fun hn => by rw [hn] at hsome; exact hsome rfl
    refine .bind (Q := fun _ s => F.At (u + 5) s) ?_ ?_
    · refine .ite (fun hc => ?_) (fun hc => .pure h.op)
      unfold loopSkip
      refine .bind (Q := fun _ s => s = (v, k + 2)) (.currentSpan rfl) ?_
      rintro _ _ rfl
      refine .bind (Q := fun _ s => s = (v.skip, k + 3)) (.consume fun _ => rfl) ?_
      rintro _ _ rfl
      refine .bind (skip_cost (u := u + 3) fuel v.skip (k + 3) _ ((h.op.op.eat hne).weaken (by omega))) ?_
      rintro ⟨hi, more⟩ s ⟨h1, -⟩
      exact .pure h1
    rintro ⟨errs', more⟩ ⟨w, k'⟩ h1
    dsimp only
    refine .ite (fun _ => .pure (h1.weaken (by omega))) (fun hmore => ?_)
    refine .bind (loopElem_cost (u := u + 2) hp h1) ?_
    rintro ⟨go, out', errs''⟩ ⟨w', k''⟩ ⟨h5, h6⟩
    dsimp only
    exact .ite (fun hg => ih _ _ _ _ ((h6 hg).weaken (by omega))) (fun _ => .pure (h5.weaken (by omega)))

theorem produceLoop_cost {f : TSet n} (hp : Costs F p) {fuel : Nat}
    (h : F.At (u + 6) (v, k)) : Tri (produceLoop (VO n) f p fuel) (v, k) (fun _ s => F.At u s) := by
  unfold produceLoop
  refine .bind (loop_cost hp fuel v k [] [] h) ?_
  rintro ⟨out, errs⟩ ⟨w, k'⟩ hs
  dsimp only
  refine .ite (fun _ => ?_) (fun _ => .pure hs)
  refine .bind (Q := fun _ s => F.At u s) (.emptySpan fun _ => hs) ?_
  exact fun _ _ h => .pure h

end

/-! ### Lists with separators -/

section
variable {pt pp : P (View n × Nat) n}

theorem splitTry_cost {ef : TSet n} (hp : Costs F pt) {q a panic} (h : F.At (u + 3) (v, k)) :
    Tri (splitTry (VO n) ef pt q a panic) (v, k) (fun r s => Adv v s.1 ∧ F.At u s ∧ (s.1.len < v.len → F.At (u + 17) s) ∧
      ∀ x, r = .ok x → x.1 = s.1.look) := by
  unfold splitTry
  refine .bind (Q := fun x s => x = v.look ∧ s = (v, k + 1)) (.peekSrc ⟨rfl, rfl⟩) ?_
  rintro _ _ ⟨rfl, rfl⟩
  refine .ite (fun _ => ?_) (fun _ => ?_)
  · refine .bind (hp v (k + 1) (u + 1) h.op) ?_
    rintro r ⟨w, k'⟩ ⟨ha, hs, hg⟩
    cases r with
    | success t => exact .pure ⟨ha, hs.weaken (by omega), fun h => (hg h).weaken (by omega), fun x hx => by cases hx⟩
    | recovered t e => exact .pure ⟨ha, hs.weaken (by omega), fun h => (hg h).weaken (by omega), fun x hx => by cases hx⟩
    | panic e =>
      refine .bind (Q := fun x s => x = w.look ∧ s = (w, k' + 1)) (.peekSrc ⟨rfl, rfl⟩) ?_
      rintro _ _ ⟨rfl, rfl⟩
      exact .pure ⟨ha, hs.op, fun h => (hg h).op.weaken (by omega), fun x hx => by cases hx; rfl⟩
  · cases panic with
    | some p =>
      refine .bind (Q := fun _ s => s = (v, k + 2)) (.extend fun _ => rfl) ?_
      rintro _ _ rfl
      exact .pure ⟨.refl _, h.op.op.weaken (by omega), fun h => absurd h (Nat.lt_irrefl _), fun x hx => by cases hx; rfl⟩
    | none =>
      refine .bind (Q := fun _ s => s = (v, k + 2)) (.expecting fun _ => rfl) ?_
      rintro _ _ rfl
      exact .pure ⟨.refl _, h.op.op.weaken (by omega), fun h => absurd h (Nat.lt_irrefl _), fun x hx => by cases hx; rfl⟩

theorem splitInner_cost {ef pf fol : TSet n} (hp : Costs F pt) {q} :
    ∀ fuel (v : View n) k u a panic, F.At (u + 3) (v, k) →
    Tri (splitInner (VO n) ef pf fol pt q fuel a panic) (v, k)
      (fun _ s => Adv v s.1 ∧ F.At u s ∧ (s.1.len < v.len → F.At (u + 13) s)) := by
  intro fuel
  induction fuel with
  | zero => intros; exact .fuel
  | succ fuel ih =>
    intro v k u a panic h
    unfold splitInner
    refine .bind (splitTry_cost hp h) ?_
    rintro r ⟨w, k'⟩ ⟨ha, hs, hg, hx⟩
    have fin : Adv v w ∧ F.At u (w, k') ∧ (w.len < v.len → F.At (u + 13) (w, k')) :=
      ⟨ha, hs, fun h => (hg h).weaken (by omega)⟩
    cases r with
    | error a => exact .pure fin
    | ok x =>
      obtain ⟨tok, panic⟩ := x
      cases hx _ rfl
      dsimp only
      refine .ite (fun _ => .pure fin) (fun _ => .ite (fun _ => .pure fin) (fun hc => ?_))
      have hne := isNone_or hc
      refine .bind (Q := fun _ s => s = (w.skip, k' + 1)) (.consume fun _ => rfl) ?_
      rintro _ _ rfl
      refine (ih _ _ (u + 13) _ _ (hs.eat hne)).mono fun _ s h => ⟨(ha.trans (.skip _)).trans h.1, h.2.1.weaken (by omega),
        fun _ => h.2.1⟩

theorem splitTry_look {ef : TSet n} {q a panic x} {s : View n × Nat}
    (hr : splitTry (VO n) ef pt q a panic (v, k) = .ok (.ok x) s) : x.1 = s.1.look := by
  have key : Tri (splitTry (VO n) ef pt q a panic) (v, k) (fun r s => ∀ x, r = .ok x → x.1 = s.1.look) := by
    unfold splitTry
    refine .bind (Q := fun x s => x = v.look ∧ s = (v, k + 1)) (.peekSrc ⟨rfl, rfl⟩) ?_
    rintro _ _ ⟨rfl, rfl⟩
    refine .ite (fun _ => ?_) (fun _ => ?_)
    · refine .bind (Q := fun _ _ => True) (fun _ _ _ => trivial) ?_
      rintro r ⟨w, k'⟩ -
      cases r with
      | success t => exact .pure (by simp)
      | recovered t e => exact .pure (by simp)
      | panic e =>
        refine .bind (Q := fun x s => x = w.look ∧ s = (w, k' + 1)) (.peekSrc ⟨rfl, rfl⟩) ?_
        rintro _ _ ⟨rfl, rfl⟩
        exact .pure fun x hx => by cases hx; rfl
    · cases panic with
      | some p =>
        refine .bind (Q := fun _ s => s = (v, k + 2)) (.extend fun _ => rfl) ?_
        rintro _ _ rfl
        exact .pure fun x hx => by cases hx; rfl
      | none =>
        refine .bind (Q := fun _ s => s = (v, k + 2)) (.expecting fun _ => rfl) ?_
        rintro _ _ rfl
        exact .pure fun x hx => by cases hx; rfl
  exact key _ _ hr _ rfl

/-- Looking for an element twice at the same place ends in the same way. -/
theorem splitTry_again {ef : TSet n} (hb : Blind pt) {q a panic r} {s : View n × Nat}
    (hr : splitTry (VO n) ef pt q a panic (v, k) = .ok r s) {v' : View n} {k' q' a' panic'} (hv : Same v v') :
    Tri (splitTry (VO n) ef pt q' a' panic') (v', k') (fun r' s' => Same s.1 s'.1 ∧
      match r, r' with
      | .error _, .error _ => True
      | .ok x, .ok x' => x'.1 = x.1
      | _, _ => False) := by
  revert hr
  unfold splitTry
  intro hr
  obtain ⟨tok, ⟨v1, k1⟩, h1, h2⟩ := bind_ok.1 hr
  have h3 : tok = v.look ∧ (v1, k1) = (v, k + 1) :=
    (Tri.peekSrc (v := v) (k := k) (Q := fun x s => x = v.look ∧ s = (v, k + 1)) ⟨rfl, rfl⟩) _ _ h1
  obtain ⟨rfl, h3⟩ := h3
  cases h3
  refine .bind (Q := fun x s => x = v'.look ∧ s = (v', k' + 1)) (.peekSrc ⟨rfl, rfl⟩) ?_
  rintro _ _ ⟨rfl, rfl⟩
  rw [same_look hv]
  by_cases hc : (ef.contains v.look || ef.containsE) = true
  · rw [if_pos hc] at h2 ⊢
    obtain ⟨r1, ⟨w, k2⟩, h4, h5⟩ := bind_ok.1 h2
    refine .bind (hb _ _ _ _ h4 v' (k' + 1) hv) ?_
    rintro r' ⟨w', k3⟩ ⟨rfl, hw⟩
    cases r' with
    | success t =>
      obtain ⟨rfl, rfl⟩ := pure_ok.1 h5
      exact .pure ⟨hw, trivial⟩
    | recovered t e =>
      obtain ⟨rfl, rfl⟩ := pure_ok.1 h5
      exact .pure ⟨hw, trivial⟩
    | panic e =>
      obtain ⟨tok, ⟨w1, k4⟩, h6, h7⟩ := bind_ok.1 h5
      have h8 : tok = w.look ∧ (w1, k4) = (w, k2 + 1) :=
        (Tri.peekSrc (v := w) (k := k2) (Q := fun x s => x = w.look ∧ s = (w, k2 + 1)) ⟨rfl, rfl⟩) _ _ h6
      obtain ⟨rfl, h8⟩ := h8
      cases h8
      obtain ⟨rfl, rfl⟩ := pure_ok.1 h7
      refine .bind (Q := fun x s => x = w'.look ∧ s = (w', k3 + 1)) (.peekSrc ⟨rfl, rfl⟩) ?_
      rintro _ _ ⟨rfl, rfl⟩
      exact .pure ⟨hw, same_look hw⟩
  · rw [if_neg hc] at h2 ⊢
    have hres : ∃ x, r = .ok x ∧ x.1 = v.look ∧ s.1 = v := by
      cases panic with
      | some p =>
        refine (Tri.bind (R := fun r s => ∃ x, r = .ok x ∧ x.1 = v.look ∧ s.1 = v) (Q := fun _ s => s = (v, k + 2))
          (.extend fun _ => rfl) ?_) _ _ h2
        rintro _ _ rfl
        exact .pure ⟨_, rfl, rfl, rfl⟩
      | none =>
        refine (Tri.bind (R := fun r s => ∃ x, r = .ok x ∧ x.1 = v.look ∧ s.1 = v) (Q := fun _ s => s = (v, k + 2))
          (.expecting fun _ => rfl) ?_) _ _ h2
        rintro _ _ rfl
        exact .pure ⟨_, rfl, rfl, rfl⟩
    obtain ⟨x, rfl, h4, h5⟩ := hres
    rw [h5]
    cases panic' with
    | some p =>
      refine .bind (Q := fun _ s => s = (v', k' + 2)) (.extend fun _ => rfl) ?_
      rintro _ _ rfl
      exact .pure ⟨hv, h4.symm⟩
    | none =>
      refine .bind (Q := fun _ s => s = (v', k' + 2)) (.expecting fun _ => rfl) ?_
      rintro _ _ rfl
      exact .pure ⟨hv, h4.symm⟩

/-- The number of tokens left does not grow. -/
def Short (p : P (View n × Nat) n) : Prop := ∀ s a s', p s = .ok a s' → s'.1.len ≤ s.1.len

theorem short_closed : Closed 0 (fun {α} (x _ : M (View n × Nat) α) =>
    ∀ s a s', x s = .ok a s' → s'.1.len ≤ s.1.len) (VO n) (VO n) :=
  pres_closed (VO n) (fun s s' => s'.1.len ≤ s.1.len) (fun _ => Nat.le_refl _) (fun _ _ _ h1 h2 => Nat.le_trans h2 h1)
    (fun _ => Nat.le_refl _) (fun s => (Adv.skip s.1).len_le) (fun _ _ _ => Nat.le_refl _)

theorem splitInner_again {ef pf fol : TSet n} (hb : Blind pt) (hsh : Short pt) {q fuel a panic r} {s : View n × Nat}
    (hr : splitInner (VO n) ef pf fol pt q fuel a panic (v, k) = .ok r s) (hgo : r.1 = true) (hl : ¬ s.1.len < v.len)
    {v' : View n} {k' q' fuel' a' panic'} (hv : Same v v') :
    Tri (splitInner (VO n) ef pf fol pt q' fuel' a' panic') (v', k') (fun r' s' => r'.1 = true ∧ Same s.1 s'.1) := by
  cases fuel with
  | zero => cases hr
  | succ fuel =>
    cases fuel' with
    | zero => exact .fuel
    | succ fuel' =>
      unfold splitInner at hr ⊢
      obtain ⟨x, ⟨w, k1⟩, h1, h2⟩ := bind_ok.1 hr
      refine .bind (splitTry_again hb h1 hv) ?_
      rintro x' ⟨w', k1'⟩ ⟨hw, hx⟩
      have hle := short_closed.core.splitTry ef (pt := pt) (pt' := pt) hsh q a panic _ _ _ h1
      cases x with
      | error a1 =>
        cases x' with
        | error a2 =>
          obtain ⟨rfl, rfl⟩ := pure_ok.1 h2
          exact .pure ⟨rfl, hw⟩
        | ok y => exact hx.elim
      | ok y =>
        cases x' with
        | error a2 => exact hx.elim
        | ok y' =>
          obtain ⟨tok, pn⟩ := y
          obtain ⟨tok', pn'⟩ := y'
          cases hx
          dsimp only at h2 ⊢
          by_cases hc : pf.contains tok = true
          · rw [if_pos hc] at h2 ⊢
            obtain ⟨rfl, rfl⟩ := pure_ok.1 h2
            exact .pure ⟨rfl, hw⟩
          · rw [if_neg hc] at h2
            by_cases hd : (tok.isNone || fol.contains tok) = true
            · rw [if_pos hd] at h2
              obtain ⟨rfl, rfl⟩ := pure_ok.1 h2
              cases hgo
            · rw [if_neg hd] at h2
              have htok : tok = w.look := splitTry_look h1
              subst htok
              have hne := isNone_or hd
              obtain ⟨_, ⟨w2, k2⟩, h3, h4⟩ := bind_ok.1 h2
              have h5 : (w2, k2) = (w.skip, k1 + 1) :=
                (Tri.consume (v := w) (k := k1) (Q := fun _ s => s = (w.skip, k1 + 1)) fun _ => rfl) _ _ h3
              cases h5
              have h6 := short_closed.core.splitInner ef pf fol (pt := pt) (pt' := pt) hsh q rfl _ _ _ _ _ h4
              have h7 := skip_len1 hne
              simp only [View.len] at *
              omega

theorem splitOuter_stuck {ef pf fol : TSet n} (hb : Blind pt) (hb2 : Blind pp) (hsh : Short pt) {k0 fuel0 q0 a0 k1}
    {r : Res n (Tree n)} {x : Bool × Acc n} {s s1 : View n × Nat}
    (hr : pp (v, k0) = .ok r s) (hne : ∀ e, r ≠ .panic e)
    (hx : splitInner (VO n) ef pf fol pt q0 fuel0 a0 none (s.1, k1) = .ok x s1) (hgo : x.1 = true)
    (hs : Same v s.1) (hs1 : Same s.1 s1.1) (hc : (v.look.isSome && pf.contains v.look) = true) :
    ∀ fuel (v' : View n) k' a, Same v v' →
      Tri (splitOuter (VO n) ef pf fol pt pp fuel a) (v', k') (fun _ _ => False) := by
  intro fuel
  induction fuel with
  | zero => intros; exact .fuel
  | succ fuel ih =>
    intro v' k' a hv
    unfold splitOuter
    refine .bind (Q := fun x s => x = v'.look ∧ s = (v', k' + 1)) (.peekSrc ⟨rfl, rfl⟩) ?_
    rintro _ _ ⟨rfl, rfl⟩
    rw [same_look hv]
    refine .ite (fun _ => ?_) (fun h => absurd hc h)
    refine .bind (hb2 v k0 r s hr v' (k' + 1) hv) ?_
    rintro r' ⟨w, k''⟩ ⟨rfl, hw⟩
    have rest : ∀ q a, Tri (splitInner (VO n) ef pf fol pt q fuel a none >>= fun x =>
        if x.1 then splitOuter (VO n) ef pf fol pt pp fuel x.2 else pure x.2) (w, k'') (fun _ _ => False) := by
      intro q a
      refine .bind (splitInner_again hb hsh hx hgo (by rw [same_len hs1]; omega) hw) ?_
      rintro ⟨go, a⟩ ⟨w', k3⟩ ⟨rfl, h4⟩
      exact .ite (fun _ => ih _ _ _ ((hs.trans hs1).trans h4)) (fun h => absurd rfl h)
    cases r' with
    | success t => exact rest _ _
    | recovered t e => exact rest _ _
    | panic e => exact absurd rfl (hne e)

theorem splitOuter_cost {ef pf fol : TSet n} (hp : Costs F pt) (hq : Costs F pp) (hb : Blind pt) (hb2 : Blind pp)
    (hsh : Short pt) : ∀ fuel (v : View n) k a, F.At (u + 5) (v, k) →
    Tri (splitOuter (VO n) ef pf fol pt pp fuel a) (v, k) (fun _ s => F.At u s) := by
  intro fuel
  induction fuel with
  | zero => intros; exact .fuel
  | succ fuel ih =>
    intro v k a h
    unfold splitOuter
    refine .bind (Q := fun x s => x = v.look ∧ s = (v, k + 1)) (.peekSrc ⟨rfl, rfl⟩) ?_
    rintro _ _ ⟨rfl, rfl⟩
    refine .ite (fun hc => ?_) (fun _ => .pure (h.op.weaken (by omega)))
    refine .bind (self (hq v (k + 1) (u + 3) h.op)) ?_
    rintro r ⟨w, k'⟩ ⟨hr, ha, hs, hg⟩
    have rest : (∀ e, r ≠ .panic e) → ∀ q a, Tri (splitInner (VO n) ef pf fol pt q fuel a none >>= fun x =>
        if x.1 then splitOuter (VO n) ef pf fol pt pp fuel x.2 else pure x.2) (w, k') (fun _ s => F.At u s) := by
      intro hne q a
      by_cases hl : w.len < v.len
      · refine .bind (splitInner_cost hp fuel w k' (u + 17) a none (hg hl)) ?_
        rintro ⟨go, a⟩ ⟨w', k''⟩ ⟨-, h3, -⟩
        exact .ite (fun _ => ih _ _ _ (h3.weaken (by omega))) (fun _ => .pure (h3.weaken (by omega)))
      · refine .bind (self (splitInner_cost hp fuel w k' u a none hs)) ?_
        rintro ⟨go, a⟩ ⟨w', k''⟩ ⟨hx, h3, h4, h5⟩
        refine .ite (fun hgo => ?_) (fun _ => .pure h4)
        by_cases hl2 : w'.len < w.len
        · exact ih _ _ _ ((h5 hl2).weaken (by omega))
        · have h6 := same_of_adv ha hl
          have h7 := same_of_adv h3 hl2
          exact (splitOuter_stuck hb hb2 hsh hr hne hx hgo h6 h7 hc fuel w' k'' a (h6.trans h7)).mono fun _ _ h => h.elim
    cases r with
    | success t => exact rest (by simp) _ _
    | recovered t e => exact rest (by simp) _ _
    | panic e => exact .pure (hs.weaken (by omega))

theorem split_cost {ef pf fol : TSet n} (hp : Costs F pt) (hq : Costs F pp) (hb : Blind pt) (hb2 : Blind pp)
    (hsh : Short pt) {fuel : Nat} (h : F.At (u + 6) (v, k)) :
    Tri (produceSplit (VO n) ef pf fol pt pp fuel) (v, k) (fun _ s => F.At u s) := by
  unfold produceSplit
  refine .bind (hp v k (u + 5) h) ?_
  rintro r ⟨w, k'⟩ ⟨-, hs, -⟩
  cases r with
  | success t =>
    refine .bind (splitOuter_cost hp hq hb hb2 hsh fuel w k' _ hs) ?_
    exact fun _ _ h => .pure h
  | recovered t e =>
    refine .bind (splitOuter_cost hp hq hb hb2 hsh fuel w k' _ hs) ?_
    exact fun _ _ h => .pure h
  | panic e => exact .pure (hs.weaken (by omega))

theorem punctTry_cost {ef fol : TSet n} (hp : Costs F pt) {a panic} (h : F.At (u + 2) (v, k)) :
    Tri (punctTry (VO n) ef fol pt a panic) (v, k)
      (fun _ s => Adv v s.1 ∧ F.At u s ∧ (s.1.len < v.len → F.At (u + 17) s)) := by
  unfold punctTry
  refine .bind (Q := fun x s => x = v.look ∧ s = (v, k + 1)) (.peekSrc ⟨rfl, rfl⟩) ?_
  rintro _ _ ⟨rfl, rfl⟩
  have h1 : Adv v v ∧ F.At u (v, k + 1) ∧ (v.len < v.len → F.At (u + 17) (v, k + 1)) :=
    ⟨.refl _, h.op.weaken (by omega), fun h => absurd h (Nat.lt_irrefl _)⟩
  have h2 : Adv v v ∧ F.At u (v, k + 2) ∧ (v.len < v.len → F.At (u + 17) (v, k + 2)) :=
    ⟨.refl _, h.op.op, fun h => absurd h (Nat.lt_irrefl _)⟩
  refine .ite (fun _ => .pure h1) (fun _ => .ite (fun _ => ?_) (fun _ => .ite (fun _ => .pure h1) (fun _ => ?_)))
  · refine .bind (hp v (k + 1) u h.op) ?_
    rintro r ⟨w, k'⟩ hs
    cases r with
    | success t => exact .pure hs
    | recovered t e => exact .pure hs
    | panic e => exact .pure hs
  · cases panic with
    | some p =>
      refine .bind (Q := fun _ s => s = (v, k + 2)) (.extend fun _ => rfl) ?_
      rintro _ _ rfl
      exact .pure h2
    | none =>
      refine .bind (Q := fun _ s => s = (v, k + 2)) (.currentSpan rfl) ?_
      rintro _ _ rfl
      exact .pure h2

theorem punctInner_cost {ef pf fol : TSet n} (hp : Costs F pt) :
    ∀ fuel (v : View n) k u a panic, F.At (u + 3) (v, k) →
    Tri (punctInner (VO n) ef pf fol pt fuel a panic) (v, k)
      (fun _ s => Adv v s.1 ∧ F.At u s ∧ (s.1.len < v.len → F.At (u + 13) s)) := by
  intro fuel
  induction fuel with
  | zero => intros; exact .fuel
  | succ fuel ih =>
    intro v k u a panic h
    unfold punctInner
    refine .bind (punctTry_cost (u := u + 1) hp h) ?_
    rintro r ⟨w, k'⟩ ⟨ha, hs, hg⟩
    cases r with
    | error a => exact .pure ⟨ha, hs.weaken (by omega), fun h => (hg h).weaken (by omega)⟩
    | ok panic =>
      dsimp only
      refine .bind (Q := fun x s => x = w.look ∧ s = (w, k' + 1)) (.peekSrc ⟨rfl, rfl⟩) ?_
      rintro _ _ ⟨rfl, rfl⟩
      have fin : Adv v w ∧ F.At u (w, k' + 1) ∧ (w.len < v.len → F.At (u + 13) (w, k' + 1)) :=
        ⟨ha, hs.op, fun h => (hg h).op.weaken (by omega)⟩
      refine .ite (fun _ => .pure fin) (fun _ => .ite (fun _ => .pure fin) (fun hc => ?_))
      have hne := isNone_or hc
      refine .bind (Q := fun _ s => s = (w.skip, k' + 2)) (.consume fun _ => rfl) ?_
      rintro _ _ rfl
      refine (ih _ _ (u + 13) _ _ (hs.op.eat hne)).mono fun _ s h => ⟨(ha.trans (.skip _)).trans h.1,
        h.2.1.weaken (by omega), fun _ => h.2.1⟩

theorem punctTry_again {ef fol : TSet n} (hb : Blind pt) {a panic r} {s : View n × Nat}
    (hr : punctTry (VO n) ef fol pt a panic (v, k) = .ok r s) {v' : View n} {k' a' panic'} (hv : Same v v') :
    Tri (punctTry (VO n) ef fol pt a' panic') (v', k') (fun r' s' => Same s.1 s'.1 ∧
      match r, r' with
      | .error x, .error x' => x'.1 = x.1
      | .ok _, .ok _ => True
      | _, _ => False) := by
  revert hr
  unfold punctTry
  intro hr
  obtain ⟨tok, ⟨v1, k1⟩, h1, h2⟩ := bind_ok.1 hr
  have h3 : tok = v.look ∧ (v1, k1) = (v, k + 1) :=
    (Tri.peekSrc (v := v) (k := k) (Q := fun x s => x = v.look ∧ s = (v, k + 1)) ⟨rfl, rfl⟩) _ _ h1
  obtain ⟨rfl, h3⟩ := h3
  cases h3
  refine .bind (Q := fun x s => x = v'.look ∧ s = (v', k' + 1)) (.peekSrc ⟨rfl, rfl⟩) ?_
  rintro _ _ ⟨rfl, rfl⟩
  rw [same_look hv]
  by_cases hn : v.look.isNone = true
  · rw [if_pos hn] at h2 ⊢
    obtain ⟨rfl, rfl⟩ := pure_ok.1 h2
    exact .pure ⟨hv, rfl⟩
  rw [if_neg hn] at h2 ⊢
  by_cases hc : ef.contains v.look = true
  · rw [if_pos hc] at h2 ⊢
    obtain ⟨r1, ⟨w, k2⟩, h4, h5⟩ := bind_ok.1 h2
    refine .bind (hb _ _ _ _ h4 v' (k' + 1) hv) ?_
    rintro r' ⟨w', k3⟩ ⟨rfl, hw⟩
    cases r' with
    | success t =>
      obtain ⟨rfl, rfl⟩ := pure_ok.1 h5
      exact .pure ⟨hw, rfl⟩
    | recovered t e =>
      obtain ⟨rfl, rfl⟩ := pure_ok.1 h5
      exact .pure ⟨hw, rfl⟩
    | panic e =>
      obtain ⟨rfl, rfl⟩ := pure_ok.1 h5
      exact .pure ⟨hw, trivial⟩
  rw [if_neg hc] at h2 ⊢
  by_cases hf : fol.contains v.look = true
  · rw [if_pos hf] at h2 ⊢
    obtain ⟨rfl, rfl⟩ := pure_ok.1 h2
    exact .pure ⟨hv, rfl⟩
  rw [if_neg hf] at h2 ⊢
  have hres : ∃ x, r = .ok x ∧ s.1 = v := by
    cases panic with
    | some p =>
      refine (Tri.bind (R := fun r s => ∃ x, r = .ok x ∧ s.1 = v) (Q := fun _ s => s = (v, k + 2))
        (.extend fun _ => rfl) ?_) _ _ h2
      rintro _ _ rfl
      exact .pure ⟨_, rfl, rfl⟩
    | none =>
      refine (Tri.bind (R := fun r s => ∃ x, r = .ok x ∧ s.1 = v) (Q := fun _ s => s = (v, k + 2))
        (.currentSpan rfl) ?_) _ _ h2
      rintro _ _ rfl
      exact .pure ⟨_, rfl, rfl⟩
  obtain ⟨x, rfl, h5⟩ := hres
  rw [h5]
  cases panic' with
  | some p =>
    refine .bind (Q := fun _ s => s = (v', k' + 2)) (.extend fun _ => rfl) ?_
    rintro _ _ rfl
    exact .pure ⟨hv, trivial⟩
  | none =>
    refine .bind (Q := fun _ s => s = (v', k' + 2)) (.currentSpan rfl) ?_
    rintro _ _ rfl
    exact .pure ⟨hv, trivial⟩

theorem punctInner_again {ef pf fol : TSet n} (hb : Blind pt) (hsh : Short pt) {fuel a panic r} {s : View n × Nat}
    (hr : punctInner (VO n) ef pf fol pt fuel a panic (v, k) = .ok r s) (hgo : r.1 = true) (hl : ¬ s.1.len < v.len)
    {v' : View n} {k' fuel' a' panic'} (hv : Same v v') :
    Tri (punctInner (VO n) ef pf fol pt fuel' a' panic') (v', k') (fun r' s' => r'.1 = true ∧ Same s.1 s'.1) := by
  cases fuel with
  | zero => cases hr
  | succ fuel =>
    cases fuel' with
    | zero => exact .fuel
    | succ fuel' =>
      unfold punctInner at hr ⊢
      obtain ⟨x, ⟨w, k1⟩, h1, h2⟩ := bind_ok.1 hr
      refine .bind (punctTry_again hb h1 hv) ?_
      rintro x' ⟨w', k1'⟩ ⟨hw, hx⟩
      have hle := short_closed.core.punctTry ef fol (pt := pt) (pt' := pt) hsh a panic _ _ _ h1
      cases x with
      | error a1 =>
        cases x' with
        | error a2 =>
          obtain ⟨rfl, rfl⟩ := pure_ok.1 h2
          exact .pure ⟨hx.trans hgo, hw⟩
        | ok y => exact hx.elim
      | ok y =>
        cases x' with
        | error a2 => exact hx.elim
        | ok y' =>
          dsimp only at h2 ⊢
          obtain ⟨tok, ⟨w1, k4⟩, h6, h7⟩ := bind_ok.1 h2
          have h8 : tok = w.look ∧ (w1, k4) = (w, k1 + 1) :=
            (Tri.peekSrc (v := w) (k := k1) (Q := fun x s => x = w.look ∧ s = (w, k1 + 1)) ⟨rfl, rfl⟩) _ _ h6
          obtain ⟨rfl, h8⟩ := h8
          cases h8
          refine .bind (Q := fun x s => x = w'.look ∧ s = (w', k1' + 1)) (.peekSrc ⟨rfl, rfl⟩) ?_
          rintro _ _ ⟨rfl, rfl⟩
          rw [same_look hw]
          by_cases hc : pf.contains w.look = true
          · rw [if_pos hc] at h7 ⊢
            obtain ⟨rfl, rfl⟩ := pure_ok.1 h7
            exact .pure ⟨rfl, hw⟩
          · rw [if_neg hc] at h7
            by_cases hd : (w.look.isNone || fol.contains w.look) = true
            · rw [if_pos hd] at h7
              obtain ⟨rfl, rfl⟩ := pure_ok.1 h7
              cases hgo
            · rw [if_neg hd] at h7
              have hne := isNone_or hd
              obtain ⟨_, ⟨w2, k2⟩, h3, h4⟩ := bind_ok.1 h7
              have h5 : (w2, k2) = (w.skip, k1 + 1 + 1) :=
                (Tri.consume (v := w) (k := k1 + 1) (Q := fun _ s => s = (w.skip, k1 + 1 + 1)) fun _ => rfl) _ _ h3
              cases h5
              have h6 := short_closed.core.punctInner ef pf fol (pt := pt) (pt' := pt) hsh rfl _ _ _ _ _ h4
              have h7 := skip_len1 hne
              simp only [View.len] at *
              omega

theorem punctOuter_stuck {ef pf fol : TSet n} (hb : Blind pt) (hb2 : Blind pp) (hsh : Short pt) {k0 fuel0 a0 k1}
    {r : Res n (Tree n)} {x : Bool × Acc n} {s s1 : View n × Nat}
    (hr : pp (v, k0) = .ok r s) (hne : ∀ e, r ≠ .panic e)
    (hx : punctInner (VO n) ef pf fol pt fuel0 a0 none (s.1, k1) = .ok x s1) (hgo : x.1 = true)
    (hs : Same v s.1) (hs1 : Same s.1 s1.1) (hc : (v.look.isSome && pf.contains v.look) = true) :
    ∀ fuel (v' : View n) k' a, Same v v' →
      Tri (punctOuter (VO n) ef pf fol pt pp fuel a) (v', k') (fun _ _ => False) := by
  intro fuel
  induction fuel with
  | zero => intros; exact .fuel
  | succ fuel ih =>
    intro v' k' a hv
    unfold punctOuter
    refine .bind (Q := fun x s => x = v'.look ∧ s = (v', k' + 1)) (.peekSrc ⟨rfl, rfl⟩) ?_
    rintro _ _ ⟨rfl, rfl⟩
    rw [same_look hv]
    refine .ite (fun _ => ?_) (fun h => absurd hc h)
    refine .bind (hb2 v k0 r s hr v' (k' + 1) hv) ?_
    rintro r' ⟨w, k''⟩ ⟨rfl, hw⟩
    have rest : ∀ a, Tri (punctInner (VO n) ef pf fol pt fuel a none >>= fun x =>
        if x.1 then punctOuter (VO n) ef pf fol pt pp fuel x.2 else pure x.2) (w, k'') (fun _ _ => False) := by
      intro a
      refine .bind (punctInner_again hb hsh hx hgo (by rw [same_len hs1]; omega) hw) ?_
      rintro ⟨go, a⟩ ⟨w', k3⟩ ⟨rfl, h4⟩
      exact .ite (fun _ => ih _ _ _ ((hs.trans hs1).trans h4)) (fun h => absurd rfl h)
    cases r' with
    | success t => exact rest _
    | recovered t e => exact rest _
    | panic e => exact absurd rfl (hne e)

theorem punctOuter_cost {ef pf fol : TSet n} (hp : Costs F pt) (hq : Costs F pp) (hb : Blind pt) (hb2 : Blind pp)
    (hsh : Short pt) : ∀ fuel (v : View n) k a, F.At (u + 5) (v, k) →
    Tri (punctOuter (VO n) ef pf fol pt pp fuel a) (v, k) (fun _ s => F.At u s) := by
  intro fuel
  induction fuel with
  | zero => intros; exact .fuel
  | succ fuel ih =>
    intro v k a h
    unfold punctOuter
    refine .bind (Q := fun x s => x = v.look ∧ s = (v, k + 1)) (.peekSrc ⟨rfl, rfl⟩) ?_
    rintro _ _ ⟨rfl, rfl⟩
    refine .ite (fun hc => ?_) (fun _ => .pure (h.op.weaken (by omega)))
    refine .bind (self (hq v (k + 1) (u + 3) h.op)) ?_
    rintro r ⟨w, k'⟩ ⟨hr, ha, hs, hg⟩
    have rest : (∀ e, r ≠ .panic e) → ∀ a, Tri (punctInner (VO n) ef pf fol pt fuel a none >>= fun x =>
        if x.1 then punctOuter (VO n) ef pf fol pt pp fuel x.2 else pure x.2) (w, k') (fun _ s => F.At u s) := by
      intro hne a
      by_cases hl : w.len < v.len
      · refine .bind (punctInner_cost hp fuel w k' (u + 17) a none (hg hl)) ?_
        rintro ⟨go, a⟩ ⟨w', k''⟩ ⟨-, h3, -⟩
        exact .ite (fun _ => ih _ _ _ (h3.weaken (by omega))) (fun _ => .pure (h3.weaken (by omega)))
      · refine .bind (self (punctInner_cost hp fuel w k' u a none hs)) ?_
        rintro ⟨go, a⟩ ⟨w', k''⟩ ⟨hx, h3, h4, h5⟩
        refine .ite (fun hgo => ?_) (fun _ => .pure h4)
        by_cases hl2 : w'.len < w.len
        · exact ih _ _ _ ((h5 hl2).weaken (by omega))
        · have h6 := same_of_adv ha hl
          have h7 := same_of_adv h3 hl2
          exact (punctOuter_stuck hb hb2 hsh hr hne hx hgo h6 h7 hc fuel w' k'' a (h6.trans h7)).mono fun _ _ h => h.elim
    cases r with
    | success t => exact rest (by simp) _
    | recovered t e => exact rest (by simp) _
    | panic e => exact .pure (hs.weaken (by omega))

theorem punct_cost {ef pf fol : TSet n} (hp : Costs F pt) (hq : Costs F pp) (hb : Blind pt) (hb2 : Blind pp)
    (hsh : Short pt) {fuel : Nat} (h : F.At (u + 6) (v, k)) :
    Tri (producePunct (VO n) ef pf fol pt pp fuel) (v, k) (fun _ s => F.At u s) := by
  unfold producePunct
  refine .bind (hp v k (u + 5) h) ?_
  rintro r ⟨w, k'⟩ ⟨-, hs, -⟩
  cases r with
  | success t =>
    refine .bind (punctOuter_cost hp hq hb hb2 hsh fuel w k' _ hs) ?_
    exact fun _ _ h => .pure h
  | recovered t e =>
    refine .bind (punctOuter_cost hp hq hb hb2 hsh fuel w k' _ hs) ?_
    exact fun _ _ h => .pure h
  | panic e => exact .pure (hs.weaken (by omega))

theorem recover_cost {hf tf : TSet n} (hp : Costs F pt) (hq : Costs F pp) {fuel : Nat} (h : F.At (u + 6) (v, k)) :
    Tri (produceRecover (VO n) hf tf pt pp fuel) (v, k) (fun _ s => F.At u s) := by
  unfold produceRecover
  refine .bind (recoverHead_cost (u := u + 4) (K := fun _ => True) h fun _ hat =>
    (hp v (k + 1) (u + 4) hat).mono fun _ _ h => ⟨h.1, h.2.1, trivial⟩) ?_
  rintro hd ⟨v1, k1⟩ ⟨-, hat, -⟩
  refine .bind (recoverLoop_cost (v1 := v1) (fun x k' j _ hat _ => hq x k' j hat) fuel v1 k1 _ _ (.refl _) hat) ?_
  rintro ⟨tail, errs, panic⟩ s hs
  cases tail with
  | some x => exact .pure hs
  | none => exact .pure hs

end

/-! ### Ranks -/

section
variable {S : Schema m n} {md : Metadata (PId m n) n}

/-- Producing `t` at `v` ends with this fuel. -/
def Done (S : Schema m n) (md : Metadata (PId m n) n) (f : Nat) (t : Ty m n) (v : View n) : Prop :=
  ∃ r v', produce View.ops S md f t v = .ok r v'

theorem Done.more {f f' : Nat} {t : Ty m n} (h : Done S md f t v) (hf : f ≤ f') : Done S md f' t v := by
  obtain ⟨r, v', h⟩ := h
  exact ⟨r, v', produce_more h hf⟩

theorem view_of {f : Nat} {t : Ty m n} {r : Res n (Tree n)} {s : View n × Nat}
    (h : produce (VO n) S md f t (v, k) = .ok r s) : produce View.ops S md f t v = .ok r s.1 := by
  have := (erase_closed View.ops).produce S md f t v k
  rw [h, Nat.add_zero] at this
  exact this

theorem of_view {f : Nat} {t : Ty m n} {r : Res n (Tree n)} {v' : View n}
    (h : produce View.ops S md f t v = .ok r v') (k : Nat) : ∃ k', produce (VO n) S md f t (v, k) = .ok r (v', k') := by
  have := (erase_closed View.ops).produce S md f t v k
  rw [Nat.add_zero, h] at this
  cases hp : produce (VO n) S md f t (v, k) with
  | fuel => rw [hp] at this; cases this
  | crash => rw [hp] at this; cases this
  | ok a s =>
    rw [hp] at this
    obtain ⟨w, j⟩ := s
    cases this
    exact ⟨j, rfl⟩

theorem same_ok {f : Nat} {t : Ty m n} {r : Res n (Tree n)} {w w' : View n} (hv : Same v w)
    (h : produce View.ops S md f t v = .ok r w') : ∃ w1, produce View.ops S md f t w = .ok r w1 ∧ Same w' w1 := by
  have := Depth.same_closed.produce S md f t v w hv
  rw [Nat.add_zero, h] at this
  generalize produce View.ops S md f t w = q at this
  cases this with
  | ok h => exact ⟨_, rfl, h⟩

theorem done_same {f : Nat} {t : Ty m n} {w : View n} (hv : Same v w) (h : Done S md f t v) : Done S md f t w := by
  obtain ⟨r, v', h⟩ := h
  obtain ⟨w1, h1, -⟩ := same_ok hv h
  exact ⟨r, w1, h1⟩

theorem blind (f : Nat) (t : Ty m n) : Blind (produce (VO n) S md f t) := by
  intro v k r s h v' k' hv r' s' h'
  obtain ⟨w1, h1, h2⟩ := same_ok hv (view_of h)
  have h3 := view_of h'
  rw [h1] at h3
  cases h3
  exact ⟨rfl, h2⟩

theorem short (f : Nat) (t : Ty m n) : Short (produce (VO n) S md f t) :=
  short_closed.produce S md f t

open Classical in
/-- The number of types that end earlier. -/
noncomputable def rank (S : Schema m n) (md : Metadata (PId m n) n) (root t : Ty m n) (v : View n) : Nat :=
  (S.written root).countP fun x => decide (∃ f, Done S md f x v ∧ ¬ Done S md f t v)

theorem rank_le {root t : Ty m n} : rank S md root t v ≤ (S.written root).length := List.countP_le_length

theorem rank_same {root t : Ty m n} {w : View n} (h : Same v w) : rank S md root t v = rank S md root t w := by
  classical
  have e : ∀ f (x : Ty m n), Done S md f x v ↔ Done S md f x w := fun f x =>
    ⟨done_same h, done_same (same_symm h)⟩
  refine congrArg (fun p => (S.written root).countP p) (funext fun x => decide_eq_decide.2 ?_)
  exact exists_congr fun f => and_congr (e f x) (not_congr (e f t))

theorem rank_lt {root t u : Ty m n} {f : Nat} (hu : u ∈ S.written root) (h1 : Done S md f u v) (h2 : ¬ Done S md f t v) :
    rank S md root u v < rank S md root t v := by
  classical
  refine countP_lt (a := u) ?_ hu ?_ (by simpa using ⟨f, h1, h2⟩)
  · intro x hx
    simp only [decide_eq_true_eq] at hx ⊢
    obtain ⟨g, hg1, hg2⟩ := hx
    refine ⟨g, hg1, fun h => hg2 (h1.more ?_)⟩
    exact Nat.le_of_not_le fun hle => h2 (h.more hle)
  · simp only [decide_eq_false_iff_not]
    rintro ⟨g, hg1, hg2⟩
    exact hg2 hg1

/-- What is known of the cost of producing `t`. -/
def Cost (S : Schema m n) (md : Metadata (PId m n) n) (root : Ty m n) (w f : Nat) (t : Ty m n) : Prop :=
  ∀ v k, Tri (produce (VO n) S md f t) (v, k) (fun _ s => Adv v s.1 ∧
    ∃ k1, s.2 = k + k1 ∧ Afford w (S.written root).length (rank S md root t v) (v.len - s.1.len) k1)

theorem costs {root t u : Ty m n} {f : Nat} (hu : u ∈ S.written root) (hc : Cost S md root F.w f u)
    (hR : F.R = (S.written root).length) (hr : F.r = rank S md root t F.v0) (hnd : ¬ Done S md f t F.v0) :
    Costs F (produce (VO n) S md f u) := by
  intro v k j hat
  obtain ⟨h1, i, h2, h3⟩ := hat
  simp only at h2
  intro r s hok
  obtain ⟨v', k'⟩ := s
  obtain ⟨h4, k1, h5, h6⟩ := hc v k r (v', k') hok
  simp only at h4 h5 h6 h3
  rw [← hR] at h6
  have hle := h4.len_le
  have hle0 := h1.len_le
  have hc' : F.v0.len - v'.len = (F.v0.len - v.len) + (v.len - v'.len) := by
    simp only [View.len] at *; omega
  have hrk : rank S md root u v ≤ F.R := hR ▸ rank_le
  have hlt : F.v0.len - v.len = 0 → rank S md root u v < F.r := by
    intro h
    have hs : Same F.v0 v := same_of_adv h1 (by simp only [View.len] at *; omega)
    rw [hr, ← rank_same hs]
    exact rank_lt hu (done_same (same_symm hs) ⟨r, v', view_of hok⟩) hnd
  refine ⟨h4, ⟨h1.trans h4, i + k1, by simp only; omega, ?_⟩, fun hl => ⟨h1.trans h4, i + k1, by simp only; omega, ?_⟩⟩
  · show Pay _ _ _ _ (F.v0.len - v'.len) _
    rw [hc']
    exact h3.call F.hw h6 F.hr hrk hlt
  · show Pay _ _ _ _ (F.v0.len - v'.len) _
    rw [hc']
    exact h3.gain F.hw h6 F.hr hrk hlt (by simp only [View.len] at *; omega)

theorem step {root t : Ty m n} {w f : Nat} (hw : 20 ≤ w)
    (hwide : ∀ k f fs, S k = .struct f fs → 2 * (f :: fs).length ≤ w) (hw0 : 0 < w)
    {r : Nat} (hr : r ≤ (S.written root).length) (v : View n) (k : Nat)
    (hc : ∀ u ∈ Depth.callees S t, Costs (Frame.mk w (S.written root).length v k r hw0 hr) (produce (VO n) S md f u)) :
    Tri (produce (VO n) S md (f + 1) t) (v, k) (fun _ s => (Frame.mk w (S.written root).length v k r hw0 hr).At 0 s) := by
  have hstart := (Frame.start hw0 hr v k).weaken hw
  have tup : ∀ {ts : List (Ty m n)}, (∀ u ∈ ts, u ∈ Depth.callees S t) → ts.length ≤ 20 →
      Tri (produceTuple (ts.map (produce (VO n) S md f))) (v, k)
        (fun _ s => (Frame.mk w (S.written root).length v k r hw0 hr).At 0 s) := by
    intro ts h hl
    refine tuple_cost (seq_cost (u := 0) _ v k [] [] ?_ (hstart.weaken (by simpa using hl)))
    intro p hp
    obtain ⟨x, hx, rfl⟩ := List.mem_map.1 hp
    exact hc x (h x hx)
  have opt : ∀ {u : Ty m n} {g : TSet n} {mk}, u ∈ Depth.callees S t → Tri (produceOption (VO n) g (produce (VO n) S md f u) mk) (v, k)
      (fun _ s => (Frame.mk w (S.written root).length v k r hw0 hr).At 0 s) := by
    intro u g mk hu
    exact option_cost hstart fun _ _ h => ((hc u hu) v (k + 1) 18 h).mono fun _ _ h => h.2.1.weaken (by omega)
  have txt : ∀ {u : Ty m n}, u ∈ Depth.callees S t → Tri (produce (VO n) S md f u) (v, k)
      (fun _ s => (Frame.mk w (S.written root).length v k r hw0 hr).At 0 s) := by
    intro u hu
    exact ((hc u hu) v k 19 hstart).mono fun _ _ h => h.2.1.weaken (by omega)
  simp only [produce]
  cases t with
  | term i t => exact term_cost (hstart.weaken (by omega))
  | user i =>
    have hc : ∀ u ∈ S.tyParts (.user i), Costs (Frame.mk w (S.written root).length v k r hw0 hr) (produce (VO n) S md f u) := hc
    cases hk : S i with
    | struct g gs =>
      simp only [Schema.tyParts, hk] at hc
      simp only [produceStep, hk]
      refine struct_cost (seq_cost _ v k [] [] ?_ ?_)
      · intro p hp
        obtain ⟨x, hx, rfl⟩ := List.mem_map.1 hp
        obtain ⟨y, hy, rfl⟩ := List.mem_map.1 hx
        exact hc _ (List.mem_map.2 ⟨y, hy, rfl⟩)
      · refine (Frame.start hw0 hr v k).weaken ?_
        have := hwide i g gs hk
        simp only [List.length_map]
        omega
    | enum g gs =>
      simp only [Schema.tyParts, hk] at hc
      simp only [produceStep, hk]
      refine enum_cost ?_ (hstart.weaken (by omega))
      intro p hp
      obtain ⟨y, hy, rfl⟩ := List.mem_map.1 hp
      exact hc _ (List.mem_map.2 ⟨y, hy, rfl⟩)
  | box t => exact txt (by simp [Depth.callees, Schema.tyParts])
  | option t => exact opt (by simp [Depth.callees, Schema.tyParts])
  | exist t => exact opt (by simp [Depth.callees, Schema.tyParts])
  | quote t => exact text_cost (txt (by simp [Depth.callees, Schema.tyParts]))
  | parse t => exact text_cost (txt (by simp [Depth.callees, Schema.tyParts]))
  | plus t => exact plus_cost (hc t (by simp [Depth.callees, Schema.tyParts])) (blind f t) (hstart.weaken (by omega))
  | star t =>
    exact option_cost (hstart.weaken (show 4 ≤ 20 by omega)) fun _ _ h =>
      plus_cost (hc t (by simp [Depth.callees])) (blind f t) h
  | loop t => exact produceLoop_cost (hc t (by simp [Depth.callees, Schema.tyParts])) (hstart.weaken (by omega))
  | split t p =>
    exact split_cost (hc t (by simp [Depth.callees, Schema.tyParts])) (hc p (by simp [Depth.callees, Schema.tyParts]))
      (blind f t) (blind f p) (short f t) (hstart.weaken (by omega))
  | punct t p =>
    exact punct_cost (hc t (by simp [Depth.callees, Schema.tyParts])) (hc p (by simp [Depth.callees, Schema.tyParts]))
      (blind f t) (blind f p) (short f t) (hstart.weaken (by omega))
  | recover t p =>
    exact recover_cost (hc t (by simp [Depth.callees, Schema.tyParts])) (hc p (by simp [Depth.callees, Schema.tyParts]))
      (hstart.weaken (by omega))
  | tup2 a b => exact tup (ts := [a, b]) (by simp [Depth.callees, Schema.tyParts]) (by simp)
  | tup3 a b c => exact tup (ts := [a, b, c]) (by simp [Depth.callees, Schema.tyParts]) (by simp)
  | tup4 a b c d => exact tup (ts := [a, b, c, d]) (by simp [Depth.callees, Schema.tyParts]) (by simp)
  | tup5 a b c d e => exact tup (ts := [a, b, c, d, e]) (by simp [Depth.callees, Schema.tyParts]) (by simp)

theorem cost {root : Ty m n} {w : Nat} (hw : 20 ≤ w)
    (hwide : ∀ k f fs, S k = .struct f fs → 2 * (f :: fs).length ≤ w) :
    ∀ (f : Nat) (t : Ty m n), t ∈ S.written root → Cost S md root w f t := by
  intro f
  induction f with
  | zero => intro t _ v k; exact .fuel
  | succ f ih =>
    intro t ht v k
    by_cases hd : Done S md f t v
    · intro r s h
      obtain ⟨r1, v1, h1⟩ := hd
      obtain ⟨k1, h2⟩ := of_view h1 k
      have h3 := produce_more h2 (Nat.le_succ f)
      rw [h] at h3
      cases h3
      exact ih t ht v k _ _ h2
    · have hw0 : 0 < w := by omega
      refine (step hw hwide hw0 (r := rank S md root t v) rank_le v k fun u hu => ?_).mono fun _ s h => ⟨h.1, h.afford⟩
      have hu' := Depth.written_callees ht hu
      exact costs hu' (ih u hu') rfl rfl hd

end

/-- Operations per token, for the types written in the root and the schema. -/
def perToken (S : Schema m n) (root : Ty m n) : Nat :=
  big S.width (S.written root).length + Teleparse.cost S.width (S.written root).length

theorem linear {S : Schema m n} {md : Metadata (PId m n) n} {fuel : Nat} {t : Ty m n} {v v' : View n} {k k' : Nat} {r}
    (h : produce (VO n) S md fuel t (v, k) = .ok r (v', k')) : k' ≤ k + perToken S t * (v.len - v'.len + 1) := by
  have hw : 20 ≤ S.width := by unfold Schema.width; omega
  obtain ⟨-, k1, h1, h2⟩ := cost (root := t) hw (fun _ _ _ h => S.width_le h) fuel t (Depth.written_root t) v k r (v', k') h
  simp only at h1
  have : k1 ≤ perToken S t * (v.len - v'.len + 1) := h2.linear (by omega) rank_le
  omega

end CostRun
end Teleparse
