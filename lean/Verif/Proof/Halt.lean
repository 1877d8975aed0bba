import Verif.Proof.CostRun
/-
Every round of a loop makes a call of the stream. So a run that returns does not need more rounds of any loop than it
makes calls.
-/
namespace Teleparse
namespace Halt
variable {m n : Nat} {σ : Type} {B j : Nat} {o : Ops σ n}

def Grows {α : Type} (x : M (σ × Nat) α) : Prop := ∀ s a s', x s = .ok a s' → s.2 ≤ s'.2

theorem grows_closed (o : Ops σ n) : Closed 0 (fun {α} (x _ : M (σ × Nat) α) => Grows x) o.counted o.counted :=
  pres_closed o.counted (fun s s' => s.2 ≤ s'.2) (fun _ => Nat.le_refl _) (fun _ _ _ h1 h2 => Nat.le_trans h1 h2)
    (fun _ => Nat.le_succ _) (fun _ => Nat.le_succ _) (fun _ _ _ => Nat.le_succ _)

/-- What `x` returns with a count of at most `B`, `y` returns too, in states from which less than `j` calls are left. -/
def Cut (B j : Nat) {α : Type} (x y : M (σ × Nat) α) : Prop :=
  Grows x ∧ ∀ s, B < s.2 + j → ∀ a s', x s = .ok a s' → s'.2 ≤ B → y s = .ok a s'

theorem Cut.less {α : Type} {x y : M (σ × Nat) α} {j' : Nat} (h : Cut B j x y) (hj : j' ≤ j) : Cut B j' x y :=
  ⟨h.1, fun s hs => h.2 s (by omega)⟩

theorem Cut.same {α : Type} {x : M (σ × Nat) α} (h : Grows x) : Cut B j x x := ⟨h, fun _ _ _ _ e _ => e⟩

theorem bind_ok_of {α β : Type} {x : M (σ × Nat) α} {f : α → M (σ × Nat) β} {s a s1} (h : x s = .ok a s1) :
    (x >>= f) s = f a s1 := by
  show M.bind x f s = _
  unfold M.bind
  rw [h]

theorem cut_closed (o : Ops σ n) (B j : Nat) : Closed 0 (fun {α} (x y : M (σ × Nat) α) => Cut B j x y) o.counted o.counted where
  pure a := .same ((grows_closed o).pure a)
  bind {α β x y f g} hx hf := by
    refine ⟨(grows_closed o).bind (y := x) (g := f) hx.1 fun a => (hf a).1, fun s hs b s' h hB => ?_⟩
    obtain ⟨a, s1, h1, h2⟩ := bind_ok.1 h
    have g1 := hx.1 _ _ _ h1
    have g2 := (hf a).1 _ _ _ h2
    rw [bind_ok_of (hx.2 s hs a s1 h1 (by omega))]
    exact (hf a).2 s1 (by omega) b s' h2 hB
  fuel y _ := ⟨fun s a s' h => (by cases h), fun s _ a s' h => (by cases h)⟩
  crash := ⟨fun s a s' h => (by cases h), fun s _ a s' h => (by cases h)⟩
  peek := .same (grows_closed o).peek
  consume := .same (grows_closed o).consume
  source := .same (grows_closed o).source
  emptySpan := .same (grows_closed o).emptySpan
  apply sp sem := .same ((grows_closed o).apply sp sem)

theorem cut_fuel {α : Type} {y : M (σ × Nat) α} : Cut B j M.fuel y :=
  ⟨fun s a s' h => (by cases h), fun s _ a s' h => (by cases h)⟩

/-- After a call of the stream one round less is needed. -/
theorem cut_call (o : Ops σ n) {α β : Type} {x y : M (σ × Nat) α} {f g : α → M (σ × Nat) β} (hx : Cut B (j + 1) x y)
    (hc : ∀ s a s', x s = .ok a s' → s.2 < s'.2) (hf : ∀ a, Cut B j (f a) (g a)) : Cut B (j + 1) (x >>= f) (y >>= g) := by
  refine ⟨(grows_closed o).bind (y := x) (g := f) hx.1 fun a => (hf a).1, fun s hs b s' h hB => ?_⟩
  obtain ⟨a, s1, h1, h2⟩ := bind_ok.1 h
  have g1 := hc _ _ _ h1
  have g2 := (hf a).1 _ _ _ h2
  rw [bind_ok_of (hx.2 s hs a s1 h1 (by omega))]
  exact (hf a).2 s1 (by omega) b s' h2 hB

/-- No call is left. -/
theorem cut_zero {α : Type} {x y : M (σ × Nat) α} (h : Grows x) : Cut B 0 x y :=
  ⟨h, fun s hs a s' e hB => by have := h _ _ _ e; omega⟩

theorem peekSrc_call (o : Ops σ n) (s : σ × Nat) (a) (s' : σ × Nat) (h : o.counted.mPeekSrc s = .ok a s') : s.2 < s'.2 := by
  unfold Ops.mPeekSrc at h
  obtain ⟨t, s1, h1, h2⟩ := bind_ok.1 h
  have e : s1.2 = s.2 + 1 := by cases h1; rfl
  have g : s1.2 ≤ s'.2 := by
    cases t with
    | none => cases h2; exact Nat.le_refl _
    | some t =>
      obtain ⟨x, s2, h3, h4⟩ := bind_ok.1 h2
      cases h4
      exact (grows_closed o).getSrc _ _ _ _ h3
  omega

theorem cut_peek {β : Type} {f g : Option (TokenSrc n) → M (σ × Nat) β} (hf : ∀ a, Cut B j (f a) (g a)) :
    Cut B (j + 1) (o.counted.mPeekSrc >>= f) (o.counted.mPeekSrc >>= g) :=
  cut_call o (cut_closed o B (j + 1)).peekSrc (peekSrc_call o) hf

theorem cut_consume {β : Type} {f g : Option (Token n) → M (σ × Nat) β} (hf : ∀ a, Cut B j (f a) (g a)) :
    Cut B (j + 1) (o.counted.mConsume >>= f) (o.counted.mConsume >>= g) :=
  cut_call o (cut_closed o B (j + 1)).consume (fun s a s' h => by cases h; exact Nat.lt_succ_self _) hf

section
variable {p p' pp pp' : P (σ × Nat) n}

theorem iter (first : TSet n) {f : Nat} : ∀ {j : Nat} (_ : Cut B j p p') acc errs hi,
    Cut B j (iterLoop o.counted first p f acc errs hi) (iterLoop o.counted first p' j acc errs hi) := by
  induction f with
  | zero => intro j _ _ _ _; exact cut_fuel
  | succ f ih =>
    intro j hp acc errs hi
    cases j with
    | zero => exact cut_zero ((grows_closed o).core.iterLoop first (p' := p) hp.1 rfl acc errs hi)
    | succ j =>
      have h := (cut_closed o B j).core
      have hp' := hp.less (Nat.le_succ j)
      refine cut_peek fun tok => ?_
      try dsimp only
      cases (tok.isSome && first.contains tok)
      · exact h.pure _
      · refine h.bind hp' fun r => ?_
        cases r with
        | success t => exact ih hp' _ _ _
        | recovered t e => exact ih hp' _ _ _
        | panic e => exact h.pure _

theorem skip (first : TSet n) {f : Nat} : ∀ {j : Nat} hi,
    Cut B j (skipLoop o.counted first f hi) (skipLoop o.counted first j hi) := by
  induction f with
  | zero => intro j _; exact cut_fuel
  | succ f ih =>
    intro j hi
    cases j with
    | zero => exact cut_zero ((grows_closed o).core.skipLoop first rfl hi)
    | succ j =>
      have h := (cut_closed o B j).core
      refine cut_peek fun tok => ?_
      try dsimp only
      cases (tok.isSome && !first.contains tok)
      · exact h.pure _
      · exact h.bind h.currentSpan fun sp => h.bind h.consume fun _ => ih _

theorem loopLoop (first : TSet n) {f : Nat} : ∀ {j : Nat} (_ : Cut B j p p') out errs,
    Cut B j (Teleparse.loopLoop o.counted first p f out errs) (Teleparse.loopLoop o.counted first p' j out errs) := by
  induction f with
  | zero => intro j _ _ _; exact cut_fuel
  | succ f ih =>
    intro j hp out errs
    cases j with
    | zero => exact cut_zero ((grows_closed o).core.loopLoop first (p' := p) hp.1 rfl out errs)
    | succ j =>
      have h := (cut_closed o B j).core
      have hp' := hp.less (Nat.le_succ j)
      refine cut_peek fun tok => ?_
      try dsimp only
      cases tok.isNone
      · refine h.bind ?_ fun r => ?_
        · cases first.contains tok
          · exact h.bind h.currentSpan fun _ => h.bind h.consume fun _ => h.bind (skip first _) fun _ => h.pure _
          · exact h.pure _
        · obtain ⟨errs, more⟩ := r
          cases more
          · exact h.pure _
          · refine h.bind (h.loopElem hp' _ _) fun r => ?_
            obtain ⟨go, out, errs⟩ := r
            cases go
            · exact h.pure _
            · exact ih hp' _ _
      · exact h.pure _

theorem splitInner (ef pf fol : TSet n) (q : Tree n) {f : Nat} : ∀ {j : Nat} (_ : Cut B j p p') a panic,
    Cut B j (Teleparse.splitInner o.counted ef pf fol p q f a panic) (Teleparse.splitInner o.counted ef pf fol p' q j a panic) := by
  induction f with
  | zero => intro j _ _ _; exact cut_fuel
  | succ f ih =>
    intro j hp a panic
    cases j with
    | zero => exact cut_zero ((grows_closed o).core.splitInner ef pf fol (pt' := p) hp.1 q rfl a panic)
    | succ j =>
      have h := (cut_closed o B (j + 1)).core
      refine h.bind (h.splitTry ef hp q a panic) fun r => ?_
      rcases r with a | ⟨tok, panic⟩
      · exact h.pure _
      · try dsimp only
        cases pf.contains tok
        · cases (tok.isNone || fol.contains tok)
          · exact cut_consume fun _ => ih (hp.less (Nat.le_succ j)) _ _
          · exact h.pure _
        · exact h.pure _

theorem splitOuter (ef pf fol : TSet n) {f : Nat} : ∀ {j : Nat} (_ : Cut B j p p') (_ : Cut B j pp pp') a,
    Cut B j (Teleparse.splitOuter o.counted ef pf fol p pp f a) (Teleparse.splitOuter o.counted ef pf fol p' pp' j a) := by
  induction f with
  | zero => intro j _ _ _; exact cut_fuel
  | succ f ih =>
    intro j hp hq a
    cases j with
    | zero => exact cut_zero ((grows_closed o).core.splitOuter ef pf fol (pt' := p) (pp' := pp) hp.1 hq.1 rfl a)
    | succ j =>
      have h := (cut_closed o B j).core
      have hp' := hp.less (Nat.le_succ j)
      have hq' := hq.less (Nat.le_succ j)
      refine cut_peek fun tok => ?_
      try dsimp only
      cases (tok.isSome && pf.contains tok)
      · exact h.pure _
      · refine h.bind hq' fun r => ?_
        cases r with
        | panic e => exact h.pure _
        | success q =>
          refine h.bind (splitInner ef pf fol q hp' _ _) fun r => ?_
          obtain ⟨go, a⟩ := r
          cases go
          · exact h.pure _
          · exact ih hp' hq' _
        | recovered q e =>
          refine h.bind (splitInner ef pf fol q hp' _ _) fun r => ?_
          obtain ⟨go, a⟩ := r
          cases go
          · exact h.pure _
          · exact ih hp' hq' _

theorem punctInner (ef pf fol : TSet n) {f : Nat} : ∀ {j : Nat} (_ : Cut B j p p') a panic,
    Cut B j (Teleparse.punctInner o.counted ef pf fol p f a panic) (Teleparse.punctInner o.counted ef pf fol p' j a panic) := by
  induction f with
  | zero => intro j _ _ _; exact cut_fuel
  | succ f ih =>
    intro j hp a panic
    cases j with
    | zero => exact cut_zero ((grows_closed o).core.punctInner ef pf fol (pt' := p) hp.1 rfl a panic)
    | succ j =>
      have h := (cut_closed o B (j + 1)).core
      refine h.bind (h.punctTry ef fol hp a panic) fun r => ?_
      rcases r with a | panic
      · exact h.pure _
      · refine h.bind h.peekSrc fun tok => ?_
        try dsimp only
        cases pf.contains tok
        · cases (tok.isNone || fol.contains tok)
          · exact cut_consume fun _ => ih (hp.less (Nat.le_succ j)) _ _
          · exact h.pure _
        · exact h.pure _

theorem punctOuter (ef pf fol : TSet n) {f : Nat} : ∀ {j : Nat} (_ : Cut B j p p') (_ : Cut B j pp pp') a,
    Cut B j (Teleparse.punctOuter o.counted ef pf fol p pp f a) (Teleparse.punctOuter o.counted ef pf fol p' pp' j a) := by
  induction f with
  | zero => intro j _ _ _; exact cut_fuel
  | succ f ih =>
    intro j hp hq a
    cases j with
    | zero => exact cut_zero ((grows_closed o).core.punctOuter ef pf fol (pt' := p) (pp' := pp) hp.1 hq.1 rfl a)
    | succ j =>
      have h := (cut_closed o B j).core
      have hp' := hp.less (Nat.le_succ j)
      have hq' := hq.less (Nat.le_succ j)
      refine cut_peek fun tok => ?_
      try dsimp only
      cases (tok.isSome && pf.contains tok)
      · exact h.pure _
      · refine h.bind hq' fun r => ?_
        cases r with
        | panic e => exact h.pure _
        | success q =>
          refine h.bind (punctInner ef pf fol hp' _ _) fun r => ?_
          obtain ⟨go, a⟩ := r
          cases go
          · exact h.pure _
          · exact ih hp' hq' _
        | recovered q e =>
          refine h.bind (punctInner ef pf fol hp' _ _) fun r => ?_
          obtain ⟨go, a⟩ := r
          cases go
          · exact h.pure _
          · exact ih hp' hq' _

theorem recoverLoop (tf : TSet n) {f : Nat} : ∀ {j : Nat} (_ : Cut B j p p') errs panic,
    Cut B j (Teleparse.recoverLoop o.counted tf p f errs panic) (Teleparse.recoverLoop o.counted tf p' j errs panic) := by
  induction f with
  | zero => intro j _ _ _; exact cut_fuel
  | succ f ih =>
    intro j hp errs panic
    cases j with
    | zero => exact cut_zero ((grows_closed o).core.recoverLoop tf (pr' := p) hp.1 rfl errs panic)
    | succ j =>
      have h := (cut_closed o B j).core
      have hp' := hp.less (Nat.le_succ j)
      refine cut_peek fun tok => ?_
      try dsimp only
      cases tok.isNone
      · cases (tf.contains tok || tf.containsE)
        · exact h.bind (h.recoverSkip _ _) fun _ => ih hp' _ _
        · refine h.bind hp' fun r => ?_
          cases r with
          | success t => exact h.pure _
          | recovered t e => exact h.pure _
          | panic e => exact h.bind (h.recoverSkip _ _) fun _ => ih hp' _ _
      · cases tf.containsE
        · exact h.pure _
        · refine h.bind hp' fun r => ?_
          cases r with
          | success t => exact h.pure _
          | recovered t e => exact h.pure _
          | panic e => exact h.pure _

theorem plus (first : TSet n) {f : Nat} (hp : Cut B j p p') :
    Cut B j (producePlus o.counted first p f) (producePlus o.counted first p' j) := by
  have h := (cut_closed o B j).core
  refine h.bind hp fun r => ?_
  cases r with
  | success t => exact h.bind (iter first hp _ _ _) fun _ => h.pure _
  | recovered t e => exact h.bind (iter first hp _ _ _) fun _ => h.pure _
  | panic e => exact h.pure _

theorem loop (first : TSet n) {f : Nat} (hp : Cut B j p p') :
    Cut B j (produceLoop o.counted first p f) (produceLoop o.counted first p' j) := by
  have h := (cut_closed o B j).core
  refine h.bind (loopLoop first hp _ _) fun r => ?_
  obtain ⟨out, errs⟩ := r
  try dsimp only
  cases out.isEmpty
  · exact h.pure _
  · exact h.bind h.emptySpan fun _ => h.pure _

theorem split (ef pf fol : TSet n) {f : Nat} (hp : Cut B j p p') (hq : Cut B j pp pp') :
    Cut B j (produceSplit o.counted ef pf fol p pp f) (produceSplit o.counted ef pf fol p' pp' j) := by
  have h := (cut_closed o B j).core
  refine h.bind hp fun r => ?_
  cases r with
  | panic e => exact h.pure _
  | success t => exact h.bind (splitOuter ef pf fol hp hq _) fun _ => h.pure _
  | recovered t e => exact h.bind (splitOuter ef pf fol hp hq _) fun _ => h.pure _

theorem punct (ef pf fol : TSet n) {f : Nat} (hp : Cut B j p p') (hq : Cut B j pp pp') :
    Cut B j (producePunct o.counted ef pf fol p pp f) (producePunct o.counted ef pf fol p' pp' j) := by
  have h := (cut_closed o B j).core
  refine h.bind hp fun r => ?_
  cases r with
  | panic e => exact h.pure _
  | success t => exact h.bind (punctOuter ef pf fol hp hq _) fun _ => h.pure _
  | recovered t e => exact h.bind (punctOuter ef pf fol hp hq _) fun _ => h.pure _

theorem recover (hf tf : TSet n) {f : Nat} (hp : Cut B j p p') (hq : Cut B j pp pp') :
    Cut B j (produceRecover o.counted hf tf p pp f) (produceRecover o.counted hf tf p' pp' j) := by
  have h := (cut_closed o B j).core
  refine h.bind (h.recoverHead hf hp) fun r => h.bind (recoverLoop tf hq _ _) fun x => ?_
  obtain ⟨tail, errs, panic⟩ := x
  cases tail <;> exact h.pure _

end

theorem step (S : Schema m n) (md : Metadata (PId m n) n) {f : Nat} {rec rec' : Ty m n → P (σ × Nat) n}
    (hr : ∀ t, Cut B j (rec t) (rec' t)) (t : Ty m n) :
    Cut B j (produceStep o.counted S md f rec t) (produceStep o.counted S md j rec' t) := by
  have h := cut_closed o B j
  have all := h.core.step S md (f := j) rfl hr (fun t => h.text (hr t)) t
  cases t with
  | plus t => exact plus _ (hr t)
  | star t => exact h.core.option _ (plus _ (hr t)) _
  | loop t => exact loop _ (hr t)
  | split t p => exact split _ _ _ (hr t) (hr p)
  | punct t p => exact punct _ _ _ (hr t) (hr p)
  | recover t r => exact recover _ _ (hr t) (hr r)
  | _ => exact all

/-- The rounds of every loop are no more than the calls of the stream that are made. -/
theorem rounds (S : Schema m n) (md : Metadata (PId m n) n) (i : Nat) : ∀ (d : Nat) (t : Ty m n),
    Cut B j (nested o.counted S md i d t) (nested o.counted S md j d t)
  | 0, _ => (cut_closed o B j).fuel _ fun _ => rfl
  | d + 1, t => step S md (fun u => rounds S md i d u) t

theorem nested_counted (o : Ops σ n) (S : Schema m n) (md : Metadata (PId m n) n) (i : Nat) : ∀ (d : Nat) (t : Ty m n) (s : σ) (k : Nat),
    nested o S md i d t s = (nested o.counted S md i d t (s, k)).mapState Prod.fst
  | 0, _, _, _ => rfl
  | d + 1, t, s, k => Depth.step_rel (erase_closed o) rfl (fun u _ s k => nested_counted o S md i d u s k) s k

end Halt
end Teleparse
