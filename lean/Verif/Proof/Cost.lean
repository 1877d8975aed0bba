import Verif.Spec.Cost
import Verif.Proof.Ends
/-
Accounting for the calls of the stream: budgets, triples, and the rank of a type at a position.
-/
set_option linter.unusedSectionVars false
namespace Teleparse
variable {m n : Nat}

/-! ### Budgets

`w` bounds what one type does itself without consuming a token, `R` bounds ranks. A call of rank `r` that
consumes nothing costs at most `cost w r`. A call that consumes `c > 0` tokens leaves `save` of what `big`
per token pays for. -/

def costBelow (w : Nat) : Nat → Nat
  | 0 => 0
  | r + 1 => w * (costBelow w r + 1)

def cost (w r : Nat) : Nat := costBelow w (r + 1)

theorem costBelow_succ (w r : Nat) : costBelow w (r + 1) = w * (costBelow w r + 1) := rfl

theorem costBelow_mono {w : Nat} (hw : 0 < w) : ∀ {r s : Nat}, r ≤ s → costBelow w r ≤ costBelow w s := by
  intro r s h
  induction h with
  | refl => exact Nat.le_refl _
  | @step s _ ih =>
    have : costBelow w s + 1 ≤ w * (costBelow w s + 1) := Nat.le_mul_of_pos_left _ hw
    rw [costBelow_succ]; omega

/-- Cost of one unit after a token was consumed. -/
def unit (w R : Nat) : Nat := cost w R + 1

/-- What a consumed token gives to the loops: enough for `w + 17` units. -/
def step (w R : Nat) : Nat := (w + 17) * unit w R

def save (w R r : Nat) : Nat := (R - r + 1) * step w R

def big (w R : Nat) : Nat := (R + 2) * step w R

/-- `k` operations with `c` tokens consumed are within the budget for rank `r`. -/
def Afford (w R r c k : Nat) : Prop :=
  (c = 0 → k ≤ cost w r) ∧ (0 < c → k + save w R r ≤ big w R * c + cost w r)

/-- In the middle of a call of rank `r`: there are still `u` units left. -/
def Pay (w R r u c k : Nat) : Prop :=
  (c = 0 → k + u * (costBelow w r + 1) ≤ cost w r) ∧
  (0 < c → k + save w R r + u * unit w R ≤ big w R * c + cost w r)

theorem Pay.start {w R r : Nat} : Pay w R r w 0 0 := by
  refine ⟨fun _ => ?_, fun h => absurd h (by omega)⟩
  rw [Nat.zero_add]; exact Nat.le_refl _

theorem Pay.done {w R r u c k : Nat} (h : Pay w R r u c k) : Afford w R r c k :=
  ⟨fun hc => by have := h.1 hc; omega, fun hc => by have := h.2 hc; omega⟩

theorem Pay.weaken {w R r u u' c k : Nat} (h : Pay w R r u c k) (hu : u' ≤ u) : Pay w R r u' c k := by
  have h1 : u' * (costBelow w r + 1) ≤ u * (costBelow w r + 1) := Nat.mul_le_mul_right _ hu
  have h2 : u' * unit w R ≤ u * unit w R := Nat.mul_le_mul_right _ hu
  exact ⟨fun hc => by have := h.1 hc; omega, fun hc => by have := h.2 hc; omega⟩

theorem Pay.units {w R r u c k : Nat} (h : Pay w R r u c k) (hc : c = 0) : u ≤ w := by
  have h1 := h.1 hc
  have h2 : u * (costBelow w r + 1) ≤ w * (costBelow w r + 1) := by
    have : cost w r = w * (costBelow w r + 1) := rfl
    omega
  exact Nat.le_of_mul_le_mul_right h2 (by omega)

theorem save_le {w R r s : Nat} (h : r ≤ s) : save w R s ≤ save w R r :=
  Nat.mul_le_mul_right _ (by omega)

theorem save_lt {w R r s : Nat} (h : r < s) (hs : s ≤ R) : save w R s + step w R ≤ save w R r := by
  have h1 : save w R s + step w R = (R - s + 1 + 1) * step w R := by
    rw [Nat.add_mul (R - s + 1) 1, Nat.one_mul]; rfl
  rw [h1]
  exact Nat.mul_le_mul_right _ (by omega)

theorem save_step {w R r : Nat} : step w R ≤ save w R r := by
  have : 1 * step w R ≤ save w R r := Nat.mul_le_mul_right _ (by omega)
  omega

theorem save_big {w R r : Nat} : save w R r + step w R ≤ big w R := by
  have : save w R r + step w R = (R - r + 1 + 1) * step w R := by
    rw [Nat.add_mul (R - r + 1) 1, Nat.one_mul]; rfl
  rw [this]
  exact Nat.mul_le_mul_right _ (by omega)

theorem cost_le {w : Nat} (hw : 0 < w) {r s : Nat} (h : r ≤ s) : cost w r ≤ cost w s :=
  costBelow_mono hw (by omega)

theorem cost_below {w : Nat} (hw : 0 < w) {r s : Nat} (h : r < s) : cost w r ≤ costBelow w s :=
  costBelow_mono hw (by omega)

/-- A call of the stream. -/
theorem Pay.op {w R r u c k : Nat} (h : Pay w R r (u + 1) c k) : Pay w R r u c (k + 1) := by
  refine ⟨fun hc => ?_, fun hc => ?_⟩
  · have := h.1 hc
    rw [Nat.add_mul, Nat.one_mul] at this
    omega
  · have := h.2 hc
    rw [Nat.add_mul, Nat.one_mul] at this
    have : 1 ≤ unit w R := by unfold unit; omega
    omega

theorem units_le {w R u : Nat} (h : u ≤ w) : u * unit w R + 17 * unit w R ≤ step w R := by
  have : u * unit w R + 17 * unit w R = (u + 17) * unit w R := by rw [Nat.add_mul]
  rw [this]
  exact Nat.mul_le_mul_right _ (by omega)

/-- A call of the stream that consumes a token. -/
theorem Pay.eat {w R r u c k : Nat} (h : Pay w R r u c k) : Pay w R r (u + 16) (c + 1) (k + 1) := by
  refine ⟨fun hc => absurd hc (by omega), fun _ => ?_⟩
  have h1 : 1 ≤ unit w R := by unfold unit; omega
  have hb := save_big (w := w) (R := R) (r := r)
  have hss := units_le (w := w) (R := R) (u := 0) (by omega)
  rw [Nat.add_mul, Nat.mul_add, Nat.mul_one]
  by_cases hc : c = 0
  · have h2 := h.1 hc
    have h3 := units_le (R := R) (h.units hc)
    subst hc
    omega
  · have h2 := h.2 (by omega)
    have h3 : unit w R * 17 ≤ big w R := by omega
    omega

/-- A call of a part. -/
theorem Pay.call {w R r u c k r1 c1 k1 : Nat} (hw : 0 < w) (h : Pay w R r (u + 1) c k) (h1 : Afford w R r1 c1 k1)
    (hr : r ≤ R) (hr1 : r1 ≤ R) (hlt : c = 0 → r1 < r) : Pay w R r u (c + c1) (k + k1) := by
  have hcr : cost w r1 ≤ cost w R := cost_le hw hr1
  have hu : unit w R = cost w R + 1 := rfl
  have hss := save_step (w := w) (R := R) (r := r1)
  refine ⟨fun hc => ?_, fun hc => ?_⟩
  · have h2 := h.1 (by omega)
    have h3 := h1.1 (by omega)
    have h4 := cost_below hw (hlt (by omega))
    rw [Nat.add_mul, Nat.one_mul] at h2
    omega
  · rw [Nat.mul_add]
    by_cases hc0 : c = 0
    · have h2 := h.1 hc0
      have h3 := h1.2 (by omega)
      have h4 := save_lt (w := w) (hlt hc0) hr
      have h5 := units_le (R := R) (h.units hc0)
      rw [Nat.add_mul] at h5
      subst hc0
      omega
    · have h2 := h.2 (by omega)
      rw [Nat.add_mul, Nat.one_mul] at h2
      by_cases hc1 : c1 = 0
      · have h3 := h1.1 hc1
        subst hc1
        omega
      · have h3 := h1.2 (by omega)
        omega

/-- A call of a part that consumes a token. -/
theorem Pay.gain {w R r u c k r1 c1 k1 : Nat} (hw : 0 < w) (h : Pay w R r u c k) (h1 : Afford w R r1 c1 k1)
    (hr : r ≤ R) (hr1 : r1 ≤ R) (hlt : c = 0 → r1 < r) (hc1 : 0 < c1) :
    Pay w R r (u + 16) (c + c1) (k + k1) := by
  have hcr : cost w r1 ≤ cost w R := cost_le hw hr1
  have hu : unit w R = cost w R + 1 := rfl
  have h3 := h1.2 hc1
  refine ⟨fun hc => absurd hc (by omega), fun hc => ?_⟩
  rw [Nat.mul_add, Nat.add_mul]
  by_cases hc0 : c = 0
  · have h2 := h.1 hc0
    have h4 := save_lt (w := w) (hlt hc0) hr
    have h5 := units_le (R := R) (h.units hc0)
    subst hc0
    omega
  · have h2 := h.2 (by omega)
    have h4 := save_step (w := w) (R := R) (r := r1)
    have h5 := units_le (w := w) (R := R) (u := 0) (by omega)
    omega

/-! ### Triples -/

/-- If the computation returns then `Q` holds. -/
def Tri {σ α : Type} (x : M σ α) (s : σ) (Q : α → σ → Prop) : Prop := ∀ a s', x s = .ok a s' → Q a s'

section
variable {σ α β : Type} {s : σ} {Q : α → σ → Prop}

theorem Tri.pure {a : α} (h : Q a s) : Tri (Pure.pure a : M σ α) s Q := by
  intro b s' e
  obtain ⟨rfl, rfl⟩ := pure_ok.1 e
  exact h

theorem Tri.bind {x : M σ α} {f : α → M σ β} {R : β → σ → Prop} (h : Tri x s Q)
    (hf : ∀ a s1, Q a s1 → Tri (f a) s1 R) : Tri (x >>= f) s R := by
  intro b s' e
  obtain ⟨a, s1, h1, h2⟩ := bind_ok.1 e
  exact hf a s1 (h a s1 h1) b s' h2

theorem Tri.mono {x : M σ α} {Q' : α → σ → Prop} (h : Tri x s Q) (hQ : ∀ a s', Q a s' → Q' a s') : Tri x s Q' :=
  fun a s' e => hQ _ _ (h a s' e)

theorem Tri.ite {c : Prop} [Decidable c] {x y : M σ α} (h1 : c → Tri x s Q) (h2 : ¬ c → Tri y s Q) :
    Tri (if c then x else y) s Q := by
  by_cases hc : c
  · rw [if_pos hc]; exact h1 hc
  · rw [if_neg hc]; exact h2 hc

theorem Tri.fuel : Tri (M.fuel : M σ α) s Q := fun _ _ h => by cases h
theorem Tri.crash : Tri (M.crash : M σ α) s Q := fun _ _ h => by cases h

end

/-- The counted abstract stream. -/
abbrev VO (n : Nat) : Ops (View n × Nat) n := (View.ops (n := n)).counted

section
variable {v : View n} {k : Nat}

theorem Tri.peek {Q : Option (Token n) → View n × Nat → Prop} (h : Q v.rest.head? (v, k + 1)) :
    Tri (VO n).mPeek (v, k) Q := by
  intro a s' e; cases e; exact h

theorem skip_eq : v.skip = (View.ops.consume v).2 := rfl

theorem Tri.consume {Q : Option (Token n) → View n × Nat → Prop} (h : ∀ x, Q x (v.skip, k + 1)) :
    Tri (VO n).mConsume (v, k) Q := by
  intro a s' e; cases e; exact h _

theorem Tri.emptySpan {Q : Span → View n × Nat → Prop} (h : ∀ x, Q x (v, k)) :
    Tri (VO n).mEmptySpan (v, k) Q := by
  intro a s' e; cases e; exact h _

theorem Tri.getSrc {sp : Span} {Q : Str → View n × Nat → Prop} (h : ∀ x, sp.get? v.source = some x → Q x (v, k)) :
    Tri ((VO n).mGetSrc sp) (v, k) Q := by
  unfold Ops.mGetSrc
  refine .bind (Q := fun x s => x = v.source ∧ s = (v, k)) (fun a s' e => by cases e; exact ⟨rfl, rfl⟩) ?_
  rintro _ _ ⟨rfl, rfl⟩
  cases hg : sp.get? v.source with
  | none => exact .crash
  | some x => exact .pure (h x hg)

theorem Tri.peekSrc {Q : Option (TokenSrc n) → View n × Nat → Prop} (h : Q v.look (v, k + 1)) :
    Tri (VO n).mPeekSrc (v, k) Q := by
  unfold Ops.mPeekSrc
  refine .bind (Q := fun x s => x = v.rest.head? ∧ s = (v, k + 1)) (.peek ⟨rfl, rfl⟩) ?_
  rintro _ _ ⟨rfl, rfl⟩
  cases hr : v.rest.head? with
  | none =>
    refine .pure ?_
    rw [show v.look = none by simp [View.look, hr]] at h
    exact h
  | some t =>
    refine .bind (Q := fun x s => t.span.get? v.source = some x ∧ s = (v, k + 1)) (.getSrc fun x hx => ⟨hx, rfl⟩) ?_
    rintro x _ ⟨hx, rfl⟩
    refine .pure ?_
    rw [show v.look = some ⟨t.ty, x⟩ by
      simp [View.look, hr, Token.toSrc, Token.src, Span.get, hx]] at h
    exact h

theorem Tri.currentSpan {Q : Span → View n × Nat → Prop} (h : Q v.cur (v, k + 1)) :
    Tri (VO n).mCurrentSpan (v, k) Q := by
  unfold Ops.mCurrentSpan
  refine .bind (Q := fun x s => x = v.rest.head? ∧ s = (v, k + 1)) (.peek ⟨rfl, rfl⟩) ?_
  rintro _ _ ⟨rfl, rfl⟩
  cases hr : v.rest with
  | nil =>
    refine .bind (Q := fun x s => x = v.source ∧ s = (v, k + 1)) (fun a s' e => by cases e; exact ⟨rfl, rfl⟩) ?_
    rintro _ _ ⟨rfl, rfl⟩
    refine .pure ?_
    rw [show v.cur = ⟨v.source.length, v.source.length⟩ by simp [View.cur, hr]] at h
    exact h
  | cons t r =>
    refine .pure ?_
    rw [show v.cur = t.span by simp [View.cur, hr]] at h
    exact h

theorem Tri.expecting {x : TSet n} {Q : Err n → View n × Nat → Prop} (h : ∀ e, Q e (v, k + 1)) :
    Tri ((VO n).mExpecting x) (v, k) Q :=
  .bind (Q := fun _ s => s = (v, k + 1)) (.currentSpan rfl) fun _ _ hs => hs ▸ .pure (h _)

theorem Tri.eof {Q : Err n → View n × Nat → Prop} (h : ∀ e, Q e (v, k + 1)) :
    Tri (VO n).mUnexpectedEof (v, k) Q :=
  .bind (Q := fun _ s => s = (v, k + 1)) (.currentSpan rfl) fun _ _ hs => hs ▸ .pure (h _)

theorem Tri.extend {p : Err n} {Q : Err n → View n × Nat → Prop} (h : ∀ e, Q e (v, k + 1)) :
    Tri (extendPanic (VO n) p) (v, k) Q :=
  .bind (Q := fun _ s => s = (v, k + 1)) (.currentSpan rfl) fun _ _ hs => hs ▸ .pure (h _)

theorem Tri.fields {l : List (Tree n × Option (LSet n))} {Q : Unit → View n × Nat → Prop} :
    ∀ {v : View n} {k : Nat}, (∀ j ≤ l.length, Q () (v.applyAll l, k + j)) → Tri (applyFields (VO n) l) (v, k) Q := by
  induction l with
  | nil => intro v k h; exact .pure (h 0 (Nat.le_refl _))
  | cons a l ih =>
    intro v k h
    obtain ⟨t, sem⟩ := a
    cases sem with
    | none => exact ih fun j hj => h j (by simp; omega)
    | some sem =>
      refine .bind (Q := fun _ s => s = (v.apply t.span sem, k + 1)) (fun a s' e => by cases e; rfl) ?_
      rintro _ _ rfl
      refine ih fun j hj => ?_
      rw [Nat.add_assoc, Nat.add_comm 1 j]
      exact h (j + 1) (by simp; omega)

end

/-! ### Rank of a type at a position -/

section
variable {G : Grammar (PId m n) n}

open Classical in
/-- The number of productions reachable along parts of sequences. -/
noncomputable def arank (G : Grammar (PId m n) n) (i : PId m n) : Nat :=
  (G.map Prod.fst).countP fun j => decide (Relation.TransGen (AndEdge G) j i)

theorem acc_irrefl {α : Type} {r : α → α → Prop} {a : α} (h : _root_.Acc r a) : ¬ r a a := by
  induction h with
  | intro a _ ih => exact fun h => ih a h h

theorem arank_lt {i j : PId m n} (hacc : _root_.Acc (AndEdge G) j) (hj : ∃ r, (j, r) ∈ G) (h : AndEdge G j i) :
    arank G j < arank G i := by
  classical
  obtain ⟨r, hj⟩ := hj
  refine countP_lt (a := j) ?_ (List.mem_map.2 ⟨_, hj, rfl⟩) ?_ (by simpa using Relation.TransGen.single h)
  · intro x hx
    simp only [decide_eq_true_eq] at hx ⊢
    exact .tail hx h
  · simp only [decide_eq_false_iff_not]
    exact acc_irrefl hacc.transGen

open Classical in
/-- Types whose lookahead fits by leftmost parts, the others above them by parts of sequences. -/
noncomputable def rk (G : Grammar (PId m n) n) (t : Ty m n) (v : View n) : Nat :=
  if MN G t v then lrank G t.pid else G.length + 1 + arank G t.pid

/-- Bound of the ranks. -/
def rmax (G : Grammar (PId m n) n) : Nat := 2 * G.length + 1

theorem rk_le {t : Ty m n} {v : View n} : rk G t v ≤ rmax G := by
  have h1 : lrank G t.pid ≤ G.length := Nat.le_trans List.countP_le_length (by simp)
  have h2 : arank G t.pid ≤ G.length := Nat.le_trans List.countP_le_length (by simp)
  unfold rk rmax
  split <;> omega

/-- `u` ranks below `t` if it is a leftmost part and the lookahead fits, or it is a part of a sequence
and the lookahead does not fit `t`. -/
theorem Ctx.rk_lt {S : Schema m n} {md : Metadata (PId m n) n} {root : Ty m n} (E : Ctx S md root G)
    {t u : Ty m n} {v w : View n} (ht : PReach S root t.pid) (hu : PReach S root u.pid)
    (h : (MN G t v → MN G u w ∧ LPlus G t.pid u.pid) ∧ (¬ MN G t v → MN G u w ∨ AndEdge G u.pid t.pid)) :
    rk G u w < rk G t v := by
  have h1 : lrank G u.pid ≤ G.length := Nat.le_trans List.countP_le_length (by simp)
  unfold rk
  by_cases hm : MN G t v
  · obtain ⟨h2, h3⟩ := h.1 hm
    rw [if_pos hm, if_pos h2]
    exact E.lrank_lt ht hu h3
  · rw [if_neg hm]
    by_cases hm2 : MN G u w
    · rw [if_pos hm2]; omega
    · rw [if_neg hm2]
      have := arank_lt (E.acc hu) ⟨_, E.mem hu⟩ ((h.2 hm).resolve_left hm2)
      omega

/-! ### Frames -/

/-- A call in progress: where it started, with which count, and its rank. -/
structure Frame (n : Nat) where
  w : Nat
  R : Nat
  v0 : View n
  k0 : Nat
  r : Nat
  hw : 0 < w
  hr : r ≤ R

/-- The state is within the budget of the call, with `u` units left. -/
def Frame.At (F : Frame n) (u : Nat) (s : View n × Nat) : Prop :=
  Adv F.v0 s.1 ∧ ∃ k, s.2 = F.k0 + k ∧ Pay F.w F.R F.r u (F.v0.len - s.1.len) k

/-- What is known of the cost of producing `u`. -/
def Spec (S : Schema m n) (md : Metadata (PId m n) n) (G : Grammar (PId m n) n) (w R : Nat) (u : Ty m n) (p : P (View n × Nat) n) : Prop :=
  ∀ v k, Tri p (v, k) (fun r s => Post S md G u v r s.1 ∧
    ∃ k1, s.2 = k + k1 ∧ Afford w R (rk G u v) (v.len - s.1.len) k1)

variable {S : Schema m n} {md : Metadata (PId m n) n} {F : Frame n} {u : Nat} {v : View n} {k : Nat}

theorem Frame.At.weaken {u' : Nat} {s : View n × Nat} (h : F.At u s) (hu : u' ≤ u) : F.At u' s := by
  obtain ⟨h1, k, h2, h3⟩ := h
  exact ⟨h1, k, h2, h3.weaken hu⟩

theorem Frame.At.op (h : F.At (u + 1) (v, k)) : F.At u (v, k + 1) := by
  obtain ⟨h1, j, h2, h3⟩ := h
  simp only at h2
  exact ⟨h1, j + 1, by simp only; omega, h3.op⟩

theorem skip_len1 (h : v.rest ≠ []) : v.skip.len + 1 = v.len := by
  cases hr : v.rest with
  | nil => exact absurd hr h
  | cons a l => simp [View.len, View.skip, View.consume, hr]

theorem Frame.At.eat (h : F.At u (v, k)) (hne : v.rest ≠ []) : F.At (u + 16) (v.skip, k + 1) := by
  obtain ⟨h1, j, h2, h3⟩ := h
  simp only at h2
  refine ⟨h1.trans (.skip _), j + 1, by simp only; omega, ?_⟩
  have h4 := skip_len1 hne
  have h5 := h1.len_le
  have := h3.eat
  rw [show F.v0.len - v.skip.len = F.v0.len - v.len + 1 by simp only [View.len] at *; omega]
  exact this

theorem Frame.At.ops (h : F.At u (v, k)) : ∀ {j}, j ≤ u → F.At (u - j) (v, k + j) := by
  intro j
  induction j with
  | zero => exact fun _ => h
  | succ j ih =>
    intro hj
    have h1 := ih (by omega)
    rw [show u - j = u - (j + 1) + 1 by omega] at h1
    exact h1.op

theorem Frame.At.apply (h : F.At u (v, k)) (l) : F.At u (v.applyAll l, k) := by
  obtain ⟨h1, j, h2, h3⟩ := h
  refine ⟨h1.trans (.applyAll _ _), j, h2, ?_⟩
  rw [show (v.applyAll l, k).1.len = (v, k).1.len by unfold View.len; rw [applyAll_rest]]
  exact h3

theorem Frame.At.le {s : View n × Nat} (h : F.At u s) : s.1.len ≤ F.v0.len := h.1.len_le

theorem Spec.call {t : Ty m n} {p : P (View n × Nat) n} (hp : Spec S md G F.w F.R t p) (hR : F.R = rmax G)
    (h : F.At (u + 1) (v, k)) (hlt : v.len = F.v0.len → rk G t v < F.r) :
    Tri p (v, k) (fun r s => Post S md G t v r s.1 ∧ F.At u s ∧ (s.1.len < v.len → F.At (u + 17) s)) := by
  obtain ⟨h1, j, h2, h3⟩ := h
  simp only at h2
  refine (hp v k).mono ?_
  rintro r ⟨v', k'⟩ ⟨h4, k1, h5, h6⟩
  simp only at h5
  have hle := h4.1.len_le
  have hle0 := h1.len_le
  have hc : F.v0.len - v'.len = (F.v0.len - v.len) + (v.len - v'.len) := by
    simp only [View.len] at *; omega
  have hrk : rk G t v ≤ F.R := hR ▸ rk_le
  have hlt' : F.v0.len - v.len = 0 → rk G t v < F.r := fun h => hlt (by simp only [View.len] at *; omega)
  refine ⟨h4, ⟨h1.trans h4.1, j + k1, by simp only; omega, ?_⟩, fun hl => ⟨h1.trans h4.1, j + k1, by simp only; omega, ?_⟩⟩
  · show Pay _ _ _ _ (F.v0.len - v'.len) _
    rw [hc]
    exact h3.call F.hw h6 F.hr hrk hlt'
  · show Pay _ _ _ _ (F.v0.len - v'.len) _
    rw [hc]
    exact h3.gain F.hw h6 F.hr hrk hlt' (by simp only [View.len] at *; omega)

/-- A call of a part whose lookahead fits. -/
theorem Spec.gain {t : Ty m n} {p : P (View n × Nat) n} (hp : Spec S md G F.w F.R t p) (hR : F.R = rmax G)
    (h : F.At (u + 1) (v, k)) (hlt : v.len = F.v0.len → rk G t v < F.r) (hf : FirstAt G t.pid v) :
    Tri p (v, k) (fun _ s => Adv v s.1 ∧ F.At (u + 17) s ∧ s.1.len < v.len) :=
  (hp.call hR h hlt).mono fun _ _ h => ⟨h.1.1, h.2.2 (h.1.2.1 hf), h.1.2.1 hf⟩

theorem Frame.At.afford {s : View n × Nat} (h : F.At u s) :
    ∃ k1, s.2 = F.k0 + k1 ∧ Afford F.w F.R F.r (F.v0.len - s.1.len) k1 := by
  obtain ⟨_, k, h2, h3⟩ := h
  exact ⟨k, h2, h3.done⟩

end

end Teleparse
