import Verif.Proof.Yields
/-
Total correctness for fuelled computations: with enough fuel the computation does not run out of it. A
family of computations is indexed by the fuel of the innermost loop and the fuel of the parts.
-/
namespace Teleparse
variable {m n : Nat}

/-- With enough fuel the computation ends, always in the same way, and unless it crashes the result and
the new stream satisfy `Q`. -/
def Halts {α : Type} (x : Nat → Nat → M (View n) α) (v : View n) (Q : α → View n → Prop) : Prop :=
  ∃ N o, (∀ i j, N ≤ i → N ≤ j → x i j v = o) ∧ o ≠ .fuel ∧ ∀ a v', o = .ok a v' → Q a v'

section
variable {α β : Type} {v : View n} {Q : α → View n → Prop}

theorem Halts.const {x : M (View n) α} (h : x v ≠ .fuel) (hQ : ∀ a v', x v = .ok a v' → Q a v') :
    Halts (fun _ _ => x) v Q := ⟨0, x v, fun _ _ _ _ => rfl, h, hQ⟩

theorem Halts.pure {a : α} (h : Q a v) : Halts (fun _ _ => (Pure.pure a : M (View n) α)) v Q := by
  refine .const (fun h => (by cases h)) fun b v' hb => ?_
  obtain ⟨rfl, rfl⟩ := pure_ok.1 hb
  exact h

theorem Halts.mono {x : Nat → Nat → M (View n) α} {Q' : α → View n → Prop} (h : Halts x v Q)
    (hQ : ∀ a v', Q a v' → Q' a v') : Halts x v Q' := by
  obtain ⟨N, o, h1, h2, h3⟩ := h
  exact ⟨N, o, h1, h2, fun a v' e => hQ _ _ (h3 _ _ e)⟩

/-- Facts about all results can be added. -/
theorem Halts.also {x : Nat → Nat → M (View n) α} {R : α → View n → Prop} (h : Halts x v Q)
    (hR : ∀ i j a v', x i j v = .ok a v' → R a v') : Halts x v (fun a v' => Q a v' ∧ R a v') := by
  obtain ⟨N, o, h1, h2, h3⟩ := h
  exact ⟨N, o, h1, h2, fun a v' e => ⟨h3 _ _ e, hR N N _ _ ((h1 N N (Nat.le_refl _) (Nat.le_refl _)).trans e)⟩⟩

theorem Halts.bind {x : Nat → Nat → M (View n) α} {f : Nat → Nat → α → M (View n) β}
    {R : β → View n → Prop} (h : Halts x v Q)
    (hf : ∀ a v', Q a v' → Halts (fun i j => f i j a) v' R) : Halts (fun i j => x i j >>= f i j) v R := by
  obtain ⟨N, o, h1, h2, h3⟩ := h
  cases o with
  | fuel => exact absurd rfl h2
  | crash =>
    refine ⟨N, .crash, fun i j hi hj => ?_, by simp, by simp⟩
    show M.bind _ _ _ = _
    unfold M.bind
    rw [h1 i j hi hj]
  | ok a v1 =>
    obtain ⟨N', o', g1, g2, g3⟩ := hf a v1 (h3 _ _ rfl)
    refine ⟨max N N', o', fun i j hi hj => ?_, g2, g3⟩
    show M.bind _ _ _ = _
    unfold M.bind
    rw [h1 i j (by omega) (by omega)]
    exact g1 i j (by omega) (by omega)

/-- One more iteration of a loop. -/
theorem Halts.succ {x : Nat → Nat → M (View n) α} (h : Halts (fun i j => x (i + 1) j) v Q) :
    Halts x v Q := by
  obtain ⟨N, o, h1, h2, h3⟩ := h
  refine ⟨N + 1, o, fun i j hi hj => ?_, h2, h3⟩
  cases i with
  | zero => omega
  | succ i => exact h1 i j (by omega) (by omega)

theorem Halts.ite {c : Prop} [Decidable c] {x y : Nat → Nat → M (View n) α} (h1 : c → Halts x v Q)
    (h2 : ¬ c → Halts y v Q) : Halts (fun i j => if c then x i j else y i j) v Q := by
  by_cases hc : c
  · simp only [hc, if_true]; exact h1 hc
  · simp only [hc, if_false]; exact h2 hc

theorem Halts.congr {x y : Nat → Nat → M (View n) α} (h : Halts x v Q) (hxy : ∀ i j, y i j v = x i j v) :
    Halts y v Q := by
  obtain ⟨N, o, h1, h2, h3⟩ := h
  exact ⟨N, o, fun i j hi hj => (hxy i j).trans (h1 i j hi hj), h2, h3⟩

/-- The fuel of the loop is also the fuel of the parts. -/
theorem Halts.produce {S : Schema m n} {md : Metadata (PId m n) n} {t : Ty m n}
    {Q : Res n (Tree n) → View n → Prop}
    (h : Halts (fun i j => produceStep View.ops S md i (produce View.ops S md j) t) v Q) :
    Halts (fun _ j => produce View.ops S md j t) v Q := by
  obtain ⟨N, o, h1, h2, h3⟩ := h
  refine ⟨N + 1, o, fun i j hi hj => ?_, h2, h3⟩
  cases j with
  | zero => omega
  | succ j => exact h1 j j (by omega) (by omega)

end

/-! ### Operations -/

section
variable {v : View n}

theorem Halts.peekSrc {Q : Option (TokenSrc n) → View n → Prop} (h : Q v.look v) :
    Halts (fun _ _ => (View.ops (n := n)).mPeekSrc) v Q := by
  refine .const ?_ fun a v' ha => ?_
  · unfold Ops.mPeekSrc
    show M.bind _ _ _ ≠ _
    unfold M.bind
    rw [(mPeek_ok (v := v) (v' := v)).2 ⟨rfl, rfl⟩]
    dsimp only
    cases v.rest.head? with
    | none => exact fun h => (by cases h)
    | some t =>
      show M.bind _ _ _ ≠ _
      unfold M.bind
      cases hg : (View.ops (n := n)).mGetSrc t.span v with
      | fuel =>
        exfalso
        unfold Ops.mGetSrc at hg
        change M.bind _ _ _ = _ at hg
        unfold M.bind at hg
        rw [(mSource_ok (v := v) (v' := v)).2 ⟨rfl, rfl⟩] at hg
        dsimp only at hg
        cases hs : t.span.get? v.source <;> rw [hs] at hg <;> cases hg
      | crash => exact fun h => (by cases h)
      | ok a s => exact fun h => (by cases h)
  · obtain ⟨rfl, rfl, -⟩ := mPeekSrc_ok.1 ha
    exact h

theorem Halts.currentSpan {Q : Span → View n → Prop} (h : Q v.cur v) :
    Halts (fun _ _ => (View.ops (n := n)).mCurrentSpan) v Q := by
  refine .const ?_ fun a v' ha => ?_
  · rw [(mCurrentSpan_ok (v := v) (v' := v)).2 ⟨rfl, rfl⟩]; simp
  · obtain ⟨rfl, rfl⟩ := mCurrentSpan_ok.1 ha
    exact h

theorem Halts.consume {Q : Option (Token n) → View n → Prop} (h : Q v.rest.head? v.skip) :
    Halts (fun _ _ => (View.ops (n := n)).mConsume) v Q := by
  refine .const ?_ fun a v' ha => ?_
  · rw [(mConsume_ok (v := v) (v' := v.skip)).2 ⟨rfl, rfl⟩]; simp
  · obtain ⟨rfl, rfl⟩ := mConsume_ok.1 ha
    exact h

theorem Halts.emptySpan {Q : Span → View n → Prop} (h : Q ⟨v.pos, v.pos⟩ v) :
    Halts (fun _ _ => (View.ops (n := n)).mEmptySpan) v Q := by
  refine .const ?_ fun a v' ha => ?_
  · rw [(mEmptySpan_ok (v := v) (v' := v)).2 ⟨rfl, rfl⟩]; simp
  · obtain ⟨rfl, rfl⟩ := mEmptySpan_ok.1 ha
    exact h

theorem Halts.expecting {s : TSet n} {Q : Err n → View n → Prop} (h : Q ⟨v.cur, .expecting s⟩ v) :
    Halts (fun _ _ => (View.ops (n := n)).mExpecting s) v Q := by
  refine .const ?_ fun a v' ha => ?_
  · rw [(mExpecting_ok (v := v) (v' := v)).2 ⟨rfl, rfl⟩]; simp
  · obtain ⟨rfl, rfl⟩ := mExpecting_ok.1 ha
    exact h

theorem Halts.getSrc {sp : Span} {Q : Str → View n → Prop} (h : ∀ s, sp.get? v.source = some s → Q s v) :
    Halts (fun _ _ => (View.ops (n := n)).mGetSrc sp) v Q := by
  refine .const ?_ fun a v' ha => ?_
  · unfold Ops.mGetSrc
    show M.bind _ _ _ ≠ _
    unfold M.bind
    rw [(mSource_ok (v := v) (v' := v)).2 ⟨rfl, rfl⟩]
    dsimp only
    cases sp.get? v.source <;> exact fun h => (by cases h)
  · obtain ⟨h1, rfl⟩ := mGetSrc_ok.1 ha
    exact h _ h1

theorem Halts.fields {l : List (Tree n × Option (LSet n))} {Q : Unit → View n → Prop}
    (h : Q () (v.applyAll l)) : Halts (fun _ _ => applyFields View.ops l) v Q := by
  refine .const ?_ fun a v' ha => ?_
  · rw [(applyFields_ok (v := v) (v' := v.applyAll l) (x := ())).2 rfl]; simp
  · cases applyFields_ok.1 ha
    exact h

theorem Halts.extendPanic {p : Err n} {Q : Err n → View n → Prop}
    (h : Q { p with span := { p.span with hi := v.cur.hi } } v) :
    Halts (fun _ _ => extendPanic View.ops p) v Q := by
  refine .const ?_ fun a v' ha => ?_
  · rw [(extendPanic_ok (v := v) (v' := v)).2 ⟨rfl, rfl⟩]; simp
  · obtain ⟨rfl, rfl⟩ := extendPanic_ok.1 ha
    exact h

end

/-! ### Lengths -/

/-- Number of tokens left. -/
abbrev View.len (v : View n) : Nat := v.rest.length

theorem Adv.len_le {v v' : View n} (h : Adv v v') : v'.len ≤ v.len := by
  obtain ⟨ts, h1, _⟩ := h.cons
  simp [View.len, h1]

theorem Adv.rest_eq {v v' : View n} (h : Adv v v') (hl : v.len ≤ v'.len) : v'.rest = v.rest := by
  obtain ⟨ts, h1, _⟩ := h.cons
  have : ts = [] := by
    apply List.eq_nil_of_length_eq_zero
    simp only [View.len, h1, List.length_append] at hl
    omega
  simp [h1, this]

theorem Adv.look_eq {v v' : View n} (h : Adv v v') (hl : v.len ≤ v'.len) : v'.look = v.look := by
  unfold View.look
  rw [h.rest_eq hl, h.src]

theorem Adv.cur_eq {v v' : View n} (h : Adv v v') (hl : v.len ≤ v'.len) : v'.cur = v.cur := by
  unfold View.cur
  rw [h.rest_eq hl, h.src]

theorem skip_len {v : View n} (h : v.rest ≠ []) : v.skip.len < v.len := by
  unfold View.skip View.consume
  cases hr : v.rest with
  | nil => exact absurd hr h
  | cons t l => simp [View.len, hr]

theorem skip_len_lt {v v1 : View n} (ha : Adv v v1) (h : v.rest ≠ []) : v1.skip.len < v.len := by
  by_cases h1 : v1.len < v.len
  · exact Nat.lt_of_le_of_lt (Adv.skip v1).len_le h1
  · have : v1.rest = v.rest := ha.rest_eq (by omega)
    have h2 := skip_len (v := v1) (by rw [this]; exact h)
    have h3 := ha.len_le
    omega

theorem look_none {v : View n} : v.look = none ↔ v.rest = [] := by
  unfold View.look
  cases v.rest <;> simp

theorem look_some {v : View n} : v.look ≠ none ↔ v.rest ≠ [] := not_congr look_none

/-! ### Loops -/

section
variable {L : Nat} {p pp : Nat → P (View n) n}

theorem iter_halts {first : TSet n}
    (hp : ∀ w : View n, w.len ≤ L → w.rest ≠ [] → first.contains w.look = true →
      Halts (fun _ j => p j) w (fun _ w' => Adv w w' ∧ w'.len < w.len)) :
    ∀ (v : View n) acc errs hi, v.len ≤ L →
      Halts (fun i j => iterLoop View.ops first (p j) i acc errs hi) v (fun _ v' => Adv v v' ∧
        (v.rest ≠ [] → first.contains v.look = true → v'.len < v.len)) := by
  intro v
  generalize hk : v.len = k
  induction k using Nat.strongRecOn generalizing v with
  | ind k ih =>
    intro acc errs hi hL
    subst hk
    refine .succ ?_
    simp only [iterLoop]
    refine .bind (Q := fun x w => x = v.look ∧ w = v) (.peekSrc ⟨rfl, rfl⟩) ?_
    rintro _ _ ⟨rfl, rfl⟩
    rename_i v
    refine .ite (fun hc => ?_) (fun hc => ?_)
    · simp only [Bool.and_eq_true] at hc
      refine .bind (hp v hL ((look_isSome v).1 hc.1) hc.2) ?_
      rintro r w ⟨ha, hl⟩
      have next : ∀ acc errs hi, Halts (fun i j => iterLoop View.ops first (p j) i acc errs hi) w
          (fun _ v' => Adv v v' ∧ (v.rest ≠ [] → first.contains v.look = true → v'.len < v.len)) := by
        intro acc errs hi
        refine (ih w.len (by omega) w rfl acc errs hi (by omega)).mono ?_
        rintro _ v' ⟨h1, _⟩
        exact ⟨ha.trans h1, fun _ _ => Nat.lt_of_le_of_lt h1.len_le hl⟩
      cases r with
      | success t => exact next _ _ _
      | recovered t e => exact next _ _ _
      | panic e => exact .pure ⟨ha, fun _ _ => hl⟩
    · refine .pure ⟨.refl _, fun h1 h2 => ?_⟩
      exact absurd (by simp only [Bool.and_eq_true]; exact ⟨(look_isSome _).2 h1, h2⟩) hc

theorem plus_halts {first : TSet n} {v : View n} {K : Res n (Tree n) → View n → Prop} (hL : v.len ≤ L)
    (h0 : Halts (fun _ j => p j) v (fun r w => Adv v w ∧ K r w))
    (hp : ∀ w : View n, w.len ≤ L → w.rest ≠ [] → first.contains w.look = true →
      Halts (fun _ j => p j) w (fun _ w' => Adv w w' ∧ w'.len < w.len)) :
    Halts (fun i j => producePlus View.ops first (p j) i) v (fun r v' => Adv v v' ∧
      ∃ r0 w, K r0 w ∧ Adv v w ∧ Adv w v' ∧ (r0.tree?.isSome = true → r.tree?.isSome = true)) := by
  simp only [producePlus]
  refine .bind h0 ?_
  rintro r0 w ⟨ha, hk⟩
  have rest : ∀ t errs, Halts (fun i j => plusRest View.ops first (p j) i t errs) w (fun r v' => Adv v v' ∧
      ∃ r0 w, K r0 w ∧ Adv v w ∧ Adv w v' ∧ (r0.tree?.isSome = true → r.tree?.isSome = true)) := by
    intro t errs
    simp only [plusRest]
    refine .bind (iter_halts hp w _ _ _ (Nat.le_trans ha.len_le hL)) ?_
    rintro ⟨l, errs, hi⟩ v' ⟨h1, -⟩
    refine .pure ⟨ha.trans h1, r0, w, hk, ha, h1, fun _ => ?_⟩
    simp only [Res.ofPair]; split <;> rfl
  cases r0 with
  | success t => exact rest t []
  | recovered t e => exact rest t e
  | panic e =>
    exact .pure ⟨ha, .panic e, w, hk, ha, .refl _, fun h => h⟩


theorem skip_halts {first : TSet n} : ∀ (v : View n) hi,
    Halts (fun i _ => skipLoop View.ops first i hi) v (fun r v' => Adv v v' ∧
      (r.2 = true → v'.rest ≠ [] ∧ first.contains v'.look = true) ∧
      ∀ I : View n → Prop, (∀ w, I w → I w.skip) → I v → I v') := by
  intro v
  generalize hk : v.len = k
  induction k using Nat.strongRecOn generalizing v with
  | ind k ih =>
    intro hi
    subst hk
    refine .succ ?_
    simp only [skipLoop]
    refine .bind (Q := fun x w => x = v.look ∧ w = v) (.peekSrc ⟨rfl, rfl⟩) ?_
    rintro _ _ ⟨rfl, rfl⟩
    rename_i v
    refine .ite (fun hc => ?_) (fun hc => ?_)
    · simp only [Bool.and_eq_true] at hc
      have hne := (look_isSome v).1 hc.1
      refine .bind (Q := fun x w => w = v) (.currentSpan rfl) ?_
      rintro sp _ rfl
      rename_i v
      refine .bind (Q := fun x w => w = v.skip) (.consume rfl) ?_
      rintro _ _ rfl
      refine (ih _ (skip_len hne) v.skip rfl _).mono ?_
      rintro r v' ⟨h1, h2, h3⟩
      exact ⟨(Adv.skip v).trans h1, h2, fun I hI hv => h3 I hI (hI _ hv)⟩
    · refine .pure ⟨.refl _, fun hs => ?_, fun _ _ h => h⟩
      have hs' : v.look.isSome = true := hs
      simp only [hs', Bool.true_and, Bool.not_eq_true', Bool.not_eq_false] at hc
      exact ⟨(look_isSome v).1 hs', hc⟩

/-- `Loop` ends if every element it tries ends: an element that does not advance ends it. -/
theorem loop_halts {first : TSet n} {strict : Prop} {I : View n → Prop} (hI : ∀ w, I w → I w.skip)
    (hp : ∀ w : View n, I w → w.rest ≠ [] → first.contains w.look = true →
      Halts (fun _ j => p j) w (fun _ w' => Adv w w' ∧ I w' ∧ (strict → w'.len < w.len))) :
    ∀ (v : View n) out errs, I v →
      Halts (fun i j => loopLoop View.ops first (p j) i out errs) v (fun _ v' => Adv v v' ∧
        (strict → v.rest ≠ [] → v'.len < v.len)) := by
  intro v
  generalize hk : v.len = k
  induction k using Nat.strongRecOn generalizing v with
  | ind k ih =>
    intro out errs hL
    subst hk
    refine .succ ?_
    simp only [loopLoop]
    refine .bind (Q := fun x w => x = v.look ∧ w = v) (.peekSrc ⟨rfl, rfl⟩) ?_
    rintro _ _ ⟨rfl, rfl⟩
    rename_i v
    refine .ite (fun hc => ?_) (fun hc => ?_)
    · exact .pure ⟨.refl _, fun _ h => absurd ((look_isNone v).1 hc) h⟩
    have hne : v.rest ≠ [] := fun h => hc ((look_isNone v).2 h)
    refine .bind (Q := fun r w => Adv v w ∧ I w ∧ (r.2 = true → w.rest ≠ [] ∧ first.contains w.look = true) ∧
      (first.contains v.look = true → w = v ∧ r.2 = true) ∧
      (¬ first.contains v.look = true → w.len < v.len)) ?_ ?_
    · refine .ite (fun hf => ?_) (fun hf => ?_)
      · simp only [loopSkip]
        refine .bind (Q := fun x w => w = v) (.currentSpan rfl) ?_
        rintro sp _ rfl
        rename_i v
        refine .bind (Q := fun x w => w = v.skip) (.consume rfl) ?_
        rintro _ _ rfl
        refine .bind (skip_halts v.skip _) ?_
        rintro ⟨hi, more⟩ w ⟨h1, h2, h3⟩
        have hlt : w.len < v.len := Nat.lt_of_le_of_lt h1.len_le (skip_len hne)
        exact .pure ⟨(Adv.skip v).trans h1, h3 I hI (hI _ hL), h2, fun h => by simp [h] at hf, fun _ => hlt⟩
      · have hf' : first.contains v.look = true := by simpa using hf
        exact .pure ⟨.refl _, hL, fun _ => ⟨hne, hf'⟩, fun _ => ⟨rfl, rfl⟩, fun h => absurd hf' h⟩
    · rintro ⟨errs1, more⟩ w ⟨ha, hi, hm, he, hn⟩
      refine .ite (fun hc => ?_) (fun hc => ?_)
      · refine .pure ⟨ha, fun _ _ => hn fun h => ?_⟩
        have := (he h).2
        simp only at this
        simp [this] at hc
      have hmore : more = true := by simpa using hc
      obtain ⟨hw, hwf⟩ := hm hmore
      refine .bind (Q := fun r w' => Adv w w' ∧ I w' ∧ (strict → w'.len < w.len) ∧
        (r.1 = true → w'.len < w.len)) ?_ ?_
      · simp only [loopElem]
        refine .bind (Q := fun x w' => x = w.cur ∧ w' = w) (.currentSpan ⟨rfl, rfl⟩) ?_
        rintro _ _ ⟨rfl, rfl⟩
        rename_i w
        refine .bind (hp w hi hw hwf) ?_
        rintro r w' ⟨h1, hi', h2⟩
        refine .bind (Q := fun x w'' => x = w'.cur ∧ w'' = w') (.currentSpan ⟨rfl, rfl⟩) ?_
        rintro _ _ ⟨rfl, rfl⟩
        rename_i w'
        refine .ite (fun _ => .pure ⟨h1, hi', h2, fun h => by cases h⟩) (fun hlo => .pure ⟨h1, hi', h2, fun _ => ?_⟩)
        apply Classical.byContradiction
        intro hlt
        exact hlo (by rw [h1.cur_eq (by omega)])
      · rintro ⟨go, out', errs'⟩ w' ⟨h1, hi', h2, h3⟩
        have hwv := ha.len_le
        refine .ite (fun hg => ?_) (fun _ => .pure ⟨ha.trans h1, fun hs _ => by have := h2 hs; omega⟩)
        have h4 := h3 hg
        refine (ih w'.len (by omega) w' rfl out' errs' hi').mono ?_
        rintro _ v' ⟨h5, _⟩
        exact ⟨(ha.trans h1).trans h5, fun _ _ => by have := h5.len_le; omega⟩

theorem produceLoop_halts' {first : TSet n} {strict : Prop} {I : View n → Prop} (hI : ∀ w, I w → I w.skip)
    (hp : ∀ w : View n, I w → w.rest ≠ [] → first.contains w.look = true →
      Halts (fun _ j => p j) w (fun _ w' => Adv w w' ∧ I w' ∧ (strict → w'.len < w.len))) (v : View n)
    (hL : I v) : Halts (fun i j => produceLoop View.ops first (p j) i) v (fun r v' => Adv v v' ∧
      (strict → v.rest ≠ [] → v'.len < v.len) ∧ r.tree?.isSome = true) := by
  have hof : ∀ (x : Tree n) (e : List (Err n)), (Res.ofPair x e).tree?.isSome = true := by
    intro x e; unfold Res.ofPair; split <;> rfl
  simp only [produceLoop]
  refine .bind (loop_halts hI hp v [] [] hL) ?_
  rintro ⟨out, errs⟩ v' ⟨h1, h2⟩
  refine .ite (fun _ => ?_) (fun _ => .pure ⟨h1, h2, hof _ _⟩)
  refine .bind (Q := fun x w => w = v') (.emptySpan rfl) ?_
  rintro sp _ rfl
  exact .pure ⟨h1, h2, hof _ _⟩

theorem produceLoop_halts {first : TSet n} {strict : Prop}
    (hp : ∀ w : View n, w.len ≤ L → w.rest ≠ [] → first.contains w.look = true →
      Halts (fun _ j => p j) w (fun _ w' => Adv w w' ∧ (strict → w'.len < w.len))) (v : View n)
    (hL : v.len ≤ L) : Halts (fun i j => produceLoop View.ops first (p j) i) v (fun r v' => Adv v v' ∧
      (strict → v.rest ≠ [] → v'.len < v.len) ∧ r.tree?.isSome = true) := by
  refine produceLoop_halts' (I := fun w => w.len ≤ L)
    (fun w hw => Nat.le_trans (Adv.skip w).len_le hw) (fun w hw h1 h2 => ?_) v hL
  refine (hp w hw h1 h2).mono ?_
  rintro r w' ⟨h3, h4⟩
  exact ⟨h3, Nat.le_trans h3.len_le hw, h4⟩

theorem splitTry_halts {ef : TSet n} {q : Tree n} {a : Acc n} {panic : Option (Err n)} {v : View n}
    (hp : Halts (fun _ j => p j) v (fun _ w => Adv v w)) :
    Halts (fun _ j => splitTry View.ops ef (p j) q a panic) v (fun r w => Adv v w ∧
      ∀ tok panic1, r = .ok (tok, panic1) → tok = w.look) := by
  simp only [splitTry]
  refine .bind (Q := fun x w => x = v.look ∧ w = v) (.peekSrc ⟨rfl, rfl⟩) ?_
  rintro _ _ ⟨rfl, rfl⟩
  rename_i v
  refine .ite (fun hc => ?_) (fun hc => ?_)
  · refine .bind hp ?_
    intro r w ha
    cases r with
    | success t => exact .pure ⟨ha, fun _ _ h => by cases h⟩
    | recovered t e => exact .pure ⟨ha, fun _ _ h => by cases h⟩
    | panic e =>
      refine .bind (Q := fun x w' => x = w.look ∧ w' = w) (.peekSrc ⟨rfl, rfl⟩) ?_
      rintro _ _ ⟨rfl, rfl⟩
      exact .pure ⟨ha, fun _ _ h => by cases h; rfl⟩
  · cases panic with
    | some pe =>
      refine .bind (Q := fun x w => w = v) (.extendPanic rfl) ?_
      rintro _ _ rfl
      exact .pure ⟨.refl _, fun _ _ h => by cases h; rfl⟩
    | none =>
      refine .bind (Q := fun x w => w = v) (.expecting rfl) ?_
      rintro _ _ rfl
      exact .pure ⟨.refl _, fun _ _ h => by cases h; rfl⟩

theorem inner_halts {ef pf fol : TSet n} {q : Tree n}
    (hp : ∀ w : View n, w.len ≤ L → Halts (fun _ j => p j) w (fun _ w' => Adv w w')) :
    ∀ (v : View n) a panic, v.len ≤ L →
      Halts (fun i j => splitInner View.ops ef pf fol (p j) q i a panic) v (fun _ v' => Adv v v') := by
  intro v
  generalize hk : v.len = k
  induction k using Nat.strongRecOn generalizing v with
  | ind k ih =>
    intro a panic hL
    subst hk
    refine .succ ?_
    simp only [splitInner]
    refine .bind (splitTry_halts (hp v hL)) ?_
    rintro r w ⟨ha, hr⟩
    cases r with
    | error a => exact .pure ha
    | ok x =>
      obtain ⟨tok, panic1⟩ := x
      cases hr _ _ rfl
      dsimp only
      refine .ite (fun _ => .pure ha) (fun _ => ?_)
      refine .ite (fun _ => .pure ha) (fun hc => ?_)
      have hne : w.rest ≠ [] := by
        intro h
        apply hc
        simp [(look_isNone w).2 h]
      refine .bind (Q := fun x w' => w' = w.skip) (.consume rfl) ?_
      rintro _ _ rfl
      have h1 := skip_len hne
      have h2 := ha.len_le
      exact (ih _ (by omega) w.skip rfl _ _ (by omega)).mono fun _ v' h => (ha.trans (.skip w)).trans h

theorem outer_halts {ef pf fol : TSet n}
    (hp : ∀ w : View n, w.len < L → Halts (fun _ j => p j) w (fun _ w' => Adv w w'))
    (hpp : ∀ w : View n, w.len ≤ L → w.rest ≠ [] → pf.contains w.look = true →
      Halts (fun _ j => pp j) w (fun _ w' => Adv w w' ∧ w'.len < w.len)) :
    ∀ (v : View n) a, v.len ≤ L →
      Halts (fun i j => splitOuter View.ops ef pf fol (p j) (pp j) i a) v (fun _ v' => Adv v v' ∧
        (v.rest ≠ [] → pf.contains v.look = true → v'.len < v.len)) := by
  intro v
  generalize hk : v.len = k
  induction k using Nat.strongRecOn generalizing v with
  | ind k ih =>
    intro a hL
    subst hk
    refine .succ ?_
    simp only [splitOuter]
    refine .bind (Q := fun x w => x = v.look ∧ w = v) (.peekSrc ⟨rfl, rfl⟩) ?_
    rintro _ _ ⟨rfl, rfl⟩
    rename_i v
    refine .ite (fun hc => ?_) (fun hc => ?_)
    · simp only [Bool.and_eq_true] at hc
      refine .bind (hpp v hL ((look_isSome v).1 hc.1) hc.2) ?_
      rintro r w ⟨ha, hl⟩
      have next : ∀ q a, Halts (fun i j => splitInner View.ops ef pf fol (p j) q i a none >>= fun x =>
          if x.1 then splitOuter View.ops ef pf fol (p j) (pp j) i x.2 else pure x.2) w
          (fun _ v' => Adv v v' ∧ (v.rest ≠ [] → pf.contains v.look = true → v'.len < v.len)) := by
        intro q a
        refine .bind (inner_halts (L := w.len) (fun w' hw' => hp w' (by omega)) w a none (Nat.le_refl _)) ?_
        rintro ⟨go, a1⟩ w1 h1
        have hlt : w1.len < v.len := Nat.lt_of_le_of_lt h1.len_le hl
        refine .ite (fun _ => ?_) (fun _ => .pure ⟨ha.trans h1, fun _ _ => hlt⟩)
        refine (ih w1.len hlt w1 rfl a1 (by omega)).mono ?_
        rintro _ v' ⟨h2, _⟩
        exact ⟨(ha.trans h1).trans h2, fun _ _ => Nat.lt_of_le_of_lt h2.len_le hlt⟩
      cases r with
      | panic e => exact .pure ⟨ha, fun _ _ => hl⟩
      | success q => exact next q a
      | recovered q e => exact next q _
    · refine .pure ⟨.refl _, fun h1 h2 => ?_⟩
      exact absurd (by simp only [Bool.and_eq_true]; exact ⟨(look_isSome _).2 h1, h2⟩) hc

theorem split_halts {ef pf fol : TSet n} {v : View n} {K : Res n (Tree n) → View n → Prop} (hL : v.len ≤ L)
    (h0 : Halts (fun _ j => p j) v (fun r w => Adv v w ∧ K r w))
    (hp : ∀ w : View n, w.len < L → Halts (fun _ j => p j) w (fun _ w' => Adv w w'))
    (hpp : ∀ r w, K r w → Adv v w → ∀ w' : View n, w'.len ≤ w.len → w'.rest ≠ [] →
      pf.contains w'.look = true → Halts (fun _ j => pp j) w' (fun _ w'' => Adv w' w'' ∧ w''.len < w'.len)) :
    Halts (fun i j => produceSplit View.ops ef pf fol (p j) (pp j) i) v (fun r v' => Adv v v' ∧
      ∃ r0 w, K r0 w ∧ Adv v w ∧ Adv w v' ∧ (r0.tree?.isSome = true → r.tree?.isSome = true ∧
        (w.rest ≠ [] → pf.contains w.look = true → v'.len < w.len))) := by
  simp only [produceSplit]
  refine .bind h0 ?_
  rintro r0 w ⟨ha, hk⟩
  have hw := ha.len_le
  have next : ∀ a lo, Halts (fun i j => splitOuter View.ops ef pf fol (p j) (pp j) i a >>= fun a =>
      pure (splitDone lo a)) w (fun r v' => Adv v v' ∧
      ∃ r0 w, K r0 w ∧ Adv v w ∧ Adv w v' ∧ (r0.tree?.isSome = true → r.tree?.isSome = true ∧
        (w.rest ≠ [] → pf.contains w.look = true → v'.len < w.len))) := by
    intro a lo
    refine .bind (outer_halts (L := w.len) (fun w' hw' => hp w' (by omega)) (hpp r0 w hk ha) w a
      (Nat.le_refl _)) ?_
    rintro a' v' ⟨h1, h2⟩
    refine .pure ⟨ha.trans h1, r0, w, hk, ha, h1, fun _ => ⟨?_, h2⟩⟩
    unfold splitDone Res.ofPair; split <;> rfl
  cases r0 with
  | success t => exact next _ _
  | recovered t e => exact next _ _
  | panic e => exact .pure ⟨ha, .panic e, w, hk, ha, .refl _, fun h => (by cases h)⟩

theorem punctTry_halts {ef fol : TSet n} {a : Acc n} {panic : Option (Err n)} {v : View n}
    (hp : Halts (fun _ j => p j) v (fun _ w => Adv v w)) :
    Halts (fun _ j => punctTry View.ops ef fol (p j) a panic) v (fun _ w => Adv v w) := by
  simp only [punctTry]
  refine .bind (Q := fun x w => w = v) (.peekSrc rfl) ?_
  rintro _ _ rfl
  rename_i v
  refine .ite (fun _ => .pure (.refl _)) (fun _ => ?_)
  refine .ite (fun _ => ?_) (fun _ => ?_)
  · refine .bind hp ?_
    intro r w ha
    cases r <;> exact .pure ha
  refine .ite (fun _ => .pure (.refl _)) (fun _ => ?_)
  cases panic with
  | some pe =>
    refine .bind (Q := fun x w => w = v) (.extendPanic rfl) ?_
    rintro _ _ rfl
    exact .pure (.refl _)
  | none =>
    refine .bind (Q := fun x w => w = v) (.currentSpan rfl) ?_
    rintro _ _ rfl
    exact .pure (.refl _)

theorem pinner_halts {ef pf fol : TSet n}
    (hp : ∀ w : View n, w.len ≤ L → Halts (fun _ j => p j) w (fun _ w' => Adv w w')) :
    ∀ (v : View n) a panic, v.len ≤ L →
      Halts (fun i j => punctInner View.ops ef pf fol (p j) i a panic) v (fun _ v' => Adv v v') := by
  intro v
  generalize hk : v.len = k
  induction k using Nat.strongRecOn generalizing v with
  | ind k ih =>
    intro a panic hL
    subst hk
    refine .succ ?_
    simp only [punctInner]
    refine .bind (punctTry_halts (hp v hL)) ?_
    intro r w ha
    cases r with
    | error a => exact .pure ha
    | ok panic1 =>
      refine .bind (Q := fun x w' => x = w.look ∧ w' = w) (.peekSrc ⟨rfl, rfl⟩) ?_
      rintro _ _ ⟨rfl, rfl⟩
      rename_i w
      refine .ite (fun _ => .pure ha) (fun _ => ?_)
      refine .ite (fun _ => .pure ha) (fun hc => ?_)
      have hne : w.rest ≠ [] := by
        intro h
        apply hc
        simp [(look_isNone w).2 h]
      refine .bind (Q := fun x w' => w' = w.skip) (.consume rfl) ?_
      rintro _ _ rfl
      have h1 := skip_len hne
      have h2 := ha.len_le
      exact (ih _ (by omega) w.skip rfl _ _ (by omega)).mono fun _ v' h => (ha.trans (.skip w)).trans h

theorem pouter_halts {ef pf fol : TSet n}
    (hp : ∀ w : View n, w.len < L → Halts (fun _ j => p j) w (fun _ w' => Adv w w'))
    (hpp : ∀ w : View n, w.len ≤ L → w.rest ≠ [] → pf.contains w.look = true →
      Halts (fun _ j => pp j) w (fun _ w' => Adv w w' ∧ w'.len < w.len)) :
    ∀ (v : View n) a, v.len ≤ L →
      Halts (fun i j => punctOuter View.ops ef pf fol (p j) (pp j) i a) v (fun _ v' => Adv v v' ∧
        (v.rest ≠ [] → pf.contains v.look = true → v'.len < v.len)) := by
  intro v
  generalize hk : v.len = k
  induction k using Nat.strongRecOn generalizing v with
  | ind k ih =>
    intro a hL
    subst hk
    refine .succ ?_
    simp only [punctOuter]
    refine .bind (Q := fun x w => x = v.look ∧ w = v) (.peekSrc ⟨rfl, rfl⟩) ?_
    rintro _ _ ⟨rfl, rfl⟩
    rename_i v
    refine .ite (fun hc => ?_) (fun hc => ?_)
    · simp only [Bool.and_eq_true] at hc
      refine .bind (hpp v hL ((look_isSome v).1 hc.1) hc.2) ?_
      rintro r w ⟨ha, hl⟩
      have next : ∀ a, Halts (fun i j => punctInner View.ops ef pf fol (p j) i a none >>= fun x =>
          if x.1 then punctOuter View.ops ef pf fol (p j) (pp j) i x.2 else pure x.2) w
          (fun _ v' => Adv v v' ∧ (v.rest ≠ [] → pf.contains v.look = true → v'.len < v.len)) := by
        intro a
        refine .bind (pinner_halts (L := w.len) (fun w' hw' => hp w' (by omega)) w a none (Nat.le_refl _)) ?_
        rintro ⟨go, a1⟩ w1 h1
        have hlt : w1.len < v.len := Nat.lt_of_le_of_lt h1.len_le hl
        refine .ite (fun _ => ?_) (fun _ => .pure ⟨ha.trans h1, fun _ _ => hlt⟩)
        refine (ih w1.len hlt w1 rfl a1 (by omega)).mono ?_
        rintro _ v' ⟨h2, _⟩
        exact ⟨(ha.trans h1).trans h2, fun _ _ => Nat.lt_of_le_of_lt h2.len_le hlt⟩
      cases r with
      | panic e => exact .pure ⟨ha, fun _ _ => hl⟩
      | success q => exact next _
      | recovered q e => exact next _
    · refine .pure ⟨.refl _, fun h1 h2 => ?_⟩
      exact absurd (by simp only [Bool.and_eq_true]; exact ⟨(look_isSome _).2 h1, h2⟩) hc

theorem punct_halts {ef pf fol : TSet n} {v : View n} {K : Res n (Tree n) → View n → Prop} (hL : v.len ≤ L)
    (h0 : Halts (fun _ j => p j) v (fun r w => Adv v w ∧ K r w))
    (hp : ∀ w : View n, w.len < L → Halts (fun _ j => p j) w (fun _ w' => Adv w w'))
    (hpp : ∀ r w, K r w → Adv v w → ∀ w' : View n, w'.len ≤ w.len → w'.rest ≠ [] →
      pf.contains w'.look = true → Halts (fun _ j => pp j) w' (fun _ w'' => Adv w' w'' ∧ w''.len < w'.len)) :
    Halts (fun i j => producePunct View.ops ef pf fol (p j) (pp j) i) v (fun r v' => Adv v v' ∧
      ∃ r0 w, K r0 w ∧ Adv v w ∧ Adv w v' ∧ (r0.tree?.isSome = true → r.tree?.isSome = true ∧
        (w.rest ≠ [] → pf.contains w.look = true → v'.len < w.len))) := by
  simp only [producePunct]
  refine .bind h0 ?_
  rintro r0 w ⟨ha, hk⟩
  have hw := ha.len_le
  have next : ∀ a lo, Halts (fun i j => punctOuter View.ops ef pf fol (p j) (pp j) i a >>= fun a =>
      pure (punctDone lo a)) w (fun r v' => Adv v v' ∧
      ∃ r0 w, K r0 w ∧ Adv v w ∧ Adv w v' ∧ (r0.tree?.isSome = true → r.tree?.isSome = true ∧
        (w.rest ≠ [] → pf.contains w.look = true → v'.len < w.len))) := by
    intro a lo
    refine .bind (pouter_halts (L := w.len) (fun w' hw' => hp w' (by omega)) (hpp r0 w hk ha) w a
      (Nat.le_refl _)) ?_
    rintro a' v' ⟨h1, h2⟩
    refine .pure ⟨ha.trans h1, r0, w, hk, ha, h1, fun _ => ⟨?_, h2⟩⟩
    unfold punctDone Res.ofPair; split <;> rfl
  cases r0 with
  | success t => exact next _ _
  | recovered t e => exact next _ _
  | panic e => exact .pure ⟨ha, .panic e, w, hk, ha, .refl _, fun h => (by cases h)⟩

theorem option_halts {first : TSet n} {mk : Span → Option (Tree n) → Tree n} {x : Nat → Nat → P (View n) n}
    {v : View n} {strict : Prop}
    (hp : v.rest ≠ [] → first.contains v.look = true →
      Halts x v (fun _ w => Adv v w ∧ (strict → w.len < v.len))) :
    Halts (fun i j => produceOption View.ops first (x i j) mk) v (fun r v' => Adv v v' ∧
      (strict → v.rest ≠ [] → first.contains v.look = true → v'.len < v.len) ∧ r.tree?.isSome = true) := by
  simp only [produceOption]
  refine .bind (Q := fun x w => x = v.look ∧ w = v) (.peekSrc ⟨rfl, rfl⟩) ?_
  rintro _ _ ⟨rfl, rfl⟩
  rename_i v
  refine .ite (fun hc => ?_) (fun hc => ?_)
  · simp only [Bool.and_eq_true] at hc
    refine .bind (hp ((look_isSome v).1 hc.1) hc.2) ?_
    rintro r w ⟨h1, h2⟩
    cases r with
    | success t => exact .pure ⟨h1, fun hs _ _ => h2 hs, rfl⟩
    | recovered t e => exact .pure ⟨h1, fun hs _ _ => h2 hs, rfl⟩
    | panic e =>
      refine .bind (Q := fun x w' => w' = w) (.emptySpan rfl) ?_
      rintro _ _ rfl
      exact .pure ⟨h1, fun hs _ _ => h2 hs, rfl⟩
  · refine .bind (Q := fun x w' => w' = v) (.emptySpan rfl) ?_
    rintro _ _ rfl
    refine .pure ⟨.refl _, fun _ h1 h2 => ?_, rfl⟩
    exact absurd (by simp only [Bool.and_eq_true]; exact ⟨(look_isSome _).2 h1, h2⟩) hc

theorem text_halts {v : View n} {K : Res n (Tree n) → View n → Prop}
    (hp : Halts (fun _ j => p j) v (fun r w => Adv v w ∧ K r w)) :
    Halts (fun _ j => produceText View.ops (p j)) v (fun r v' => Adv v v' ∧
      ∃ r0, K r0 v' ∧ (r0.tree?.isSome = true → r.tree?.isSome = true)) := by
  simp only [produceText]
  refine .bind hp ?_
  rintro r w ⟨ha, hk⟩
  cases r with
  | success t =>
    refine .bind (Q := fun x w' => w' = w) (.getSrc fun _ _ => rfl) ?_
    rintro _ _ rfl
    exact .pure ⟨ha, _, hk, fun _ => rfl⟩
  | recovered t e =>
    refine .bind (Q := fun x w' => w' = w) (.getSrc fun _ _ => rfl) ?_
    rintro _ _ rfl
    exact .pure ⟨ha, _, hk, fun _ => rfl⟩
  | panic e => exact .pure ⟨ha, _, hk, fun h => (by cases h)⟩

theorem recoverHead_halts {hf : TSet n} {v : View n} {K : Res n (Tree n) → View n → Prop}
    (hp : hf.contains v.look = true ∨ hf.containsE = true →
      Halts (fun _ j => p j) v (fun r w => Adv v w ∧ K r w)) :
    Halts (fun _ j => recoverHead View.ops hf (p j)) v (fun _ w => Adv v w ∧
      (hf.contains v.look = true ∨ hf.containsE = true → ∃ r0, K r0 w) ∧
      (¬ (hf.contains v.look = true ∨ hf.containsE = true) → w = v)) := by
  simp only [recoverHead]
  refine .bind (Q := fun x w => x = v.look ∧ w = v) (.peekSrc ⟨rfl, rfl⟩) ?_
  rintro _ _ ⟨rfl, rfl⟩
  rename_i v
  refine .ite (fun hc => ?_) (fun hc => ?_)
  · rw [Bool.or_eq_true] at hc
    refine .bind (hp hc) ?_
    rintro r w ⟨ha, hk⟩
    cases r with
    | success t => exact .pure ⟨ha, fun _ => ⟨_, hk⟩, fun h => absurd hc h⟩
    | recovered t e => exact .pure ⟨ha, fun _ => ⟨_, hk⟩, fun h => absurd hc h⟩
    | panic e =>
      refine .bind (Q := fun x w' => w' = w) (.emptySpan rfl) ?_
      rintro _ _ rfl
      exact .pure ⟨ha, fun _ => ⟨_, hk⟩, fun h => absurd hc h⟩
  · refine .bind (Q := fun x w' => w' = v) (.expecting rfl) ?_
    rintro _ _ rfl
    rename_i v
    refine .bind (Q := fun x w' => w' = v) (.emptySpan rfl) ?_
    rintro _ _ rfl
    exact .pure ⟨.refl _, fun h => absurd (by rw [Bool.or_eq_true]; exact h) hc, fun _ => rfl⟩

theorem recoverSkip_halts {tf : TSet n} {panic : Option (Err n)} {v : View n} :
    Halts (fun _ _ => recoverSkip View.ops tf panic) v (fun _ w => w = v.skip) := by
  cases panic with
  | some pe =>
    simp only [recoverSkip]
    refine .bind (Q := fun x w => w = v) (.extendPanic rfl) ?_
    rintro _ _ rfl
    rename_i v
    refine .bind (Q := fun x w => w = v.skip) (.consume rfl) ?_
    rintro _ _ rfl
    exact .pure rfl
  | none =>
    simp only [recoverSkip]
    refine .bind (Q := fun x w => w = v) (.expecting rfl) ?_
    rintro _ _ rfl
    rename_i v
    refine .bind (Q := fun x w => w = v.skip) (.consume rfl) ?_
    rintro _ _ rfl
    exact .pure rfl

/-- The tail of `Recover` ends if every attempt ends. -/
theorem tail_halts' {tf : TSet n} {K : View n → Res n (Tree n) → View n → Prop} {I : View n → Prop}
    (hI : ∀ w, I w → I w.skip) (hp : ∀ w : View n, I w → tf.contains w.look = true ∨ tf.containsE = true →
      Halts (fun _ j => p j) w (fun r w' => Adv w w' ∧ I w' ∧ K w r w')) :
    ∀ (v : View n) errs panic, I v →
      Halts (fun i j => recoverLoop View.ops tf (p j) i errs panic) v (fun x v' => Adv v v' ∧
        (tf.contains v.look = true ∨ tf.containsE = true → ∃ r0 w, K v r0 w ∧ Adv v w ∧ Adv w v' ∧
          (r0.tree?.isSome = true → x.1.isSome = true))) := by
  intro v
  generalize hk : v.len = k
  induction k using Nat.strongRecOn generalizing v with
  | ind k ih =>
    intro errs panic hL
    subst hk
    refine .succ ?_
    simp only [recoverLoop]
    refine .bind (Q := fun x w => x = v.look ∧ w = v) (.peekSrc ⟨rfl, rfl⟩) ?_
    rintro _ _ ⟨rfl, rfl⟩
    rename_i v
    refine .ite (fun hc => ?_) (fun hc => ?_)
    · have hl : v.look = none := by simpa using hc
      refine .ite (fun he => ?_) (fun he => ?_)
      · refine .bind (hp v hL (.inr he)) ?_
        rintro r w ⟨ha, hi, hk⟩
        cases r with
        | success t => exact .pure ⟨ha, fun _ => ⟨_, w, hk, ha, .refl _, fun _ => rfl⟩⟩
        | recovered t e => exact .pure ⟨ha, fun _ => ⟨_, w, hk, ha, .refl _, fun _ => rfl⟩⟩
        | panic e => exact .pure ⟨ha, fun _ => ⟨_, w, hk, ha, .refl _, fun h => (by cases h)⟩⟩
      · refine .pure ⟨.refl _, fun h => absurd ?_ he⟩
        rcases h with h | h
        · rw [hl] at h; exact h
        · exact h
    have hne : v.rest ≠ [] := fun h => hc ((look_isNone v).2 h)
    refine .ite (fun hg => ?_) (fun hg => ?_)
    · rw [Bool.or_eq_true] at hg
      refine .bind (hp v hL hg) ?_
      rintro r w ⟨ha, hi, hk⟩
      cases r with
      | success t => exact .pure ⟨ha, fun _ => ⟨_, w, hk, ha, .refl _, fun _ => rfl⟩⟩
      | recovered t e => exact .pure ⟨ha, fun _ => ⟨_, w, hk, ha, .refl _, fun _ => rfl⟩⟩
      | panic e =>
        refine .bind recoverSkip_halts ?_
        rintro panic1 _ rfl
        have hlt := skip_len_lt ha hne
        refine (ih _ hlt w.skip rfl errs panic1 (hI _ hi)).mono ?_
        rintro x v' ⟨h1, _⟩
        have h2 := (Adv.skip w).trans h1
        exact ⟨ha.trans h2, fun _ => ⟨_, w, hk, ha, h2, fun h => (by cases h)⟩⟩
    · refine .bind recoverSkip_halts ?_
      rintro panic1 _ rfl
      have hlt := skip_len hne
      refine (ih _ hlt v.skip rfl errs panic1 (hI _ hL)).mono ?_
      rintro x v' ⟨h1, _⟩
      exact ⟨(Adv.skip v).trans h1, fun h => absurd (by rw [Bool.or_eq_true]; exact h) hg⟩

theorem tail_halts {tf : TSet n} {K : View n → Res n (Tree n) → View n → Prop}
    (hp : ∀ w : View n, w.len ≤ L → tf.contains w.look = true ∨ tf.containsE = true →
      Halts (fun _ j => p j) w (fun r w' => Adv w w' ∧ K w r w')) :
    ∀ (v : View n) errs panic, v.len ≤ L →
      Halts (fun i j => recoverLoop View.ops tf (p j) i errs panic) v (fun x v' => Adv v v' ∧
        (tf.contains v.look = true ∨ tf.containsE = true → ∃ r0 w, K v r0 w ∧ Adv v w ∧ Adv w v' ∧
          (r0.tree?.isSome = true → x.1.isSome = true))) := by
  refine tail_halts' (I := fun w => w.len ≤ L)
    (fun w hw => Nat.le_trans (Adv.skip w).len_le hw) (fun w hw h1 => ?_)
  refine (hp w hw h1).mono ?_
  rintro r w' ⟨h3, h4⟩
  exact ⟨h3, Nat.le_trans h3.len_le hw, h4⟩

end
end Teleparse
