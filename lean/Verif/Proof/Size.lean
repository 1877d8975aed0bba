import Verif.Spec.Size
import Verif.Proof.ErrCount
/-
The size of a tree is at most twice the number of stream operations.
-/
namespace Teleparse
variable {m n : Nat} {σ α β : Type}

theorem sizes_append (l l' : List (Tree n)) : sizes (l ++ l') = sizes l + sizes l' := by
  induction l with
  | nil => simp [sizes]
  | cons a l ih => simp [sizes, ih]; omega

theorem sizes_snoc (l : List (Tree n)) (t : Tree n) : sizes (l ++ [t]) = sizes l + t.size := by
  rw [sizes_append]; simp [sizes]

/-- Every two nodes are paid for by an operation: `f` in the end, `b` in the beginning. -/
def Grow (x : M (σ × Nat) α) (f : α → Nat) (b : Nat) : Prop :=
  ∀ s k a s' k', x (s, k) = .ok a (s', k') → f a + 2 * k ≤ b + 2 * k'

theorem Grow.pure {a : α} {f : α → Nat} {b : Nat} (h : f a ≤ b) : Grow (Pure.pure a : M (σ × Nat) α) f b := by
  intro s k a' s' k' e
  obtain ⟨rfl, e⟩ := pure_ok.1 e
  cases e
  omega

theorem Grow.bind {x : M (σ × Nat) α} {F : α → M (σ × Nat) β} {g : α → Nat} {f : β → Nat} {b : Nat}
    (h : Grow x g b) (hF : ∀ a, Grow (F a) f (g a)) : Grow (x >>= F) f b := by
  intro s k a' s' k' e
  obtain ⟨a, ⟨s1, k1⟩, h1, h2⟩ := bind_ok.1 e
  have := h _ _ _ _ _ h1
  have := hF _ _ _ _ _ _ h2
  omega

theorem Grow.frame {x : M (σ × Nat) α} {f : α → Nat} {b : Nat} (h : Grow x f b) (c : Nat) :
    Grow x (fun a => f a + c) (b + c) := by
  intro s k a s' k' e
  have := h _ _ _ _ _ e
  show f a + c + 2 * k ≤ _
  omega

theorem Grow.weaken {x : M (σ × Nat) α} {f g : α → Nat} {b c : Nat} (h : Grow x f b) (hb : b ≤ c)
    (hf : ∀ a, g a ≤ f a) : Grow x g c := by
  intro s k a s' k' e
  have := h _ _ _ _ _ e
  have := hf a
  omega

theorem Grow.ite {c : Prop} [Decidable c] {x y : M (σ × Nat) α} {f : α → Nat} {b : Nat} (h1 : Grow x f b)
    (h2 : Grow y f b) : Grow (if c then x else y) f b := by
  by_cases hc : c
  · rw [if_pos hc]; exact h1
  · rw [if_neg hc]; exact h2

theorem Grow.fuel {f : α → Nat} {b : Nat} : Grow (M.fuel : M (σ × Nat) α) f b := fun _ _ _ _ _ h => by cases h

theorem Grow.of_led {x : M (σ × Nat) α} {c : Nat} (h : Led x (fun _ => c) 0) {b : Nat} :
    Grow x (fun _ => b + 2 * c) b := by
  intro s k a s' k' e
  have h : c + k ≤ 0 + k' := h _ _ _ _ _ e
  show b + 2 * c + 2 * k ≤ _
  omega

section
variable (o : Ops σ n)

theorem Grow.peekSrc {b : Nat} : Grow o.counted.mPeekSrc (fun _ => b + 2) b := .of_led (.peekSrc o)
theorem Grow.currentSpan {b : Nat} : Grow o.counted.mCurrentSpan (fun _ => b + 2) b := .of_led (.currentSpan o)
theorem Grow.expecting {x : TSet n} {b : Nat} : Grow (o.counted.mExpecting x) (fun _ => b) b :=
  (Grow.of_led (.expecting o)).weaken (Nat.le_refl _) fun _ => Nat.le_add_right _ _
theorem Grow.extend {p : Err n} {b : Nat} : Grow (extendPanic o.counted p) (fun _ => b) b := .of_led (.extend o)
theorem Grow.consume {b : Nat} : Grow o.counted.mConsume (fun _ => b) b := .of_led (.consume o)
theorem Grow.emptySpan {b : Nat} : Grow o.counted.mEmptySpan (fun _ => b) b := .of_led (.emptySpan o)
theorem Grow.getSrc {sp : Span} {b : Nat} : Grow (o.counted.mGetSrc sp) (fun _ => b) b := .of_led (.getSrc o)
theorem Grow.fields {b : Nat} (l) : Grow (applyFields o.counted l) (fun _ => b) b := .of_led (.fields o l)

/-- The nodes of a result, and one more. -/
def Res.sz (r : Res n (Tree n)) : Nat :=
  match r with
  | .success t => t.size + 1
  | .recovered t _ => t.size + 1
  | .panic _ => 0

theorem sz_ofPair (x : Tree n) (e : List (Err n)) : (Res.ofPair x e).sz = x.size + 1 := by
  unfold Res.ofPair
  split <;> rfl

theorem size_pos : ∀ t : Tree n, 1 ≤ t.size
  | .tok _ => Nat.le_refl _
  | .seq _ [] => by simp [Tree.size, sizes]
  | .seq _ [t] => by
    have := size_pos t
    simp [Tree.size, sizes]; omega
  | .seq _ (a :: b :: l) => by simp [Tree.size]
  | .variant _ t => by simp [Tree.size]
  | .optSome _ t => by simp [Tree.size]
  | .optNone _ => Nat.le_refl _
  | .exist _ _ => Nat.le_refl _
  | .text _ _ => Nat.le_refl _
  | .list _ l => by simp [Tree.size]
  | .split _ l q => by simp [Tree.size]
  | .recover _ h t => by simp [Tree.size]
  | .recoverNone _ t => by simp [Tree.size]

theorem Grow.peek {b : Nat} : Grow o.counted.mPeek (fun _ => b + 2) b := .of_led (.peek o)

theorem Grow.eof {b : Nat} : Grow o.counted.mUnexpectedEof (fun _ => b) b :=
  (Grow.of_led (.eof o)).weaken (Nat.le_refl _) fun _ => Nat.le_add_right _ _

theorem Grow.span {b : Nat} : Grow o.counted.mCurrentSpan (fun _ => b) b :=
  (Grow.of_led (.currentSpan o)).weaken (Nat.le_refl _) fun _ => Nat.le_add_right _ _

theorem Grow.term {t : Terminal n} {fol : TSet n} : Grow (produceTerm o.counted t fol) Res.sz 0 := by
  have two : ∀ r : Res n (Token n), (r.map Tree.tok).sz ≤ 2 := by
    intro r; cases r <;> simp [Res.map, Res.sz, Tree.size]
  unfold produceTerm
  cases t.lit with
  | none =>
    refine .bind (g := fun _ => 2) ?_ fun r => .pure (two r)
    unfold Ops.parseToken
    have fail : Grow (do let e ← o.counted.mExpecting (TSet.one t.ty none); Pure.pure (Res.panic (α := Token n) [e]))
        (fun _ => 2) 2 := .bind (.expecting o) fun _ => .pure (Nat.le_refl _)
    refine .bind (.peek o) fun t => ?_
    cases t with
    | none => exact fail
    | some t => exact .ite (.bind (.consume o) fun _ => .pure (Nat.le_refl _)) fail
  | some lit =>
    refine .bind (g := fun _ => 2) ?_ fun r => .pure (two r)
    unfold Ops.parseTokenLit
    refine .bind (.peek o) fun t => ?_
    cases t with
    | none =>
      exact .ite (.bind (.span o) fun _ => .bind (.expecting o) fun _ => .pure (Nat.le_refl _))
        (.bind (.eof o) fun _ => .pure (Nat.le_refl _))
    | some t =>
      exact .bind (.getSrc o) fun _ => .ite (.bind (.consume o) fun _ => .pure (Nat.le_refl _))
        (.ite (.bind (.emptySpan o) fun _ => .bind (.expecting o) fun _ => .pure (Nat.le_refl _))
          (.bind (.expecting o) fun _ => .pure (Nat.le_refl _)))

variable {o}

/-- Parts that pay for their nodes. -/
abbrev Paid (p : P (σ × Nat) n) : Prop := Grow p Res.sz 0

theorem Paid.at {p : P (σ × Nat) n} (h : Paid p) (b : Nat) : Grow p (fun r => r.sz + b) b :=
  (Grow.frame h b).weaken (by omega) fun _ => Nat.le_refl _

/-- What the parts of a sequence are allowed to cost. -/
def exSz : Except (List (Err n)) (List (Tree n) × List (Err n)) → Nat
  | .ok x => (Tree.seq (spanOf x.1) x.1).size + 1
  | .error _ => 0

theorem seqLoop_grow : ∀ (ps : List (P (σ × Nat) n)) acc errs, (∀ p ∈ ps, Paid p) → acc ≠ [] ∨ ps ≠ [] →
    Grow (seqLoop ps acc errs) exSz (sizes acc + acc.length) := by
  intro ps
  induction ps with
  | nil =>
    intro acc errs _ h
    refine .pure ?_
    have h : acc.length ≠ 0 := by simpa using h
    simp only [exSz, Tree.size]
    split <;> omega
  | cons p ps ih =>
    intro acc errs h _
    have hp := fun acc errs => ih acc errs fun q hq => h q (by simp [hq])
    refine .bind (Paid.at (h p (by simp)) _) fun r => ?_
    cases r with
    | success t =>
      exact (hp _ _ (by simp)).weaken (by simp [Res.sz, sizes_snoc]; omega) fun _ => Nat.le_refl _
    | recovered t e =>
      exact (hp _ _ (by simp)).weaken (by simp [Res.sz, sizes_snoc]; omega) fun _ => Nat.le_refl _
    | panic e => exact .pure (Nat.zero_le _)

theorem tuple_grow {ps : List (P (σ × Nat) n)} (h : ∀ p ∈ ps, Paid p) (h' : ps ≠ []) : Paid (produceTuple ps) := by
  refine .bind (seqLoop_grow ps [] [] h (.inr h')) fun r => ?_
  cases r with
  | error e => exact .pure (Nat.zero_le _)
  | ok x => exact .pure (Nat.le_of_eq (sz_ofPair _ _))

theorem struct_grow {fs : List (P (σ × Nat) n × Option (LSet n))} (h : ∀ f ∈ fs, Paid f.1) (h' : fs ≠ []) :
    Paid (produceStruct o.counted fs) := by
  refine .bind (seqLoop_grow (fs.map (·.1)) [] [] ?_ (.inr (by simpa using h'))) fun r => ?_
  · intro p hp
    obtain ⟨f, hf, rfl⟩ := List.mem_map.1 hp
    exact h f hf
  · cases r with
    | error e => exact .pure (Nat.zero_le _)
    | ok x => exact .bind (.fields o _) fun _ => .pure (Nat.le_of_eq (sz_ofPair _ _))

theorem enum_grow {look first} {vs : List (P (σ × Nat) n × Option (LSet n))} (h : ∀ f ∈ vs, Paid f.1) :
    Paid (produceEnum o.counted look first vs) := by
  unfold produceEnum
  refine .bind (.peekSrc o) fun tok => ?_
  have fail : Grow (do let e ← o.counted.mExpecting first; Pure.pure (Res.panic (α := Tree n) [e])) Res.sz 2 :=
    .bind (.expecting o) fun _ => .pure (Nat.zero_le _)
  cases look tok with
  | none => exact fail
  | some i =>
    dsimp only
    cases hv : vs[i]? with
    | none => exact fail
    | some x =>
      refine .bind (Paid.at (h x (List.mem_of_getElem? hv)) _) fun r => ?_
      unfold mapVariant
      cases r with
      | success t => exact .bind (.fields o _) fun _ => .pure (by simp [Res.sz, Tree.size])
      | recovered t e => exact .bind (.fields o _) fun _ => .pure (by simp [Res.sz, Tree.size])
      | panic e => exact .pure (Nat.zero_le _)

theorem option_grow {first : TSet n} {p : P (σ × Nat) n} {mk} (h : Paid p) (h0 : ∀ sp, (mk sp none).size ≤ 1)
    (h1 : ∀ sp t, (mk sp (some t)).size ≤ t.size + 1) :
    Paid (produceOption o.counted first p mk) := by
  unfold produceOption
  refine .bind (.peekSrc o) fun tok => .ite ?_ ?_
  · refine .bind (Paid.at h _) fun r => ?_
    cases r with
    | success t => exact .pure (by have := h1 t.span t; simp [Res.sz]; omega)
    | recovered t e => exact .pure (by have := h1 t.span t; simp [Res.sz]; omega)
    | panic e => exact .bind (.emptySpan o) fun sp => .pure (by have := h0 sp; simp [Res.sz]; omega)
  · exact .bind (.emptySpan o) fun sp => .pure (by have := h0 sp; simp [Res.sz]; omega)

theorem text_grow {p : P (σ × Nat) n} (h : Paid p) : Paid (produceText o.counted p) := by
  refine .bind h fun r => ?_
  cases r with
  | success t => exact .bind (.getSrc o) fun _ => .pure (by have := size_pos t; simp [Res.sz, Tree.size]; omega)
  | recovered t e => exact .bind (.getSrc o) fun _ => .pure (by have := size_pos t; simp [Res.sz, Tree.size]; omega)
  | panic e => exact .pure (Nat.le_refl _)

theorem iter_grow {first : TSet n} {p : P (σ × Nat) n} (h : Paid p) : ∀ fuel acc errs hi,
    Grow (iterLoop o.counted first p fuel acc errs hi) (fun x => sizes x.1 + 2) (sizes acc) := by
  intro fuel
  induction fuel with
  | zero => intro _ _ _; exact .fuel
  | succ fuel ih =>
    intro acc errs hi
    unfold iterLoop
    refine .bind (.peekSrc o) fun tok => .ite (.bind (Paid.at h _) fun r => ?_) (.pure (Nat.le_refl _))
    cases r with
    | success t => exact (ih _ _ _).weaken (by simp [sizes_snoc, Res.sz]; omega) fun _ => Nat.le_refl _
    | recovered t e => exact (ih _ _ _).weaken (by simp [sizes_snoc, Res.sz]; omega) fun _ => Nat.le_refl _
    | panic e => exact .pure (by simp [Res.sz])

theorem plus_grow {first : TSet n} {p : P (σ × Nat) n} {fuel : Nat} (h : Paid p) :
    Paid (producePlus o.counted first p fuel) := by
  have rest : ∀ t errs, Grow (plusRest o.counted first p fuel t errs) Res.sz (sizes [t]) := fun t errs =>
    .bind (iter_grow h _ _ _ _) fun x => .pure (by rw [sz_ofPair]; simp [Tree.size])
  refine .bind h fun r => ?_
  cases r with
  | success t => exact (rest _ _).weaken (by simp [Res.sz, sizes]) fun _ => Nat.le_refl _
  | recovered t e => exact (rest _ _).weaken (by simp [Res.sz, sizes]) fun _ => Nat.le_refl _
  | panic e => exact .pure (Nat.le_refl _)

theorem skipLoop_grow {first : TSet n} {b : Nat} : ∀ fuel hi,
    Grow (skipLoop o.counted first fuel hi) (fun _ => b) b := by
  intro fuel hi
  exact (Grow.of_led (c := 0) (skipLoop_led fuel hi)).weaken (Nat.le_refl _) fun _ => Nat.le_refl _

theorem loopElem_grow {p : P (σ × Nat) n} (h : Paid p) {out : List (Tree n)} {errs : List (Err n)} :
    Grow (loopElem o.counted p out errs) (fun x => sizes x.2.1) (sizes out) := by
  refine .bind (.span o) fun sp => .bind (Paid.at h _) fun r => .bind (.span o) fun sp' => ?_
  cases r <;> refine .ite (.pure ?_) (.pure ?_) <;> simp [Res.sz, sizes_snoc] <;> omega

theorem loopLoop_grow {first : TSet n} {p : P (σ × Nat) n} (h : Paid p) : ∀ fuel out errs,
    Grow (loopLoop o.counted first p fuel out errs) (fun x => sizes x.1 + 2) (sizes out) := by
  intro fuel
  induction fuel with
  | zero => intro _ _; exact .fuel
  | succ fuel ih =>
    intro out errs
    unfold loopLoop
    refine .bind (.peekSrc o) fun tok => .ite (.pure (Nat.le_refl _)) ?_
    refine .bind (g := fun _ => sizes out + 2) (.ite ?_ (.pure (Nat.le_refl _))) fun x => ?_
    · exact .bind (.span o) fun _ => .bind (.consume o) fun _ => .bind (skipLoop_grow _ _) fun _ => .pure (Nat.le_refl _)
    obtain ⟨errs, more⟩ := x
    refine .ite (.pure (Nat.le_refl _)) (.bind (Grow.frame (loopElem_grow h) 2) fun y => ?_)
    obtain ⟨go, out, errs⟩ := y
    exact .ite ((ih _ _).weaken (Nat.le_add_right _ _) fun _ => Nat.le_refl _) (.pure (Nat.le_refl _))

theorem loop_grow {first : TSet n} {p : P (σ × Nat) n} {fuel : Nat} (h : Paid p) :
    Paid (produceLoop o.counted first p fuel) := by
  refine .bind ((loopLoop_grow h _ _ _).weaken (by simp [sizes]) fun _ => Nat.le_refl _) fun x => ?_
  obtain ⟨out, errs⟩ := x
  exact .ite (.bind (.emptySpan o) fun _ => .pure (by rw [sz_ofPair]; simp [Tree.size]))
    (.pure (by rw [sz_ofPair]; simp [Tree.size]))

/-- Nodes of the accumulator. -/
def Acc.sz (a : Acc n) : Nat := sizes a.elems + sizes a.puncts

theorem splitTry_grow {ef : TSet n} {pt : P (σ × Nat) n} (h : Paid pt) {q : Tree n} {a : Acc n}
    {panic : Option (Err n)} : Grow (splitTry o.counted ef pt q a panic)
      (fun x => match x with | .error a => a.sz | .ok _ => a.sz + q.size) (a.sz + q.size) := by
  unfold splitTry
  refine .bind (.peekSrc o) fun tok => .ite (.bind (Paid.at h _) fun r => ?_) ?_
  · cases r with
    | success t => exact .pure (by simp [Acc.sz, Res.sz, sizes_snoc]; omega)
    | recovered t e => exact .pure (by simp [Acc.sz, Res.sz, sizes_snoc]; omega)
    | panic e => exact .bind (.peekSrc o) fun tok => .pure (by simp only [Res.sz]; omega)
  · cases panic with
    | some p => exact .bind (.extend o) fun _ => .pure (Nat.le_add_right _ _)
    | none => exact .bind (.expecting o) fun _ => .pure (Nat.le_add_right _ _)

theorem splitInner_grow {ef pf fol : TSet n} {pt : P (σ × Nat) n} (h : Paid pt) {q : Tree n} : ∀ fuel a panic,
    Grow (splitInner o.counted ef pf fol pt q fuel a panic) (fun x => x.2.sz) (a.sz + q.size) := by
  intro fuel
  induction fuel with
  | zero => intro _ _; exact .fuel
  | succ fuel ih =>
    intro a panic
    unfold splitInner
    refine .bind (splitTry_grow h) fun x => ?_
    cases x with
    | error a => exact .pure (Nat.le_refl _)
    | ok y =>
      obtain ⟨tok, panic⟩ := y
      refine .ite (.pure ?_) (.ite (.pure ?_) (.bind (.consume o) fun _ => ih _ _)) <;> exact Nat.le_add_right _ _

theorem splitOuter_grow {ef pf fol : TSet n} {pt pp : P (σ × Nat) n} (h : Paid pt) (h' : Paid pp) : ∀ fuel a,
    Grow (splitOuter o.counted ef pf fol pt pp fuel a) (fun x => x.sz + 2) a.sz := by
  intro fuel
  induction fuel with
  | zero => intro _; exact .fuel
  | succ fuel ih =>
    intro a
    unfold splitOuter
    refine .bind (.peekSrc o) fun tok => .ite (.bind (Paid.at h' _) fun r => ?_) (.pure (Nat.le_refl _))
    have step : ∀ (a' : Acc n) (q : Tree n), a'.sz = a.sz → Grow (do
        let (go, a) ← splitInner o.counted ef pf fol pt q fuel a' none
        if go then splitOuter o.counted ef pf fol pt pp fuel a else Pure.pure a) (fun x => x.sz + 2)
        (q.size + 1 + (a.sz + 2)) := by
      intro a' q ha
      refine .bind ((Grow.frame (splitInner_grow h fuel a' none) 2).weaken (by omega) fun _ => Nat.le_refl _) fun x => ?_
      exact .ite ((ih _).weaken (Nat.le_add_right _ _) fun _ => Nat.le_refl _) (.pure (Nat.le_refl _))
    cases r with
    | panic e => exact .pure (by simp [Res.sz, Acc.sz])
    | success q => exact step _ _ rfl
    | recovered q e => exact step _ _ rfl

theorem split_grow {ef pf fol : TSet n} {pt pp : P (σ × Nat) n} {fuel : Nat} (h : Paid pt) (h' : Paid pp) :
    Paid (produceSplit o.counted ef pf fol pt pp fuel) := by
  refine .bind h fun r => ?_
  have last : ∀ t e, Grow (do
      let a ← splitOuter o.counted ef pf fol pt pp fuel ⟨[t], [], e⟩
      Pure.pure (splitDone t.span.lo a)) Res.sz (t.size + 1) := fun t e =>
    .bind ((splitOuter_grow h h' _ _).weaken (by simp [Acc.sz, sizes]) fun _ => Nat.le_refl _) fun a =>
      .pure (by unfold splitDone; rw [sz_ofPair]; simp [Tree.size, Acc.sz])
  cases r with
  | panic e => exact .pure (Nat.le_refl _)
  | success t => exact last t []
  | recovered t e => exact last t e

theorem punctTry_grow {ef fol : TSet n} {pt : P (σ × Nat) n} (h : Paid pt) {a : Acc n}
    {panic : Option (Err n)} : Grow (punctTry o.counted ef fol pt a panic)
      (fun x => match x with | .error y => y.2.sz | .ok _ => a.sz) a.sz := by
  unfold punctTry
  refine .bind (.peekSrc o) fun tok => .ite (.pure (Nat.le_add_right _ _)) (.ite (.bind (Paid.at h _) fun r => ?_)
    (.ite (.pure (Nat.le_add_right _ _)) ?_))
  · cases r with
    | success t => exact .pure (by simp [Acc.sz, Res.sz, sizes_snoc]; omega)
    | recovered t e => exact .pure (by simp [Acc.sz, Res.sz, sizes_snoc]; omega)
    | panic e => exact .pure (by simp only [Res.sz]; omega)
  · cases panic with
    | some p => exact .bind (.extend o) fun _ => .pure (Nat.le_add_right _ _)
    | none => exact .bind (.span o) fun _ => .pure (Nat.le_add_right _ _)

theorem punctInner_grow {ef pf fol : TSet n} {pt : P (σ × Nat) n} (h : Paid pt) : ∀ fuel a panic,
    Grow (punctInner o.counted ef pf fol pt fuel a panic) (fun x => x.2.sz) a.sz := by
  intro fuel
  induction fuel with
  | zero => intro _ _; exact .fuel
  | succ fuel ih =>
    intro a panic
    unfold punctInner
    refine .bind (punctTry_grow h) fun x => ?_
    cases x with
    | error a => exact .pure (Nat.le_refl _)
    | ok panic =>
      refine .bind (.peekSrc o) fun tok => .ite (.pure ?_) (.ite (.pure ?_) (.bind (.consume o) fun _ =>
        (ih _ _).weaken (Nat.le_add_right _ _) fun _ => Nat.le_refl _)) <;> exact Nat.le_add_right _ _

theorem punctOuter_grow {ef pf fol : TSet n} {pt pp : P (σ × Nat) n} (h : Paid pt) (h' : Paid pp) : ∀ fuel a,
    Grow (punctOuter o.counted ef pf fol pt pp fuel a) (fun x => x.sz + 2) a.sz := by
  intro fuel
  induction fuel with
  | zero => intro _; exact .fuel
  | succ fuel ih =>
    intro a
    unfold punctOuter
    refine .bind (.peekSrc o) fun tok => .ite (.bind (Paid.at h' _) fun r => ?_) (.pure (Nat.le_refl _))
    have step : ∀ (a' : Acc n) (q : Tree n), a'.sz = a.sz + q.size → Grow (do
        let (go, a) ← punctInner o.counted ef pf fol pt fuel a' none
        if go then punctOuter o.counted ef pf fol pt pp fuel a else Pure.pure a) (fun x => x.sz + 2)
        (q.size + 1 + (a.sz + 2)) := by
      intro a' q ha
      refine .bind ((Grow.frame (punctInner_grow h fuel a' none) 2).weaken (by omega) fun _ => Nat.le_refl _) fun x => ?_
      exact .ite ((ih _).weaken (Nat.le_add_right _ _) fun _ => Nat.le_refl _) (.pure (Nat.le_refl _))
    cases r with
    | panic e => exact .pure (by simp [Res.sz, Acc.sz])
    | success q => exact step _ _ (by simp [Acc.sz, sizes_snoc]; omega)
    | recovered q e => exact step _ _ (by simp [Acc.sz, sizes_snoc]; omega)

theorem punct_grow {ef pf fol : TSet n} {pt pp : P (σ × Nat) n} {fuel : Nat} (h : Paid pt) (h' : Paid pp) :
    Paid (producePunct o.counted ef pf fol pt pp fuel) := by
  refine .bind h fun r => ?_
  have last : ∀ t e, Grow (do
      let a ← punctOuter o.counted ef pf fol pt pp fuel ⟨[t], [], e⟩
      Pure.pure (punctDone t.span.lo a)) Res.sz (t.size + 1) := fun t e =>
    .bind ((punctOuter_grow h h' _ _).weaken (by simp [Acc.sz, sizes]) fun _ => Nat.le_refl _) fun a =>
      .pure (by unfold punctDone; rw [sz_ofPair]; simp [Tree.size, Acc.sz])
  cases r with
  | panic e => exact .pure (Nat.le_refl _)
  | success t => exact last t []
  | recovered t e => exact last t e

/-- Nodes of the head. -/
def RHead.sz (h : RHead n) : Nat := match h.head with | some x => x.size | none => 0

theorem recoverHead_grow {hf : TSet n} {pt : P (σ × Nat) n} (h : Paid pt) :
    Grow (recoverHead o.counted hf pt) (fun x => x.sz + 2) 0 := by
  unfold recoverHead
  refine .bind (.peekSrc o) fun tok => .ite (.bind (Paid.at h _) fun r => ?_) ?_
  · cases r with
    | success t => exact .pure (by simp [Res.sz, RHead.sz])
    | recovered t e => exact .pure (by simp [Res.sz, RHead.sz])
    | panic e => exact .bind (.emptySpan o) fun _ => .pure (by simp [RHead.sz])
  · exact .bind (.expecting o) fun _ => .bind (.emptySpan o) fun _ => .pure (by simp [RHead.sz])

theorem recoverSkip_grow {tf : TSet n} {panic : Option (Err n)} {b : Nat} :
    Grow (recoverSkip o.counted tf panic) (fun _ => b) b := by
  unfold recoverSkip
  cases panic with
  | some p => exact .bind (.extend o) fun _ => .bind (.consume o) fun _ => .pure (Nat.le_refl _)
  | none => exact .bind (.expecting o) fun _ => .bind (.consume o) fun _ => .pure (Nat.le_refl _)

/-- Nodes of the tail. -/
def tailSz (x : Option (Tree n)) : Nat := match x with | some x => x.size + 1 | none => 0

theorem recoverLoop_grow {tf : TSet n} {pr : P (σ × Nat) n} (h : Paid pr) {b : Nat} : ∀ fuel errs panic,
    Grow (recoverLoop o.counted tf pr fuel errs panic) (fun x => tailSz x.1 + b) b := by
  intro fuel
  induction fuel with
  | zero => intro _ _; exact .fuel
  | succ fuel ih =>
    intro errs panic
    unfold recoverLoop
    refine .bind (.peekSrc o) fun tok => .ite (.ite (.bind (Paid.at h _) fun r => ?_) (.pure (by simp [tailSz])))
      (.ite (.bind (Paid.at h _) fun r => ?_) ?_)
    · cases r <;> refine .pure ?_ <;> simp only [Res.sz, tailSz] <;> omega
    · cases r with
      | success t => exact .pure (by simp only [Res.sz, tailSz]; omega)
      | recovered t e => exact .pure (by simp only [Res.sz, tailSz]; omega)
      | panic e => exact .bind recoverSkip_grow fun _ => (ih _ _).weaken (by simp only [Res.sz]; omega) fun _ => Nat.le_refl _
    · exact .bind recoverSkip_grow fun _ => (ih _ _).weaken (Nat.le_add_right _ _) fun _ => Nat.le_refl _

theorem recover_grow {hf tf : TSet n} {pt pr : P (σ × Nat) n} {fuel : Nat} (h : Paid pt) (h' : Paid pr) :
    Paid (produceRecover o.counted hf tf pt pr fuel) := by
  refine .bind (recoverHead_grow h) fun x => .bind (recoverLoop_grow h' _ _ _) fun y => ?_
  obtain ⟨tail, errs, panic⟩ := y
  cases tail with
  | some t =>
    refine .pure ?_
    rw [sz_ofPair]
    unfold mkRecover RHead.sz tailSz
    cases x.head <;> simp only [Tree.size] <;> omega
  | none => exact .pure (Nat.zero_le _)

theorem produce_grow (S : Schema m n) (md : Metadata (PId m n) n) : ∀ fuel t,
    Paid (produce o.counted S md fuel t) := by
  intro fuel
  induction fuel with
  | zero => intro _; exact .fuel
  | succ fuel ih =>
    intro t
    show Paid (produceStep _ _ _ _ _ _)
    have opt : ∀ (sp : Span) (t : Tree n), (mkOption sp (some t)).size ≤ t.size + 1 := fun _ _ => Nat.le_refl _
    have exi : ∀ (sp : Span) (t : Tree n), (mkExists sp (some t)).size ≤ t.size + 1 := fun _ _ => by
      simp [mkExists, Tree.size]
    have star : ∀ (sp : Span) (t : Tree n), (mkStar sp (some t)).size ≤ t.size + 1 := fun _ t => by
      cases t <;> simp [mkStar, Tree.size, sizes]
    cases t with
    | term k t => exact .term o
    | user k =>
      simp only [produceStep]
      cases S k with
      | struct f fs =>
        refine struct_grow (fun x hx => ?_) (by simp)
        obtain ⟨f, -, rfl⟩ := List.mem_map.1 hx
        exact ih _
      | enum f fs =>
        refine enum_grow fun x hx => ?_
        obtain ⟨f, -, rfl⟩ := List.mem_map.1 hx
        exact ih _
    | box t => exact ih t
    | option t => exact option_grow (ih t) (fun _ => Nat.le_refl _) opt
    | exist t => exact option_grow (ih t) (fun _ => Nat.le_refl _) exi
    | quote t => exact text_grow (ih t)
    | parse t => exact text_grow (ih t)
    | plus t => exact plus_grow (ih t)
    | star t => exact option_grow (plus_grow (ih t)) (fun _ => Nat.le_refl _) star
    | loop t => exact loop_grow (ih t)
    | split t p => exact split_grow (ih t) (ih p)
    | punct t p => exact punct_grow (ih t) (ih p)
    | recover t r => exact recover_grow (ih t) (ih r)
    | tup2 a b => exact tuple_grow (by simp [ih]) (by simp)
    | tup3 a b c => exact tuple_grow (by simp [ih]) (by simp)
    | tup4 a b c d => exact tuple_grow (by simp [ih]) (by simp)
    | tup5 a b c d e => exact tuple_grow (by simp [ih]) (by simp)

end
end Teleparse
