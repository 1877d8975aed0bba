import Verif.Spec.Cost
import Verif.Spec.Produce
import Verif.Proof.Cost
/-
The number of errors is at most the number of stream operations.
-/
namespace Teleparse
variable {m n : Nat} {σ α β : Type}

/-- Every error is paid for by an operation: `f` errors in the end, `b` in the beginning. -/
def Led (x : M (σ × Nat) α) (f : α → Nat) (b : Nat) : Prop :=
  ∀ s k a s' k', x (s, k) = .ok a (s', k') → f a + k ≤ b + k'

theorem Led.pure {a : α} {f : α → Nat} {b : Nat} (h : f a ≤ b) : Led (Pure.pure a : M (σ × Nat) α) f b := by
  intro s k a' s' k' e
  obtain ⟨rfl, e⟩ := pure_ok.1 e
  cases e
  omega

theorem Led.bind {x : M (σ × Nat) α} {F : α → M (σ × Nat) β} {g : α → Nat} {f : β → Nat} {b : Nat} (h : Led x g b)
    (hF : ∀ a, Led (F a) f (g a)) : Led (x >>= F) f b := by
  intro s k a' s' k' e
  obtain ⟨a, ⟨s1, k1⟩, h1, h2⟩ := bind_ok.1 e
  have := h _ _ _ _ _ h1
  have := hF _ _ _ _ _ _ h2
  omega

theorem Led.frame {x : M (σ × Nat) α} {f : α → Nat} {b : Nat} (h : Led x f b) (c : Nat) :
    Led x (fun a => f a + c) (b + c) := by
  intro s k a s' k' e
  have := h _ _ _ _ _ e
  show f a + c + k ≤ _
  omega

theorem Led.weaken {x : M (σ × Nat) α} {f g : α → Nat} {b c : Nat} (h : Led x f b) (hb : b ≤ c)
    (hf : ∀ a, g a ≤ f a) : Led x g c := by
  intro s k a s' k' e
  have := h _ _ _ _ _ e
  have := hf a
  omega

theorem Led.ite {c : Prop} [Decidable c] {x y : M (σ × Nat) α} {f : α → Nat} {b : Nat} (h1 : Led x f b)
    (h2 : Led y f b) : Led (if c then x else y) f b := by
  by_cases hc : c
  · rw [if_pos hc]; exact h1
  · rw [if_neg hc]; exact h2

theorem Led.fuel {f : α → Nat} {b : Nat} : Led (M.fuel : M (σ × Nat) α) f b := fun _ _ _ _ _ h => by cases h

section
variable (o : Ops σ n)

theorem Led.peek {b : Nat} : Led o.counted.mPeek (fun _ => b + 1) b := by
  intro s k a s' k' e; cases e; show b + 1 + k ≤ b + (k + 1); omega

theorem Led.consume {b : Nat} : Led o.counted.mConsume (fun _ => b) b := by
  intro s k a s' k' e; cases e; show b + k ≤ b + (k + 1); omega

theorem Led.emptySpan {b : Nat} : Led o.counted.mEmptySpan (fun _ => b) b := by
  intro s k a s' k' e; cases e; exact Nat.le_refl _

theorem Led.apply {sp : Span} {sem : LSet n} {b : Nat} : Led (o.counted.mApply sp sem) (fun _ => b) b := by
  intro s k a s' k' e; cases e; show b + k ≤ b + (k + 1); omega

theorem Led.source {b : Nat} : Led o.counted.mSource (fun _ => b) b := by
  intro s k a s' k' e; cases e; exact Nat.le_refl _

theorem Led.crash {f : α → Nat} {b : Nat} : Led (M.crash : M (σ × Nat) α) f b := fun _ _ _ _ _ h => by cases h

theorem Led.getSrc {sp : Span} {b : Nat} : Led (o.counted.mGetSrc sp) (fun _ => b) b := by
  unfold Ops.mGetSrc
  refine .bind (.source o) fun src => ?_
  cases sp.get? src with
  | none => exact .crash
  | some x => exact .pure (Nat.le_refl _)

theorem Led.peekSrc {b : Nat} : Led o.counted.mPeekSrc (fun _ => b + 1) b := by
  unfold Ops.mPeekSrc
  refine .bind (.peek o) fun t => ?_
  cases t with
  | none => exact .pure (Nat.le_refl _)
  | some t => exact .bind (.getSrc o) fun _ => .pure (Nat.le_refl _)

theorem Led.currentSpan {b : Nat} : Led o.counted.mCurrentSpan (fun _ => b + 1) b := by
  unfold Ops.mCurrentSpan
  refine .bind (.peek o) fun t => ?_
  cases t with
  | none => exact .bind (.source o) fun _ => .pure (Nat.le_refl _)
  | some t => exact .pure (Nat.le_refl _)

theorem Led.expecting {x : TSet n} {b : Nat} : Led (o.counted.mExpecting x) (fun _ => b + 1) b :=
  .bind (.currentSpan o) fun _ => .pure (Nat.le_refl _)

theorem Led.eof {b : Nat} : Led o.counted.mUnexpectedEof (fun _ => b + 1) b :=
  .bind (.currentSpan o) fun _ => .pure (Nat.le_refl _)

theorem Led.extend {p : Err n} {b : Nat} : Led (extendPanic o.counted p) (fun _ => b) b :=
  .bind (.currentSpan o) fun _ => .pure (Nat.le_succ _)

theorem Led.fields {b : Nat} : ∀ l, Led (applyFields o.counted l) (fun _ => b) b := by
  intro l
  induction l with
  | nil => exact .pure (Nat.le_refl _)
  | cons a l ih =>
    obtain ⟨t, sem⟩ := a
    cases sem with
    | none => exact ih
    | some sem => exact .bind (.apply o) fun _ => ih

/-- The number of errors of a result. -/
def Res.cnt {α : Type} (r : Res n α) : Nat := r.errs.length

theorem cnt_ofPair (x : Tree n) (e : List (Err n)) : (Res.ofPair x e).cnt = e.length := by
  unfold Res.ofPair Res.cnt
  split
  · rename_i h
    simp only [List.isEmpty_iff] at h
    subst h; rfl
  · rfl

theorem cnt_map {α β : Type} (f : α → β) (r : Res n α) : (r.map f).cnt = r.cnt := by cases r <;> rfl

theorem Led.parseToken {ty : Fin n} : Led (o.counted.parseToken ty) Res.cnt 0 := by
  unfold Ops.parseToken
  have fail : Led (do let e ← o.counted.mExpecting (TSet.one ty none); Pure.pure (Res.panic (α := Token n) [e])) Res.cnt 1 :=
    .bind (.expecting o) fun _ => .pure (by simp [Res.cnt, Res.errs])
  refine .bind (.peek o) fun t => ?_
  cases t with
  | none => exact fail
  | some t =>
    refine .ite ?_ fail
    exact .bind (.consume o) fun _ => .pure (by simp [Res.cnt, Res.errs])

theorem Led.parseTokenLit {ty : Fin n} {lit : Str} {fol : TSet n} :
    Led (o.counted.parseTokenLit ty lit fol) Res.cnt 0 := by
  unfold Ops.parseTokenLit
  refine .bind (.peek o) fun t => ?_
  cases t with
  | none =>
    refine .ite (.bind (.currentSpan o) fun _ => .bind (.expecting o) fun _ => .pure ?_)
      (.bind (.eof o) fun _ => .pure ?_) <;> simp [Res.cnt, Res.errs]
  | some t =>
    refine .bind (.getSrc o) fun _ => .ite (.bind (.consume o) fun _ => .pure ?_)
      (.ite (.bind (.emptySpan o) fun _ => .bind (.expecting o) fun _ => .pure ?_)
        (.bind (.expecting o) fun _ => .pure ?_)) <;> simp [Res.cnt, Res.errs]

theorem Led.term {t : Terminal n} {fol : TSet n} : Led (produceTerm o.counted t fol) Res.cnt 0 := by
  unfold produceTerm
  cases t.lit with
  | none => exact .bind (.parseToken o) fun _ => .pure (by rw [cnt_map]; exact Nat.le_refl _)
  | some lit => exact .bind (.parseTokenLit o) fun _ => .pure (by rw [cnt_map]; exact Nat.le_refl _)

variable {o}

/-- Parts that pay for their errors. -/
abbrev Fair (p : P (σ × Nat) n) : Prop := Led p Res.cnt 0

theorem Fair.at {p : P (σ × Nat) n} (h : Fair p) (b : Nat) : Led p (fun r => r.cnt + b) b :=
  (h.frame b).weaken (by omega) fun _ => Nat.le_refl _

def exCnt : Except (List (Err n)) (List (Tree n) × List (Err n)) → Nat
  | .ok x => x.2.length
  | .error e => e.length

theorem seqLoop_led : ∀ (ps : List (P (σ × Nat) n)) acc errs, (∀ p ∈ ps, Fair p) →
    Led (seqLoop ps acc errs) exCnt errs.length := by
  intro ps
  induction ps with
  | nil => intro acc errs _; exact .pure (Nat.le_refl _)
  | cons p ps ih =>
    intro acc errs h
    have hp := fun acc errs => ih acc errs fun q hq => h q (by simp [hq])
    refine .bind ((h p (by simp)).at _) fun r => ?_
    cases r with
    | success t => exact (hp _ _).weaken (by simp) fun _ => Nat.le_refl _
    | recovered t e => exact (hp _ _).weaken (by simp [Res.cnt, Res.errs]; omega) fun _ => Nat.le_refl _
    | panic e => exact .pure (by simp [exCnt, Res.cnt, Res.errs]; omega)

theorem tuple_led {ps : List (P (σ × Nat) n)} (h : ∀ p ∈ ps, Fair p) : Fair (produceTuple ps) := by
  refine .bind (seqLoop_led ps [] [] h) fun r => ?_
  cases r with
  | error e => exact .pure (Nat.le_refl _)
  | ok x => exact .pure (Nat.le_of_eq (cnt_ofPair _ _))

theorem struct_led {fs : List (P (σ × Nat) n × Option (LSet n))} (h : ∀ f ∈ fs, Fair f.1) :
    Fair (produceStruct o.counted fs) := by
  refine .bind (seqLoop_led (fs.map (·.1)) [] [] ?_) fun r => ?_
  · intro p hp
    obtain ⟨f, hf, rfl⟩ := List.mem_map.1 hp
    exact h f hf
  · cases r with
    | error e => exact .pure (Nat.le_refl _)
    | ok x => exact .bind (.fields o _) fun _ => .pure (Nat.le_of_eq (cnt_ofPair _ _))

theorem variant_led {i : Nat} {sem : Option (LSet n)} {r : Res n (Tree n)} {b : Nat} (hb : r.cnt ≤ b) :
    Led (mapVariant o.counted i sem r) Res.cnt b := by
  unfold mapVariant
  cases r with
  | success t => exact .bind (.fields o _) fun _ => .pure hb
  | recovered t e => exact .bind (.fields o _) fun _ => .pure hb
  | panic e => exact .pure hb

theorem enum_led {look first} {vs : List (P (σ × Nat) n × Option (LSet n))} (h : ∀ f ∈ vs, Fair f.1) :
    Fair (produceEnum o.counted look first vs) := by
  unfold produceEnum
  refine .bind (.peekSrc o) fun tok => ?_
  have fail : Led (do let e ← o.counted.mExpecting first; Pure.pure (Res.panic (α := Tree n) [e])) Res.cnt 1 :=
    .bind (.expecting o) fun _ => .pure (by simp [Res.cnt, Res.errs])
  cases look tok with
  | none => exact fail
  | some i =>
    dsimp only
    cases hv : vs[i]? with
    | none => exact fail
    | some x =>
      exact .bind ((h x (List.mem_of_getElem? hv)).at _) fun r => variant_led (by omega)

theorem option_led {first : TSet n} {p : P (σ × Nat) n} {mk} (h : Fair p) :
    Fair (produceOption o.counted first p mk) := by
  unfold produceOption
  refine .bind (.peekSrc o) fun tok => .ite ?_ ?_
  · refine .bind (h.at _) fun r => ?_
    cases r with
    | success t => exact .pure (by simp [Res.cnt, Res.errs])
    | recovered t e => exact .pure (by simp [Res.cnt, Res.errs])
    | panic e => exact .bind (.emptySpan o) fun _ => .pure (by simp [Res.cnt, Res.errs])
  · exact .bind (.emptySpan o) fun _ => .pure (by simp [Res.cnt, Res.errs])

theorem text_led {p : P (σ × Nat) n} (h : Fair p) : Fair (produceText o.counted p) := by
  refine .bind h fun r => ?_
  cases r with
  | success t => exact .bind (.getSrc o) fun _ => .pure (Nat.le_refl _)
  | recovered t e => exact .bind (.getSrc o) fun _ => .pure (Nat.le_refl _)
  | panic e => exact .pure (Nat.le_refl _)

theorem iter_led {first : TSet n} {p : P (σ × Nat) n} (h : Fair p) : ∀ fuel acc errs hi,
    Led (iterLoop o.counted first p fuel acc errs hi) (fun x => x.2.1.length) errs.length := by
  intro fuel
  induction fuel with
  | zero => intro _ _ _; exact .fuel
  | succ fuel ih =>
    intro acc errs hi
    unfold iterLoop
    refine .bind (.peekSrc o) fun tok => .ite (.bind (h.at _) fun r => ?_) (.pure (Nat.le_succ _))
    cases r with
    | success t => exact (ih _ _ _).weaken (by omega) fun _ => Nat.le_refl _
    | recovered t e =>
      exact (ih _ _ _).weaken (by simp only [Res.cnt, Res.errs, List.length_append]; omega) fun _ => Nat.le_refl _
    | panic e => exact .pure (by simp only [Res.cnt, Res.errs, List.length_append]; omega)

theorem plus_led {first : TSet n} {p : P (σ × Nat) n} {fuel : Nat} (h : Fair p) :
    Fair (producePlus o.counted first p fuel) := by
  have rest : ∀ t errs, Led (plusRest o.counted first p fuel t errs) Res.cnt errs.length := fun t errs =>
    .bind (iter_led h _ _ _ _) fun x => .pure (Nat.le_of_eq (cnt_ofPair _ _))
  refine .bind h fun r => ?_
  cases r with
  | success t => exact rest _ _
  | recovered t e => exact rest _ _
  | panic e => exact .pure (Nat.le_refl _)

theorem skipLoop_led {first : TSet n} {b : Nat} : ∀ fuel hi,
    Led (skipLoop o.counted first fuel hi) (fun _ => b) b := by
  intro fuel
  induction fuel generalizing b with
  | zero => intro _; exact .fuel
  | succ fuel ih =>
    intro hi
    unfold skipLoop
    refine .bind (.peekSrc o) fun tok => .ite ?_ (.pure (Nat.le_succ _))
    exact .bind (.currentSpan o) fun _ => .bind (.consume o) fun _ =>
      (ih _).weaken (Nat.le_refl _) fun _ => by omega

theorem loopSkip_led {first : TSet n} {fuel : Nat} {errs : List (Err n)} :
    Led (loopSkip o.counted first fuel errs) (fun x => x.1.length) errs.length :=
  .bind (.currentSpan o) fun _ => .bind (.consume o) fun _ => .bind (skipLoop_led _ _) fun _ => .pure (by simp)

theorem loopElem_led {p : P (σ × Nat) n} (h : Fair p) {out : List (Tree n)} {errs : List (Err n)} :
    Led (loopElem o.counted p out errs) (fun x => x.2.2.length) errs.length := by
  refine .bind (.currentSpan o) fun sp => .bind (h.at _) fun r => .bind (.currentSpan o) fun sp' => ?_
  cases r <;> refine .ite (.pure ?_) (.pure ?_) <;> simp [Res.cnt, Res.errs] <;> omega

theorem loopLoop_led {first : TSet n} {p : P (σ × Nat) n} (h : Fair p) : ∀ fuel out errs,
    Led (loopLoop o.counted first p fuel out errs) (fun x => x.2.length) errs.length := by
  intro fuel
  induction fuel with
  | zero => intro _ _; exact .fuel
  | succ fuel ih =>
    intro out errs
    unfold loopLoop
    refine .bind (.peekSrc o) fun tok => .ite (.pure (Nat.le_succ _)) ?_
    refine .bind (g := fun x => x.1.length) (.ite (loopSkip_led.weaken (Nat.le_succ _) fun _ => Nat.le_refl _)
      (.pure (Nat.le_succ _))) fun x => ?_
    obtain ⟨errs, more⟩ := x
    refine .ite (.pure (Nat.le_refl _)) (.bind (loopElem_led h) fun y => ?_)
    obtain ⟨go, out, errs⟩ := y
    exact .ite (ih _ _) (.pure (Nat.le_refl _))

theorem loop_led {first : TSet n} {p : P (σ × Nat) n} {fuel : Nat} (h : Fair p) :
    Fair (produceLoop o.counted first p fuel) := by
  refine .bind (loopLoop_led h _ _ _) fun x => ?_
  obtain ⟨out, errs⟩ := x
  exact .ite (.bind (.emptySpan o) fun _ => .pure (Nat.le_of_eq (cnt_ofPair _ _)))
    (.pure (Nat.le_of_eq (cnt_ofPair _ _)))

/-- Errors of an accumulator with the pending one. -/
def Acc.cnt (a : Acc n) (panic : Option (Err n)) : Nat := a.errs.length + panic.toList.length

theorem mergePanic_cnt (panic : Option (Err n)) (e : List (Err n)) :
    (mergePanic panic e).toList.length ≤ panic.toList.length + e.length := by
  unfold mergePanic
  cases hl : e.getLast? with
  | none => exact Nat.le_add_right _ _
  | some x =>
    have : 0 < e.length := by
      cases e with
      | nil => cases hl
      | cons _ _ => simp
    cases panic <;> simp <;> omega

theorem splitTry_led {ef : TSet n} {pt : P (σ × Nat) n} (h : Fair pt) {q : Tree n} {a : Acc n}
    {panic : Option (Err n)} : Led (splitTry o.counted ef pt q a panic)
      (fun x => match x with | .error a => a.errs.length | .ok y => a.cnt y.2) (a.cnt panic) := by
  unfold splitTry
  refine .bind (.peekSrc o) fun tok => .ite (.bind (h.at _) fun r => ?_) ?_
  · cases r with
    | success t => exact .pure (by simp [Acc.cnt]; omega)
    | recovered t e => exact .pure (by simp [Acc.cnt, Res.cnt, Res.errs]; omega)
    | panic e =>
      refine .bind (.peekSrc o) fun tok => .pure ?_
      have := mergePanic_cnt panic e
      simp only [Acc.cnt, Res.cnt, Res.errs]
      omega
  · cases panic with
    | some p => exact .bind (.extend o) fun _ => .pure (by simp [Acc.cnt])
    | none => exact .bind (.expecting o) fun _ => .pure (by simp [Acc.cnt])

theorem splitInner_led {ef pf fol : TSet n} {pt : P (σ × Nat) n} (h : Fair pt) {q : Tree n} : ∀ fuel a panic,
    Led (splitInner o.counted ef pf fol pt q fuel a panic) (fun x => x.2.errs.length) (a.cnt panic) := by
  intro fuel
  induction fuel with
  | zero => intro _ _; exact .fuel
  | succ fuel ih =>
    intro a panic
    unfold splitInner
    refine .bind (splitTry_led h) fun x => ?_
    cases x with
    | error a => exact .pure (Nat.le_refl _)
    | ok y =>
      obtain ⟨tok, panic⟩ := y
      refine .ite (.pure ?_) (.ite (.pure ?_) (.bind (.consume o) fun _ => ih _ _)) <;> simp [Acc.cnt]

theorem splitOuter_led {ef pf fol : TSet n} {pt pp : P (σ × Nat) n} (h : Fair pt) (h' : Fair pp) : ∀ fuel a,
    Led (splitOuter o.counted ef pf fol pt pp fuel a) (fun x => x.errs.length) a.errs.length := by
  intro fuel
  induction fuel with
  | zero => intro _; exact .fuel
  | succ fuel ih =>
    intro a
    unfold splitOuter
    refine .bind (.peekSrc o) fun tok => .ite (.bind (h'.at _) fun r => ?_) (.pure (Nat.le_succ _))
    cases r with
    | panic e => exact .pure (by simp [Res.cnt, Res.errs]; omega)
    | success q =>
      refine .bind ((splitInner_led h fuel a none).weaken (by simp [Acc.cnt, Res.cnt, Res.errs])
        fun _ => Nat.le_refl _) fun x => ?_
      exact .ite (ih _) (.pure (Nat.le_refl _))
    | recovered q e =>
      refine .bind ((splitInner_led h fuel _ none).weaken (by simp [Acc.cnt, Res.cnt, Res.errs]; omega)
        fun _ => Nat.le_refl _) fun x => ?_
      exact .ite (ih _) (.pure (Nat.le_refl _))

theorem split_led {ef pf fol : TSet n} {pt pp : P (σ × Nat) n} {fuel : Nat} (h : Fair pt) (h' : Fair pp) :
    Fair (produceSplit o.counted ef pf fol pt pp fuel) := by
  refine .bind h fun r => ?_
  cases r with
  | panic e => exact .pure (Nat.le_refl _)
  | success t => exact .bind (splitOuter_led h h' _ _) fun a => .pure (Nat.le_of_eq (cnt_ofPair _ _))
  | recovered t e => exact .bind (splitOuter_led h h' _ _) fun a => .pure (Nat.le_of_eq (cnt_ofPair _ _))

theorem punctTry_led {ef fol : TSet n} {pt : P (σ × Nat) n} (h : Fair pt) {a : Acc n}
    {panic : Option (Err n)} : Led (punctTry o.counted ef fol pt a panic)
      (fun x => match x with | .error y => y.2.errs.length | .ok y => a.cnt y) (a.cnt panic) := by
  unfold punctTry
  refine .bind (.peekSrc o) fun tok => .ite (.pure (by simp [Acc.cnt])) (.ite (.bind (h.at _) fun r => ?_)
    (.ite (.pure (by simp [Acc.cnt])) ?_))
  · cases r with
    | success t => exact .pure (by simp [Acc.cnt]; omega)
    | recovered t e => exact .pure (by simp [Acc.cnt, Res.cnt, Res.errs]; omega)
    | panic e =>
      refine .pure ?_
      have := mergePanic_cnt panic e
      simp only [Acc.cnt, Res.cnt, Res.errs]
      omega
  · cases panic with
    | some p => exact .bind (.extend o) fun _ => .pure (by simp [Acc.cnt])
    | none => exact .bind (.currentSpan o) fun _ => .pure (by simp [Acc.cnt])

theorem punctInner_led {ef pf fol : TSet n} {pt : P (σ × Nat) n} (h : Fair pt) : ∀ fuel a panic,
    Led (punctInner o.counted ef pf fol pt fuel a panic) (fun x => x.2.errs.length) (a.cnt panic) := by
  intro fuel
  induction fuel with
  | zero => intro _ _; exact .fuel
  | succ fuel ih =>
    intro a panic
    unfold punctInner
    refine .bind (punctTry_led h) fun x => ?_
    cases x with
    | error a => exact .pure (Nat.le_refl _)
    | ok panic =>
      refine .bind (.peekSrc o) fun tok => .ite (.pure ?_) (.ite (.pure ?_) (.bind (.consume o) fun _ =>
        (ih _ _).weaken (Nat.le_succ _) fun _ => Nat.le_refl _)) <;> simp [Acc.cnt] <;> omega

theorem punctOuter_led {ef pf fol : TSet n} {pt pp : P (σ × Nat) n} (h : Fair pt) (h' : Fair pp) : ∀ fuel a,
    Led (punctOuter o.counted ef pf fol pt pp fuel a) (fun x => x.errs.length) a.errs.length := by
  intro fuel
  induction fuel with
  | zero => intro _; exact .fuel
  | succ fuel ih =>
    intro a
    unfold punctOuter
    refine .bind (.peekSrc o) fun tok => .ite (.bind (h'.at _) fun r => ?_) (.pure (Nat.le_succ _))
    cases r with
    | panic e => exact .pure (by simp [Res.cnt, Res.errs]; omega)
    | success q =>
      refine .bind ((punctInner_led h fuel _ none).weaken (by simp [Acc.cnt, Res.cnt, Res.errs])
        fun _ => Nat.le_refl _) fun x => ?_
      exact .ite (ih _) (.pure (Nat.le_refl _))
    | recovered q e =>
      refine .bind ((punctInner_led h fuel _ none).weaken (by simp [Acc.cnt, Res.cnt, Res.errs]; omega)
        fun _ => Nat.le_refl _) fun x => ?_
      exact .ite (ih _) (.pure (Nat.le_refl _))

theorem punct_led {ef pf fol : TSet n} {pt pp : P (σ × Nat) n} {fuel : Nat} (h : Fair pt) (h' : Fair pp) :
    Fair (producePunct o.counted ef pf fol pt pp fuel) := by
  refine .bind h fun r => ?_
  cases r with
  | panic e => exact .pure (Nat.le_refl _)
  | success t => exact .bind (punctOuter_led h h' _ _) fun a => .pure (Nat.le_of_eq (cnt_ofPair _ _))
  | recovered t e => exact .bind (punctOuter_led h h' _ _) fun a => .pure (Nat.le_of_eq (cnt_ofPair _ _))

theorem recoverHead_led {hf : TSet n} {pt : P (σ × Nat) n} (h : Fair pt) :
    Led (recoverHead o.counted hf pt) (fun x => x.errs.length + x.panic.toList.length) 0 := by
  unfold recoverHead
  refine .bind (.peekSrc o) fun tok => .ite (.bind (h.at _) fun r => ?_) ?_
  · cases r with
    | success t => exact .pure (by simp)
    | recovered t e => exact .pure (by simp [Res.cnt, Res.errs])
    | panic e =>
      refine .bind (.emptySpan o) fun _ => .pure ?_
      cases e.getLast? <;> simp
  · exact .bind (.expecting o) fun _ => .bind (.emptySpan o) fun _ => .pure (by simp)

theorem recoverSkip_led {tf : TSet n} {panic : Option (Err n)} {b : Nat} :
    Led (recoverSkip o.counted tf panic) (fun x => b + x.toList.length) (b + panic.toList.length) := by
  unfold recoverSkip
  cases panic with
  | some p => exact .bind (.extend o) fun _ => .bind (.consume o) fun _ => .pure (by simp)
  | none => exact .bind (.expecting o) fun _ => .bind (.consume o) fun _ => .pure (by simp)

theorem recoverLoop_led {tf : TSet n} {pr : P (σ × Nat) n} (h : Fair pr) : ∀ fuel errs panic,
    Led (recoverLoop o.counted tf pr fuel errs panic) (fun x => x.2.1.length + x.2.2.toList.length)
      (errs.length + panic.toList.length) := by
  intro fuel
  induction fuel with
  | zero => intro _ _; exact .fuel
  | succ fuel ih =>
    intro errs panic
    unfold recoverLoop
    refine .bind (.peekSrc o) fun tok => .ite (.ite (.bind (h.at _) fun r => ?_) (.pure (by simp)))
      (.ite (.bind (h.at _) fun r => ?_) ?_)
    · cases r with
      | success t => exact .pure (by simp; omega)
      | recovered t e => exact .pure (by simp [Res.cnt, Res.errs]; omega)
      | panic e =>
        refine .pure ?_
        have := mergePanic_cnt panic e
        simp only [Res.cnt, Res.errs]
        omega
    · cases r with
      | success t => exact .pure (by simp; omega)
      | recovered t e => exact .pure (by simp [Res.cnt, Res.errs]; omega)
      | panic e =>
        refine .bind ((recoverSkip_led (b := errs.length)).weaken ?_ fun _ => Nat.le_refl _) fun _ => ih _ _
        have := mergePanic_cnt panic e
        simp only [Res.cnt, Res.errs]
        omega
    · exact .bind ((recoverSkip_led (b := errs.length)).weaken (by omega) fun _ => Nat.le_refl _) fun _ => ih _ _

theorem recover_led {hf tf : TSet n} {pt pr : P (σ × Nat) n} {fuel : Nat} (h : Fair pt) (h' : Fair pr) :
    Fair (produceRecover o.counted hf tf pt pr fuel) := by
  refine .bind (recoverHead_led h) fun x => .bind (recoverLoop_led h' _ _ _) fun y => ?_
  obtain ⟨tail, errs, panic⟩ := y
  cases tail with
  | some t => exact .pure (by rw [cnt_ofPair]; simp)
  | none => exact .pure (by simp [Res.cnt, Res.errs])

theorem produce_led (S : Schema m n) (md : Metadata (PId m n) n) : ∀ fuel t,
    Fair (produce o.counted S md fuel t) := by
  intro fuel
  induction fuel with
  | zero => intro _; exact .fuel
  | succ fuel ih =>
    intro t
    show Fair (produceStep _ _ _ _ _ _)
    cases t with
    | term k t => exact .term o
    | user k =>
      simp only [produceStep]
      cases S k with
      | struct f fs =>
        refine struct_led fun x hx => ?_
        obtain ⟨f, -, rfl⟩ := List.mem_map.1 hx
        exact ih _
      | enum f fs =>
        refine enum_led fun x hx => ?_
        obtain ⟨f, -, rfl⟩ := List.mem_map.1 hx
        exact ih _
    | box t => exact ih t
    | option t => exact option_led (ih t)
    | exist t => exact option_led (ih t)
    | quote t => exact text_led (ih t)
    | parse t => exact text_led (ih t)
    | plus t => exact plus_led (ih t)
    | star t => exact option_led (plus_led (ih t))
    | loop t => exact loop_led (ih t)
    | split t p => exact split_led (ih t) (ih p)
    | punct t p => exact punct_led (ih t) (ih p)
    | recover t r => exact recover_led (ih t) (ih r)
    | tup2 a b => exact tuple_led (by simp [ih])
    | tup3 a b c => exact tuple_led (by simp [ih])
    | tup4 a b c d => exact tuple_led (by simp [ih])
    | tup5 a b c d e => exact tuple_led (by simp [ih])

end
end Teleparse
