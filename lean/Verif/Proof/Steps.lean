import Verif.Spec.Steps
import Verif.Proof.Accept
import Verif.Proof.Sound
import Verif.Proof.Lead
import Verif.Proof.Terminates
/-
`Loop` and `Recover` do the steps of their specification.
-/
namespace Teleparse
variable {m n : Nat}

/-- Streams of parsers: tokens are in the source and sorted. -/
structure Ready (source : Str) (v : View n) : Prop where
  inSource : InSource source v
  sorted : Sorted source v

theorem Ready.adv {source : Str} {v v' : View n} (h : Ready source v) (ha : Adv v v') : Ready source v' :=
  ⟨h.inSource.adv ha, h.sorted.adv ha⟩

theorem Reached.ready {ext : Fin n → Bool} {source : Str} {items : List (Item n)} {p : Parser n}
    (h : Reached ext source items p) (hw : ItemsWF source items) : Ready source (p.view ext) :=
  ⟨h.inSource hw, h.sortedView hw⟩

theorem Ready.pos {source : Str} {v : View n} (h : Ready source v) {t : Token n} (ht : t ∈ v.rest) :
    t.span.lo < t.span.hi := h.sorted.tokens.1 t (List.mem_append_right _ ht)

theorem Ready.toSrc {source : Str} {v : View n} (h : Ready source v) {t : Token n} (ht : t ∈ v.rest) :
    t.toSrc v.source = t.word v.source := by
  have hs := get?_eq (h.inSource.good.rest t ht) (h.pos ht)
  have e : v.source = source := h.inSource.src
  simp [Token.toSrc, Token.src, Span.get, Token.word, textOf, e, hs]

theorem Ready.look {source : Str} {v : View n} (h : Ready source v) : v.look = v.word := by
  unfold View.look View.word
  cases hr : v.rest with
  | nil => rfl
  | cons t l => simp [h.toSrc (t := t) (by simp [hr])]

theorem Ready.skip {source : Str} {v : View n} (h : Ready source v) : Ready source v.skip :=
  h.adv (.skip v)

theorem On.run {S : Schema m n} {md : Metadata (PId m n) n} {t : Ty m n} {v v' : View n} {r}
    (h : On S md t v r v') : Run S (.ty t v r v') := by
  obtain ⟨fuel, h⟩ := h
  exact run_of_produce S md fuel t _ _ _ h

theorem On.adv {S : Schema m n} {md : Metadata (PId m n) n} {t : Ty m n} {v v' : View n} {r}
    (h : On S md t v r v') : Adv v v' := h.run.adv

theorem On.of_yields {ext : Fin n → Bool} {S : Schema m n} {md : Metadata (PId m n) n} {t : Ty m n}
    {p p' : Parser n} {r} (h : Yields ext S md t p r p') : On S md t (p.view ext) r (p'.view ext) := by
  obtain ⟨fuel, h⟩ := h
  have hs := produce_view ext S md fuel t p
  rw [h] at hs
  exact ⟨fuel, hs⟩

theorem View.nextSpan_eq (v : View n) : v.nextSpan = v.cur := by
  unfold View.nextSpan View.cur
  cases v.rest <;> rfl

/-- The start of the next token tells whether something was consumed. -/
theorem Ready.cur_lo {source : Str} {v v' : View n} (h : Ready source v) (ha : Adv v v')
    (hne : v.rest ≠ []) : v.cur.lo = v'.cur.lo ↔ v'.rest = v.rest := by
  constructor
  · intro he
    obtain ⟨ts, h1, -⟩ := ha.cons
    cases ts with
    | nil => simpa using h1.symm
    | cons t l =>
      exfalso
      have hc : v.cur = t.span := by simp [View.cur, h1]
      have hlt := h.pos (t := t) (by simp [h1])
      cases hr : v'.rest with
      | nil =>
        have hc' : v'.cur = ⟨v'.source.length, v'.source.length⟩ := by simp [View.cur, hr]
        have hle := (h.inSource.good.rest t (by simp [h1])).2.1
        rw [hc, hc'] at he
        simp only [ha.src, h.inSource.src] at he
        omega
      | cons d l' =>
        have hc' : v'.cur = d.span := by simp [View.cur, hr]
        have hp := (List.pairwise_append.1 h.sorted.tokens.2).2.1
        rw [h1, hr] at hp
        have := (List.pairwise_cons.1 hp).1 d (by simp)
        rw [hc, hc'] at he
        omega
  · intro he
    simp [View.cur, he, ha.src]

theorem Passed.skip {v : View n} {t : Token n} {l : List (Token n)} (h : v.rest = t :: l) :
    v.Passed [t] v.skip := by
  simp only [View.skip, View.consume, h]
  exact ⟨rfl, by simp [h], by simp [TokenVec.push]⟩

theorem View.Passed.trans {a b c : View n} {s t : List (Token n)} (h1 : a.Passed s b) (h2 : b.Passed t c) :
    a.Passed (s ++ t) c :=
  ⟨h2.source.trans h1.source, by simp [h1.rest, h2.rest], by simp [h1.cells, h2.cells]⟩

theorem View.Passed.refl (a : View n) : a.Passed [] a := ⟨rfl, rfl, by simp⟩

theorem View.Passed.adv {a b : View n} {s : List (Token n)} (h : a.Passed s b) : Adv a b :=
  ⟨h.source, s, h.rest, by simp [h.cells, Cell.ofToken, Function.comp_def]⟩

section loop
variable {S : Schema m n} {md : Metadata (PId m n) n} {G : Grammar (PId m n) n} {t : Ty m n} {source : Str}
variable {first : TSet n}

theorem word_cons {v : View n} {x : Token n} {l} (h : v.rest = x :: l) : v.word = some (x.word v.source) := by
  simp [View.word, h]

theorem contains_false (hf : ∀ w, first.contains (some w) = true ↔ FirstOf G t.pid w) {v : View n}
    (hv : Ready source v) {x : Token n} {l} (h : v.rest = x :: l) (hc : first.contains v.look = false) :
    ¬ FirstOf G t.pid (x.word v.source) := fun hs => by
  rw [hv.look, word_cons h, (hf _).2 hs] at hc; cases hc

theorem skipLoop_steps (hf : ∀ w, first.contains (some w) = true ↔ FirstOf G t.pid w) :
    ∀ (fuel : Nat) (v : View n) hi r v', Ready source v →
    skipLoop View.ops first fuel hi v = .ok r v' →
    ∃ ts, v.Passed ts v' ∧ (∀ x ∈ ts, ¬ FirstOf G t.pid (x.word v.source)) ∧
      (∀ w, v'.word = some w → FirstOf G t.pid w) ∧
      r.1 = (ts.getLast?.map (·.span.hi)).getD hi ∧ (r.2 = true ↔ v'.rest ≠ []) := by
  intro fuel
  induction fuel with
  | zero => intro v hi r v' _ hr; cases hr
  | succ fuel ih =>
    intro v hi r v' hv hr
    simp only [skipLoop, bind_ok, mPeekSrc_ok] at hr
    obtain ⟨tok, _, ⟨rfl, rfl, -⟩, hr⟩ := hr
    rename_i v
    split at hr
    · rename_i hc
      simp only [Bool.and_eq_true, look_isSome, Bool.not_eq_true'] at hc
      simp only [bind_ok, mCurrentSpan_ok, mConsume_ok] at hr
      obtain ⟨_, _, ⟨rfl, rfl⟩, _, _, ⟨rfl, rfl⟩, hr⟩ := hr
      rename_i v
      obtain ⟨ts, h1, h2, h3, h4, h5⟩ := ih _ _ _ _ hv.skip hr
      cases hl : v.rest with
      | nil => exact absurd hl hc.1
      | cons x l =>
        have hp := Passed.skip hl
        refine ⟨x :: ts, hp.trans h1, ?_, h3, ?_, h5⟩
        · intro y hy
          rcases List.mem_cons.1 hy with rfl | hy
          · exact contains_false hf hv hl hc.2
          · have := h2 y hy
            rw [hp.source] at this
            exact this
        · rw [h4]
          cases hts : ts with
          | nil => simp [View.cur, hl]
          | cons a b => simp [List.getLast?_cons]
    · rename_i hc
      simp only [pure_ok] at hr
      obtain ⟨rfl, rfl⟩ := hr
      refine ⟨[], .refl v, (by simp), fun w hw => ?_, rfl, look_isSome v⟩
      simp only [Bool.and_eq_true, Bool.not_eq_true', not_and, Bool.not_eq_false] at hc
      rw [hv.look] at hc
      have := hc (by rw [hw]; rfl)
      rw [hw] at this
      exact (hf w).1 this

/-- The steps of the loop, with what was collected before. -/
theorem loopLoop_steps (hf : ∀ w, first.contains (some w) = true ↔ FirstOf G t.pid w) (fuel0 : Nat) :
    ∀ (fuel : Nat) (v : View n) out errs r v', Ready source v →
      loopLoop View.ops first (produce View.ops S md fuel0 t) fuel out errs v = .ok r v' →
      ∃ steps stuck, LoopSteps S md G t v steps stuck v' ∧ r.1 = out ++ loopTrees steps ∧
        r.2 = errs ++ loopErrs steps stuck v' := by
  intro fuel
  induction fuel with
  | zero => intro v out errs r v' _ hr; cases hr
  | succ fuel ih =>
    intro v out errs r v' hv hr
    simp only [loopLoop, bind_ok, mPeekSrc_ok] at hr
    obtain ⟨tok, _, ⟨rfl, rfl, -⟩, hr⟩ := hr
    rename_i v
    split at hr
    · rename_i hn
      simp only [pure_ok] at hr
      obtain ⟨rfl, rfl⟩ := hr
      exact ⟨[], false, .done ((look_isNone _).1 hn), by simp [loopTrees], by simp [loopErrs]⟩
    · rename_i hn
      have hne : v.rest ≠ [] := fun h => hn ((look_isNone _).2 h)
      simp only [bind_ok] at hr
      obtain ⟨⟨errs1, more⟩, v1, h1, hr⟩ := hr
      have key : Ready source v1 ∧ (more = true ↔ v1.rest ≠ []) ∧
          (∀ w, v1.word = some w → FirstOf G t.pid w) ∧
          ∀ out' steps' stuck v2, LoopSteps S md G t v1 steps' stuck v2 →
          ∃ steps, LoopSteps S md G t v steps stuck v2 ∧
            out' ++ loopTrees steps' = out' ++ loopTrees steps ∧
            errs1 ++ loopErrs steps' stuck v2 = errs ++ loopErrs steps stuck v2 := by
        split at h1
        · rename_i hc
          simp only [loopSkip, bind_ok, mCurrentSpan_ok, mConsume_ok, pure_ok] at h1
          obtain ⟨_, _, ⟨rfl, rfl⟩, _, _, ⟨rfl, rfl⟩, ⟨hi, more'⟩, v2, h2, h3, rfl⟩ := h1
          rename_i v
          obtain ⟨ts, g1, g2, g3, g4, g5⟩ := skipLoop_steps hf _ _ _ _ _ hv.skip h2
          simp only [Prod.mk.injEq] at h3
          obtain ⟨rfl, rfl⟩ := h3
          simp only at g4 g5
          cases hl : v.rest with
          | nil => exact absurd hl hne
          | cons x l =>
            have hp := Passed.skip hl
            have hp' : v.Passed (x :: ts) v2 := hp.trans g1
            refine ⟨hv.adv hp'.adv, g5, g3, fun out' steps' stuck v3 hs => ?_⟩
            refine ⟨_, .skip (by simp) hp' ?_ g3 hs, by simp [loopTrees, LoopStep.tree?, List.filterMap_cons], ?_⟩
            · intro y hy
              rcases List.mem_cons.1 hy with rfl | hy
              · simp only [Bool.not_eq_true'] at hc
                exact contains_false hf hv hl hc
              · have := g2 y hy
                rw [hp.source] at this
                exact this
            · rw [g4]
              cases hts : ts with
              | nil => simp [View.cur, hl, loopErrs, LoopStep.errs]
              | cons a b => simp [View.cur, hl, loopErrs, LoopStep.errs, List.getLast?_cons]
        · rename_i hc
          simp only [pure_ok, Prod.mk.injEq] at h1
          obtain ⟨⟨rfl, rfl⟩, rfl⟩ := h1
          refine ⟨hv, by simp [hne], fun w hw => ?_, fun _ steps' _ _ hl => ⟨steps', hl, rfl, rfl⟩⟩
          simp only [Bool.not_eq_true', Bool.not_eq_false] at hc
          rw [hv.look, hw] at hc
          exact (hf w).1 hc
      obtain ⟨hv1, hm, hw1, hk⟩ := key
      split at hr
      · rename_i hmo
        simp only [pure_ok] at hr
        obtain ⟨rfl, rfl⟩ := hr
        have hnil : v1.rest = [] := by
          simp only [Bool.not_eq_true'] at hmo
          rw [hmo] at hm
          exact Classical.not_not.1 fun h => by have := hm.2 h; cases this
        obtain ⟨steps, h2, h3, h4⟩ := hk out [] false v1 (.done hnil)
        exact ⟨steps, false, h2, by simpa [loopTrees] using h3, by simpa [loopErrs] using h4⟩
      · rename_i hmo
        have hne1 : v1.rest ≠ [] := hm.1 (by simpa using hmo)
        obtain ⟨w, hw⟩ : ∃ w, v1.word = some w := by
          unfold View.word
          cases hr1 : v1.rest with
          | nil => exact absurd hr1 hne1
          | cons a b => exact ⟨_, rfl⟩
        simp only [bind_ok] at hr
        obtain ⟨⟨go, out2, errs2⟩, v2, h2, hr⟩ := hr
        simp only [loopElem, bind_ok, mCurrentSpan_ok] at h2
        obtain ⟨_, _, ⟨rfl, rfl⟩, r1, v3, h3, _, _, ⟨rfl, rfl⟩, h2⟩ := h2
        rename_i v1 v3
        have hon : On S md t v1 r1 v3 := ⟨fuel0, h3⟩
        have hadv := hon.adv
        have hto : ∀ ts steps, loopTrees (LoopStep.elem ts r1 :: steps) = r1.tree?.toList ++ loopTrees steps := by
          intro ts steps
          simp only [loopTrees, List.filterMap_cons, LoopStep.tree?]
          cases r1.tree? <;> simp
        split at h2
        · rename_i hlo
          simp only [pure_ok, Prod.mk.injEq] at h2
          obtain ⟨⟨rfl, rfl, rfl⟩, rfl⟩ := h2
          simp only [Bool.false_eq_true, if_false, pure_ok] at hr
          obtain ⟨rfl, rfl⟩ := hr
          obtain ⟨steps, g1, g2, g3⟩ := hk out _ _ _ (LoopSteps.stuck hw (hw1 w hw) hon
            ((hv1.cur_lo hadv hne1).1 hlo))
          refine ⟨steps, true, g1, ?_, ?_⟩
          · rw [← g2, hto]; cases r1 <;> simp [loopTrees, Res.tree?]
          · rw [← g3]; cases r1 <;> simp [loopErrs, LoopStep.errs, View.nextSpan_eq, Res.errs]
        · rename_i hlo
          simp only [pure_ok, Prod.mk.injEq] at h2
          obtain ⟨⟨rfl, rfl, rfl⟩, rfl⟩ := h2
          simp only [if_true] at hr
          obtain ⟨steps', stuck, g1, g2, g3⟩ := ih _ _ _ _ _ (hv1.adv hadv) hr
          obtain ⟨ts, h4, -⟩ := hadv.cons
          have hts : ts ≠ [] := by
            rintro rfl
            exact hlo ((hv1.cur_lo hadv hne1).2 (by simpa using h4.symm))
          obtain ⟨steps, k1, k2, k3⟩ := hk out _ _ _ (LoopSteps.elem hw (hw1 w hw) hon h4 hts g1)
          refine ⟨steps, stuck, k1, ?_, ?_⟩
          · rw [← k2, g2, hto]; cases r1 <;> simp [Res.tree?]
          · rw [← k3, g3]; cases r1 <;> simp [loopErrs, LoopStep.errs, Res.errs]

theorem recoverSkip_hi {tf : TSet n} {panic : Option (Err n)} {v v' : View n} {r}
    (hr : recoverSkip View.ops tf panic v = .ok r v') : (∃ e, r = some e ∧ e.span.hi = v.cur.hi) ∧ v' = v.skip := by
  cases panic with
  | some p =>
    simp only [recoverSkip, bind_ok, extendPanic_ok, mConsume_ok, pure_ok] at hr
    obtain ⟨_, _, ⟨rfl, rfl⟩, _, _, ⟨rfl, rfl⟩, rfl, rfl⟩ := hr
    exact ⟨⟨_, rfl, rfl⟩, rfl⟩
  | none =>
    simp only [recoverSkip, bind_ok, mExpecting_ok, mConsume_ok, pure_ok] at hr
    obtain ⟨_, _, ⟨rfl, rfl⟩, _, _, ⟨rfl, rfl⟩, rfl, rfl⟩ := hr
    exact ⟨⟨_, rfl, rfl⟩, rfl⟩

theorem skip_passed (v : View n) : v.Passed v.rest.head?.toList v.skip := by
  cases hr : v.rest with
  | nil => simpa [View.skip, View.consume, hr] using View.Passed.refl v
  | cons a b => exact Passed.skip hr

theorem starts_or (hf : ∀ x, first.contains x = true ↔ Starts G t.pid x) {v : View n} (hv : Ready source v) :
    (first.contains v.look || first.containsE) = true ↔ Starts G t.pid v.word ∨ Nullable G t.pid := by
  rw [Bool.or_eq_true, hf, hv.look]
  exact or_congr Iff.rfl (hf none)

theorem head_steps (hf : ∀ x, first.contains x = true ↔ Starts G t.pid x) (fuel : Nat) {v v' : View n} {h}
    (hv : Ready source v) (hr : recoverHead View.ops first (produce View.ops S md fuel t) v = .ok h v') :
    ∃ head, HeadStep S md G t v head v' ∧ h.head = triedTree head ∧ h.errs = triedErrs head ∧
      h.span = ((triedTree head).map (·.span)).getD ⟨v'.pos, v'.pos⟩ ∧
      (h.head.isSome = true → h.panic = none) := by
  simp only [recoverHead, bind_ok, mPeekSrc_ok] at hr
  obtain ⟨tok, _, ⟨rfl, rfl, -⟩, hr⟩ := hr
  rename_i v
  split at hr
  · rename_i hc
    rw [starts_or hf hv] at hc
    simp only [bind_ok] at hr
    obtain ⟨r1, v1, h1, h2⟩ := hr
    have hd := HeadStep.tried (S := S) (md := md) (G := G) (t := t) hc ⟨fuel, h1⟩
    cases r1 with
    | success x =>
      simp only [pure_ok] at h2
      obtain ⟨rfl, rfl⟩ := h2
      exact ⟨_, hd, rfl, rfl, rfl, fun _ => rfl⟩
    | recovered x e =>
      simp only [pure_ok] at h2
      obtain ⟨rfl, rfl⟩ := h2
      exact ⟨_, hd, rfl, rfl, rfl, fun _ => rfl⟩
    | panic e =>
      simp only [bind_ok, mEmptySpan_ok, pure_ok] at h2
      obtain ⟨_, _, ⟨rfl, rfl⟩, rfl, rfl⟩ := h2
      exact ⟨_, hd, rfl, rfl, rfl, fun h => (by cases h)⟩
  · rename_i hc
    rw [starts_or hf hv, not_or] at hc
    simp only [bind_ok, mEmptySpan_ok, mExpecting_ok, pure_ok] at hr
    obtain ⟨_, _, ⟨rfl, rfl⟩, _, _, ⟨rfl, rfl⟩, rfl, rfl⟩ := hr
    exact ⟨none, .cannot hc.1 hc.2, rfl, rfl, rfl, fun h => (by cases h)⟩

theorem tail_steps (hf : ∀ x, first.contains x = true ↔ Starts G t.pid x) (fuel0 : Nat) :
    ∀ (fuel : Nat) (v : View n) errs panic r v', Ready source v →
      recoverLoop View.ops first (produce View.ops S md fuel0 t) fuel errs panic v = .ok r v' →
      ∃ steps tail, TailSteps S md G t v steps tail v' ∧ r.1 = triedTree tail ∧
        r.2.1 = errs ++ triedErrs tail ∧ (steps = [] → r.2.2 = panic) ∧
        (∀ x, steps.getLast?.bind TailStep.last? = some x → ∃ e, r.2.2 = some e ∧ e.span.hi = x.span.hi) := by
  intro fuel
  induction fuel with
  | zero => intro v errs panic r v' _ hr; cases hr
  | succ fuel ih =>
    intro v errs panic r v' hv hr
    simp only [recoverLoop, bind_ok, mPeekSrc_ok] at hr
    obtain ⟨tok, _, ⟨rfl, rfl, -⟩, hr⟩ := hr
    rename_i v
    split at hr
    · rename_i hn
      have hnil := (look_isNone _).1 hn
      split at hr
      · rename_i he
        have hnull : Nullable G t.pid := (hf none).1 he
        simp only [bind_ok] at hr
        obtain ⟨r1, v1, h1, h2⟩ := hr
        have hd : On S md t v r1 v1 := ⟨fuel0, h1⟩
        cases r1 with
        | success x =>
          simp only [pure_ok] at h2
          obtain ⟨rfl, rfl⟩ := h2
          exact ⟨[], _, .found (.inr hnull) hd rfl, rfl, (by simp [triedErrs]), fun _ => rfl, by simp⟩
        | recovered x e =>
          simp only [pure_ok] at h2
          obtain ⟨rfl, rfl⟩ := h2
          exact ⟨[], _, .found (.inr hnull) hd rfl, rfl, rfl, fun _ => rfl, by simp⟩
        | panic e =>
          simp only [pure_ok] at h2
          obtain ⟨rfl, rfl⟩ := h2
          exact ⟨_, none, .eofFail hnil hnull hd, rfl, (by simp [triedErrs]), (by simp),
            by simp [TailStep.last?]⟩
      · rename_i he
        simp only [pure_ok] at hr
        obtain ⟨rfl, rfl⟩ := hr
        exact ⟨[], none, .eof hnil fun h => he ((hf none).2 h), rfl, (by simp [triedErrs]), fun _ => rfl, by simp⟩
    · rename_i hn
      have hne : v.rest ≠ [] := fun h => hn ((look_isNone _).2 h)
      split at hr
      · rename_i hc
        rw [starts_or hf hv] at hc
        simp only [bind_ok] at hr
        obtain ⟨r1, v1, h1, h2⟩ := hr
        have hd : On S md t v r1 v1 := ⟨fuel0, h1⟩
        cases r1 with
        | success x =>
          simp only [pure_ok] at h2
          obtain ⟨rfl, rfl⟩ := h2
          exact ⟨[], _, .found hc hd rfl, rfl, (by simp [triedErrs]), fun _ => rfl, by simp⟩
        | recovered x e =>
          simp only [pure_ok] at h2
          obtain ⟨rfl, rfl⟩ := h2
          exact ⟨[], _, .found hc hd rfl, rfl, rfl, fun _ => rfl, by simp⟩
        | panic e =>
          simp only [bind_ok] at h2
          obtain ⟨p1, v2, h2, h3⟩ := h2
          obtain ⟨⟨e1, rfl, he1⟩, rfl⟩ := recoverSkip_hi h2
          have hv1 := hv.adv hd.adv
          obtain ⟨steps, tail, k1, k2, k3, k4, k5⟩ := ih _ _ _ _ _ hv1.skip h3
          obtain ⟨ts, hts, -⟩ := hd.adv.cons
          refine ⟨_, tail, .fail hne hc hd hts (skip_passed v1) (by simp) k1, k2, k3, (by simp), ?_⟩
          intro x hx
          cases hs : steps with
          | nil =>
            rw [hs] at hx
            simp only [List.getLast?_singleton, Option.bind_some, TailStep.last?] at hx
            refine ⟨e1, k4 hs, ?_⟩
            rw [he1]
            cases hr1 : v1.rest with
            | nil => rw [hr1] at hx; cases hx
            | cons a b => rw [hr1] at hx; cases hx; simp [View.cur, hr1]
          | cons a b =>
            rw [hs, List.getLast?_cons_cons] at hx
            exact k5 x (by rw [hs]; exact hx)
      · rename_i hc
        rw [starts_or hf hv, not_or] at hc
        simp only [bind_ok] at hr
        obtain ⟨p1, v2, h2, h3⟩ := hr
        obtain ⟨⟨e1, rfl, he1⟩, rfl⟩ := recoverSkip_hi h2
        obtain ⟨steps, tail, k1, k2, k3, k4, k5⟩ := ih _ _ _ _ _ hv.skip h3
        cases hr1 : v.rest with
        | nil => exact absurd hr1 hne
        | cons y b =>
          have hno : ¬ FirstOf G t.pid (y.word v.source) := by
            have := hc.1
            rw [View.word, hr1] at this
            exact this
          refine ⟨_, tail, .skip (Passed.skip hr1) hno hc.2 k1, k2, k3, (by simp), ?_⟩
          intro x hx
          cases hs : steps with
          | nil =>
            rw [hs] at hx
            simp only [List.getLast?_singleton, Option.bind_some, TailStep.last?] at hx
            cases hx
            exact ⟨e1, k4 hs, by rw [he1]; simp [View.cur, hr1]⟩
          | cons a b =>
            rw [hs, List.getLast?_cons_cons] at hx
            exact k5 x (by rw [hs]; exact hx)

end loop

theorem loop_first {S : Schema m n} {fuel : Nat} {root : Ty m n} {md : Metadata (PId m n) n}
    {G : Grammar (PId m n) n} (hmd : S.metadata fuel root = some (.ok md)) (hG : S.IsGrammar root G) {t : Ty m n}
    (hr : Reachable G root.pid (Ty.loop t).pid) (w : TokenSrc n) :
    (md.first.get (Ty.loop t).pid).contains (some w) = true ↔ FirstOf G t.pid w := by
  rw [metadata_first hmd hG]
  show FirstOf G (.plus t.prod) w ↔ _
  rw [firstOf_iff, firstOf_iff]
  have E : Rules S root G := ⟨hG⟩
  constructor
  · exact E.plus_first
  · intro h
    exact .seq (pre := []) (E.mem ((reach_iff_schema hG _).1 hr)) (by simp) h

/-! ### Termination -/

section
variable {ext : Fin n → Bool} {S : Schema m n} {md : Metadata (PId m n) n} {source : Str} {items : List (Item n)}

/-- Streams of reachable parsers. -/
def ReachedView (ext : Fin n → Bool) (source : Str) (items : List (Item n)) (v : View n) : Prop :=
  ∃ q, Reached ext source items q ∧ q.view ext = v

theorem ReachedView.skip {v : View n} (h : ReachedView ext source items v) :
    ReachedView ext source items v.skip := by
  obtain ⟨q, hq, rfl⟩ := h
  exact ⟨_, hq.consume, (view_consume ext q).2⟩

/-- What terminates on every reachable parser halts on every reachable stream. -/
theorem halts_of_yields {t : Ty m n}
    (ht : ∀ q, Reached ext source items q → ∃ r q', Yields ext S md t q r q') {v : View n}
    (h : ReachedView ext source items v) :
    Halts (fun _ j => produce View.ops S md j t) v (fun _ v' => Adv v v' ∧ ReachedView ext source items v') := by
  obtain ⟨q, hq, rfl⟩ := h
  obtain ⟨r, q', hy⟩ := ht q hq
  have hq' := hy.reached hq
  obtain ⟨fuel, hv⟩ := On.of_yields hy
  refine ⟨fuel, _, fun i j _ hj => produce_more hv hj, (by simp), ?_⟩
  intro a v' he
  cases he
  exact ⟨hy.run.adv, q', hq', rfl⟩

theorem yields_of_halts {t : Ty m n} {p : Parser n} (hp : Reached ext source items p)
    (hw : ItemsWF source items) {Q} (h : Halts (fun _ j => produce View.ops S md j t) (p.view ext) Q) :
    ∃ r p', Yields ext S md t p r p' := by
  obtain ⟨N, o, h1, h2, -⟩ := h
  have h1 := h1 N N (Nat.le_refl _) (Nat.le_refl _)
  cases o with
  | fuel => exact absurd rfl h2
  | crash => exact absurd h1 ((produce_safe S md N t _ (hp.inSource hw)).1)
  | ok r v =>
    obtain ⟨p', hy, -⟩ := yields_of_view h1
    exact ⟨r, p', hy⟩

end
end Teleparse
