import Verif.Spec.Delimited
import Verif.Proof.Steps
import Verif.Proof.Expects
/-
`Split` and `Punct` do the steps of their specification.
-/
namespace Teleparse
variable {m n : Nat}

theorem joined_snoc (es : List (Err n)) (e : Err n) :
    joined (es ++ [e]) = some (match joined es with
      | none => e
      | some p => { p with span := { p.span with hi := e.span.hi } }) := by
  cases es with
  | nil => rfl
  | cons a es =>
    have : (a :: (es ++ [e])).getLast (by simp) = e := by
      rw [List.getLast_cons (by simp)]; simp
    simp [joined, this]

theorem mergePanic_joined (es e : List (Err n)) :
    mergePanic (joined es) e = joined (es ++ e.getLast?.toList) := by
  unfold mergePanic
  cases e.getLast? with
  | none => simp
  | some x =>
    rw [Option.toList_some, joined_snoc]
    cases joined es <;> rfl

/-- The state of the loops after a search, given the errors of the misses. -/
def splitAfter (q : Tree n) (a : Acc n) (es : List (Err n)) : GapEnd n → Bool × Acc n
  | .elem r => (true, ⟨a.elems ++ r.tree?.toList, a.puncts ++ [q], a.errs ++ triedErrs (some r) ++ (joined es).toList⟩)
  | .sep => (true, { a with errs := a.errs ++ (joined es).toList })
  | .stop => (false, { a with errs := a.errs ++ (joined es).toList })

def punctAfter (a : Acc n) (es : List (Err n)) : GapEnd n → Bool × Acc n
  | .elem r => (true, { a with elems := a.elems ++ r.tree?.toList, errs := a.errs ++ (joined es).toList ++ triedErrs (some r) })
  | .sep => (true, { a with errs := a.errs ++ (joined es).toList })
  | .stop => (false, { a with errs := a.errs ++ (joined es).toList })

section
variable {S : Schema m n} {md : Metadata (PId m n) n} {G : Grammar (PId m n) n} {t p : Ty m n} {source : Str}
variable {ef pf fol : TSet n} {stop : TokenSrc n → Prop}

theorem ends_iff (hs : ∀ w, fol.contains (some w) = true ↔ stop w) {v : View n} (hv : Ready source v) :
    (v.look.isNone || fol.contains v.look) = true ↔ v.Ends stop := by
  rw [hv.look]
  unfold View.Ends
  cases v.word with
  | none => simp
  | some w => simp [hs]

/-- The next token, when there is one at which the list does not end. -/
theorem not_ends {v : View n} (h : ¬ v.Ends stop) : ∃ x l, v.rest = x :: l ∧ ¬ stop (x.word v.source) := by
  unfold View.Ends View.word at h
  cases hr : v.rest with
  | nil => simp [hr] at h
  | cons x l => exact ⟨x, l, rfl, by simpa [hr] using h⟩

theorem splitTry_steps (hf : ∀ x, ef.contains x = true ↔ Starts G t.pid x) (fuel : Nat) {q : Tree n} {a : Acc n}
    {es : List (Err n)} {v v' : View n} {r} (hv : Ready source v)
    (hr : splitTry View.ops ef (produce View.ops S md fuel t) q a (joined es) v = .ok r v') :
    (∃ r1, r = .error (splitAfter q a es (.elem r1)).2 ∧ (Starts G t.pid v.word ∨ Nullable G t.pid) ∧
      On S md t v r1 v' ∧ r1.tree?.isSome = true) ∨
    ∃ x, SplitMiss S md G t v x v' ∧ r = .ok (v'.look, joined (es ++ x.err.toList)) := by
  simp only [splitTry, bind_ok, mPeekSrc_ok] at hr
  obtain ⟨tok, _, ⟨rfl, rfl, -⟩, hr⟩ := hr
  rename_i v
  split at hr
  · rename_i hc
    rw [starts_or hf hv] at hc
    simp only [bind_ok] at hr
    obtain ⟨r1, v1, h1, h2⟩ := hr
    have hd : On S md t v r1 v1 := ⟨fuel, h1⟩
    cases r1 with
    | success x =>
      simp only [pure_ok] at h2
      obtain ⟨rfl, rfl⟩ := h2
      exact .inl ⟨_, by simp [splitAfter, Res.tree?, triedErrs], hc, hd, rfl⟩
    | recovered x e =>
      simp only [pure_ok] at h2
      obtain ⟨rfl, rfl⟩ := h2
      exact .inl ⟨_, by simp [splitAfter, Res.tree?, triedErrs], hc, hd, rfl⟩
    | panic e =>
      simp only [bind_ok, mPeekSrc_ok, pure_ok] at h2
      obtain ⟨_, _, ⟨rfl, rfl, -⟩, rfl, rfl⟩ := h2
      obtain ⟨ts, hts, -⟩ := hd.adv.cons
      exact .inr ⟨_, .failed hc hd hts, by rw [mergePanic_joined]; rfl⟩
  · rename_i hc
    rw [starts_or hf hv, not_or] at hc
    have hm := SplitMiss.cannot (S := S) (md := md) hc.1 hc.2 hf
    refine .inr ⟨_, by
      cases hj : joined es with
      | some p =>
        simp only [hj, bind_ok, extendPanic_ok, pure_ok] at hr
        obtain ⟨_, _, ⟨rfl, rfl⟩, rfl, rfl⟩ := hr
        exact hm
      | none =>
        simp only [hj, bind_ok, mExpecting_ok, pure_ok] at hr
        obtain ⟨_, _, ⟨rfl, rfl⟩, rfl, rfl⟩ := hr
        exact hm, ?_⟩
    rw [Miss.err, Option.toList_some, joined_snoc, View.nextSpan_eq]
    cases hj : joined es with
    | some p =>
      simp only [hj, bind_ok, extendPanic_ok, pure_ok] at hr
      obtain ⟨_, _, ⟨rfl, rfl⟩, rfl, rfl⟩ := hr
      rfl
    | none =>
      simp only [hj, bind_ok, mExpecting_ok, pure_ok] at hr
      obtain ⟨_, _, ⟨rfl, rfl⟩, rfl, rfl⟩ := hr
      rfl

theorem SplitMiss.adv {v v1 : View n} {a} (h : SplitMiss S md G t v a v1) : Adv v v1 := by
  cases h with
  | cannot => exact .refl _
  | failed _ h _ => exact h.adv

theorem PunctMiss.adv {v v1 : View n} {a} (h : PunctMiss S md G t stop v a v1) : Adv v v1 := by
  cases h with
  | cannot => exact .refl _
  | failed _ _ h _ => exact h.adv

theorem not_first_word (hp : ∀ x, pf.contains x = true ↔ Starts G p.pid x) {v : View n} (hv : Ready source v)
    (hc : ¬ pf.contains v.look = true) {x : Token n} {l} (hx : v.rest = x :: l) :
    ¬ FirstOf G p.pid (x.word v.source) := fun h => hc (by rw [hv.look, word_cons hx]; exact (hp _).2 h)

theorem splitInner_steps (hf : ∀ x, ef.contains x = true ↔ Starts G t.pid x)
    (hp : ∀ x, pf.contains x = true ↔ Starts G p.pid x) (hs : ∀ w, fol.contains (some w) = true ↔ stop w)
    (fuel0 : Nat) (q : Tree n) (a : Acc n) : ∀ (fuel : Nat) (es : List (Err n)) (v : View n) r v', Ready source v →
      splitInner View.ops ef pf fol (produce View.ops S md fuel0 t) q fuel a (joined es) v = .ok r v' →
      ∃ gs o, SplitGap S md G t p stop v gs o v' ∧
        r = splitAfter q a (es ++ gs.filterMap fun g => g.1.err) o := by
  intro fuel
  induction fuel with
  | zero => intro es v r v' _ hr; cases hr
  | succ fuel ih =>
    intro es v r v' hv hr
    simp only [splitInner, bind_ok] at hr
    obtain ⟨r1, v1, h1, h2⟩ := hr
    rcases splitTry_steps hf fuel0 hv h1 with ⟨r2, rfl, hc, hd, ht⟩ | ⟨x, hm, rfl⟩
    · simp only [pure_ok] at h2
      obtain ⟨rfl, rfl⟩ := h2
      exact ⟨[], _, .found hc hd ht, by simp [splitAfter]⟩
    · have hv1 := hv.adv hm.adv
      dsimp only at h2
      split at h2
      · rename_i hc
        simp only [pure_ok] at h2
        obtain ⟨rfl, rfl⟩ := h2
        rw [hp, hv1.look] at hc
        exact ⟨_, _, .sep hm hc, by cases hx : x.err <;> simp [splitAfter, hx]⟩
      · rename_i hc
        split at h2
        · rename_i he
          simp only [pure_ok] at h2
          obtain ⟨rfl, rfl⟩ := h2
          rw [ends_iff hs hv1] at he
          rw [hp, hv1.look] at hc
          exact ⟨_, _, .ends hm hc he, by cases hx : x.err <;> simp [splitAfter, hx]⟩
        · rename_i he
          rw [ends_iff hs hv1] at he
          obtain ⟨y, l, hy, hstop⟩ := not_ends he
          simp only [bind_ok, mConsume_ok] at h2
          obtain ⟨_, _, ⟨rfl, rfl⟩, h2⟩ := h2
          obtain ⟨gs, o, k1, k2⟩ := ih _ _ _ _ hv1.skip h2
          have hns := not_first_word hp hv1 hc hy
          rw [hm.adv.src] at hns hstop
          refine ⟨_, o, .skip hm hns hstop (Passed.skip hy) k1, ?_⟩
          rw [k2]
          cases hx : x.err <;> simp [hx]

theorem punctTry_steps (hf : ∀ x, ef.contains x = true ↔ Starts G t.pid x)
    (hs : ∀ w, fol.contains (some w) = true ↔ stop w) (fuel : Nat) {a : Acc n}
    {es : List (Err n)} {v v' : View n} {r} (hv : Ready source v)
    (hr : punctTry View.ops ef fol (produce View.ops S md fuel t) a (joined es) v = .ok r v') :
    (∃ o, r = .error (punctAfter a es o) ∧ ∀ p, PunctGap S md G t p stop v [] o v') ∨
    ∃ x, PunctMiss S md G t stop v x v' ∧ r = .ok (joined (es ++ x.err.toList)) := by
  simp only [punctTry, bind_ok, mPeekSrc_ok] at hr
  obtain ⟨tok, _, ⟨rfl, rfl, -⟩, hr⟩ := hr
  rename_i v
  rw [hv.look] at hr
  cases hw : v.word with
  | none =>
    simp only [hw, Option.isNone_none, if_true, pure_ok] at hr
    obtain ⟨rfl, rfl⟩ := hr
    exact .inl ⟨.stop, rfl, fun p => .trail (by simp [hw]) (by simp [View.Ends, hw])⟩
  | some w =>
    simp only [hw, Option.isNone_some, Bool.false_eq_true, if_false] at hr
    split at hr
    · rename_i hc
      have hc : FirstOf G t.pid w := (hf _).1 hc
      simp only [bind_ok] at hr
      obtain ⟨r1, v1, h1, h2⟩ := hr
      have hd : On S md t v r1 v1 := ⟨fuel, h1⟩
      cases r1 with
      | success x =>
        simp only [pure_ok] at h2
        obtain ⟨rfl, rfl⟩ := h2
        exact .inl ⟨_, by simp [punctAfter, Res.tree?, triedErrs], fun p => .found hw hc hd rfl⟩
      | recovered x e =>
        simp only [pure_ok] at h2
        obtain ⟨rfl, rfl⟩ := h2
        exact .inl ⟨_, by simp [punctAfter, Res.tree?, triedErrs], fun p => .found hw hc hd rfl⟩
      | panic e =>
        simp only [pure_ok] at h2
        obtain ⟨rfl, rfl⟩ := h2
        obtain ⟨ts, hts, -⟩ := hd.adv.cons
        exact .inr ⟨_, .failed hw hc hd hts, by rw [mergePanic_joined]; rfl⟩
    · rename_i hc
      have hc : ¬ FirstOf G t.pid w := fun h => hc ((hf _).2 h)
      split at hr
      · rename_i he
        simp only [pure_ok] at hr
        obtain ⟨rfl, rfl⟩ := hr
        exact .inl ⟨.stop, rfl, fun p => .trail (by simpa [hw] using hc) (by simpa [View.Ends, hw] using (hs _).1 he)⟩
      · rename_i he
        have hm := PunctMiss.cannot (S := S) (md := md) (set := punctExpecting ef fol) hw hc
          (fun h => he ((hs _).2 h)) fun x => by
            rw [punctExpecting_iff]
            cases x with
            | none => simp
            | some x => simp [hf, hs, Starts]
        refine .inr ⟨_, by
          cases hj : joined es with
          | some p =>
            simp only [hj, bind_ok, extendPanic_ok, pure_ok] at hr
            obtain ⟨_, _, ⟨rfl, rfl⟩, rfl, rfl⟩ := hr
            exact hm
          | none =>
            simp only [hj, bind_ok, mCurrentSpan_ok, pure_ok] at hr
            obtain ⟨_, _, ⟨rfl, rfl⟩, rfl, rfl⟩ := hr
            exact hm, ?_⟩
        rw [Miss.err, Option.toList_some, joined_snoc, View.nextSpan_eq]
        cases hj : joined es with
        | some p =>
          simp only [hj, bind_ok, extendPanic_ok, pure_ok] at hr
          obtain ⟨_, _, ⟨rfl, rfl⟩, rfl, rfl⟩ := hr
          rfl
        | none =>
          simp only [hj, bind_ok, mCurrentSpan_ok, pure_ok] at hr
          obtain ⟨_, _, ⟨rfl, rfl⟩, rfl, rfl⟩ := hr
          rfl

theorem punctInner_steps (hf : ∀ x, ef.contains x = true ↔ Starts G t.pid x)
    (hp : ∀ x, pf.contains x = true ↔ Starts G p.pid x) (hs : ∀ w, fol.contains (some w) = true ↔ stop w)
    (fuel0 : Nat) (a : Acc n) : ∀ (fuel : Nat) (es : List (Err n)) (v : View n) r v', Ready source v →
      punctInner View.ops ef pf fol (produce View.ops S md fuel0 t) fuel a (joined es) v = .ok r v' →
      ∃ gs o, PunctGap S md G t p stop v gs o v' ∧
        r = punctAfter a (es ++ gs.filterMap fun g => g.1.err) o := by
  intro fuel
  induction fuel with
  | zero => intro es v r v' _ hr; cases hr
  | succ fuel ih =>
    intro es v r v' hv hr
    simp only [punctInner, bind_ok] at hr
    obtain ⟨r1, v1, h1, h2⟩ := hr
    rcases punctTry_steps hf hs fuel0 hv h1 with ⟨o, rfl, hg⟩ | ⟨x, hm, rfl⟩
    · simp only [pure_ok] at h2
      obtain ⟨rfl, rfl⟩ := h2
      exact ⟨[], _, hg p, by simp⟩
    · have hv1 := hv.adv hm.adv
      simp only [bind_ok, mPeekSrc_ok] at h2
      obtain ⟨_, _, ⟨rfl, rfl, -⟩, h2⟩ := h2
      split at h2
      · rename_i hc
        simp only [pure_ok] at h2
        obtain ⟨rfl, rfl⟩ := h2
        rw [hp, hv1.look] at hc
        exact ⟨_, _, .sep hm hc, by cases hx : x.err <;> simp [punctAfter, hx]⟩
      · rename_i hc
        split at h2
        · rename_i he
          simp only [pure_ok] at h2
          obtain ⟨rfl, rfl⟩ := h2
          rw [ends_iff hs hv1] at he
          rw [hp, hv1.look] at hc
          exact ⟨_, _, .ends hm hc he, by cases hx : x.err <;> simp [punctAfter, hx]⟩
        · rename_i he
          rw [ends_iff hs hv1] at he
          obtain ⟨y, l, hy, hstop⟩ := not_ends he
          simp only [bind_ok, mConsume_ok] at h2
          obtain ⟨_, _, ⟨rfl, rfl⟩, h2⟩ := h2
          obtain ⟨gs, o, k1, k2⟩ := ih _ _ _ _ hv1.skip h2
          have hns := not_first_word hp hv1 hc hy
          rw [hm.adv.src] at hns hstop
          refine ⟨_, o, .skip hm hns hstop (Passed.skip hy) k1, ?_⟩
          rw [k2]
          cases hx : x.err <;> simp [hx]

theorem SplitGap.adv {v v' : View n} {gs o} (h : SplitGap S md G t p stop v gs o v') : Adv v v' := by
  induction h with
  | found _ h _ => exact h.adv
  | sep h _ => exact h.adv
  | ends h _ _ => exact h.adv
  | skip h _ _ hp _ ih => exact h.adv.trans (hp.adv.trans ih)

theorem PunctGap.adv {v v' : View n} {gs o} (h : PunctGap S md G t p stop v gs o v') : Adv v v' := by
  induction h with
  | found _ _ h _ => exact h.adv
  | trail => exact .refl _
  | sep h _ => exact h.adv
  | ends h _ _ => exact h.adv
  | skip h _ _ hp _ ih => exact h.adv.trans (hp.adv.trans ih)

theorem look_first (hp : ∀ x, pf.contains x = true ↔ Starts G p.pid x) {v : View n} (hv : Ready source v) :
    (v.look.isSome && pf.contains v.look) = true ↔ ∃ w, v.word = some w ∧ FirstOf G p.pid w := by
  rw [hv.look]
  cases v.word with
  | none => simp
  | some w =>
    simp only [Option.isSome_some, Bool.true_and, Option.some.injEq]
    rw [hp]
    exact ⟨fun h => ⟨w, rfl, h⟩, fun ⟨w', e, h⟩ => e ▸ h⟩

theorem splitOuter_steps (hf : ∀ x, ef.contains x = true ↔ Starts G t.pid x)
    (hp : ∀ x, pf.contains x = true ↔ Starts G p.pid x) (hs : ∀ w, fol.contains (some w) = true ↔ stop w)
    (fuel0 : Nat) : ∀ (fuel : Nat) (a : Acc n) (v : View n) r v', Ready source v →
      splitOuter View.ops ef pf fol (produce View.ops S md fuel0 t) (produce View.ops S md fuel0 p) fuel a v = .ok r v' →
      ∃ steps, DelimSteps S md G p (SplitGap S md G t p stop) v steps v' ∧
        r = ⟨a.elems ++ steps.filterMap DelimStep.elem?, a.puncts ++ steps.filterMap DelimStep.pair?,
          a.errs ++ steps.flatMap DelimStep.splitErrs⟩ := by
  intro fuel
  induction fuel with
  | zero => intro a v r v' _ hr; cases hr
  | succ fuel ih =>
    intro a v r v' hv hr
    simp only [splitOuter, bind_ok, mPeekSrc_ok] at hr
    obtain ⟨tok, _, ⟨rfl, rfl, -⟩, hr⟩ := hr
    rename_i v
    split at hr
    · rename_i hc
      obtain ⟨w, hw, hfw⟩ := (look_first hp hv).1 hc
      simp only [bind_ok] at hr
      obtain ⟨r1, v1, h1, h2⟩ := hr
      have hd : On S md p v r1 v1 := ⟨fuel0, h1⟩
      have key : ∀ q, r1.tree? = some q → (splitInner View.ops ef pf fol (produce View.ops S md fuel0 t) q fuel
            { a with errs := a.errs ++ r1.errs } none >>= fun x =>
            if x.1 then splitOuter View.ops ef pf fol (produce View.ops S md fuel0 t) (produce View.ops S md fuel0 p)
              fuel x.2 else pure x.2) v1 = .ok r v' →
          ∃ steps, DelimSteps S md G p (SplitGap S md G t p stop) v steps v' ∧
            r = ⟨a.elems ++ steps.filterMap DelimStep.elem?, a.puncts ++ steps.filterMap DelimStep.pair?,
              a.errs ++ steps.flatMap DelimStep.splitErrs⟩ := by
        intro q hq h3
        simp only [bind_ok] at h3
        obtain ⟨x, v2, h3, h4⟩ := h3
        have hv1 := hv.adv hd.adv
        obtain ⟨gs, o, g1, rfl⟩ := splitInner_steps hf hp hs fuel0 q _ fuel [] v1 _ _ hv1 h3
        have hsome : r1.tree?.isSome = true := by rw [hq]; rfl
        cases o with
        | elem r2 =>
          simp only [splitAfter, if_true] at h4
          obtain ⟨steps, k1, rfl⟩ := ih _ _ _ _ (hv1.adv g1.adv) h4
          refine ⟨_, .elem hw hfw hd hsome g1 k1, ?_⟩
          cases hr2 : r2.tree? <;>
            simp [List.filterMap_cons, DelimStep.elem?, DelimStep.pair?, hq, DelimStep.splitErrs, gapErrs, triedTree, hr2]
        | sep =>
          simp only [splitAfter, if_true] at h4
          obtain ⟨steps, k1, rfl⟩ := ih _ _ _ _ (hv1.adv g1.adv) h4
          refine ⟨_, .again hw hfw hd hsome g1 k1, ?_⟩
          simp [List.filterMap_cons, DelimStep.elem?, DelimStep.pair?, DelimStep.splitErrs, gapErrs, triedTree, triedErrs]
        | stop =>
          simp only [splitAfter, Bool.false_eq_true, if_false, pure_ok] at h4
          obtain ⟨rfl, rfl⟩ := h4
          refine ⟨_, .last hw hfw hd hsome g1, ?_⟩
          simp [List.filterMap_cons, DelimStep.elem?, DelimStep.pair?, DelimStep.splitErrs, gapErrs, triedTree, triedErrs]
      cases r1 with
      | success q =>
        refine key q rfl ?_
        simpa [Res.errs] using h2
      | recovered q e => exact key q rfl h2
      | panic e =>
        simp only [pure_ok] at h2
        obtain ⟨rfl, rfl⟩ := h2
        exact ⟨_, .sepFails hw hfw hd, by simp [List.filterMap_cons, DelimStep.elem?, DelimStep.pair?, DelimStep.splitErrs]⟩
    · rename_i hc
      simp only [pure_ok] at hr
      obtain ⟨rfl, rfl⟩ := hr
      rw [look_first hp hv] at hc
      exact ⟨[], .done fun w hw hfw => hc ⟨w, hw, hfw⟩, by simp⟩

theorem punctOuter_steps (hf : ∀ x, ef.contains x = true ↔ Starts G t.pid x)
    (hp : ∀ x, pf.contains x = true ↔ Starts G p.pid x) (hs : ∀ w, fol.contains (some w) = true ↔ stop w)
    (fuel0 : Nat) : ∀ (fuel : Nat) (a : Acc n) (v : View n) r v', Ready source v →
      punctOuter View.ops ef pf fol (produce View.ops S md fuel0 t) (produce View.ops S md fuel0 p) fuel a v = .ok r v' →
      ∃ steps, DelimSteps S md G p (PunctGap S md G t p stop) v steps v' ∧
        r = ⟨a.elems ++ steps.filterMap DelimStep.elem?, a.puncts ++ steps.filterMap DelimStep.sep?,
          a.errs ++ steps.flatMap DelimStep.punctErrs⟩ := by
  intro fuel
  induction fuel with
  | zero => intro a v r v' _ hr; cases hr
  | succ fuel ih =>
    intro a v r v' hv hr
    simp only [punctOuter, bind_ok, mPeekSrc_ok] at hr
    obtain ⟨tok, _, ⟨rfl, rfl, -⟩, hr⟩ := hr
    rename_i v
    split at hr
    · rename_i hc
      obtain ⟨w, hw, hfw⟩ := (look_first hp hv).1 hc
      simp only [bind_ok] at hr
      obtain ⟨r1, v1, h1, h2⟩ := hr
      have hd : On S md p v r1 v1 := ⟨fuel0, h1⟩
      have key : ∀ q, r1.tree? = some q → (punctInner View.ops ef pf fol (produce View.ops S md fuel0 t) fuel
            { a with puncts := a.puncts ++ [q], errs := a.errs ++ r1.errs } none >>= fun x =>
            if x.1 then punctOuter View.ops ef pf fol (produce View.ops S md fuel0 t) (produce View.ops S md fuel0 p)
              fuel x.2 else pure x.2) v1 = .ok r v' →
          ∃ steps, DelimSteps S md G p (PunctGap S md G t p stop) v steps v' ∧
            r = ⟨a.elems ++ steps.filterMap DelimStep.elem?, a.puncts ++ steps.filterMap DelimStep.sep?,
              a.errs ++ steps.flatMap DelimStep.punctErrs⟩ := by
        intro q hq h3
        simp only [bind_ok] at h3
        obtain ⟨x, v2, h3, h4⟩ := h3
        have hv1 := hv.adv hd.adv
        obtain ⟨gs, o, g1, rfl⟩ := punctInner_steps hf hp hs fuel0 _ fuel [] v1 _ _ hv1 h3
        have hsome : r1.tree?.isSome = true := by rw [hq]; rfl
        cases o with
        | elem r2 =>
          simp only [punctAfter, if_true] at h4
          obtain ⟨steps, k1, rfl⟩ := ih _ _ _ _ (hv1.adv g1.adv) h4
          refine ⟨_, .elem hw hfw hd hsome g1 k1, ?_⟩
          cases hr2 : r2.tree? <;>
            simp [List.filterMap_cons, DelimStep.elem?, DelimStep.sep?, hq, DelimStep.punctErrs, gapErrs, triedTree, hr2]
        | sep =>
          simp only [punctAfter, if_true] at h4
          obtain ⟨steps, k1, rfl⟩ := ih _ _ _ _ (hv1.adv g1.adv) h4
          refine ⟨_, .again hw hfw hd hsome g1 k1, ?_⟩
          simp [List.filterMap_cons, DelimStep.elem?, DelimStep.sep?, hq, DelimStep.punctErrs, gapErrs, triedTree, triedErrs]
        | stop =>
          simp only [punctAfter, Bool.false_eq_true, if_false, pure_ok] at h4
          obtain ⟨rfl, rfl⟩ := h4
          refine ⟨_, .last hw hfw hd hsome g1, ?_⟩
          simp [List.filterMap_cons, DelimStep.elem?, DelimStep.sep?, hq, DelimStep.punctErrs, gapErrs, triedTree, triedErrs]
      cases r1 with
      | success q =>
        refine key q rfl ?_
        simpa [Res.errs] using h2
      | recovered q e => exact key q rfl h2
      | panic e =>
        simp only [pure_ok] at h2
        obtain ⟨rfl, rfl⟩ := h2
        exact ⟨_, .sepFails hw hfw hd, by simp [List.filterMap_cons, DelimStep.elem?, DelimStep.sep?, DelimStep.punctErrs]⟩
    · rename_i hc
      simp only [pure_ok] at hr
      obtain ⟨rfl, rfl⟩ := hr
      rw [look_first hp hv] at hc
      exact ⟨[], .done fun w hw hfw => hc ⟨w, hw, hfw⟩, by simp⟩

end
end Teleparse
