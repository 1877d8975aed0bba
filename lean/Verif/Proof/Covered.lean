import Verif.Proof.Delimited
import Verif.Proof.ErrSpan
/-
The error about a gap in a list with separators covers everything that was skipped in the gap.
-/
namespace Teleparse
variable {m n : Nat} {S : Schema m n} {md : Metadata (PId m n) n} {G : Grammar (PId m n) n} {t p : Ty m n}
  {stop : TokenSrc n → Prop} {source : Str}

/-- What is needed of a miss. -/
structure MissOk (v : View n) (a : Miss n) (v1 : View n) : Prop where
  adv : Adv v v1
  span : ∀ e, a.err = some e → v.cur.lo ≤ e.span.lo ∧ e.span.lo ≤ e.span.hi
  here : ∀ x l, v1.rest = x :: l → ∃ e, a.err = some e ∧ e.span = x.span

theorem cur_cons {v : View n} {x : Token n} {l : List (Token n)} (h : v.rest = x :: l) : v.cur = x.span := by
  unfold View.cur; rw [h]

theorem MissOk.cannot (hv : Ready source v) (k : ErrKind n) : MissOk v (.cannot ⟨v.nextSpan, k⟩) v := by
  refine ⟨.refl _, ?_, ?_⟩
  · rintro e ⟨⟩
    rw [View.nextSpan_eq]
    exact ⟨Nat.le_refl _, hv.cur_span⟩
  · intro x l h
    exact ⟨_, rfl, by rw [View.nextSpan_eq]; exact cur_cons h⟩

theorem MissOk.failed (hv : Ready source v) {e : List (Err n)} (h : On S md t v (.panic e) v1) (ts : List (Token n)) :
    MissOk v (.failed ts e) v1 := by
  refine ⟨h.adv, ?_, ?_⟩
  · intro x hx
    have hm : x ∈ e := List.mem_of_getLast? hx
    exact ⟨h.run.lateCur hv x hm, (h.run.upTo hv x hm).1⟩
  · intro x l hx
    rcases h.run.atNext with h1 | ⟨y, h1, h2⟩
    · rw [h1] at hx; cases hx
    · exact ⟨y, h1, h2.trans (cur_cons hx)⟩

theorem SplitMiss.ok (hv : Ready source v) {a} (h : SplitMiss S md G t v a v1) : MissOk v a v1 := by
  cases h with
  | cannot => exact .cannot hv _
  | failed _ h _ => exact .failed hv h _

theorem PunctMiss.ok (hv : Ready source v) {a} (h : PunctMiss S md G t stop v a v1) : MissOk v a v1 := by
  cases h with
  | cannot => exact .cannot hv _
  | failed _ _ h _ => exact .failed hv h _

/-- What is needed of a gap. -/
inductive Gaps : View n → List (Miss n × Option (Token n)) → View n → Prop
  | nil {v v'} : Adv v v' → Gaps v [] v'
  | one {v a v1} : MissOk v a v1 → Gaps v [(a, none)] v1
  | skip {v a v1 x v2 gs v'} : MissOk v a v1 → v1.Passed [x] v2 → Gaps v2 gs v' → Gaps v ((a, some x) :: gs) v'

theorem SplitGap.gaps {gs o} (h : SplitGap S md G t p stop v gs o v') (hv : Ready source v) : Gaps v gs v' := by
  induction h with
  | found _ h _ => exact .nil h.adv
  | sep h _ => exact .one (h.ok hv)
  | ends h _ _ => exact .one (h.ok hv)
  | skip h _ _ hp _ ih => exact .skip (h.ok hv) hp (ih ((hv.adv h.adv).adv hp.adv))

theorem PunctGap.gaps {gs o} (h : PunctGap S md G t p stop v gs o v') (hv : Ready source v) : Gaps v gs v' := by
  induction h with
  | found _ _ h _ => exact .nil h.adv
  | trail => exact .nil (.refl _)
  | sep h _ => exact .one (h.ok hv)
  | ends h _ _ => exact .one (h.ok hv)
  | skip h _ _ hp _ ih => exact .skip (h.ok hv) hp (ih ((hv.adv h.adv).adv hp.adv))

theorem Gaps.adv {gs} (h : Gaps (n := n) v gs v') : Adv v v' := by
  induction h with
  | nil h => exact h
  | one h => exact h.adv
  | skip h hp _ ih => exact (h.adv.trans hp.adv).trans ih

/-- The errors of a gap are in order, and every skipped token has one at it. -/
theorem Gaps.errs {gs} (h : Gaps (n := n) v gs v') (hv : Ready source v) :
    (∀ e ∈ gs.filterMap (fun g => g.1.err), v.cur.lo ≤ e.span.lo ∧ e.span.lo ≤ e.span.hi) ∧
    (gs.filterMap (fun g => g.1.err)).Pairwise (fun a b => a.span.lo ≤ b.span.lo ∧ a.span.hi ≤ b.span.hi) ∧
    (∀ a x, (a, some x) ∈ gs → ∃ e ∈ gs.filterMap (fun g => g.1.err), e.span = x.span) := by
  induction h with
  | nil => simp
  | @one v a v1 h =>
    refine ⟨?_, ?_, ?_⟩
    · intro e he
      simp only [List.filterMap_cons, List.filterMap_nil] at he
      cases ha : a.err with
      | none => rw [ha] at he; cases he
      | some e' =>
        rw [ha] at he
        rw [List.mem_singleton.1 he]
        exact h.span e' ha
    · simp only [List.filterMap_cons, List.filterMap_nil]
      cases a.err <;> simp
    · intro a x hx
      simp at hx
  | @skip v a v1 x v2 gs v' h hp hg ih =>
    have hr := hp.rest
    simp only [List.cons_append, List.nil_append] at hr
    obtain ⟨e, he, hs⟩ := h.here x _ hr
    have hv1 := hv.adv h.adv
    obtain ⟨i1, i2, i3⟩ := ih (hv1.adv hp.adv)
    have hcur : v1.cur = x.span := cur_cons hr
    have hx : x.span.hi ≤ v2.cur.lo := by
      have := (hv1.adv hp.adv).pos_cur
      have hpos : v2.pos = x.span.hi := by
        unfold View.pos
        rw [hp.cells]
        simp [Cell.ofToken]
      omega
    have hx2 := hv1.cur_span
    have hle := hv.cur_le h.adv
    rw [hcur] at hx2 hle
    simp only [List.filterMap_cons, he]
    refine ⟨?_, ?_, ?_⟩
    · intro e' he'
      rcases List.mem_cons.1 he' with rfl | he'
      · exact h.span _ he
      · have := i1 e' he'
        exact ⟨by omega, this.2⟩
    · refine List.pairwise_cons.2 ⟨?_, i2⟩
      intro b hb
      have := i1 b hb
      rw [hs]
      omega
    · intro a' x' hm
      rcases List.mem_cons.1 hm with hm | hm
      · cases hm
        exact ⟨e, List.mem_cons_self .., hs⟩
      · obtain ⟨e', h1, h2⟩ := i3 a' x' hm
        exact ⟨e', List.mem_cons_of_mem _ h1, h2⟩

theorem joined_covers {l : List (Err n)}
    (h : l.Pairwise (fun a b => a.span.lo ≤ b.span.lo ∧ a.span.hi ≤ b.span.hi)) (e : Err n) (he : e ∈ l) :
    ∃ j, joined l = some j ∧ j.span.lo ≤ e.span.lo ∧ e.span.hi ≤ j.span.hi := by
  cases l with
  | nil => cases he
  | cons a l =>
    refine ⟨_, rfl, ?_, ?_⟩
    · rcases List.mem_cons.1 he with rfl | he
      · exact Nat.le_refl _
      · exact ((List.pairwise_cons.1 h).1 e he).1
    · obtain ⟨l', h'⟩ : ∃ l', a :: l = l' ++ [(a :: l).getLast (by simp)] :=
        ⟨_, (List.dropLast_concat_getLast (by simp)).symm⟩
      generalize hb : (a :: l).getLast (by simp) = b at h'
      rw [h'] at h he
      rcases List.mem_append.1 he with he | he
      · exact ((List.pairwise_append.1 h).2.2 e he b (by simp)).2
      · rw [List.mem_singleton.1 he]; exact Nat.le_refl _

/-- One error about the gap covers all tokens skipped in it. -/
theorem Gaps.covered {gs} (h : Gaps (n := n) v gs v') (hv : Ready source v) (a : Miss n) (x : Token n)
    (hx : (a, some x) ∈ gs) : ∃ j ∈ gapErrs gs, j.span.lo ≤ x.span.lo ∧ x.span.hi ≤ j.span.hi := by
  obtain ⟨-, h2, h3⟩ := h.errs hv
  obtain ⟨e, he, hs⟩ := h3 a x hx
  obtain ⟨j, h4, h5, h6⟩ := joined_covers h2 e he
  rw [hs] at h5 h6
  refine ⟨j, ?_, h5, h6⟩
  unfold gapErrs
  rw [h4]; simp

/-- An element that is missing is reported, unless the input ends. -/
theorem Gaps.reported {gs} (h : Gaps (n := n) v gs v') (hne : gs ≠ []) : gapErrs gs ≠ [] ∨ v'.rest = [] := by
  have key : ∀ (e : Err n), e ∈ gs.filterMap (fun g => g.1.err) → gapErrs gs ≠ [] := by
    intro e he
    unfold gapErrs
    cases hl : gs.filterMap (fun g => g.1.err) with
    | nil => rw [hl] at he; cases he
    | cons b l => simp [joined]
  cases h with
  | nil => exact absurd rfl hne
  | @one _ a v1 h =>
    cases hr : v'.rest with
    | nil => exact .inr rfl
    | cons x l =>
      obtain ⟨e, he, -⟩ := h.here x l hr
      exact .inl (key e (by simp [he]))
  | @skip _ a v1 x v2 gs _ h hp hg =>
    obtain ⟨e, he, -⟩ := h.here x _ hp.rest
    exact .inl (key e (by simp [he]))

theorem DelimSteps.gaps {Gap : View n → List (Miss n × Option (Token n)) → GapEnd n → View n → Prop}
    (hg : ∀ {v gs o v'}, Ready source v → Gap v gs o v' → Gaps v gs v') {v v' steps}
    (h : DelimSteps S md G p Gap v steps v') (hv : Ready source v) :
    Adv v v' ∧ ∀ r gs o, .sep r gs o ∈ steps → ∃ w w', Ready source w ∧ Gaps w gs w' ∧ Adv w' v' := by
  induction h with
  | done => exact ⟨.refl _, by intro r gs o h; cases h⟩
  | sepFails _ _ h => exact ⟨h.adv, by intro r gs o h; simp at h⟩
  | elem _ _ h _ h2 _ ih =>
    have h3 := hg (hv.adv h.adv) h2
    obtain ⟨i1, i2⟩ := ih ((hv.adv h.adv).adv h3.adv)
    refine ⟨(h.adv.trans h3.adv).trans i1, ?_⟩
    intro r gs o hm
    rcases List.mem_cons.1 hm with hm | hm
    · cases hm; exact ⟨_, _, hv.adv h.adv, h3, i1⟩
    · exact i2 r gs o hm
  | again _ _ h _ h2 _ ih =>
    have h3 := hg (hv.adv h.adv) h2
    obtain ⟨i1, i2⟩ := ih ((hv.adv h.adv).adv h3.adv)
    refine ⟨(h.adv.trans h3.adv).trans i1, ?_⟩
    intro r gs o hm
    rcases List.mem_cons.1 hm with hm | hm
    · cases hm; exact ⟨_, _, hv.adv h.adv, h3, i1⟩
    · exact i2 r gs o hm
  | last _ _ h _ h2 =>
    have h3 := hg (hv.adv h.adv) h2
    refine ⟨h.adv.trans h3.adv, ?_⟩
    intro r gs o hm
    rw [List.mem_singleton] at hm
    cases hm; exact ⟨_, _, hv.adv h.adv, h3, .refl _⟩

/-! ### Which tokens are skipped -/

theorem SplitGap.skipped {v v' : View n} {gs o} (h : SplitGap S md G t p stop v gs o v') :
    ∀ a x, (a, some x) ∈ gs → ¬ FirstOf G p.pid (x.word v.source) ∧ ¬ stop (x.word v.source) ∧
      (FirstOf G t.pid (x.word v.source) → ∃ ts e, a = .failed ts e) := by
  induction h with
  | found => intro a x h; cases h
  | sep => intro a x h; simp at h
  | ends => intro a x h; simp at h
  | @skip v a v1 x v2 gs o v' h h1 h2 hp hg ih =>
    intro a' x' hm
    rcases List.mem_cons.1 hm with hm | hm
    · cases hm
      refine ⟨h1, h2, ?_⟩
      intro hf
      cases h with
      | cannot hn _ _ =>
        refine absurd ?_ hn
        rw [word_cons hp.rest]
        exact hf
      | failed => exact ⟨_, _, rfl⟩
    · have := ih a' x' hm
      rw [hp.source, h.adv.1] at this
      exact this

theorem PunctGap.skipped {v v' : View n} {gs o} (h : PunctGap S md G t p stop v gs o v') :
    ∀ a x, (a, some x) ∈ gs → ¬ FirstOf G p.pid (x.word v.source) ∧ ¬ stop (x.word v.source) ∧
      (FirstOf G t.pid (x.word v.source) → ∃ ts e, a = .failed ts e) := by
  induction h with
  | found => intro a x h; cases h
  | trail => intro a x h; cases h
  | sep => intro a x h; simp at h
  | ends => intro a x h; simp at h
  | @skip v a v1 x v2 gs o v' h h1 h2 hp hg ih =>
    intro a' x' hm
    rcases List.mem_cons.1 hm with hm | hm
    · cases hm
      refine ⟨h1, h2, ?_⟩
      intro hf
      cases h with
      | cannot hw hn _ _ =>
        rw [word_cons hp.rest] at hw
        cases hw
        exact absurd hf hn
      | failed => exact ⟨_, _, rfl⟩
    · have := ih a' x' hm
      rw [hp.source, h.adv.1] at this
      exact this

theorem DelimSteps.skipped {Gap : View n → List (Miss n × Option (Token n)) → GapEnd n → View n → Prop}
    {P : Str → Miss n → Token n → Prop}
    (hg : ∀ {v gs o v'}, Gap v gs o v' → v'.source = v.source ∧ ∀ a x, (a, some x) ∈ gs → P v.source a x) {v v' steps}
    (h : DelimSteps S md G p Gap v steps v') :
    ∀ r gs o, .sep r gs o ∈ steps → ∀ a x, (a, some x) ∈ gs → P v.source a x := by
  induction h with
  | done => intro r gs o h; cases h
  | sepFails => intro r gs o h; simp at h
  | elem _ _ h _ h2 _ ih =>
    obtain ⟨h3, h4⟩ := hg h2
    rw [h.adv.1] at h3 h4
    intro r gs o hm
    rcases List.mem_cons.1 hm with hm | hm
    · cases hm; exact h4
    · have := ih r gs o hm
      rw [h3] at this
      exact this
  | again _ _ h _ h2 _ ih =>
    obtain ⟨h3, h4⟩ := hg h2
    rw [h.adv.1] at h3 h4
    intro r gs o hm
    rcases List.mem_cons.1 hm with hm | hm
    · cases hm; exact h4
    · have := ih r gs o hm
      rw [h3] at this
      exact this
  | last _ _ h _ h2 =>
    obtain ⟨h3, h4⟩ := hg h2
    rw [h.adv.1] at h4
    intro r gs o hm
    rw [List.mem_singleton] at hm
    cases hm; exact h4

end Teleparse
