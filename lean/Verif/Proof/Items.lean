import Verif.Proof.Lines
import Verif.Spec.Delimited
/-
Lemmas for C107: lists with separators find every good element that comes after a separator they read.
-/
namespace Teleparse
variable {m n : Nat}

namespace Items
open Lines
variable {S : Schema m n} {md : Metadata (PId m n) n} {G : Grammar (PId m n) n} {source : Str} {root : Ty m n}
  {k : Terminal n}

/-! ### What both kinds of lists have in common -/

inductive Miss0 (S : Schema m n) (md : Metadata (PId m n) n) (t : Ty m n) : View n → Miss n → View n → Prop
  | cannot {v e} : e.span = v.nextSpan → Miss0 S md t v (.cannot e) v
  | failed {v ts e v1} : On S md t v (.panic e) v1 → Miss0 S md t v (.failed ts e) v1

inductive Gap0 (S : Schema m n) (md : Metadata (PId m n) n) (G : Grammar (PId m n) n) (t p : Ty m n) :
    View n → List (Miss n × Option (Token n)) → GapEnd n → View n → Prop
  | found {v r v1} : On S md t v r v1 → Gap0 S md G t p v [] (.elem r) v1
  | none {v} : Gap0 S md G t p v [] .stop v
  | miss {v a v1 o} : Miss0 S md t v a v1 → (∀ r, o ≠ .elem r) → Gap0 S md G t p v [(a, .none)] o v1
  | skip {v a v1 x v2 gs o v'} : Miss0 S md t v a v1 → ¬ FirstOf G p.pid (x.word v.source) →
      v1.Passed [x] v2 → Gap0 S md G t p v2 gs o v' → Gap0 S md G t p v ((a, some x) :: gs) o v'

theorem gap_split {t p : Ty m n} {stop} {v v' : View n} {gs o} (h : SplitGap S md G t p stop v gs o v') :
    Gap0 S md G t p v gs o v' := by
  have miss : ∀ {v a v1}, SplitMiss S md G t v a v1 → Miss0 S md t v a v1 := by
    intro v a v1 h
    cases h with
    | cannot => exact .cannot rfl
    | failed _ h => exact .failed h
  induction h with
  | found _ h => exact .found h
  | sep h => exact .miss (miss h) (by simp)
  | ends h => exact .miss (miss h) (by simp)
  | skip h h1 _ h2 _ ih => exact .skip (miss h) h1 h2 ih

theorem gap_punct {t p : Ty m n} {stop} {v v' : View n} {gs o} (h : PunctGap S md G t p stop v gs o v') :
    Gap0 S md G t p v gs o v' := by
  have miss : ∀ {v a v1}, PunctMiss S md G t stop v a v1 → Miss0 S md t v a v1 := by
    intro v a v1 h
    cases h with
    | cannot => exact .cannot rfl
    | failed _ _ h => exact .failed h
  induction h with
  | found _ _ h => exact .found h
  | trail => exact .none
  | sep h => exact .miss (miss h) (by simp)
  | ends h => exact .miss (miss h) (by simp)
  | skip h h1 _ h2 _ ih => exact .skip (miss h) h1 h2 ih

/-- A list finds an element where there is one. -/
theorem split_found {t p : Ty m n} {stop} {v v' : View n} {gs o x w} (h : SplitGap S md G t p stop v gs o v')
    (hon : On S md t v (.success x) w) (hs : Starts G t.pid v.word) : gs = [] ∧ o = .elem (.success x) ∧ v' = w := by
  have miss : ∀ {a v1}, ¬ SplitMiss S md G t v a v1 := by
    intro a v1 h
    cases h with
    | cannot h => exact h hs
    | failed _ h => cases (on_det h hon).1
  cases h with
  | found _ h =>
    obtain ⟨rfl, rfl⟩ := on_det h hon
    exact ⟨rfl, rfl, rfl⟩
  | sep h => exact (miss h).elim
  | ends h => exact (miss h).elim
  | skip h => exact (miss h).elim

theorem punct_found {t p : Ty m n} {stop} {v v' : View n} {gs o x w b} (h : PunctGap S md G t p stop v gs o v')
    (hon : On S md t v (.success x) w) (hb : v.word = some b) (hs : FirstOf G t.pid b) :
    gs = [] ∧ o = .elem (.success x) ∧ v' = w := by
  have miss : ∀ {a v1}, ¬ PunctMiss S md G t stop v a v1 := by
    intro a v1 h
    cases h with
    | cannot h1 h =>
      rw [hb] at h1
      cases h1
      exact h hs
    | failed _ _ h => cases (on_det h hon).1
  cases h with
  | found _ _ h =>
    obtain ⟨rfl, rfl⟩ := on_det h hon
    exact ⟨rfl, rfl, rfl⟩
  | trail h => exact (h b hb hs).elim
  | sep h => exact (miss h).elim
  | ends h => exact (miss h).elim
  | skip h => exact (miss h).elim

/-! ### Positions -/

/-- What is reported up to the next token, is reported before the separator `s` ends. -/
theorem upTo_by {w : View n} {e : List (Err n)} {us : List (Token n)} {s : Token n} {l} (hw : Ready source w)
    (hr : w.rest = us ++ s :: l) (hu : UpTo w e) : By s e := by
  intro x hx
  have h5 := (hu x hx).2.2
  refine Nat.le_trans h5 ?_
  unfold View.cur
  rw [hr]
  cases us with
  | nil => exact Nat.le_refl _
  | cons a us =>
    have hp := (List.pairwise_append.1 hw.sorted.tokens.2).2.1
    rw [hr] at hp
    have h5 := (List.pairwise_cons.1 hp).1 s (by simp)
    have := hw.pos (t := s) (by rw [hr]; simp)
    show a.span.hi ≤ _
    omega

theorem stays_cut {v v1 : View n} (h : Stays source k v v1) {pre : List (Token n)} {s : Token n} {l}
    (hr : v.rest = pre ++ s :: l) (hs : s.Is source k) : ∃ us pre', pre = us ++ pre' ∧ v1.rest = pre' ++ s :: l := by
  obtain ⟨cs, e1, n1⟩ := h
  rw [hr] at e1
  rcases List.append_eq_append_iff.1 e1 with ⟨us, e2, e3⟩ | ⟨us, e2, e3⟩
  · cases us with
    | nil => exact ⟨pre, [], by simp, by simpa using e3.symm⟩
    | cons b us =>
      exfalso
      simp only [List.cons_append, List.cons.injEq] at e3
      obtain ⟨rfl, -⟩ := e3
      exact n1 s (by rw [e2]; simp) hs
  · exact ⟨cs, us, e2, e3⟩

/-- The errors of a gap, and of the element found after it. -/
def endErrs : GapEnd n → List (Err n)
  | .elem r => r.errs
  | _ => []

theorem joined_lo {B : Nat} {l : List (Err n)} (h : Late B l) : Late B (joined l).toList := by
  cases l with
  | nil => intro e he; cases he
  | cons a l =>
    intro e he
    simp only [joined, Option.toList_some, List.mem_singleton] at he
    subst he
    exact h a (by simp)

theorem joined_hi {s : Token n} {l : List (Err n)} (h : By s l) : By s (joined l).toList := by
  cases l with
  | nil => intro e he; cases he
  | cons a l =>
    intro e he
    simp only [joined, Option.toList_some, List.mem_singleton] at he
    subst he
    exact h ((a :: l).getLast (by simp)) (List.getLast_mem _)

theorem miss_facts {t : Ty m n} {v v1 : View n} {a} (h : Miss0 S md t v a v1) (hv : Ready source v) :
    Adv v v1 ∧ Late v.cur.lo a.err.toList ∧ UpTo v1 a.err.toList ∧ (∃ c, v1.cells = v.cells ++ c) := by
  cases h with
  | cannot h =>
    refine ⟨.refl _, ?_, ?_, ⟨[], by simp⟩⟩
    · intro e he
      simp only [Miss.err, Option.toList_some, List.mem_singleton] at he
      subst he
      rw [h, View.nextSpan_eq]
      exact Nat.le_refl _
    · intro e he
      simp only [Miss.err, Option.toList_some, List.mem_singleton] at he
      subst he
      rw [h, View.nextSpan_eq]
      exact ⟨hv.cur_span, Nat.le_refl _, Nat.le_refl _⟩
  | @failed ts e _ h =>
    have hm : ∀ x ∈ e.getLast?.toList, x ∈ (Res.panic e : Res n (Tree n)).errs := by
      intro x hx
      cases hl : e.getLast? with
      | none => rw [hl] at hx; cases hx
      | some a =>
        rw [hl] at hx
        rw [List.mem_singleton.1 hx]
        exact List.mem_of_getLast? hl
    exact ⟨h.adv, fun x hx => h.run.lateCur hv x (hm x hx), fun x hx => h.run.upTo hv x (hm x hx), on_prefix hv h⟩

theorem miss_stays {t : Ty m n} {v v1 : View n} {a} (h : Miss0 S md t v a v1) (hv : Ready source v)
    (hc : Confined S k t) : Stays source k v v1 := by
  cases h with
  | cannot h => exact .refl _
  | failed h => exact stays h.run hv hc

theorem gap_facts {t p : Ty m n} {v v' : View n} {gs o} (h : Gap0 S md G t p v gs o v') : Ready source v →
    Adv v v' ∧ (∃ c, v'.cells = v.cells ++ c) ∧ Late v.cur.lo (gs.filterMap fun g => g.1.err) ∧
      Late v.cur.lo (endErrs o) := by
  induction h with
  | found h =>
    intro hv
    exact ⟨h.adv, on_prefix hv h, .nil, h.run.lateCur hv⟩
  | none => intro hv; exact ⟨.refl _, ⟨[], by simp⟩, .nil, .nil⟩
  | @miss v a v1 o h ho =>
    intro hv
    obtain ⟨h1, h2, -, h3⟩ := miss_facts h hv
    refine ⟨h1, h3, ?_, ?_⟩
    · intro e he
      refine h2 e ?_
      cases ha : a.err <;> simpa [ha] using he
    · cases o with
      | elem r => exact absurd rfl (ho r)
      | sep => exact .nil
      | stop => exact .nil
  | @skip v a v1 x v2 gs o v' h _ h2 _ ih =>
    intro hv
    obtain ⟨g1, g2, -, c, g3⟩ := miss_facts h hv
    have ha := g1.trans h2.adv
    obtain ⟨i1, ⟨c', i2⟩, i3, i4⟩ := ih (hv.adv ha)
    have hle := hv.cur_le ha
    refine ⟨ha.trans i1, ⟨c ++ [Cell.ofToken x] ++ c', by rw [i2, h2.cells, g3]; simp⟩, ?_, fun e he => Nat.le_trans hle (i4 e he)⟩
    intro e he
    rw [List.filterMap_cons] at he
    cases hx : a.err with
    | none => rw [hx] at he; exact Nat.le_trans hle (i3 e he)
    | some y =>
      rw [hx] at he
      rcases List.mem_cons.1 he with rfl | he
      · exact g2 _ (by simp [hx])
      · exact Nat.le_trans hle (i3 e he)

/-- A gap does not go over a separator, and what it reports is before the next one. -/
theorem gap_stays {t p : Ty m n} {s : Token n} (hs : s.Is source k) (hc : Confined S k t)
    (hf : ∀ w, FirstOf G p.pid w ↔ k.Matches w) {v v' : View n} {gs o}
    (h : Gap0 S md G t p v gs o v') : Ready source v → ∀ {pre l}, v.rest = pre ++ s :: l →
    (∃ us pre', pre = us ++ pre' ∧ v'.rest = pre' ++ s :: l) ∧ By s (gs.filterMap fun g => g.1.err) ∧ By s (endErrs o) := by
  induction h with
  | found h =>
    intro hv pre l hr
    obtain ⟨us, pre', e1, e2⟩ := stays_cut (stays h.run hv hc) hr hs
    exact ⟨⟨us, pre', e1, e2⟩, (by intro e he; cases he), upTo_by (hv.adv h.adv) e2 (h.run.upTo hv)⟩
  | none => intro hv pre l hr; exact ⟨⟨[], pre, rfl, hr⟩, (by intro e he; cases he), by intro e he; cases he⟩
  | @miss v a v1 o h ho =>
    intro hv pre l hr
    obtain ⟨us, pre', e1, e2⟩ := stays_cut (miss_stays h hv hc) hr hs
    obtain ⟨h1, -, h2, -⟩ := miss_facts h hv
    refine ⟨⟨us, pre', e1, e2⟩, ?_, ?_⟩
    · intro e he
      refine upTo_by (hv.adv h1) e2 h2 e ?_
      cases ha : a.err <;> simpa [ha] using he
    · cases o with
      | elem r => exact absurd rfl (ho r)
      | sep => intro e he; cases he
      | stop => intro e he; cases he
  | @skip v a v1 x v2 gs o v' h hx h2 _ ih =>
    intro hv pre l hr
    obtain ⟨us, pre', e1, e2⟩ := stays_cut (miss_stays h hv hc) hr hs
    obtain ⟨g1, -, g2, -⟩ := miss_facts h hv
    have hsrc : v.source = source := hv.inSource.src
    rw [hf, hsrc] at hx
    have hr1 := h2.rest
    rw [e2] at hr1
    cases pre' with
    | nil =>
      simp only [List.nil_append, List.singleton_append, List.cons.injEq] at hr1
      rw [← hr1.1] at hx
      exact absurd hs hx
    | cons b pre' =>
      simp only [List.cons_append, List.nil_append, List.cons.injEq] at hr1
      obtain ⟨rfl, hr2⟩ := hr1
      obtain ⟨⟨us', pre2, i1, i2⟩, i3, i4⟩ := ih (hv.adv (g1.trans h2.adv)) hr2.symm
      refine ⟨⟨us ++ b :: us', pre2, by rw [e1, i1]; simp, i2⟩, ?_, i4⟩
      intro e he
      rw [List.filterMap_cons] at he
      cases hx : a.err with
      | none => rw [hx] at he; exact i3 e he
      | some y =>
        rw [hx] at he
        rcases List.mem_cons.1 he with rfl | he
        · exact upTo_by (hv.adv g1) e2 g2 _ (by simp [hx])
        · exact i3 e he

/-! ### The steps of a list -/

/-- All errors of a step. -/
def stepErrs : DelimStep n → List (Err n)
  | .sepFails e => e
  | .sep r gs (some r2) => r.errs ++ r2.errs ++ gapErrs gs
  | .sep r gs none => r.errs ++ [] ++ gapErrs gs

theorem split_errs (a : DelimStep n) {e} (h : e ∈ a.splitErrs) : e ∈ stepErrs a := by
  cases a with
  | sepFails => exact h
  | sep r gs o =>
    cases o with
    | none => exact h
    | some r2 =>
      cases r2 <;> simp [DelimStep.splitErrs, stepErrs, triedErrs, Res.errs] at h ⊢ <;> grind

theorem punct_errs (a : DelimStep n) {e} (h : e ∈ a.punctErrs) : e ∈ stepErrs a := by
  cases a with
  | sepFails => exact h
  | sep r gs o =>
    cases o with
    | none => simpa [DelimStep.punctErrs, stepErrs, triedErrs] using h
    | some r2 =>
      cases r2 <;> simp [DelimStep.punctErrs, stepErrs, triedErrs, Res.errs] at h ⊢ <;> grind

theorem steps_late {t p : Ty m n} {Gap} (hg : ∀ {v gs o v'}, Gap v gs o v' → Gap0 S md G t p v gs o v') {v v' : View n} {steps}
    (h : DelimSteps S md G p Gap v steps v') : Ready source v →
    Adv v v' ∧ (∃ c, v'.cells = v.cells ++ c) ∧ Late v.cur.lo (steps.flatMap stepErrs) := by
  have one : ∀ {v v1 v2 : View n} {r gs o}, Ready source v → On S md p v r v1 → Gap v1 gs o v2 →
      Adv v v2 ∧ (∃ c, v2.cells = v.cells ++ c) ∧ Late v.cur.lo (r.errs ++ endErrs o ++ gapErrs gs) := by
    intro v v1 v2 r gs o hv hon h
    obtain ⟨c, hc⟩ := on_prefix hv hon
    obtain ⟨g1, ⟨c', g2⟩, g3, g4⟩ := gap_facts (hg h) (hv.adv hon.adv)
    have hle := hv.cur_le hon.adv
    refine ⟨hon.adv.trans g1, ⟨c ++ c', by rw [g2, hc, List.append_assoc]⟩, .append (.append (hon.run.lateCur hv) ?_) ?_⟩
    · exact fun e he => Nat.le_trans hle (g4 e he)
    · exact joined_lo fun e he => Nat.le_trans hle (g3 e he)
  induction h with
  | done => intro hv; exact ⟨.refl _, ⟨[], by simp⟩, .nil⟩
  | sepFails _ _ h =>
    intro hv
    refine ⟨h.adv, on_prefix hv h, ?_⟩
    have := h.run.lateCur hv
    simpa [stepErrs, Res.errs] using this
  | elem _ _ h _ h2 _ ih =>
    intro hv
    obtain ⟨g1, ⟨c, g2⟩, g3⟩ := one hv h h2
    obtain ⟨i1, ⟨c', i2⟩, i3⟩ := ih (hv.adv g1)
    refine ⟨g1.trans i1, ⟨c ++ c', by rw [i2, g2, List.append_assoc]⟩, ?_⟩
    rw [List.flatMap_cons]
    exact .append g3 fun e he => Nat.le_trans (hv.cur_le g1) (i3 e he)
  | again _ _ h _ h2 _ ih =>
    intro hv
    obtain ⟨g1, ⟨c, g2⟩, g3⟩ := one hv h h2
    obtain ⟨i1, ⟨c', i2⟩, i3⟩ := ih (hv.adv g1)
    refine ⟨g1.trans i1, ⟨c ++ c', by rw [i2, g2, List.append_assoc]⟩, ?_⟩
    rw [List.flatMap_cons]
    exact .append g3 fun e he => Nat.le_trans (hv.cur_le g1) (i3 e he)
  | last _ _ h _ h2 =>
    intro hv
    obtain ⟨g1, ⟨c, g2⟩, g3⟩ := one hv h h2
    refine ⟨g1, ⟨c, g2⟩, ?_⟩
    rw [List.flatMap_cons]
    exact .append g3 .nil

/-- A good element after a separator that was read by the list. -/
theorem item {t : Ty m n} {i : Nat} {Gap} (hg : ∀ {v gs o v'}, Gap v gs o v' → Gap0 S md G t (.term i k) v gs o v')
    (hc : Confined S k t) (hf : ∀ w, FirstOf G (Ty.term i k : Ty m n).pid w ↔ k.Matches w)
    {c : List (Cell n)} {x : Tree n} {s : Token n} {post : List (Token n)} (hs : s.Is source k)
    (hgood : ∀ d gs o v', Ready source ⟨source, d ++ [Cell.ofToken s], toks c ++ post⟩ →
      Gap ⟨source, d ++ [Cell.ofToken s], toks c ++ post⟩ gs o v' →
      gs = [] ∧ o = .elem (.success x) ∧ v' = ⟨source, d ++ [Cell.ofToken s] ++ c, post⟩)
    {v v' : View n} {steps} (h : DelimSteps S md G (.term i k) Gap v steps v') :
    ∀ pre, Ready source v → v.rest = pre ++ s :: (toks c ++ post) → v'.rest.length ≤ (toks c ++ post).length →
      ∃ st1 st2, steps = st1 ++ .sep (.success (.tok s)) [] (some (.success x)) :: st2 ∧
        By s (st1.flatMap stepErrs) ∧ Late (afterTokens s.span.hi (toks c)) (st2.flatMap stepErrs) ∧
        ∃ d c', v'.cells = d ++ (c ++ c') ∧ d.map (·.token) = v.cells.map (·.token) ++ (pre ++ [s]) := by
  -- the next separator is read, and it is `s` or one before
  have sep : ∀ {v v1 : View n} {w r pre}, Ready source v → v.rest = pre ++ s :: (toks c ++ post) → v.word = some w →
      FirstOf G (Ty.term i k : Ty m n).pid w → On S md (.term i k) v r v1 →
      (pre = [] ∧ r = .success (.tok s) ∧ v1 = ⟨source, v.cells ++ [Cell.ofToken s], toks c ++ post⟩) ∨
      ∃ a pre', pre = a :: pre' ∧ r = .success (.tok a) ∧ v1 = ⟨source, v.cells ++ [Cell.ofToken a], pre' ++ s :: (toks c ++ post)⟩ := by
    intro v v1 w r pre hv hr hw hfw hon
    have hsrc : v.source = source := hv.inSource.src
    cases pre with
    | nil =>
      obtain ⟨rfl, rfl⟩ := on_det hon (on_sep hv hr hs)
      exact .inl ⟨rfl, rfl, rfl⟩
    | cons a pre =>
      have hr : v.rest = a :: (pre ++ s :: (toks c ++ post)) := hr
      rw [word_cons hr, hsrc] at hw
      cases hw
      obtain ⟨rfl, rfl⟩ := on_det hon (on_sep hv hr ((hf _).1 hfw))
      exact .inr ⟨a, pre, rfl, rfl, rfl⟩
  -- a step before the element
  have before : ∀ {v v1 v2 : View n} {a pre' gs o}, Ready source v →
      v.rest = (a :: pre') ++ s :: (toks c ++ post) →
      On S md (.term i k) v (.success (.tok a)) v1 →
      v1 = ⟨source, v.cells ++ [Cell.ofToken a], pre' ++ s :: (toks c ++ post)⟩ → Gap v1 gs o v2 →
      Ready source v2 ∧ (∃ us pre2, pre' = us ++ pre2 ∧ v2.rest = pre2 ++ s :: (toks c ++ post) ∧
        v2.cells.map (·.token) ++ (pre2 ++ [s]) = v.cells.map (·.token) ++ ((a :: pre') ++ [s])) ∧
        By s (endErrs o ++ gapErrs gs) := by
    intro v v1 v2 a pre' gs o hv hr hon e1 hgap
    subst e1
    have hv1 := hv.adv hon.adv
    obtain ⟨⟨us, pre2, g1, g2⟩, g3, g4⟩ := gap_stays hs hc hf (hg hgap) hv1 rfl
    obtain ⟨ga, -⟩ := gap_facts (hg hgap) hv1
    refine ⟨hv1.adv ga, ⟨us, pre2, g1, g2, ?_⟩, ?_⟩
    · have := adv_tokens (us := us) ga (by rw [g2, g1]; simp)
      rw [this, g1]
      simp [Cell.ofToken]
    · intro e he
      rcases List.mem_append.1 he with he | he
      · exact g4 e he
      · exact joined_hi g3 e he
  induction h with
  | @done v hd =>
    intro pre hv hr hlen
    rw [hr] at hlen
    simp at hlen
    omega
  | @sepFails v w e v1 hw hfw hon =>
    intro pre hv hr hlen
    rcases sep hv hr hw hfw hon with ⟨-, h, -⟩ | ⟨_, _, -, h, -⟩ <;> cases h
  | @elem v w r v1 gs r2 v2 steps v' hw hfw hon ht hgap h ih =>
    intro pre hv hr hlen
    rcases sep hv hr hw hfw hon with ⟨rfl, rfl, rfl⟩ | ⟨a, pre', rfl, rfl, e⟩
    · have hv1 := hv.adv hon.adv
      obtain ⟨rfl, h2, rfl⟩ := hgood _ _ _ _ hv1 hgap
      cases h2
      have hv2 : Ready source ⟨source, v.cells ++ [Cell.ofToken s] ++ c, post⟩ := hv1.step
      obtain ⟨-, ⟨c', i2⟩, i3⟩ := steps_late hg h hv2
      refine ⟨[], steps, rfl, (by intro e he; cases he), ?_, v.cells ++ [Cell.ofToken s], c', by rw [i2]; simp, by simp [Cell.ofToken]⟩
      intro e he
      refine Nat.le_trans ?_ (Nat.le_trans hv2.pos_cur (i3 e he))
      unfold View.pos afterTokens
      simp only [List.getLast?_append, toks, List.getLast?_map]
      cases c.getLast? <;> simp [Cell.ofToken]
    · obtain ⟨b1, ⟨us, pre2, e1, b2, b3⟩, b4⟩ := before hv hr hon e hgap
      obtain ⟨st1, st2, i1, i2, i3, d, c', i4, i5⟩ := ih pre2 b1 b2 hlen
      refine ⟨_ :: st1, st2, by rw [i1]; rfl, ?_, i3, d, c', i4, i5.trans b3⟩
      intro e he
      rw [List.flatMap_cons] at he
      rcases List.mem_append.1 he with he | he
      · exact b4 e he
      · exact i2 e he
  | @again v w r v1 gs v2 steps v' hw hfw hon ht hgap h ih =>
    intro pre hv hr hlen
    rcases sep hv hr hw hfw hon with ⟨rfl, rfl, rfl⟩ | ⟨a, pre', rfl, rfl, e⟩
    · cases (hgood _ _ _ _ (hv.adv hon.adv) hgap).2.1
    · obtain ⟨b1, ⟨us, pre2, e1, b2, b3⟩, b4⟩ := before hv hr hon e hgap
      obtain ⟨st1, st2, i1, i2, i3, d, c', i4, i5⟩ := ih pre2 b1 b2 hlen
      refine ⟨_ :: st1, st2, by rw [i1]; rfl, ?_, i3, d, c', i4, i5.trans b3⟩
      intro e he
      rw [List.flatMap_cons] at he
      rcases List.mem_append.1 he with he | he
      · exact b4 e he
      · exact i2 e he
  | @last v w r v1 gs v2 hw hfw hon ht hgap =>
    intro pre hv hr hlen
    rcases sep hv hr hw hfw hon with ⟨rfl, rfl, rfl⟩ | ⟨a, pre', rfl, rfl, e⟩
    · cases (hgood _ _ _ _ (hv.adv hon.adv) hgap).2.1
    · obtain ⟨b1, ⟨us, pre2, e1, b2, b3⟩, b4⟩ := before hv hr hon e hgap
      rw [b2] at hlen
      simp at hlen
      omega

end Items
end Teleparse
