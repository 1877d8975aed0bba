import Verif.Proof.Covered
import Verif.Props.Completeness
import Verif.Props.Steps
/-
Property C72: how lists with separators recover.
-/
namespace Teleparse
variable {m n : Nat}

/-! ## C72: `Split` and `Punct` -/

theorem metadata_stops {S : Schema m n} {fuel : Nat} {root : Ty m n} {md : Metadata (PId m n) n}
    {G : Grammar (PId m n) n} (hmd : S.metadata fuel root = some (.ok md)) (hG : S.IsGrammar root G) (i : PId m n) :
    StopsAt G root.pid i (fun w => (md.follow.get i).contains (some w) = true) := by
  obtain ⟨G', hG', hreg, hb⟩ := metadata_build hmd
  have h1 : ∀ p ∈ G, p ∈ G' := fun p hp => (hG.same hG' p).1 hp
  have h2 : ∀ p ∈ G', p ∈ G := fun p hp => (hG.same hG' p).2 hp
  refine ⟨fun w hw => ?_, fun w hw => ?_⟩
  · exact (FollowC.sound (registerFrom_connected hreg) ((build_follow_den hb i _).1 hw)).congr h2
  · rcases (hw.congr h1).computed with hc | ⟨a, tok, ht, h3, h4⟩
    · exact .inl ((build_follow_den hb i _).2 hc)
    · cases ht
      exact .inr ⟨a, h3.congr h2, h4.congr h2⟩

theorem getLast_map_getD (x : Tree n) (l : List (Tree n)) (d : Nat) :
    ((x :: l).getLast?.map (·.span.hi)).getD d = ((x :: l).getLast (by simp)).span.hi := by
  rw [List.getLast?_eq_some_getLast (by simp)]; rfl

theorem ofPair_eq (sp : Span) (l q : List (Tree n)) (e : List (Err n)) :
    Res.ofPair (.split sp l q) e = delimResult sp l q e := by
  cases e <;> rfl

/-- The steps of `Split`, for all tables with the right FIRST sets. -/
theorem delim_split {S : Schema m n} {md : Metadata (PId m n) n} {G : Grammar (PId m n) n} (t p : Ty m n)
    {stop : TokenSrc n → Prop} (hfirst : ∀ i x, (md.first.get i).contains x = true ↔ Starts G i x)
    (hstop : ∀ w, (md.follow.get (Ty.split t p).pid).contains (some w) = true ↔ stop w)
    (ext : Fin n → Bool) (source : Str) (items : List (Item n)) (hw : ItemsWF source items)
    (q q' : Parser n) (hq : Reached ext source items q) (r : Res n (Tree n)) (hy : Yields ext S md (.split t p) q r q') :
    (∃ e, r = .panic e ∧ On S md t (q.view ext) (.panic e) (q'.view ext)) ∨
    ∃ r0 x v1 steps, On S md t (q.view ext) r0 v1 ∧ r0.tree? = some x ∧
      DelimSteps S md G p (SplitGap S md G t p stop) v1 steps (q'.view ext) ∧
      r = splitResult x r0.errs steps ∧ SkipsCovered steps r.errs ∧ MissesReported steps (q'.view ext) := by
  have hv := hq.ready hw
  obtain ⟨f, h⟩ := On.of_yields hy
  generalize q'.view ext = v' at h ⊢
  generalize q.view ext = v at h hv ⊢
  cases f with
  | zero => cases h
  | succ f =>
    change produceSplit View.ops (md.first.get t.pid) (md.first.get p.pid) (md.follow.get (Ty.split t p).pid)
      (produce View.ops S md f t) (produce View.ops S md f p) f v = _ at h
    simp only [produceSplit, bind_ok] at h
    obtain ⟨r0, v1, h0, h⟩ := h
    have h0 : On S md t v r0 v1 := ⟨f, h0⟩
    have key : ∀ x, r0.tree? = some x → ((do
        let a ← splitOuter View.ops (md.first.get t.pid) (md.first.get p.pid) (md.follow.get (Ty.split t p).pid)
          (produce View.ops S md f t) (produce View.ops S md f p) f ⟨[x], [], r0.errs⟩
        pure (splitDone x.span.lo a)) : P (View n) n) v1 = .ok r v' →
        ∃ r0 x v1 steps, On S md t v r0 v1 ∧ r0.tree? = some x ∧
          DelimSteps S md G p (SplitGap S md G t p stop) v1 steps v' ∧
          r = splitResult x r0.errs steps ∧ SkipsCovered steps r.errs ∧ MissesReported steps v' := by
      intro x hx hr
      simp only [bind_ok, pure_ok] at hr
      obtain ⟨a, v2, h1, rfl, rfl⟩ := hr
      obtain ⟨steps, h2, rfl⟩ := splitOuter_steps (stop := stop)
        (hfirst t.pid) (hfirst p.pid) hstop f f _ _ _ _ (hv.adv h0.adv) h1
      have hres : splitDone x.span.lo ⟨[x] ++ steps.filterMap DelimStep.elem?, [] ++ steps.filterMap DelimStep.pair?,
          r0.errs ++ steps.flatMap DelimStep.splitErrs⟩ = splitResult x r0.errs steps := by
        unfold splitDone splitResult
        rw [ofPair_eq]
        simp only [List.cons_append, List.nil_append, getLast_map_getD]
      have herr : (splitResult x r0.errs steps).errs = r0.errs ++ steps.flatMap DelimStep.splitErrs := by
        unfold splitResult delimResult
        simp only
        split
        · rename_i he; rw [he]; rfl
        · rfl
      obtain ⟨-, hgaps⟩ := h2.gaps (source := source) (fun hv h => h.gaps hv) (hv.adv h0.adv)
      refine ⟨r0, x, v1, steps, h0, hx, h2, hres, ?_, ?_⟩
      · intro rs gs o hm a y hy
        obtain ⟨w, w', hw, hg, -⟩ := hgaps rs gs o hm
        obtain ⟨j, hj, hc⟩ := hg.covered hw a y hy
        refine ⟨j, ?_, hc⟩
        rw [hres, herr]
        exact List.mem_append_right _ (List.mem_flatMap.2 ⟨_, hm, by simp [DelimStep.splitErrs, hj]⟩)
      · intro rs gs o hm hne
        obtain ⟨w, w', hw, hg, ha⟩ := hgaps rs gs o hm
        exact (hg.reported hne).imp_right (fun h => rest_nil_adv h ha)
    cases r0 with
    | panic e =>
      simp only [pure_ok] at h
      obtain ⟨rfl, rfl⟩ := h
      exact .inl ⟨e, rfl, h0⟩
    | success x => exact .inr (key x rfl h)
    | recovered x e => exact .inr (key x rfl h)

/-- `Split<t, p>` fails iff its first element fails. Otherwise it does exactly the steps of its specification
(see `DelimSteps`, `SplitGap`): a separator is read wherever one can begin, then an element is searched by skipping
tokens, until an element is found, or a separator can begin, or the list ends. The tokens at which it gives up are
in FOLLOW of the list. The result consists of the elements, the separators in front of them, and the errors; the
errors of one search are reported as one; it covers all skipped tokens. -/
theorem C72_split {S : Schema m n} {fuel : Nat} {root : Ty m n} {md : Metadata (PId m n) n}
    {G : Grammar (PId m n) n} (hmd : S.metadata fuel root = some (.ok md)) (hG : S.IsGrammar root G) (t p : Ty m n) :
    ∃ stop, StopsAt G root.pid (Ty.split t p).pid stop ∧
      ∀ (ext : Fin n → Bool) (source : Str) (items : List (Item n)), ItemsWF source items →
      ∀ (q q' : Parser n), Reached ext source items q → ∀ r, Yields ext S md (.split t p) q r q' →
      (∃ e, r = .panic e ∧ On S md t (q.view ext) (.panic e) (q'.view ext)) ∨
      ∃ r0 x v1 steps, On S md t (q.view ext) r0 v1 ∧ r0.tree? = some x ∧
        DelimSteps S md G p (SplitGap S md G t p stop) v1 steps (q'.view ext) ∧
        r = splitResult x r0.errs steps ∧ SkipsCovered steps r.errs ∧ MissesReported steps (q'.view ext) := by
  refine ⟨_, metadata_stops hmd hG _, ?_⟩
  intro ext source items hw q q' hq r hy
  exact delim_split t p (metadata_first hmd hG) (fun _ => Iff.rfl) ext source items hw q q' hq r hy

/-- The steps of `Punct`, for all tables with the right FIRST sets. -/
theorem delim_punct {S : Schema m n} {md : Metadata (PId m n) n} {G : Grammar (PId m n) n} (t p : Ty m n)
    {stop : TokenSrc n → Prop} (hfirst : ∀ i x, (md.first.get i).contains x = true ↔ Starts G i x)
    (hstop : ∀ w, (md.follow.get (Ty.punct t p).pid).contains (some w) = true ↔ stop w)
    (ext : Fin n → Bool) (source : Str) (items : List (Item n)) (hw : ItemsWF source items)
    (q q' : Parser n) (hq : Reached ext source items q) (r : Res n (Tree n)) (hy : Yields ext S md (.punct t p) q r q') :
    (∃ e, r = .panic e ∧ On S md t (q.view ext) (.panic e) (q'.view ext)) ∨
    ∃ r0 x v1 steps, On S md t (q.view ext) r0 v1 ∧ r0.tree? = some x ∧
      DelimSteps S md G p (PunctGap S md G t p stop) v1 steps (q'.view ext) ∧
      r = punctResult x r0.errs steps ∧ SkipsCovered steps r.errs ∧ MissesReported steps (q'.view ext) := by
  have hv := hq.ready hw
  obtain ⟨f, h⟩ := On.of_yields hy
  generalize q'.view ext = v' at h ⊢
  generalize q.view ext = v at h hv ⊢
  cases f with
  | zero => cases h
  | succ f =>
    change producePunct View.ops (md.first.get t.pid) (md.first.get p.pid) (md.follow.get (Ty.punct t p).pid)
      (produce View.ops S md f t) (produce View.ops S md f p) f v = _ at h
    simp only [producePunct, bind_ok] at h
    obtain ⟨r0, v1, h0, h⟩ := h
    have h0 : On S md t v r0 v1 := ⟨f, h0⟩
    have key : ∀ x, r0.tree? = some x → ((do
        let a ← punctOuter View.ops (md.first.get t.pid) (md.first.get p.pid) (md.follow.get (Ty.punct t p).pid)
          (produce View.ops S md f t) (produce View.ops S md f p) f ⟨[x], [], r0.errs⟩
        pure (punctDone x.span.lo a)) : P (View n) n) v1 = .ok r v' →
        ∃ r0 x v1 steps, On S md t v r0 v1 ∧ r0.tree? = some x ∧
          DelimSteps S md G p (PunctGap S md G t p stop) v1 steps v' ∧
          r = punctResult x r0.errs steps ∧ SkipsCovered steps r.errs ∧ MissesReported steps v' := by
      intro x hx hr
      simp only [bind_ok, pure_ok] at hr
      obtain ⟨a, v2, h1, rfl, rfl⟩ := hr
      obtain ⟨steps, h2, rfl⟩ := punctOuter_steps (stop := stop)
        (hfirst t.pid) (hfirst p.pid) hstop f f _ _ _ _ (hv.adv h0.adv) h1
      have hres : punctDone x.span.lo ⟨[x] ++ steps.filterMap DelimStep.elem?, [] ++ steps.filterMap DelimStep.sep?,
          r0.errs ++ steps.flatMap DelimStep.punctErrs⟩ = punctResult x r0.errs steps := by
        unfold punctDone punctResult
        rw [ofPair_eq]
        simp only [List.cons_append, List.nil_append, getLast_map_getD]
      have herr : (punctResult x r0.errs steps).errs = r0.errs ++ steps.flatMap DelimStep.punctErrs := by
        unfold punctResult delimResult
        simp only
        split
        · rename_i he; rw [he]; rfl
        · rfl
      obtain ⟨-, hgaps⟩ := h2.gaps (source := source) (fun hv h => h.gaps hv) (hv.adv h0.adv)
      refine ⟨r0, x, v1, steps, h0, hx, h2, hres, ?_, ?_⟩
      · intro rs gs o hm a y hy
        obtain ⟨w, w', hw, hg, -⟩ := hgaps rs gs o hm
        obtain ⟨j, hj, hc⟩ := hg.covered hw a y hy
        refine ⟨j, ?_, hc⟩
        rw [hres, herr]
        exact List.mem_append_right _ (List.mem_flatMap.2 ⟨_, hm, by simp [DelimStep.punctErrs, hj]⟩)
      · intro rs gs o hm hne
        obtain ⟨w, w', hw, hg, ha⟩ := hgaps rs gs o hm
        exact (hg.reported hne).imp_right (fun h => rest_nil_adv h ha)
    cases r0 with
    | panic e =>
      simp only [pure_ok] at h
      obtain ⟨rfl, rfl⟩ := h
      exact .inl ⟨e, rfl, h0⟩
    | success x => exact .inr (key x rfl h)
    | recovered x e => exact .inr (key x rfl h)

/-- The same for `Punct<t, p>`, which may end after a separator without an error. -/
theorem C72_punct {S : Schema m n} {fuel : Nat} {root : Ty m n} {md : Metadata (PId m n) n}
    {G : Grammar (PId m n) n} (hmd : S.metadata fuel root = some (.ok md)) (hG : S.IsGrammar root G) (t p : Ty m n) :
    ∃ stop, StopsAt G root.pid (Ty.punct t p).pid stop ∧
      ∀ (ext : Fin n → Bool) (source : Str) (items : List (Item n)), ItemsWF source items →
      ∀ (q q' : Parser n), Reached ext source items q → ∀ r, Yields ext S md (.punct t p) q r q' →
      (∃ e, r = .panic e ∧ On S md t (q.view ext) (.panic e) (q'.view ext)) ∨
      ∃ r0 x v1 steps, On S md t (q.view ext) r0 v1 ∧ r0.tree? = some x ∧
        DelimSteps S md G p (PunctGap S md G t p stop) v1 steps (q'.view ext) ∧
        r = punctResult x r0.errs steps ∧ SkipsCovered steps r.errs ∧ MissesReported steps (q'.view ext) := by
  refine ⟨_, metadata_stops hmd hG _, ?_⟩
  intro ext source items hw q q' hq r hy
  exact delim_punct t p (metadata_first hmd hG) (fun _ => Iff.rfl) ext source items hw q q' hq r hy

/-- Skipped tokens cannot begin a separator and the list does not end at them. They cannot begin an element either.
Missing for the full statement: the token directly after an element that was tried and failed is not tried again
(false there, see `C72_false`). -/
theorem C72_skipped_partial {S : Schema m n} {md : Metadata (PId m n) n} {G : Grammar (PId m n) n} {t p : Ty m n}
    {stop : TokenSrc n → Prop} {v v' : View n} {steps : List (DelimStep n)}
    (h : DelimSteps S md G p (SplitGap S md G t p stop) v steps v' ∨
      DelimSteps S md G p (PunctGap S md G t p stop) v steps v')
    (r gs o) (hm : .sep r gs o ∈ steps) (a x) (hx : (a, some x) ∈ gs) :
    ¬ FirstOf G p.pid (x.word v.source) ∧ ¬ stop (x.word v.source) ∧
      (FirstOf G t.pid (x.word v.source) → ∃ ts e, a = .failed ts e) := by
  rcases h with h | h
  · exact h.skipped (P := fun source a x => ¬ FirstOf G p.pid (x.word source) ∧ ¬ stop (x.word source) ∧
      (FirstOf G t.pid (x.word source) → ∃ ts e, a = .failed ts e)) (fun h => ⟨h.adv.1, h.skipped⟩) r gs o hm a x hx
  · exact h.skipped (P := fun source a x => ¬ FirstOf G p.pid (x.word source) ∧ ¬ stop (x.word source) ∧
      (FirstOf G t.pid (x.word source) → ∃ ts e, a = .failed ts e)) (fun h => ⟨h.adv.1, h.skipped⟩) r gs o hm a x hx

/-! ### Counterexamples -/

def dlE : Ty 0 3 := .tup2 exWord exNum
def dlT : Ty 0 3 := .split dlE fxX
def dlMd : Metadata (PId 0 3) 3 := okOf ⟨[], [], []⟩ (exS.metadata 30 dlT)
/-- `a 1 x b c 1` -/
def dlSource : Str := [97, 32, 49, 32, 120, 32, 98, 32, 99, 32, 49]
def dlItems : List (Item 3) := [.token ⟨⟨0, 1⟩, 0⟩, .token ⟨⟨2, 3⟩, 1⟩, .token ⟨⟨4, 5⟩, 2⟩, .token ⟨⟨6, 7⟩, 0⟩,
  .token ⟨⟨8, 9⟩, 0⟩, .token ⟨⟨10, 11⟩, 1⟩]

/-- The claim that tokens are skipped only until one is found that can begin an element is false:
`Split<(word, num), "x">` on `a 1 x b c 1` skips `c 1` although this is an element. -/
theorem C72_false : exS.metadata 30 dlT = some (.ok dlMd) ∧ ItemsWF dlSource dlItems ∧
    (∃ x e p', Yields noExt exS dlMd dlT (Parser.new dlSource dlItems) (.recovered (.split ⟨0, 3⟩ [x] []) e) p' ∧
      p'.lookahead noExt = none) ∧
    ∃ q x q', Reached noExt dlSource dlItems q ∧ (q.view noExt).rest = [⟨⟨8, 9⟩, 0⟩, ⟨⟨10, 11⟩, 1⟩] ∧
      Yields noExt exS dlMd dlE q (.success x) q' := by
  refine ⟨by rfl, by unfold ItemsWF dlItems dlSource; decide, ⟨_, _, _, ⟨20, by rfl⟩, by rfl⟩, ?_⟩
  exact ⟨_, _, _, .consume (.consume (.consume (.consume .new))), by rfl, 20, by rfl⟩

/-- `(Split<word, "x">, num?, "y")` -/
def dfL : Ty 0 3 := .split exWord fxX
def dfY : Ty 0 3 := .term 3 ⟨2, some [121]⟩
def dfT : Ty 0 3 := .tup3 dfL (.option exNum) dfY
def dfMd : Metadata (PId 0 3) 3 := okOf ⟨[], [], []⟩ (exS.metadata 30 dfT)
def dfG : Grammar (PId 0 3) 3 := (registerFrom exS.rule 30 dfT.pid).getD []
/-- `a x y` -/
def dfSource : Str := [97, 32, 120, 32, 121]
def dfItems : List (Item 3) := [.token ⟨⟨0, 1⟩, 0⟩, .token ⟨⟨2, 3⟩, 2⟩, .token ⟨⟨4, 5⟩, 2⟩]

theorem df_follow : FollowOf dfG dfT.pid dfL.pid (some ⟨2, [121]⟩) := by
  have h0 : Derives dfG [.nt dfT.pid] [.nt dfL.pid, .nt (Ty.option exNum).pid, .nt dfY.pid] :=
    Derives.one (Expands.seq (l := [dfL.pid, (Ty.option exNum).pid, dfY.pid]) (by decide))
  have h2 : Derives dfG [.nt (Ty.option exNum).pid] [] := by
    exact (Derives.one (Expands.alt (l := [exNum.pid, .eps]) (by decide) (j := .eps) (by decide))).trans
      (Derives.one (Expands.eps (by decide)))
  have h8 : Derives dfG [.nt dfY.pid] [.tok ⟨2, [121]⟩] :=
    Derives.one (Expands.term (t := ⟨2, some [121]⟩) (by decide) ⟨rfl, by simp⟩)
  refine ⟨[], [], h0.trans ?_⟩
  have e1 := h2.ctx [.nt dfL.pid] [.nt dfY.pid]
  have e2 := h8.ctx [.nt dfL.pid] []
  exact Derives.trans (by simpa using e1) (by simpa using e2)

/-- The claim that a list without an element after a separator stops at tokens that can follow it is false:
in `(Split<word, "x">, num?, "y")` on `a x y` the list skips the `y`, and then the `y` is reported as missing. -/
theorem C72_follow_false : exS.metadata 30 dfT = some (.ok dfMd) ∧ exS.IsGrammar dfT dfG ∧
    ItemsWF dfSource dfItems ∧ FollowOf dfG dfT.pid dfL.pid (some ⟨2, [121]⟩) ∧
    (∃ r p', Yields noExt exS dfMd dfL (Parser.new dfSource dfItems) r p' ∧ p'.lookahead noExt = none) ∧
    ∃ x e p', Yields noExt exS dfMd dfT (Parser.new dfSource dfItems) (.recovered x e) p' ∧
      e.map (·.span) = [⟨4, 5⟩, ⟨5, 5⟩] := by
  refine ⟨by rfl, .of_register (fuel := 30) rfl, by unfold ItemsWF dfItems dfSource; decide, df_follow, ?_, ?_⟩
  · exact ⟨_, _, ⟨20, by rfl⟩, by rfl⟩
  · exact ⟨_, _, _, ⟨20, by rfl⟩, by rfl⟩

/-! ### Examples -/

def dlG : Grammar (PId 0 3) 3 := (registerFrom exS.rule 30 dlT.pid).getD []
def dpT : Ty 0 3 := .punct exWord fxX
def dpMd : Metadata (PId 0 3) 3 := okOf ⟨[], [], []⟩ (exS.metadata 30 dpT)
def dpG : Grammar (PId 0 3) 3 := (registerFrom exS.rule 30 dpT.pid).getD []
/-- `a x 1 1 x b x` -/
def dpSource : Str := [97, 32, 120, 32, 49, 32, 49, 32, 120, 32, 98, 32, 120]
def dpItems : List (Item 3) := [.token ⟨⟨0, 1⟩, 0⟩, .token ⟨⟨2, 3⟩, 2⟩, .token ⟨⟨4, 5⟩, 1⟩, .token ⟨⟨6, 7⟩, 1⟩,
  .token ⟨⟨8, 9⟩, 2⟩, .token ⟨⟨10, 11⟩, 0⟩, .token ⟨⟨12, 13⟩, 2⟩]

/-- The list of the first counterexample meets the hypotheses of `C72_split`. -/
example : exS.metadata 30 dlT = some (.ok dlMd) ∧ exS.IsGrammar dlT dlG ∧ ItemsWF dlSource dlItems ∧
    Reached noExt dlSource dlItems (Parser.new dlSource dlItems) ∧
    ∃ r p', Yields noExt exS dlMd dlT (Parser.new dlSource dlItems) r p' ∧ r.errs.map (·.span) = [⟨8, 11⟩] :=
  ⟨by rfl, .of_register (fuel := 30) rfl, by unfold ItemsWF dlItems dlSource; decide, .new, _, _, ⟨20, by rfl⟩, by rfl⟩

/-- `Punct<word, "x">` on `a x 1 1 x b x`: two elements, three separators, and one error for the two numbers, up to the
separator. -/
example : exS.metadata 30 dpT = some (.ok dpMd) ∧ exS.IsGrammar dpT dpG ∧ ItemsWF dpSource dpItems ∧
    ∃ e p', Yields noExt exS dpMd dpT (Parser.new dpSource dpItems) (.recovered (.split ⟨0, 13⟩
      [.tok ⟨⟨0, 1⟩, 0⟩, .tok ⟨⟨10, 11⟩, 0⟩] [.tok ⟨⟨2, 3⟩, 2⟩, .tok ⟨⟨8, 9⟩, 2⟩, .tok ⟨⟨12, 13⟩, 2⟩]) e) p' ∧
      e.map (·.span) = [⟨4, 9⟩] :=
  ⟨by rfl, .of_register (fuel := 30) rfl, by unfold ItemsWF dpItems dpSource; decide, _, _, ⟨20, by rfl⟩, by rfl⟩

end Teleparse
