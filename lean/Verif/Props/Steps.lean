import Verif.Proof.Steps
import Verif.Props.Soundness
import Verif.Props.Termination
/-
Properties C45 (Loop) and C46 (Recover).
-/
namespace Teleparse
variable {m n : Nat}

section
variable {ext : Fin n → Bool} {S : Schema m n} {fuel : Nat} {root : Ty m n} {md : Metadata (PId m n) n}
  {G : Grammar (PId m n) n} {source : Str} {items : List (Item n)}

/-! ## C45: Loop -/

/-- `Loop<t>` does exactly the steps of `LoopSteps`: it skips maximal runs of tokens at which no element can
begin, produces an element wherever one can begin, and stops at the end of input or when an element does not
consume anything. It returns the elements and all errors in order. -/
theorem C45_steps (hmd : S.metadata fuel root = some (.ok md)) (hG : S.IsGrammar root G)
    (hw : ItemsWF source items) (t : Ty m n)
    (hr : Reachable G root.pid (Ty.loop t).pid) (p p' : Parser n) (hp : Reached ext source items p)
    (r : Res n (Tree n)) (h : Yields ext S md (.loop t) p r p') :
    ∃ steps stuck, LoopSteps S md G t (p.view ext) steps stuck (p'.view ext) ∧
      r.errs = loopErrs steps stuck (p'.view ext) ∧
      r.tree? = some (.list (if loopTrees steps = [] then p'.emptySpan else spanOf (loopTrees steps))
        (loopTrees steps)) ∧
      ((∃ x, r = .success x) ↔ r.errs = []) := by
  obtain ⟨f, h⟩ := On.of_yields h
  have hsp : p'.emptySpan = ⟨(p'.view ext).pos, (p'.view ext).pos⟩ := rfl
  rw [hsp]
  generalize p'.view ext = v' at h ⊢
  have hof : ∀ (x : Tree n) (e : List (Err n)), (Res.ofPair x e).errs = e ∧ (Res.ofPair x e).tree? = some x ∧
      ((∃ y, Res.ofPair x e = .success y) ↔ (Res.ofPair x e).errs = []) := by
    intro x e
    cases e <;> simp [Res.ofPair, Res.errs, Res.tree?]
  cases f with
  | zero => cases h
  | succ f =>
    change produceLoop View.ops (md.first.get (Ty.loop t).pid) (produce View.ops S md f t) f (p.view ext) = _ at h
    simp only [produceLoop, bind_ok] at h
    obtain ⟨⟨out, errs⟩, v1, h1, h2⟩ := h
    obtain ⟨steps, stuck, g1, g2, g3⟩ := loopLoop_steps (loop_first hmd hG hr) f f _ _ _ _ _
      (hp.ready hw) h1
    simp only [List.nil_append] at g2 g3
    subst g2 g3
    refine ⟨steps, stuck, ?_⟩
    split at h2
    · rename_i he
      simp only [bind_ok, mEmptySpan_ok, pure_ok] at h2
      obtain ⟨_, _, ⟨rfl, rfl⟩, rfl, rfl⟩ := h2
      have he : loopTrees steps = [] := by simpa using he
      rw [if_pos he]
      exact ⟨g1, (hof _ _).1, (hof _ _).2.1, (hof _ _).2.2⟩
    · rename_i he
      simp only [pure_ok] at h2
      obtain ⟨rfl, rfl⟩ := h2
      have he : ¬ loopTrees steps = [] := by simpa using he
      rw [if_neg he]
      exact ⟨g1, (hof _ _).1, (hof _ _).2.1, (hof _ _).2.2⟩

/-- After `Loop` the end of input is reached, or it reports that it is stuck. -/
theorem C45_end (hmd : S.metadata fuel root = some (.ok md)) (hG : S.IsGrammar root G)
    (hw : ItemsWF source items) (t : Ty m n)
    (hr : Reachable G root.pid (Ty.loop t).pid) (p p' : Parser n) (hp : Reached ext source items p)
    (r : Res n (Tree n)) (h : Yields ext S md (.loop t) p r p') :
    p'.lookahead ext = none ∨ ∃ e ∈ r.errs, e.kind = .noAdvance := by
  obtain ⟨steps, stuck, h1, h2, -⟩ := C45_steps hmd hG hw t hr p p' hp r h
  have key : ∀ v v' : View n, LoopSteps S md G t v steps stuck v' → stuck = true ∨ v'.rest = [] := by
    intro v v' hs
    clear h1 h2
    induction hs with
    | done h => exact .inr h
    | skip _ _ _ _ _ ih => exact ih
    | elem _ _ _ _ _ _ ih => exact ih
    | stuck => exact .inl rfl
  rcases key _ _ h1 with rfl | hn
  · exact .inr ⟨⟨(p'.view ext).nextSpan, .noAdvance⟩, by rw [h2, loopErrs]; exact List.mem_append_right _ (by simp), rfl⟩
  · exact .inl (by simp [Parser.lookahead, hn])

/-- A success of `Loop` means that all remaining tokens form a sequence of elements and that this is the
returned tree, if elements do not fail silently. -/
theorem C45_success_partial (hmd : S.metadata fuel root = some (.ok md)) (hG : S.IsGrammar root G)
    (hw : ItemsWF source items) (t : Ty m n)
    (hr : Reachable G root.pid (Ty.loop t).pid) (hl : Loud S (.loop t)) (p p' : Parser n)
    (hp : Reached ext source items p) (x : Tree n) (h : Yields ext S md (.loop t) p (.success x) p') :
    ∃ c k cs l, p'.info.tokens = p.info.tokens ++ c ∧ (p.view ext).rest = c.map (·.token) ∧
      c = cs.flatten ∧ ParsesSeq S source p.emptySpan.lo (List.replicate k t) cs l ∧
      x = .list (if l = [] then p.emptySpan else spanOf l) l := by
  have hend : p'.lookahead ext = none := by
    rcases C45_end hmd hG hw t hr p p' hp _ h with h | ⟨e, he, -⟩
    · exact h
    · cases he
  have hrest : (p'.view ext).rest = [] := by
    unfold Parser.lookahead at hend
    cases hr : (p'.view ext).rest with
    | nil => rfl
    | cons a b => rw [hr] at hend; cases hend
  obtain ⟨c, h1, h2, h3⟩ := C34_loud ext source items hw S md _ p p' (.inl hl) hp x h
  rw [hrest, List.append_nil] at h3
  cases h2 with
  | tuple ht => rcases ht with ⟨_, _, h, _⟩ | ⟨_, _, _, h, _⟩ | ⟨_, _, _, _, h, _⟩ | ⟨_, _, _, _, _, h, _⟩ <;> cases h
  | loopNone => exact ⟨[], 0, [], [], h1, h3, rfl, .nil, rfl⟩
  | @loopSome _ _ k cs l hs =>
    refine ⟨_, k + 1, cs, l, h1, h3, rfl, hs, ?_⟩
    have hl : l ≠ [] := by
      cases hs
      simp
    rw [if_neg hl]

/-- Nothing gets lost: the consumed tokens are those of the steps; every run of skipped tokens is covered by an
`UnexpectedTokens` error. -/
theorem C45_covered (hmd : S.metadata fuel root = some (.ok md)) (hG : S.IsGrammar root G)
    (hw : ItemsWF source items) (t : Ty m n)
    (hr : Reachable G root.pid (Ty.loop t).pid) (p p' : Parser n) (hp : Reached ext source items p)
    (r : Res n (Tree n)) (h : Yields ext S md (.loop t) p r p') :
    ∃ steps stuck, LoopSteps S md G t (p.view ext) steps stuck (p'.view ext) ∧
      (p.view ext).rest = steps.flatMap LoopStep.tokens ++ (p'.view ext).rest ∧
      ∀ ts, .skip ts ∈ steps → ∃ e ∈ r.errs, e.kind = .unexpectedTokens ∧
        ∀ x ∈ ts, e.span.lo ≤ x.span.lo ∧ x.span.hi ≤ e.span.hi := by
  obtain ⟨steps, stuck, h1, h2, -⟩ := C45_steps hmd hG hw t hr p p' hp r h
  have key : ∀ v v' : View n, Ready source v → LoopSteps S md G t v steps stuck v' →
      v.rest = steps.flatMap LoopStep.tokens ++ v'.rest ∧
      ∀ ts, .skip ts ∈ steps → ts ≠ [] ∧ SortedTokens ts := by
    intro v v' hv hs
    clear h1 h2
    induction hs with
    | done h => exact ⟨by simp, by simp⟩
    | @skip v ts v1 steps b v' hne hpass _ _ _ ih =>
      obtain ⟨i1, i2⟩ := ih (hv.adv hpass.adv)
      refine ⟨by simp [hpass.rest, i1, LoopStep.tokens], fun ts' hts => ?_⟩
      rcases List.mem_cons.1 hts with he | hts
      · cases he
        have := hv.sorted.tokens
        rw [hpass.rest] at this
        refine ⟨hne, fun x hx => this.1 x (by simp [hx]), ?_⟩
        exact (List.pairwise_append.1 (List.pairwise_append.1 this.2).2.1).1
      · exact i2 _ hts
    | @elem v w ts r v1 steps b v' _ _ hon hr _ _ ih =>
      obtain ⟨i1, i2⟩ := ih (hv.adv hon.adv)
      refine ⟨by simp [hr, i1, LoopStep.tokens], fun ts' hts => ?_⟩
      rcases List.mem_cons.1 hts with he | hts
      · cases he
      · exact i2 _ hts
    | stuck _ _ _ hr => exact ⟨by simp [LoopStep.tokens, hr], by simp⟩
  obtain ⟨k1, k2⟩ := key _ _ (hp.ready hw) h1
  refine ⟨steps, stuck, h1, k1, fun ts hts => ?_⟩
  obtain ⟨hne, hsort⟩ := k2 ts hts
  cases ts with
  | nil => exact absurd rfl hne
  | cons a l =>
    refine ⟨⟨⟨a.span.lo, (l.getLast?.getD a).span.hi⟩, .unexpectedTokens⟩, ?_, rfl, ?_⟩
    · rw [h2, loopErrs]
      exact List.mem_append_left _ (List.mem_flatMap.2 ⟨_, hts, by simp [LoopStep.errs]⟩)
    · have hlast : l.getLast?.getD a = (a :: l).getLast (by simp) := by
        cases l with
        | nil => rfl
        | cons b l => rw [List.getLast?_eq_some_getLast (by simp)]; simp
      intro x hx
      simp only
      constructor
      · rcases List.mem_cons.1 hx with rfl | hx
        · exact Nat.le_refl _
        · have h1 := (List.pairwise_cons.1 hsort.2).1 x hx
          have h2 := hsort.1 a (by simp)
          omega
      · rw [hlast]
        have hmem := List.getLast_mem (l := a :: l) (by simp)
        have hsplit := List.dropLast_concat_getLast (l := a :: l) (by simp)
        have hp2 := hsort.2
        rw [← hsplit] at hp2
        have hx2 : x ∈ (a :: l).dropLast ++ [(a :: l).getLast (by simp)] := by rw [hsplit]; exact hx
        rcases List.mem_append.1 hx2 with hx2 | hx2
        · have h3 := (List.pairwise_append.1 hp2).2.2 x hx2 _ (List.mem_singleton.2 rfl)
          have h4 := hsort.1 _ hmem
          omega
        · rw [List.mem_singleton.1 hx2]
          exact Nat.le_refl _

/-- `Loop` returns if its element returns on every stream. -/
theorem C45_terminates (md : Metadata (PId m n) n) (hw : ItemsWF source items) (t : Ty m n)
    (ht : ∀ q, Reached ext source items q → ∃ r q', Yields ext S md t q r q') (p : Parser n)
    (hp : Reached ext source items p) : ∃ r p', Yields ext S md (.loop t) p r p' := by
  refine yields_of_halts hp hw (Halts.produce (produceLoop_halts' (strict := False)
    (I := ReachedView ext source items) (fun w h => h.skip) (fun w hw _ _ => ?_) _ ⟨p, hp, rfl⟩))
  refine (halts_of_yields ht hw).mono ?_
  rintro r w' ⟨h1, h2⟩
  exact ⟨h1, h2, False.elim⟩

/-! ## C46: Recover -/

/-- `Recover<t, u>` first produces `t` if it can begin, then searches `u` with the steps of `TailSteps`. It
returns head and tail if a tail was produced and fails otherwise. Errors of the produced parts are kept, plus
at most one that describes failures and skipping; if a token was skipped there is such an error and it ends
with the last token skipped. -/
theorem C46_steps (hmd : S.metadata fuel root = some (.ok md)) (hG : S.IsGrammar root G)
    (hw : ItemsWF source items) (t u : Ty m n) (p p' : Parser n) (hp : Reached ext source items p)
    (r : Res n (Tree n)) (h : Yields ext S md (.recover t u) p r p') :
    ∃ head v1 steps tail pending, HeadStep S md G t (p.view ext) head v1 ∧
      TailSteps S md G u v1 steps tail (p'.view ext) ∧
      r = recoverResult v1.pos (triedTree head) (triedTree tail)
        (triedErrs head ++ triedErrs tail ++ Option.toList pending) ∧
      (∀ x, steps.getLast?.bind TailStep.last? = some x → ∃ e, pending = some e ∧ e.span.hi = x.span.hi) ∧
      ((triedTree head).isSome = true → steps = [] → pending = none) := by
  obtain ⟨f, h⟩ := On.of_yields h
  generalize p'.view ext = v' at h ⊢
  cases f with
  | zero => cases h
  | succ f =>
    change produceRecover View.ops (md.first.get t.pid) (md.first.get u.pid) (produce View.ops S md f t)
      (produce View.ops S md f u) f (p.view ext) = _ at h
    simp only [produceRecover, bind_ok] at h
    obtain ⟨hd, v1, h1, ⟨tl, errs, pending⟩, v2, h2, h3⟩ := h
    obtain ⟨head, g1, g2, g3, g4, g5⟩ := head_steps (fun x => metadata_first hmd hG t.pid x) f (hp.ready hw) h1
    have hv1 : Ready source v1 := (hp.ready hw).adv (by
      cases g1 with
      | tried _ h => exact h.adv
      | cannot => exact .refl _)
    obtain ⟨steps, tail, k1, k2, k3, k4, k5⟩ := tail_steps (fun x => metadata_first hmd hG u.pid x) f f _ _ _ _ _
      hv1 h2
    simp only at k2 k3 k4 k5
    refine ⟨head, v1, steps, tail, pending, g1, ?_, ?_, k5, fun h5 h6 => ?_⟩
    · cases tl with
      | some x => simp only [pure_ok] at h3; rw [← h3.2]; exact k1
      | none => simp only [pure_ok] at h3; rw [← h3.2]; exact k1
    · cases tl with
      | some x =>
        simp only [pure_ok] at h3
        rw [← h3.1, k3, g3, ← k2, ← g2]
        unfold recoverResult mkRecover
        rw [← g2] at g4
        cases hh : hd.head with
        | some y =>
          simp only [hh, Option.map_some, Option.getD_some] at g4
          simp only [g4]
          cases he : triedErrs head ++ triedErrs tail ++ Option.toList pending <;> simp [Res.ofPair]
        | none =>
          simp only [hh, Option.map_none, Option.getD_none] at g4
          simp only [g4]
          cases he : triedErrs head ++ triedErrs tail ++ Option.toList pending <;> simp [Res.ofPair]
      | none =>
        simp only [pure_ok] at h3
        rw [← h3.1, k3, g3, ← k2]
        unfold recoverResult
        cases triedTree head <;> rfl
    · rw [k4 h6, g5 (by rw [g2]; exact h5)]

/-- A tree is returned iff a tail was produced, and then it is the one produced; the head is absent iff `t`
could not begin or failed. -/
theorem C46_tree (hmd : S.metadata fuel root = some (.ok md)) (hG : S.IsGrammar root G)
    (hw : ItemsWF source items) (t u : Ty m n) (p p' : Parser n) (hp : Reached ext source items p)
    (r : Res n (Tree n)) (h : Yields ext S md (.recover t u) p r p') :
    ∃ head v1 steps tail, HeadStep S md G t (p.view ext) head v1 ∧
      TailSteps S md G u v1 steps tail (p'.view ext) ∧
      (r.tree?.isSome = true ↔ ∃ w r2, On S md u w r2 (p'.view ext) ∧ tail = some r2 ∧ r2.tree?.isSome = true) ∧
      (∀ sp x y, r.tree? = some (.recover sp x y) ↔
        sp = x.span ∧ triedTree head = some x ∧ triedTree tail = some y) ∧
      (∀ sp y, r.tree? = some (.recoverNone sp y) ↔
        sp = ⟨v1.pos, v1.pos⟩ ∧ (head = none ∨ ∃ e, head = some (.panic e)) ∧ triedTree tail = some y) := by
  obtain ⟨head, v1, steps, tail, pending, h1, h2, h3, -⟩ := C46_steps hmd hG hw t u p p' hp r h
  refine ⟨head, v1, steps, tail, h1, h2, ?_, ?_, ?_⟩
  · have key : ∀ v v', TailSteps S md G u v steps tail v' → ((triedTree tail).isSome = true ↔
        ∃ w r2, On S md u w r2 v' ∧ tail = some r2 ∧ r2.tree?.isSome = true) := by
      intro v v' hs
      clear h2 h3
      induction hs with
      | @found v r v1 hc hon hr => exact ⟨fun _ => ⟨v, r, hon, rfl, hr⟩, fun _ => hr⟩
      | eof => simp [triedTree]
      | eofFail => simp [triedTree]
      | skip _ _ _ _ ih => exact ih
      | fail _ _ _ _ _ _ _ ih => exact ih
    rw [← key _ _ h2, h3]
    generalize triedErrs head ++ triedErrs tail ++ Option.toList pending = es
    unfold recoverResult
    cases triedTree head <;> cases triedTree tail <;> cases es <;> simp [Res.tree?]
  · intro sp x y
    rw [h3]
    generalize triedErrs head ++ triedErrs tail ++ Option.toList pending = es
    unfold recoverResult
    cases triedTree head <;> cases triedTree tail <;> cases es <;> simp [Res.tree?]
    all_goals (rintro rfl rfl; exact eq_comm)
  · intro sp y
    have hh : triedTree head = none ↔ head = none ∨ ∃ e, head = some (.panic e) := by
      cases head with
      | none => simp [triedTree]
      | some r => cases r <;> simp [triedTree, Res.tree?]
    rw [h3, ← hh]
    generalize triedErrs head ++ triedErrs tail ++ Option.toList pending = es
    unfold recoverResult
    cases triedTree head <;> cases triedTree tail <;> cases es <;> simp [Res.tree?]
    all_goals (rintro rfl; exact eq_comm)

/-- The tail is tried at every position up to the one where it is found, if failing attempts do not consume
anything. -/
theorem C46_first_partial (hmd : S.metadata fuel root = some (.ok md)) (hG : S.IsGrammar root G)
    (hw : ItemsWF source items) (t u : Ty m n)
    (hfail : ∀ v e v1, On S md u v (.panic e) v1 → v1.rest = v.rest) (p p' : Parser n)
    (hp : Reached ext source items p) (r : Res n (Tree n)) (h : Yields ext S md (.recover t u) p r p') :
    ∃ head v1 ts tail, HeadStep S md G t (p.view ext) head v1 ∧ EachPos S md G u v1 ts tail (p'.view ext) ∧
      (r.tree?.isSome = true ↔ ∃ r2, tail = some r2) := by
  obtain ⟨head, v1, steps, tail, h1, h2, h3, -⟩ := C46_tree hmd hG hw t u p p' hp r h
  have key : ∀ v v', TailSteps S md G u v steps tail v' → (∃ ts, EachPos S md G u v ts tail v') ∧
      ((∃ r2, tail = some r2) ↔ ∃ w r2, On S md u w r2 v' ∧ tail = some r2 ∧ r2.tree?.isSome = true) := by
    intro v v' hs
    clear h2 h3
    induction hs with
    | @found v r v1 hc hon hr => exact ⟨⟨[], .found hon hr⟩, fun _ => ⟨v, r, hon, rfl, hr⟩, fun _ => ⟨r, rfl⟩⟩
    | eof hn hnn => exact ⟨⟨[], .eof hn (.inl ⟨rfl, hnn⟩)⟩, by simp⟩
    | eofFail hn hnn hon => exact ⟨⟨[], .eof hn (.inr ⟨_, hon⟩)⟩, by simp⟩
    | skip hpass hno hnn _ ih =>
      obtain ⟨⟨ts, i1⟩, i2⟩ := ih
      exact ⟨⟨_, .cannot hpass hno hnn i1⟩, i2⟩
    | @fail v e v1 ts x v2 steps o v' hne hc hon hr hpass hx _ ih =>
      obtain ⟨⟨ts', i1⟩, i2⟩ := ih
      refine ⟨?_, i2⟩
      have he := hfail _ _ _ hon
      cases x with
      | none => exact absurd (he ▸ hx rfl) hne
      | some x =>
        have hr2 := hpass.rest
        simp only [Option.toList_some, List.singleton_append] at hr2
        exact ⟨_, .fails (by rw [← he, hr2]) hon hpass i1⟩
  obtain ⟨⟨ts, k1⟩, k2⟩ := key _ _ h2
  exact ⟨head, v1, ts, tail, h1, k1, h3.trans k2.symm⟩

/-- `Recover` returns if both parts return on every stream. -/
theorem C46_terminates (md : Metadata (PId m n) n) (hw : ItemsWF source items) (t u : Ty m n)
    (ht : ∀ q, Reached ext source items q → ∃ r q', Yields ext S md t q r q')
    (hu : ∀ q, Reached ext source items q → ∃ r q', Yields ext S md u q r q') (p : Parser n)
    (hp : Reached ext source items p) : ∃ r p', Yields ext S md (.recover t u) p r p' := by
  refine yields_of_halts (Q := fun _ _ => True) hp hw (Halts.produce ?_)
  simp only [produceStep, produceRecover]
  refine .bind (recoverHead_halts (K := fun _ w => ReachedView ext source items w) fun _ =>
    halts_of_yields ht ⟨p, hp, rfl⟩) ?_
  rintro hd w ⟨ha, hk, hn⟩
  have hw1 : ReachedView ext source items w := by
    by_cases hc : (md.first.get t.pid).contains (p.view ext).look = true ∨ (md.first.get t.pid).containsE = true
    · exact (hk hc).elim fun _ h => h
    · exact ⟨p, hp, (hn hc).symm⟩
  refine .bind (tail_halts' (K := fun _ _ _ => True) (I := ReachedView ext source items) (fun w h => h.skip)
    (fun w' hw' _ => (halts_of_yields hu hw').mono fun _ _ h => ⟨h.1, h.2, trivial⟩) w hd.errs hd.panic hw1) ?_
  rintro ⟨tail, errs, panic⟩ v' _
  cases tail with
  | some x => exact .pure trivial
  | none => exact .pure trivial

end

/-! ### Examples and counterexamples -/

/-- The claim that `Loop` succeeds only on sequences of elements is false for an element that fails silently:
`Loop<Recover<word, num>>` on `a` succeeds with an empty list. -/
def lxMd : Metadata (PId 0 3) 3 := okOf ⟨[], [], []⟩ (exS.metadata 30 (.loop (.recover exWord exNum)))
theorem C45_false : exS.metadata 30 (.loop (.recover exWord exNum)) = some (.ok lxMd) ∧
    ∃ p', Yields exExt exS lxMd (.loop (.recover exWord exNum)) (Parser.new [97] [.token ⟨⟨0, 1⟩, 0⟩])
      (.success (.list ⟨1, 1⟩ [])) p' ∧ p'.info.tokens = [⟨⟨⟨0, 1⟩, 0⟩, LSet.new⟩] :=
  ⟨by rfl, _, ⟨20, by rfl⟩, by rfl⟩

/-- The claim that `Recover` never loses a tail is false: `Recover<word, (num, x)>` on `a 1 1 x` fails, because
the second number is skipped after the attempt at the first one; at that position the tail can be produced. -/
def mxR : Ty 0 3 := .tup2 exNum (.term 2 ⟨2, none⟩)
def mxT : Ty 0 3 := .recover exWord mxR
def mxMd : Metadata (PId 0 3) 3 := okOf ⟨[], [], []⟩ (exS.metadata 30 mxT)
def mxSource : Str := [97, 32, 49, 32, 49, 32, 120]
def mxItems : List (Item 3) :=
  [.token ⟨⟨0, 1⟩, 0⟩, .token ⟨⟨2, 3⟩, 1⟩, .token ⟨⟨4, 5⟩, 1⟩, .token ⟨⟨6, 7⟩, 2⟩]
theorem C46_false : exS.metadata 30 mxT = some (.ok mxMd) ∧ ItemsWF mxSource mxItems ∧
    (∃ e p', Yields (fun _ => false) exS mxMd mxT (Parser.new mxSource mxItems) (.panic e) p' ∧
      p'.lookahead (fun _ => false) = none) ∧
    ∃ q x q', Reached (fun _ => false) mxSource mxItems q ∧
      (q.view fun _ => false).rest = [⟨⟨4, 5⟩, 1⟩, ⟨⟨6, 7⟩, 2⟩] ∧
      Yields (fun _ => false) exS mxMd mxR q (.success x) q' := by
  refine ⟨by rfl, by unfold ItemsWF mxItems mxSource; decide, ⟨_, _, ⟨20, by rfl⟩, by rfl⟩, ?_⟩
  exact ⟨_, _, _, .consume (.consume .new), by rfl, 20, by rfl⟩

/-- Example for C45: `1 a 1 1 b` as a loop of words: two runs of numbers are skipped. -/
def nxSource : Str := [49, 32, 97, 32, 49, 32, 49, 32, 98]
def nxItems : List (Item 3) :=
  [.token ⟨⟨0, 1⟩, 1⟩, .token ⟨⟨2, 3⟩, 0⟩, .token ⟨⟨4, 5⟩, 1⟩, .token ⟨⟨6, 7⟩, 1⟩, .token ⟨⟨8, 9⟩, 0⟩]
def loopMd : Metadata (PId 0 3) 3 := okOf ⟨[], [], []⟩ (exS.metadata 30 (.loop exWord))
def loopG : Grammar (PId 0 3) 3 := (registerFrom exS.rule 30 (Ty.loop exWord).pid).getD []
example : exS.metadata 30 (.loop exWord) = some (.ok loopMd) ∧ exS.IsGrammar (.loop exWord) loopG ∧
    Reachable loopG (Ty.loop exWord).pid (Ty.loop exWord).pid ∧ ItemsWF nxSource nxItems ∧
    ∃ p', Yields exExt exS loopMd (.loop exWord) (Parser.new nxSource nxItems)
      (.recovered (.list ⟨2, 9⟩ [.tok ⟨⟨2, 3⟩, 0⟩, .tok ⟨⟨8, 9⟩, 0⟩])
        [⟨⟨0, 1⟩, .unexpectedTokens⟩, ⟨⟨4, 7⟩, .unexpectedTokens⟩]) p' :=
  ⟨by rfl, .of_register (fuel := 30) (by rfl), .refl, by unfold ItemsWF nxItems nxSource; decide, _, 20, by rfl⟩

/-- Example for C45_success_partial: words only. -/
example : Loud exS (.loop exWord) ∧ ∃ p', Yields exExt exS loopMd (.loop exWord)
    (Parser.new [97, 32, 98] [.token ⟨⟨0, 1⟩, 0⟩, .token ⟨⟨2, 3⟩, 0⟩])
    (.success (.list ⟨0, 3⟩ [.tok ⟨⟨0, 1⟩, 0⟩, .tok ⟨⟨2, 3⟩, 0⟩])) p' := by
  refine ⟨RecoverFree.loud (t := .loop exWord) ?_ |>.1, _, 20, by rfl⟩
  intro u hu a b
  have : u = .loop exWord ∨ u = exWord := by
    induction hu with
    | refl => exact .inl rfl
    | step _ hp ih =>
      rcases ih with rfl | rfl
      · simp [Schema.tyParts] at hp; exact .inr hp
      · simp [Schema.tyParts, exWord] at hp
  rcases this with rfl | rfl <;> simp [exWord]

/-- Elements that are terminals return on every stream. -/
theorem term_yields (ext : Fin n → Bool) (S : Schema m n) (md : Metadata (PId m n) n) (source : Str)
    (items : List (Item n)) (hw : ItemsWF source items) (i : Nat) (k : Terminal n) (q : Parser n)
    (hq : Reached ext source items q) : ∃ r q', Yields ext S md (.term i k) q r q' :=
  yields_of_halts hq hw (Q := fun _ _ => True) (Halts.produce ((term_halts ..).mono fun _ _ _ => trivial))

/-- Examples for termination: loops of terminals and recovering to a terminal. -/
example (source : Str) (items : List (Item 3)) (hw : ItemsWF source items) :
    ∃ r p', Yields exExt exS loopMd (.loop exWord) (Parser.new source items) r p' :=
  C45_terminates loopMd hw exWord (term_yields exExt exS loopMd source items hw 0 ⟨0, none⟩) _ .new
example (source : Str) (items : List (Item 3)) (hw : ItemsWF source items) :
    ∃ r p', Yields exExt exS mxMd (.recover exWord exNum) (Parser.new source items) r p' :=
  C46_terminates mxMd hw exWord exNum (term_yields exExt exS mxMd source items hw 0 ⟨0, none⟩)
    (term_yields exExt exS mxMd source items hw 1 ⟨1, none⟩) _ .new

/-- Example for C46: `Recover<word, num>` on `1 a 2`: the head cannot begin, the tail is the first number. On
`a b 1` the second word is skipped. -/
def rcMd : Metadata (PId 0 3) 3 := okOf ⟨[], [], []⟩ (exS.metadata 30 (.recover exWord exNum))
def rcG : Grammar (PId 0 3) 3 := (registerFrom exS.rule 30 (Ty.recover exWord exNum).pid).getD []
example : exS.metadata 30 (.recover exWord exNum) = some (.ok rcMd) ∧ exS.IsGrammar (.recover exWord exNum) rcG ∧
    (∃ p' e, Yields exExt exS rcMd (.recover exWord exNum)
      (Parser.new [49, 32, 97] [.token ⟨⟨0, 1⟩, 1⟩, .token ⟨⟨2, 3⟩, 0⟩])
      (.recovered (.recoverNone ⟨0, 0⟩ (.tok ⟨⟨0, 1⟩, 1⟩)) [e]) p') ∧
    (∃ p' s, Yields exExt exS rcMd (.recover exWord exNum)
      (Parser.new [97, 32, 98, 32, 49] [.token ⟨⟨0, 1⟩, 0⟩, .token ⟨⟨2, 3⟩, 0⟩, .token ⟨⟨4, 5⟩, 1⟩])
      (.recovered (.recover ⟨0, 1⟩ (.tok ⟨⟨0, 1⟩, 0⟩) (.tok ⟨⟨4, 5⟩, 1⟩)) [⟨⟨2, 3⟩, .expecting s⟩]) p') :=
  ⟨by rfl, .of_register (fuel := 30) (by rfl), ⟨_, _, 20, by rfl⟩, _, _, 20, by rfl⟩

/-- Terminals do not consume anything when they fail, as `C46_first_partial` asks. -/
example (v v1 : View 3) (e) (h : On exS rcMd exNum v (.panic e) v1) : v1.rest = v.rest := by
  obtain ⟨r, hr⟩ : ∃ r, r = Res.panic e := ⟨_, rfl⟩
  have h := h.run
  rw [← hr] at h
  unfold exNum at h
  cases h with
  | tok => cases hr
  | tokRecovered => cases hr
  | tokPanic => rfl
  | tuple ht => cases ht
  | tuplePanic ht => cases ht
  | optNone ht => cases ht
  | optSuccess ht => cases ht
  | optRecovered ht => cases ht
  | optPanic ht => cases ht
  | textSuccess ht => cases ht
  | textRecovered ht => cases ht
  | textPanic ht => cases ht

end Teleparse
