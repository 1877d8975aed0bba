import Verif.Proof.RelabelStep
/-
Options, texts, repetitions, lists with separators and `Recover` do the same in a program with other names.
-/
namespace Teleparse.Relab
variable {n n' : Nat} {σ τ : Type} {ρ : Fin n → Fin n'} {o : Ops σ n} {o' : Ops τ n'} {SR : σ → τ → Prop}
variable (hP : Prims ρ o o' SR)
include hP

/-! ### Options, texts and repetitions -/

theorem option_rel {T : TRel n n'} {Q : Tree n → Tree n' → Prop} {first : TSet n} {first' : TSet n'}
    (hs : SetAs ρ first first') {p : P σ n} {p' : P τ n'} (h : PRel ρ SR T p p')
    {mk : Span → Option (Tree n) → Tree n} {mk' : Span → Option (Tree n') → Tree n'}
    (hmk : ∀ {s a b}, OptRel T a b → Q (mk s a) (mk' s b)) :
    PRel ρ SR Q (produceOption o first p mk) (produceOption o' first' p' mk') := by
  unfold produceOption
  refine (peekSrc_rel hP).bind ?_
  rintro tok _ rfl
  rw [hs.contains, Option.isSome_map]
  split
  · refine MRel.bind h ?_
    intro r r' hr
    cases hr with
    | success ht => dsimp only; rw [T.span _ _ ht]; exact .pure (.success (hmk (.some ht)))
    | recovered ht he => dsimp only; rw [T.span _ _ ht]; exact .pure (.recovered (hmk (.some ht)) he)
    | panic he =>
      refine (emptySpan_rel hP).bind ?_
      rintro _ sp rfl
      exact .pure (.recovered (hmk .none) he)
  · refine (emptySpan_rel hP).bind ?_
    rintro _ sp rfl
    exact .pure (.success (hmk .none))

theorem text_rel {T : TRel n n'} {p : P σ n} {p' : P τ n'} (h : PRel ρ SR T p p') :
    PRel ρ SR (fun x y => ∃ sp s, x = .text sp s ∧ y = .text sp s) (produceText o p) (produceText o' p') := by
  unfold produceText
  refine MRel.bind h ?_
  intro r r' hr
  cases hr with
  | success ht =>
    dsimp only
    rw [T.span _ _ ht]
    refine (getSrc_rel hP _).bind ?_
    rintro _ s rfl
    exact .pure (.success ⟨_, _, rfl, rfl⟩)
  | recovered ht he =>
    dsimp only
    rw [T.span _ _ ht]
    refine (getSrc_rel hP _).bind ?_
    rintro _ s rfl
    exact .pure (.recovered ⟨_, _, rfl, rfl⟩ he)
  | panic he => exact .pure (.panic he)

/-- Lists with related elements. -/
def ListRel (T : Tree n → Tree n' → Prop) (x : Tree n) (y : Tree n') : Prop :=
  ∃ sp l l', x = .list sp l ∧ y = .list sp l' ∧ TreesRel T l l'

theorem iterLoop_rel {T : TRel n n'} {first : TSet n} {first' : TSet n'} (hs : SetAs ρ first first')
    {p : P σ n} {p' : P τ n'} (h : PRel ρ SR T p p') : ∀ (fuel : Nat) {acc acc' errs errs'} (hi : Nat),
    TreesRel T acc acc' → ErrsAs ρ errs errs' →
    MRel SR (PairRel (TreesRel T) (PairRel (ErrsAs ρ) (fun a b => b = a)))
      (iterLoop o first p fuel acc errs hi) (iterLoop o' first' p' fuel acc' errs' hi) := by
  intro fuel
  induction fuel with
  | zero => intros; exact .fuel
  | succ fuel ih =>
    intro acc acc' errs errs' hi h1 h2
    unfold iterLoop
    refine (peekSrc_rel hP).bind ?_
    rintro tok _ rfl
    rw [hs.contains, Option.isSome_map]
    split
    · refine MRel.bind h ?_
      intro r r' hr
      cases hr with
      | success ht => dsimp only; rw [T.span _ _ ht]; exact ih _ (pw_append h1 (pw_one ht)) h2
      | recovered ht he => dsimp only; rw [T.span _ _ ht]; exact ih _ (pw_append h1 (pw_one ht)) (pw_append h2 he)
      | panic he => exact .pure ⟨h1, pw_append h2 he, rfl⟩
    · exact .pure ⟨h1, h2, rfl⟩

theorem plusRest_rel {T : TRel n n'} {first : TSet n} {first' : TSet n'} (hs : SetAs ρ first first')
    {p : P σ n} {p' : P τ n'} (h : PRel ρ SR T p p') (fuel : Nat)
    {t : Tree n} {t' : Tree n'} {errs : List (Err n)} {errs' : List (Err n')} (ht : T t t') (he : ErrsAs ρ errs errs') :
    PRel ρ SR (ListRel T) (plusRest o first p fuel t errs) (plusRest o' first' p' fuel t' errs') := by
  unfold plusRest
  rw [T.span _ _ ht]
  refine (iterLoop_rel hP hs h fuel _ (pw_one ht) he).bind ?_
  rintro ⟨l, e, hi⟩ ⟨l', e', hi'⟩ ⟨h1, h2, h3⟩
  dsimp only at h1 h2 h3 ⊢
  subst h3
  exact .pure (.ofPair ⟨_, _, _, rfl, rfl, h1⟩ h2)

theorem plus_rel {T : TRel n n'} {first : TSet n} {first' : TSet n'} (hs : SetAs ρ first first')
    {p : P σ n} {p' : P τ n'} (h : PRel ρ SR T p p') (fuel : Nat) :
    PRel ρ SR (ListRel T) (producePlus o first p fuel) (producePlus o' first' p' fuel) := by
  unfold producePlus
  refine MRel.bind h ?_
  intro r r' hr
  cases hr with
  | success ht => exact plusRest_rel hP hs h fuel ht .nil
  | recovered ht he => exact plusRest_rel hP hs h fuel ht he
  | panic he => exact .pure (.panic he)

theorem skipLoop_rel {first : TSet n} {first' : TSet n'} (hs : SetAs ρ first first') : ∀ (fuel hi : Nat),
    MRel SR (fun a b => b = a) (skipLoop o first fuel hi) (skipLoop o' first' fuel hi) := by
  intro fuel
  induction fuel with
  | zero => intros; exact .fuel
  | succ fuel ih =>
    intro hi
    unfold skipLoop
    refine (peekSrc_rel hP).bind ?_
    rintro tok _ rfl
    rw [hs.contains, Option.isSome_map]
    split
    · refine (currentSpan_rel hP).bind ?_
      rintro _ sp rfl
      refine (consume_rel hP).bind ?_
      intro _ _ _
      exact ih _
    · exact .pure rfl

theorem loopSkip_rel {first : TSet n} {first' : TSet n'} (hs : SetAs ρ first first') (fuel : Nat)
    {errs : List (Err n)} {errs' : List (Err n')} (he : ErrsAs ρ errs errs') :
    MRel SR (PairRel (ErrsAs ρ) (fun a b => b = a)) (loopSkip o first fuel errs) (loopSkip o' first' fuel errs') := by
  unfold loopSkip
  refine (currentSpan_rel hP).bind ?_
  rintro _ sp rfl
  refine (consume_rel hP).bind ?_
  intro _ _ _
  refine (skipLoop_rel hP hs fuel _).bind ?_
  rintro _ ⟨hi, b⟩ rfl
  exact .pure ⟨pw_append he (pw_one .unexpectedTokens), rfl⟩

theorem loopElem_rel {T : TRel n n'} {p : P σ n} {p' : P τ n'} (h : PRel ρ SR T p p') {out : List (Tree n)}
    {out' : List (Tree n')} {errs : List (Err n)} {errs' : List (Err n')} (ho : TreesRel T out out') (he : ErrsAs ρ errs errs') :
    MRel SR (PairRel (fun a b => b = a) (PairRel (TreesRel T) (ErrsAs ρ))) (loopElem o p out errs)
      (loopElem o' p' out' errs') := by
  unfold loopElem
  refine (currentSpan_rel hP).bind ?_
  rintro _ b rfl
  refine MRel.bind h ?_
  intro r r' hr
  refine (currentSpan_rel hP).bind ?_
  rintro _ sp rfl
  split
  · cases hr with
    | success ht => exact .pure ⟨rfl, pw_append ho (pw_one ht), pw_append he (pw_one .noAdvance)⟩
    | recovered ht e => exact .pure ⟨rfl, pw_append ho (pw_one ht), pw_append (pw_append he e) (pw_one .noAdvance)⟩
    | panic e => exact .pure ⟨rfl, ho, pw_append (pw_append he e) (pw_one .noAdvance)⟩
  · cases hr with
    | success ht => exact .pure ⟨rfl, pw_append ho (pw_one ht), he⟩
    | recovered ht e => exact .pure ⟨rfl, pw_append ho (pw_one ht), pw_append he e⟩
    | panic e => exact .pure ⟨rfl, ho, pw_append he e⟩

theorem loopLoop_rel {T : TRel n n'} {first : TSet n} {first' : TSet n'} (hs : SetAs ρ first first')
    {p : P σ n} {p' : P τ n'} (h : PRel ρ SR T p p') : ∀ (fuel : Nat)
    {out out' errs errs'}, TreesRel T out out' → ErrsAs ρ errs errs' →
    MRel SR (PairRel (TreesRel T) (ErrsAs ρ)) (loopLoop o first p fuel out errs)
      (loopLoop o' first' p' fuel out' errs') := by
  intro fuel
  induction fuel with
  | zero => intros; exact .fuel
  | succ fuel ih =>
    intro out out' errs errs' ho he
    unfold loopLoop
    refine (peekSrc_rel hP).bind ?_
    rintro tok _ rfl
    rw [Option.isNone_map]
    split
    · exact .pure ⟨ho, he⟩
    · have hsk : MRel SR (PairRel (ErrsAs ρ) (fun a b => b = a))
          (if (!first.contains tok) = true then loopSkip o first fuel errs else pure (errs, true))
          (if (!first'.contains (tok.map (TokenSrc.retok ρ))) = true then loopSkip o' first' fuel errs' else pure (errs', true)) := by
        rw [hs.contains]
        split
        · exact loopSkip_rel hP hs fuel he
        · exact .pure ⟨he, rfl⟩
      refine hsk.bind ?_
      rintro ⟨e, b⟩ ⟨e', b'⟩ ⟨h1, h2⟩
      cases h2
      dsimp only
      cases b with
      | false => exact .pure ⟨ho, h1⟩
      | true =>
        refine (loopElem_rel hP h ho h1).bind ?_
        rintro ⟨g, o, e⟩ ⟨g', o', e'⟩ ⟨h1, h2, h3⟩
        cases h1
        dsimp only
        cases g with
        | false => exact .pure ⟨h2, h3⟩
        | true => exact ih h2 h3

theorem loop_rel {T : TRel n n'} {first : TSet n} {first' : TSet n'} (hs : SetAs ρ first first')
    {p : P σ n} {p' : P τ n'} (h : PRel ρ SR T p p') (fuel : Nat) :
    PRel ρ SR (ListRel T) (produceLoop o first p fuel) (produceLoop o' first' p' fuel) := by
  unfold produceLoop
  refine (loopLoop_rel hP hs h fuel .nil .nil).bind ?_
  rintro ⟨o, e⟩ ⟨o', e'⟩ ⟨h1, h2⟩
  dsimp only at h1 h2 ⊢
  have hsp := spanOf_rel h1
  cases h1 with
  | nil =>
    refine (emptySpan_rel hP).bind ?_
    rintro _ sp rfl
    exact .pure (.ofPair ⟨_, _, _, rfl, rfl, .nil⟩ h2)
  | cons ht hl =>
    refine .pure (.ofPair ⟨_, _, _, rfl, ?_, .cons ht hl⟩ h2)
    rw [hsp]

theorem extendPanic_rel {p : Err n} {p' : Err n'} (hp : ErrAs ρ p p') :
    MRel SR (ErrAs ρ) (extendPanic o p) (extendPanic o' p') := by
  unfold extendPanic
  refine (currentSpan_rel hP).bind ?_
  rintro _ sp rfl
  exact .pure (hp.extend _)

/-! ### Lists with separators -/

structure AccRel (ρ : Fin n → Fin n') (T Q : Tree n → Tree n' → Prop) (a : Acc n) (b : Acc n') : Prop where
  elems : TreesRel T a.elems b.elems
  puncts : TreesRel Q a.puncts b.puncts
  errs : ErrsAs ρ a.errs b.errs

/-- Lists with related elements and separators. -/
def SplitRel (T Q : Tree n → Tree n' → Prop) (x : Tree n) (y : Tree n') : Prop :=
  ∃ sp l l' q q', x = .split sp l q ∧ y = .split sp l' q' ∧ TreesRel T l l' ∧ TreesRel Q q q'

theorem splitTry_rel {T Q : TRel n n'} {ef : TSet n} {ef' : TSet n'} (hs : SetAs ρ ef ef')
    {p : P σ n} {p' : P τ n'} (h : PRel ρ SR T p p') {q : Tree n} {q' : Tree n'}
    (hq : Q q q') {a : Acc n} {a' : Acc n'} (ha : AccRel ρ T Q a a') {e : Option (Err n)} {e' : Option (Err n')}
    (he : OptRel (ErrAs ρ) e e') :
    MRel SR (ExRel (AccRel ρ T Q) (PairRel (fun a b => b = a.map (TokenSrc.retok ρ)) (OptRel (ErrAs ρ))))
      (splitTry o ef p q a e) (splitTry o' ef' p' q' a' e') := by
  unfold splitTry
  refine (peekSrc_rel hP).bind ?_
  rintro tok _ rfl
  rw [hs.contains, hs.containsE]
  split
  · refine MRel.bind h ?_
    intro r r' hr
    cases hr with
    | success ht => exact .pure (.error ⟨pw_append ha.elems (pw_one ht), pw_append ha.puncts (pw_one hq), pw_append ha.errs (errs_rel he)⟩)
    | recovered ht e =>
      exact .pure (.error ⟨pw_append ha.elems (pw_one ht), pw_append ha.puncts (pw_one hq), pw_append (pw_append ha.errs e) (errs_rel he)⟩)
    | panic e =>
      refine (peekSrc_rel hP).bind ?_
      rintro tok _ rfl
      exact .pure (.ok ⟨rfl, mergePanic_rel he e⟩)
  · cases he with
    | none =>
      refine (expecting_rel hP hs).bind ?_
      intro _ _ h
      exact .pure (.ok ⟨rfl, .some h⟩)
    | some h =>
      refine (extendPanic_rel hP h).bind ?_
      intro _ _ h
      exact .pure (.ok ⟨rfl, .some h⟩)

omit hP in
theorem AccRel.add {T Q : Tree n → Tree n' → Prop} {a : Acc n} {a' : Acc n'} (ha : AccRel ρ T Q a a') {e : List (Err n)}
    {e' : List (Err n')} (he : ErrsAs ρ e e') :
    AccRel ρ T Q { a with errs := a.errs ++ e } { a' with errs := a'.errs ++ e' } :=
  ⟨ha.elems, ha.puncts, pw_append ha.errs he⟩

omit hP in
theorem AccRel.addPunct {T Q : Tree n → Tree n' → Prop} {a : Acc n} {a' : Acc n'} (ha : AccRel ρ T Q a a') {q : Tree n}
    {q' : Tree n'} (hq : Q q q') :
    AccRel ρ T Q { a with puncts := a.puncts ++ [q] } { a' with puncts := a'.puncts ++ [q'] } :=
  ⟨ha.elems, pw_append ha.puncts (pw_one hq), ha.errs⟩

theorem splitInner_rel {T Q : TRel n n'} {ef pf fol : TSet n} {ef' pf' fol' : TSet n'} (hs : SetAs ρ ef ef')
    (hpf : SetAs ρ pf pf') (hf : SetAs ρ fol fol') {p : P σ n} {p' : P τ n'} (h : PRel ρ SR T p p') {q : Tree n} {q' : Tree n'}
    (hq : Q q q') : ∀ (fuel : Nat) {a : Acc n} {a' : Acc n'} {e : Option (Err n)} {e' : Option (Err n')}, AccRel ρ T Q a a' →
    OptRel (ErrAs ρ) e e' → MRel SR (PairRel (fun a b => b = a) (AccRel ρ T Q)) (splitInner o ef pf fol p q fuel a e)
      (splitInner o' ef' pf' fol' p' q' fuel a' e') := by
  intro fuel
  induction fuel with
  | zero => intros; exact .fuel
  | succ fuel ih =>
    intro a a' e e' ha he
    unfold splitInner
    refine (splitTry_rel hP hs h hq ha he).bind ?_
    intro r r' hr
    cases hr with
    | error h => exact .pure ⟨rfl, h⟩
    | @ok x y h =>
      obtain ⟨tok, e⟩ := x
      obtain ⟨tok', e'⟩ := y
      obtain ⟨h1, h2⟩ := h
      dsimp only at h1 h2 ⊢
      subst h1
      rw [hpf.contains, hf.contains, Option.isNone_map]
      split
      · exact .pure ⟨rfl, ha.add (errs_rel h2)⟩
      · split
        · exact .pure ⟨rfl, ha.add (errs_rel h2)⟩
        · refine (consume_rel hP).bind ?_
          intro _ _ _
          exact ih ha h2

theorem splitOuter_rel {T Q : TRel n n'} {ef pf fol : TSet n} {ef' pf' fol' : TSet n'} (hs : SetAs ρ ef ef')
    (hpf : SetAs ρ pf pf') (hf : SetAs ρ fol fol') {p q : P σ n} {p' q' : P τ n'} (h : PRel ρ SR T p p')
    (hq : PRel ρ SR Q q q') : ∀ (fuel : Nat) {a : Acc n} {a' : Acc n'}, AccRel ρ T Q a a' →
    MRel SR (AccRel ρ T Q) (splitOuter o ef pf fol p q fuel a) (splitOuter o' ef' pf' fol' p' q' fuel a') := by
  intro fuel
  induction fuel with
  | zero => intros; exact .fuel
  | succ fuel ih =>
    intro a a' ha
    unfold splitOuter
    refine (peekSrc_rel hP).bind ?_
    rintro tok _ rfl
    rw [hpf.contains, Option.isSome_map]
    split
    · refine MRel.bind hq ?_
      intro r r' hr
      cases hr with
      | panic e => exact .pure (ha.add e)
      | success ht =>
        refine (splitInner_rel hP hs hpf hf h ht fuel ha .none).bind ?_
        rintro ⟨g, a⟩ ⟨g', a'⟩ ⟨h1, h2⟩
        cases h1
        dsimp only
        cases g with
        | true => exact ih h2
        | false => exact .pure h2
      | recovered ht e =>
        refine (splitInner_rel hP hs hpf hf h ht fuel (ha.add e) .none).bind ?_
        rintro ⟨g, a⟩ ⟨g', a'⟩ ⟨h1, h2⟩
        cases h1
        dsimp only
        cases g with
        | true => exact ih h2
        | false => exact .pure h2
    · exact .pure ha

omit hP in
theorem splitDone_rel {T Q : TRel n n'} (lo : Nat) {a : Acc n} {a' : Acc n'} (ha : AccRel ρ T Q a a') :
    ResRel ρ (SplitRel T Q) (splitDone lo a) (splitDone lo a') := by
  refine .ofPair ⟨_, _, _, _, _, rfl, ?_, ha.elems, ha.puncts⟩ ha.errs
  rw [lastHi ha.elems]

theorem split_rel {T Q : TRel n n'} {ef pf fol : TSet n} {ef' pf' fol' : TSet n'} (hs : SetAs ρ ef ef')
    (hpf : SetAs ρ pf pf') (hf : SetAs ρ fol fol') {p q : P σ n} {p' q' : P τ n'} (h : PRel ρ SR T p p')
    (hq : PRel ρ SR Q q q') (fuel : Nat) :
    PRel ρ SR (SplitRel T Q) (produceSplit o ef pf fol p q fuel) (produceSplit o' ef' pf' fol' p' q' fuel) := by
  unfold produceSplit
  refine MRel.bind h ?_
  intro r r' hr
  cases hr with
  | panic e => exact .pure (.panic e)
  | success ht =>
    dsimp only
    rw [T.span _ _ ht]
    refine (splitOuter_rel hP hs hpf hf h hq fuel ⟨pw_one ht, .nil, .nil⟩).bind ?_
    intro a a' ha
    exact .pure (splitDone_rel _ ha)
  | recovered ht e =>
    dsimp only
    rw [T.span _ _ ht]
    refine (splitOuter_rel hP hs hpf hf h hq fuel ⟨pw_one ht, .nil, e⟩).bind ?_
    intro a a' ha
    exact .pure (splitDone_rel _ ha)

theorem punctTry_rel {T Q : TRel n n'} {ef fol : TSet n} {ef' fol' : TSet n'} (hs : SetAs ρ ef ef') (hf : SetAs ρ fol fol')
    {p : P σ n} {p' : P τ n'} (h : PRel ρ SR T p p')
    {a : Acc n} {a' : Acc n'} (ha : AccRel ρ T Q a a') {e : Option (Err n)} {e' : Option (Err n')}
    (he : OptRel (ErrAs ρ) e e') :
    MRel SR (ExRel (PairRel (fun a b => b = a) (AccRel ρ T Q)) (OptRel (ErrAs ρ))) (punctTry o ef fol p a e)
      (punctTry o' ef' fol' p' a' e') := by
  unfold punctTry
  refine (peekSrc_rel hP).bind ?_
  rintro tok _ rfl
  rw [hs.contains, hf.contains, Option.isNone_map]
  split
  · exact .pure (.error ⟨rfl, ha.add (errs_rel he)⟩)
  split
  · refine MRel.bind h ?_
    intro r r' hr
    cases hr with
    | success ht => exact .pure (.error ⟨rfl, pw_append ha.elems (pw_one ht), ha.puncts, pw_append ha.errs (errs_rel he)⟩)
    | recovered ht e =>
      exact .pure (.error ⟨rfl, pw_append ha.elems (pw_one ht), ha.puncts, pw_append (pw_append ha.errs (errs_rel he)) e⟩)
    | panic e => exact .pure (.ok (mergePanic_rel he e))
  split
  · exact .pure (.error ⟨rfl, ha.add (errs_rel he)⟩)
  · cases he with
    | none =>
      refine (currentSpan_rel hP).bind ?_
      rintro _ sp rfl
      exact .pure (.ok (.some (.expecting (setAs_punct hP.inj hs hf))))
    | some h =>
      refine (extendPanic_rel hP h).bind ?_
      intro _ _ h
      exact .pure (.ok (.some h))

theorem punctInner_rel {T Q : TRel n n'} {ef pf fol : TSet n} {ef' pf' fol' : TSet n'} (hs : SetAs ρ ef ef')
    (hpf : SetAs ρ pf pf') (hf : SetAs ρ fol fol') {p : P σ n} {p' : P τ n'} (h : PRel ρ SR T p p') :
    ∀ (fuel : Nat) {a : Acc n} {a' : Acc n'} {e : Option (Err n)} {e' : Option (Err n')}, AccRel ρ T Q a a' →
    OptRel (ErrAs ρ) e e' → MRel SR (PairRel (fun a b => b = a) (AccRel ρ T Q)) (punctInner o ef pf fol p fuel a e)
      (punctInner o' ef' pf' fol' p' fuel a' e') := by
  intro fuel
  induction fuel with
  | zero => intros; exact .fuel
  | succ fuel ih =>
    intro a a' e e' ha he
    unfold punctInner
    refine (punctTry_rel hP hs hf h ha he).bind ?_
    intro r r' hr
    cases hr with
    | error h => exact .pure h
    | ok h2 =>
      dsimp only
      refine (peekSrc_rel hP).bind ?_
      rintro tok _ rfl
      rw [hpf.contains, hf.contains, Option.isNone_map]
      split
      · exact .pure ⟨rfl, ha.add (errs_rel h2)⟩
      · split
        · exact .pure ⟨rfl, ha.add (errs_rel h2)⟩
        · refine (consume_rel hP).bind ?_
          intro _ _ _
          exact ih ha h2

theorem punctOuter_rel {T Q : TRel n n'} {ef pf fol : TSet n} {ef' pf' fol' : TSet n'} (hs : SetAs ρ ef ef')
    (hpf : SetAs ρ pf pf') (hf : SetAs ρ fol fol') {p q : P σ n} {p' q' : P τ n'} (h : PRel ρ SR T p p')
    (hq : PRel ρ SR Q q q') : ∀ (fuel : Nat) {a : Acc n} {a' : Acc n'}, AccRel ρ T Q a a' →
    MRel SR (AccRel ρ T Q) (punctOuter o ef pf fol p q fuel a) (punctOuter o' ef' pf' fol' p' q' fuel a') := by
  intro fuel
  induction fuel with
  | zero => intros; exact .fuel
  | succ fuel ih =>
    intro a a' ha
    unfold punctOuter
    refine (peekSrc_rel hP).bind ?_
    rintro tok _ rfl
    rw [hpf.contains, Option.isSome_map]
    split
    · refine MRel.bind hq ?_
      intro r r' hr
      cases hr with
      | panic e => exact .pure (ha.add e)
      | success ht =>
        refine (punctInner_rel hP hs hpf hf h fuel (ha.addPunct ht) .none).bind ?_
        rintro ⟨g, a⟩ ⟨g', a'⟩ ⟨h1, h2⟩
        cases h1
        dsimp only
        cases g with
        | true => exact ih h2
        | false => exact .pure h2
      | recovered ht e =>
        refine (punctInner_rel hP hs hpf hf h fuel ((ha.addPunct ht).add e) .none).bind ?_
        rintro ⟨g, a⟩ ⟨g', a'⟩ ⟨h1, h2⟩
        cases h1
        dsimp only
        cases g with
        | true => exact ih h2
        | false => exact .pure h2
    · exact .pure ha

omit hP in
theorem punctDone_rel {T Q : TRel n n'} (lo : Nat) {a : Acc n} {a' : Acc n'} (ha : AccRel ρ T Q a a') :
    ResRel ρ (SplitRel T Q) (punctDone lo a) (punctDone lo a') := by
  refine .ofPair ⟨_, _, _, _, _, rfl, ?_, ha.elems, ha.puncts⟩ ha.errs
  rw [lastHi ha.elems, lastHi ha.puncts]

theorem punct_rel {T Q : TRel n n'} {ef pf fol : TSet n} {ef' pf' fol' : TSet n'} (hs : SetAs ρ ef ef')
    (hpf : SetAs ρ pf pf') (hf : SetAs ρ fol fol') {p q : P σ n} {p' q' : P τ n'} (h : PRel ρ SR T p p')
    (hq : PRel ρ SR Q q q') (fuel : Nat) :
    PRel ρ SR (SplitRel T Q) (producePunct o ef pf fol p q fuel) (producePunct o' ef' pf' fol' p' q' fuel) := by
  unfold producePunct
  refine MRel.bind h ?_
  intro r r' hr
  cases hr with
  | panic e => exact .pure (.panic e)
  | success ht =>
    dsimp only
    rw [T.span _ _ ht]
    refine (punctOuter_rel hP hs hpf hf h hq fuel ⟨pw_one ht, .nil, .nil⟩).bind ?_
    intro a a' ha
    exact .pure (punctDone_rel _ ha)
  | recovered ht e =>
    dsimp only
    rw [T.span _ _ ht]
    refine (punctOuter_rel hP hs hpf hf h hq fuel ⟨pw_one ht, .nil, e⟩).bind ?_
    intro a a' ha
    exact .pure (punctDone_rel _ ha)

/-! ### `Recover` -/

structure HeadRel (ρ : Fin n → Fin n') (T : Tree n → Tree n' → Prop) (a : RHead n) (b : RHead n') : Prop where
  errs : ErrsAs ρ a.errs b.errs
  panic : OptRel (ErrAs ρ) a.panic b.panic
  span : b.span = a.span
  head : OptRel T a.head b.head

theorem recoverHead_rel {T : TRel n n'} {hd : TSet n} {hd' : TSet n'} (hs : SetAs ρ hd hd') {p : P σ n} {p' : P τ n'}
    (h : PRel ρ SR T p p') : MRel SR (HeadRel ρ T) (recoverHead o hd p) (recoverHead o' hd' p') := by
  unfold recoverHead
  refine (peekSrc_rel hP).bind ?_
  rintro tok _ rfl
  rw [hs.contains, hs.containsE]
  split
  · refine MRel.bind h ?_
    intro r r' hr
    cases hr with
    | success ht => exact .pure ⟨.nil, .none, T.span _ _ ht, .some ht⟩
    | recovered ht e => exact .pure ⟨e, .none, T.span _ _ ht, .some ht⟩
    | panic e =>
      refine (emptySpan_rel hP).bind ?_
      rintro _ sp rfl
      exact .pure ⟨.nil, pw_last e, rfl, .none⟩
  · refine (expecting_rel hP hs).bind ?_
    intro _ _ he
    refine (emptySpan_rel hP).bind ?_
    rintro _ sp rfl
    exact .pure ⟨.nil, .some he, rfl, .none⟩

theorem recoverSkip_rel {tf : TSet n} {tf' : TSet n'} (hs : SetAs ρ tf tf') {e : Option (Err n)} {e' : Option (Err n')}
    (he : OptRel (ErrAs ρ) e e') : MRel SR (OptRel (ErrAs ρ)) (recoverSkip o tf e) (recoverSkip o' tf' e') := by
  unfold recoverSkip
  cases he with
  | none =>
    refine (expecting_rel hP hs).bind ?_
    intro _ _ h
    refine (consume_rel hP).bind ?_
    intro _ _ _
    exact .pure (.some h)
  | some h =>
    refine (extendPanic_rel hP h).bind ?_
    intro _ _ h
    refine (consume_rel hP).bind ?_
    intro _ _ _
    exact .pure (.some h)

theorem recoverLoop_rel {T : TRel n n'} {tf : TSet n} {tf' : TSet n'} (hs : SetAs ρ tf tf') {p : P σ n} {p' : P τ n'}
    (h : PRel ρ SR T p p') : ∀ (fuel : Nat) {errs errs' e e'}, ErrsAs ρ errs errs' → OptRel (ErrAs ρ) e e' →
    MRel SR (PairRel (OptRel T) (PairRel (ErrsAs ρ) (OptRel (ErrAs ρ))))
      (recoverLoop o tf p fuel errs e) (recoverLoop o' tf' p' fuel errs' e') := by
  intro fuel
  induction fuel with
  | zero => intros; exact .fuel
  | succ fuel ih =>
    intro errs errs' e e' h1 h2
    unfold recoverLoop
    refine (peekSrc_rel hP).bind ?_
    rintro tok _ rfl
    rw [hs.contains, hs.containsE, Option.isNone_map]
    split
    · split
      · refine MRel.bind h ?_
        intro r r' hr
        cases hr with
        | success ht => exact .pure ⟨.some ht, h1, h2⟩
        | recovered ht e => exact .pure ⟨.some ht, pw_append h1 e, h2⟩
        | panic e => exact .pure ⟨.none, h1, mergePanic_rel h2 e⟩
      · exact .pure ⟨.none, h1, h2⟩
    · split
      · refine MRel.bind h ?_
        intro r r' hr
        cases hr with
        | success ht => exact .pure ⟨.some ht, h1, h2⟩
        | recovered ht e => exact .pure ⟨.some ht, pw_append h1 e, h2⟩
        | panic e =>
          refine (recoverSkip_rel hP hs (mergePanic_rel h2 e)).bind ?_
          intro _ _ h
          exact ih h1 h
      · refine (recoverSkip_rel hP hs h2).bind ?_
        intro _ _ h
        exact ih h1 h

/-- `Recover` with related parts. -/
def RecRel (T Q : Tree n → Tree n' → Prop) (x : Tree n) (y : Tree n') : Prop :=
  (∃ sp a a' b b', x = .recover sp a b ∧ y = .recover sp a' b' ∧ T a a' ∧ Q b b') ∨
  (∃ sp b b', x = .recoverNone sp b ∧ y = .recoverNone sp b' ∧ Q b b')

omit hP in
theorem mkRecover_rel {T Q : Tree n → Tree n' → Prop} {h : RHead n} {h' : RHead n'} (hh : HeadRel ρ T h h') {t : Tree n}
    {t' : Tree n'} (ht : Q t t') : RecRel T Q (mkRecover h t) (mkRecover h' t') := by
  unfold mkRecover
  have := hh.head
  rw [hh.span]
  generalize h.head = o at this
  generalize h'.head = o' at this
  cases this with
  | none => exact .inr ⟨_, _, _, rfl, rfl, ht⟩
  | some hx => exact .inl ⟨_, _, _, _, _, rfl, rfl, hx, ht⟩

theorem recover_rel {T Q : TRel n n'} {hf tf : TSet n} {hf' tf' : TSet n'} (hh : SetAs ρ hf hf') (ht : SetAs ρ tf tf')
    {p q : P σ n} {p' q' : P τ n'} (h : PRel ρ SR T p p') (hq : PRel ρ SR Q q q') (fuel : Nat) :
    PRel ρ SR (RecRel T Q) (produceRecover o hf tf p q fuel) (produceRecover o' hf' tf' p' q' fuel) := by
  unfold produceRecover
  refine (recoverHead_rel hP hh h).bind ?_
  intro hd hd' hh
  refine (recoverLoop_rel hP ht hq fuel hh.errs hh.panic).bind ?_
  rintro ⟨t, e, p⟩ ⟨t', e', p'⟩ ⟨h1, h2, h3⟩
  dsimp only at h1 h2 h3 ⊢
  cases h1 with
  | none => exact .pure (.panic (pw_append h2 (errs_rel h3)))
  | some ht => exact .pure (.ofPair (mkRecover_rel hh ht) (pw_append h2 (errs_rel h3)))

end Teleparse.Relab
