import Verif.Proof.Layout
/-
Every syntax type does the same on inputs with the same tokens.
-/
namespace Teleparse
variable {m n : Nat} {L L' : Layout n}

/-! ### Reading -/

theorem getSrc_rel (hT : Twins L L') {sp sp' : Span} (h : SameSpan L L' sp sp') :
    MRel L L' (fun s s' => s = textOf L.source sp ∧ s' = textOf L'.source sp') ((View.ops (n := n)).mGetSrc sp)
      (View.ops.mGetSrc sp') := by
  unfold Ops.mGetSrc
  refine source_rel.bind ?_
  rintro _ _ ⟨rfl, rfl⟩
  rw [get?_edges (h.lo.edge hT).1 (h.hi.edge hT).1, get?_edges (h.lo.edge hT).2 (h.hi.edge hT).2]
  exact .pure ⟨rfl, rfl⟩

theorem peekSrc_rel (hT : Twins L L') : MRel L L' Eq (View.ops (n := n)).mPeekSrc View.ops.mPeekSrc := by
  unfold Ops.mPeekSrc
  refine (peek_rel hT).bind ?_
  intro a b h
  cases h with
  | none => exact .pure rfl
  | @some t t' h =>
    refine (getSrc_rel hT h.span).bind ?_
    rintro _ _ ⟨rfl, rfl⟩
    exact .pure (congrArg some (h.word hT))

theorem currentSpan_rel (hT : Twins L L') : MRel L L' (CurAt L L') (View.ops (n := n)).mCurrentSpan View.ops.mCurrentSpan := by
  unfold Ops.mCurrentSpan
  refine (peek_rel hT).bind ?_
  intro a b h
  cases h with
  | none =>
    refine source_rel.bind ?_
    rintro _ _ ⟨rfl, rfl⟩
    exact .pure (.inl ⟨rfl, rfl⟩)
  | some h => exact .pure (.inr ⟨_, _, h, rfl, rfl⟩)

theorem expecting_rel (hT : Twins L L') (s : TSet n) :
    MRel L L' (SameErr L L') ((View.ops (n := n)).mExpecting s) (View.ops.mExpecting s) := by
  unfold Ops.mExpecting
  refine (currentSpan_rel hT).bind ?_
  intro a b h
  exact .pure ⟨h.span, rfl⟩

theorem unexpectedEof_rel (hT : Twins L L') :
    MRel L L' (SameErr L L') ((View.ops (n := n)).mUnexpectedEof) (View.ops.mUnexpectedEof) := by
  unfold Ops.mUnexpectedEof
  refine (currentSpan_rel hT).bind ?_
  intro a b h
  exact .pure ⟨h.span, rfl⟩

theorem one_err {e e' : Err n} (h : SameErr L L' e e') : SameErrs L L' [e] [e'] := .cons h .nil

theorem SameTree.ofToken {t t' : Token n} (hT : Twins L L') (h : TokAt L L' t t') : SameTree L L' (.tok t) (.tok t') := by
  have : t.ty = t'.ty := congrArg TokenSrc.ty (h.word hT)
  obtain ⟨s, ty⟩ := t
  obtain ⟨s', ty'⟩ := t'
  cases this
  exact .tok h.span

/-- Results with trees. -/
abbrev PRel (L L' : Layout n) (x y : P (View n) n) : Prop := MRel L L' (SameRes L L') x y

theorem parseToken_rel (hT : Twins L L') (ty : Fin n) :
    MRel L L' (fun (r r' : Res n (Token n)) => SameRes L L' (r.map .tok) (r'.map .tok)) ((View.ops (n := n)).parseToken ty)
      (View.ops.parseToken ty) := by
  have hfail : MRel L L' (fun (r r' : Res n (Token n)) => SameRes L L' (r.map .tok) (r'.map .tok))
      (do let e ← (View.ops (n := n)).mExpecting (TSet.one ty none); pure (Res.panic [e] : Res n (Token n)))
      (do let e ← (View.ops (n := n)).mExpecting (TSet.one ty none); pure (Res.panic [e] : Res n (Token n))) := by
    refine (expecting_rel hT _).bind ?_
    intro e e' h
    exact .pure (.panic (one_err h))
  unfold Ops.parseToken
  refine (peek_rel hT).bind ?_
  intro a b h
  cases h with
  | none => exact hfail
  | @some t t' h =>
    have hty : t.ty = t'.ty := congrArg TokenSrc.ty (h.word hT)
    show MRel L L' _ (if t.ty = ty then _ else _) (if t'.ty = ty then _ else _)
    rw [← hty]
    by_cases ht : t.ty = ty
    · rw [if_pos ht, if_pos ht]
      refine (consume_rel hT).bind ?_
      intro _ _ _
      exact .pure (.success (.ofToken hT h))
    · rw [if_neg ht, if_neg ht]
      exact hfail

theorem parseTokenLit_rel (hT : Twins L L') (ty : Fin n) (lit : Str) (follow : TSet n) :
    MRel L L' (fun (r r' : Res n (Token n)) => SameRes L L' (r.map .tok) (r'.map .tok)) ((View.ops (n := n)).parseTokenLit ty lit follow)
      (View.ops.parseTokenLit ty lit follow) := by
  unfold Ops.parseTokenLit
  refine (peek_rel hT).bind ?_
  intro a b h
  cases h with
  | none =>
    dsimp only
    by_cases hf : follow.containsE = true
    · rw [if_pos hf]
      refine (currentSpan_rel hT).bind ?_
      intro sp sp' hsp
      refine (expecting_rel hT _).bind ?_
      intro e e' h
      exact .pure (.recovered (.tok hsp.span) (one_err h))
    · rw [if_neg hf]
      refine (unexpectedEof_rel hT).bind ?_
      intro e e' h
      exact .pure (.panic (one_err h))
  | @some t t' h =>
    dsimp only
    refine (getSrc_rel hT h.span).bind ?_
    rintro s s' ⟨hs, hs'⟩
    have hty : t.ty = t'.ty := congrArg TokenSrc.ty (h.word hT)
    have hss : s = s' := by rw [hs, hs']; exact congrArg TokenSrc.src (h.word hT)
    rw [← hty, ← hss]
    by_cases ht : t.ty = ty ∧ s = lit
    · rw [if_pos ht, if_pos ht]
      refine (consume_rel hT).bind ?_
      intro _ _ _
      exact .pure (.success (.ofToken hT h))
    · rw [if_neg ht, if_neg ht]
      by_cases hf : follow.contains (some ⟨t.ty, s⟩) = true
      · rw [if_pos hf]
        refine emptySpan_rel.bind ?_
        intro sp sp' hsp
        refine (expecting_rel hT _).bind ?_
        intro e e' h
        exact .pure (.recovered (.tok hsp) (one_err h))
      · rw [if_neg hf]
        refine (expecting_rel hT _).bind ?_
        intro e e' h
        exact .pure (.panic (one_err h))

theorem term_rel (hT : Twins L L') (t : Terminal n) (follow : TSet n) :
    PRel L L' (produceTerm View.ops t follow) (produceTerm View.ops t follow) := by
  unfold produceTerm
  cases t.lit with
  | some lit =>
    refine (parseTokenLit_rel hT _ _ _).bind ?_
    intro r r' h
    exact .pure h
  | none =>
    refine (parseToken_rel hT _).bind ?_
    intro r r' h
    exact .pure h

/-! ### Trees and results -/

theorem SameTree.span {t t' : Tree n} (h : SameTree L L' t t') : SameSpan L L' t.span t'.span := by
  cases h with
  | tok h => exact h
  | seq h _ => exact h
  | variant h => exact h.span
  | optSome h _ => exact h
  | optNone h => exact h
  | exist h => exact h
  | text h => exact h
  | list h _ => exact h
  | split h _ _ => exact h
  | recover h _ ht => exact ⟨h.lo, ht.span.hi⟩
  | recoverNone h ht => exact ⟨h.lo, ht.span.hi⟩

theorem SameTrees.append {a b c d : List (Tree n)} (h : SameTrees L L' a b) (h' : SameTrees L L' c d) :
    SameTrees L L' (a ++ c) (b ++ d) := by
  induction a generalizing b with
  | nil => cases h; exact h'
  | cons _ _ ih => cases h with
    | cons h1 h2 => exact .cons h1 (ih h2)

theorem SameTrees.snoc {a b : List (Tree n)} {t t' : Tree n} (h : SameTrees L L' a b) (h' : SameTree L L' t t') :
    SameTrees L L' (a ++ [t]) (b ++ [t']) := h.append (.cons h' .nil)

theorem SameTrees.last {a b : List (Tree n)} (h : SameTrees L L' a b) :
    OptRel (SameTree L L') a.getLast? b.getLast? := by
  induction a generalizing b with
  | nil => cases h; exact .none
  | cons x l ih =>
    cases h with
    | @cons _ y _ l' h1 h2 =>
      have := ih h2
      cases l with
      | nil => cases h2; exact .some h1
      | cons z w =>
        cases h2 with
        | @cons _ z' _ w' h3 h4 =>
          rw [List.getLast?_cons_cons, List.getLast?_cons_cons]
          exact this

theorem SameTrees.lastHi {a b : List (Tree n)} (h : SameTrees L L' a b) {x x' : Nat} (hx : SamePlace L L' x x') :
    SamePlace L L' ((a.getLast?.map (·.span.hi)).getD x) ((b.getLast?.map (·.span.hi)).getD x') := by
  have := h.last
  generalize a.getLast? = o at this
  generalize b.getLast? = o' at this
  cases this with
  | none => exact hx
  | some h => exact h.span.hi

theorem SameTrees.spanOf {a b : List (Tree n)} (h : SameTrees L L' a b) (ha : a ≠ []) :
    SameSpan L L' (spanOf a) (spanOf b) := by
  unfold Teleparse.spanOf
  have hl := h.last
  cases h with
  | nil => exact absurd rfl ha
  | @cons t t' l l' h _ =>
    refine ⟨h.span.lo, ?_⟩
    dsimp only
    cases hx : (t :: l).getLast? with
    | none => simp at hx
    | some x =>
      rw [hx] at hl
      cases hy : (t' :: l').getLast? with
      | none => simp at hy
      | some y =>
        rw [hy] at hl
        cases hl with
        | some h => exact h.span.hi

theorem SameErrs.last {a b : List (Err n)} (h : SameErrs L L' a b) : OptRel (SameErr L L') a.getLast? b.getLast? := by
  induction h with
  | nil => exact .none
  | cons h1 h2 ih =>
    cases h2 with
    | nil => exact .some h1
    | cons h3 h4 =>
      rw [List.getLast?_cons_cons, List.getLast?_cons_cons]
      exact ih

theorem SameRes.ofPair {t t' : Tree n} {e e' : List (Err n)} (h : SameTree L L' t t') (he : SameErrs L L' e e') :
    SameRes L L' (Res.ofPair t e) (Res.ofPair t' e') := by
  unfold Res.ofPair
  cases he with
  | nil => exact .success h
  | cons h1 h2 => exact .recovered h (.cons h1 h2)

theorem OptRel.errs {p p' : Option (Err n)} (h : OptRel (SameErr L L') p p') : SameErrs L L' p.toList p'.toList := by
  cases h with
  | none => exact .nil
  | some h => exact one_err h

theorem mergePanic_rel {p p' : Option (Err n)} {e e' : List (Err n)} (hp : OptRel (SameErr L L') p p')
    (he : SameErrs L L' e e') : OptRel (SameErr L L') (mergePanic p e) (mergePanic p' e') := by
  unfold mergePanic
  have := he.last
  generalize e.getLast? = o at this
  generalize e'.getLast? = o' at this
  cases this with
  | none => exact hp
  | some h =>
    cases hp with
    | none => exact .some h
    | some h' => exact .some ⟨⟨h'.span.lo, h.span.hi⟩, h'.kind⟩

theorem extendPanic_rel (hT : Twins L L') {p p' : Err n} (hp : SameErr L L' p p') :
    MRel L L' (SameErr L L') (extendPanic View.ops p) (extendPanic View.ops p') := by
  unfold extendPanic
  refine (currentSpan_rel hT).bind ?_
  intro a b h
  exact .pure ⟨⟨hp.span.lo, h.span.hi⟩, hp.kind⟩

/-! ### Tuples, structs and enums -/

inductive ExRel {α β γ δ : Type} (R : α → β → Prop) (Q : γ → δ → Prop) : Except α γ → Except β δ → Prop
  | error {a b} : R a b → ExRel R Q (.error a) (.error b)
  | ok {a b} : Q a b → ExRel R Q (.ok a) (.ok b)

def PairRel {α β γ δ : Type} (R : α → β → Prop) (Q : γ → δ → Prop) (a : α × γ) (b : β × δ) : Prop := R a.1 b.1 ∧ Q a.2 b.2

theorem seqLoop_rel : ∀ {ps ps' : List (P (View n) n)}, Pointwise (PRel L L') ps ps' → ∀ {acc acc' errs errs'},
    ps ≠ [] ∨ acc ≠ [] → SameTrees L L' acc acc' → SameErrs L L' errs errs' →
    MRel L L' (ExRel (SameErrs L L') (PairRel (fun l l' => SameTrees L L' l l' ∧ l ≠ []) (SameErrs L L')))
      (seqLoop ps acc errs) (seqLoop ps' acc' errs') := by
  intro ps ps' hp
  induction hp with
  | nil => intro acc acc' errs errs' h0 h1 h2; exact .pure (.ok ⟨⟨h1, h0.resolve_left fun h => h rfl⟩, h2⟩)
  | cons hp _ ih =>
    intro acc acc' errs errs' _ h1 h2
    unfold seqLoop
    refine hp.bind ?_
    intro r r' hr
    cases hr with
    | success ht => exact ih (.inr (by simp)) (h1.snoc ht) h2
    | recovered ht he => exact ih (.inr (by simp)) (h1.snoc ht) (h2.append he)
    | panic he => exact .pure (.error (h2.append he))

theorem tuple_rel {ps ps' : List (P (View n) n)} (h0 : ps ≠ []) (h : Pointwise (PRel L L') ps ps') :
    PRel L L' (produceTuple ps) (produceTuple ps') := by
  unfold produceTuple
  refine (seqLoop_rel h (.inl h0) .nil .nil).bind ?_
  intro r r' hr
  cases hr with
  | error he => exact .pure (.panic he)
  | ok h => exact .pure (.ofPair (.seq (h.1.1.spanOf h.1.2) h.1.1) h.2)

theorem applyFields_rel (hT : Twins L L') : ∀ {l l' : List (Tree n × Option (LSet n))},
    Pointwise (PairRel (SameTree L L') Eq) l l' →
    MRel L L' (fun _ _ => True) (applyFields View.ops l) (applyFields View.ops l') := by
  intro l l' h
  induction h with
  | nil => exact .pure trivial
  | @cons a b l l' h _ ih =>
    obtain ⟨t, s⟩ := a
    obtain ⟨t', s'⟩ := b
    obtain ⟨h1, h2⟩ := h
    cases h2
    cases s with
    | none => exact ih
    | some s =>
      unfold applyFields
      refine (apply_rel hT h1.span s).bind ?_
      intro _ _ _
      exact ih

theorem SameTrees.zip {a b : List (Tree n)} (h : SameTrees L L' a b) (s : List (Option (LSet n))) :
    Pointwise (PairRel (SameTree L L') Eq) (a.zip s) (b.zip s) := by
  induction a generalizing b s with
  | nil => cases h; exact .nil
  | cons x l ih =>
    cases h with
    | cons h1 h2 =>
      cases s with
      | nil => exact .nil
      | cons s ss => exact .cons ⟨h1, rfl⟩ (ih h2 ss)

theorem struct_rel (hT : Twins L L') {f f' : List (P (View n) n × Option (LSet n))} (h0 : f ≠ [])
    (h : Pointwise (PairRel (PRel L L') Eq) f f') : PRel L L' (produceStruct View.ops f) (produceStruct View.ops f') := by
  have h1 : Pointwise (PRel L L') (f.map (·.1)) (f'.map (·.1)) := by
    clear h0
    induction h with
    | nil => exact .nil
    | cons h _ ih => exact .cons h.1 ih
  have h2 : f.map (·.2) = f'.map (·.2) := by
    clear h1 h0
    induction h with
    | nil => rfl
    | cons h _ ih =>
      simp only [List.map_cons]
      rw [h.2, ih]
  unfold produceStruct
  refine (seqLoop_rel h1 (.inl (by simpa using h0)) .nil .nil).bind ?_
  intro r r' hr
  cases hr with
  | error he => exact .pure (.panic he)
  | @ok a b h =>
    obtain ⟨l, e⟩ := a
    obtain ⟨l', e'⟩ := b
    obtain ⟨⟨h3, h5⟩, h4⟩ := h
    dsimp only
    rw [← h2]
    refine (applyFields_rel hT (h3.zip _)).bind ?_
    intro _ _ _
    exact .pure (.ofPair (.seq (h3.spanOf h5) h3) h4)

theorem mapVariant_rel (hT : Twins L L') (i : Nat) (sem : Option (LSet n)) {r r' : Res n (Tree n)} (h : SameRes L L' r r') :
    PRel L L' (mapVariant View.ops i sem r) (mapVariant View.ops i sem r') := by
  unfold mapVariant
  cases h with
  | success ht =>
    refine (applyFields_rel hT (l := [(_, sem)]) (l' := [(_, sem)]) (.cons ⟨ht, rfl⟩ .nil)).bind ?_
    intro _ _ _
    exact .pure (.success (.variant ht))
  | recovered ht he =>
    refine (applyFields_rel hT (l := [(_, sem)]) (l' := [(_, sem)]) (.cons ⟨ht, rfl⟩ .nil)).bind ?_
    intro _ _ _
    exact .pure (.recovered (.variant ht) he)
  | panic he => exact .pure (.panic he)

theorem fail_rel (hT : Twins L L') (s : TSet n) :
    PRel L L' (do let e ← (View.ops (n := n)).mExpecting s; pure (.panic [e]))
      (do let e ← (View.ops (n := n)).mExpecting s; pure (.panic [e])) := by
  refine (expecting_rel hT _).bind ?_
  intro e e' h
  exact .pure (.panic (one_err h))

theorem Pointwise.get {α β : Type} {R : α → β → Prop} {l l'} (h : Pointwise R l l') (i : Nat) : OptRel R l[i]? l'[i]? := by
  induction h generalizing i with
  | nil => exact .none
  | cons h _ ih =>
    cases i with
    | zero => exact .some h
    | succ i => simpa using ih i

theorem enum_rel (hT : Twins L L') (look : Option (TokenSrc n) → Option Nat) (first : TSet n)
    {f f' : List (P (View n) n × Option (LSet n))} (h : Pointwise (PairRel (PRel L L') Eq) f f') :
    PRel L L' (produceEnum View.ops look first f) (produceEnum View.ops look first f') := by
  unfold produceEnum
  refine (peekSrc_rel hT).bind ?_
  rintro tok _ rfl
  cases look tok with
  | none => exact fail_rel hT _
  | some i =>
    have := h.get i
    dsimp only
    generalize f[i]? = o at this
    generalize f'[i]? = o' at this
    cases this with
    | none => exact fail_rel hT _
    | @some a b h =>
      obtain ⟨p, s⟩ := a
      obtain ⟨p', s'⟩ := b
      obtain ⟨h1, h2⟩ := h
      cases h2
      refine MRel.bind h1 ?_
      intro r r' hr
      exact mapVariant_rel hT _ _ hr

/-! ### Options, texts and repetitions -/

theorem option_rel (hT : Twins L L') (first : TSet n) {p p' : P (View n) n} (h : PRel L L' p p')
    {mk : Span → Option (Tree n) → Tree n}
    (hmk : ∀ {s s' o o'}, SameSpan L L' s s' → OptRel (SameTree L L') o o' → SameTree L L' (mk s o) (mk s' o')) :
    PRel L L' (produceOption View.ops first p mk) (produceOption View.ops first p' mk) := by
  unfold produceOption
  refine (peekSrc_rel hT).bind ?_
  rintro tok _ rfl
  split
  · refine h.bind ?_
    intro r r' hr
    cases hr with
    | success ht => exact .pure (.success (hmk ht.span (.some ht)))
    | recovered ht he => exact .pure (.recovered (hmk ht.span (.some ht)) he)
    | panic he =>
      refine emptySpan_rel.bind ?_
      intro _ _ hs
      exact .pure (.recovered (hmk hs .none) he)
  · refine emptySpan_rel.bind ?_
    intro _ _ hs
    exact .pure (.success (hmk hs .none))

theorem mkOption_rel {s s' : Span} {o o' : Option (Tree n)} (hs : SameSpan L L' s s') (h : OptRel (SameTree L L') o o') :
    SameTree L L' (mkOption s o) (mkOption s' o') := by
  cases h with
  | none => exact .optNone hs
  | some h => exact .optSome hs h

theorem mkExists_rel {s s' : Span} {o o' : Option (Tree n)} (hs : SameSpan L L' s s') (h : OptRel (SameTree L L') o o') :
    SameTree L L' (mkExists s o) (mkExists s' o') := by
  cases h with
  | none => exact .exist hs
  | some h => exact .exist hs

theorem mkStar_rel {s s' : Span} {o o' : Option (Tree n)} (hs : SameSpan L L' s s') (h : OptRel (SameTree L L') o o') :
    SameTree L L' (mkStar s o) (mkStar s' o') := by
  cases h with
  | none => exact .list hs .nil
  | some h =>
    cases h with
    | list h1 h2 => exact .list h1 h2
    | _ => exact .list hs .nil

theorem text_rel (hT : Twins L L') {p p' : P (View n) n} (h : PRel L L' p p') :
    PRel L L' (produceText View.ops p) (produceText View.ops p') := by
  unfold produceText
  refine h.bind ?_
  intro r r' hr
  cases hr with
  | success ht =>
    refine (getSrc_rel hT ht.span).bind ?_
    rintro _ _ ⟨rfl, rfl⟩
    exact .pure (.success (.text ht.span))
  | recovered ht he =>
    refine (getSrc_rel hT ht.span).bind ?_
    rintro _ _ ⟨rfl, rfl⟩
    exact .pure (.recovered (.text ht.span) he)
  | panic he => exact .pure (.panic he)

theorem iterLoop_rel (hT : Twins L L') (first : TSet n) {p p' : P (View n) n} (h : PRel L L' p p') : ∀ (fuel : Nat)
    {acc acc' errs errs' hi hi'}, SameTrees L L' acc acc' → SameErrs L L' errs errs' → SamePlace L L' hi hi' →
    MRel L L' (PairRel (SameTrees L L') (PairRel (SameErrs L L') (SamePlace L L')))
      (iterLoop View.ops first p fuel acc errs hi) (iterLoop View.ops first p' fuel acc' errs' hi') := by
  intro fuel
  induction fuel with
  | zero => intros; exact .fuel
  | succ fuel ih =>
    intro acc acc' errs errs' hi hi' h1 h2 h3
    unfold iterLoop
    refine (peekSrc_rel hT).bind ?_
    rintro tok _ rfl
    split
    · refine h.bind ?_
      intro r r' hr
      cases hr with
      | success ht => exact ih (h1.snoc ht) h2 ht.span.hi
      | recovered ht he => exact ih (h1.snoc ht) (h2.append he) ht.span.hi
      | panic he => exact .pure ⟨h1, h2.append he, h3⟩
    · exact .pure ⟨h1, h2, h3⟩

theorem plusRest_rel (hT : Twins L L') (first : TSet n) {p p' : P (View n) n} (h : PRel L L' p p') (fuel : Nat)
    {t t' : Tree n} {errs errs' : List (Err n)} (ht : SameTree L L' t t') (he : SameErrs L L' errs errs') :
    PRel L L' (plusRest View.ops first p fuel t errs) (plusRest View.ops first p' fuel t' errs') := by
  unfold plusRest
  refine (iterLoop_rel hT first h fuel (.cons ht .nil) he ht.span.hi).bind ?_
  rintro ⟨l, e, hi⟩ ⟨l', e', hi'⟩ ⟨h1, h2, h3⟩
  exact .pure (.ofPair (.list ⟨ht.span.lo, h3⟩ h1) h2)

theorem plus_rel (hT : Twins L L') (first : TSet n) {p p' : P (View n) n} (h : PRel L L' p p') (fuel : Nat) :
    PRel L L' (producePlus View.ops first p fuel) (producePlus View.ops first p' fuel) := by
  unfold producePlus
  refine h.bind ?_
  intro r r' hr
  cases hr with
  | success ht => exact plusRest_rel hT first h fuel ht .nil
  | recovered ht he => exact plusRest_rel hT first h fuel ht he
  | panic he => exact .pure (.panic he)

theorem skipLoop_rel (hT : Twins L L') (first : TSet n) : ∀ (fuel : Nat) {hi hi'}, SamePlace L L' hi hi' →
    MRel L L' (PairRel (SamePlace L L') Eq) (skipLoop View.ops first fuel hi) (skipLoop View.ops first fuel hi') := by
  intro fuel
  induction fuel with
  | zero => intros; exact .fuel
  | succ fuel ih =>
    intro hi hi' h
    unfold skipLoop
    refine (peekSrc_rel hT).bind ?_
    rintro tok _ rfl
    split
    · refine (currentSpan_rel hT).bind ?_
      intro sp sp' hsp
      refine (consume_rel hT).bind ?_
      intro _ _ _
      exact ih hsp.span.hi
    · exact .pure ⟨h, rfl⟩

theorem loopSkip_rel (hT : Twins L L') (first : TSet n) (fuel : Nat) {errs errs' : List (Err n)}
    (he : SameErrs L L' errs errs') :
    MRel L L' (PairRel (SameErrs L L') Eq) (loopSkip View.ops first fuel errs) (loopSkip View.ops first fuel errs') := by
  unfold loopSkip
  refine (currentSpan_rel hT).bind ?_
  intro sp sp' hsp
  refine (consume_rel hT).bind ?_
  intro _ _ _
  refine (skipLoop_rel hT first fuel hsp.span.hi).bind ?_
  rintro ⟨hi, b⟩ ⟨hi', b'⟩ ⟨h1, h2⟩
  exact .pure ⟨he.append (one_err ⟨⟨hsp.span.lo, h1⟩, rfl⟩), h2⟩

theorem loopElem_rel (hT : Twins L L') {p p' : P (View n) n} (h : PRel L L' p p') {out out' : List (Tree n)}
    {errs errs' : List (Err n)} (ho : SameTrees L L' out out') (he : SameErrs L L' errs errs') :
    MRel L L' (PairRel Eq (PairRel (SameTrees L L') (SameErrs L L'))) (loopElem View.ops p out errs)
      (loopElem View.ops p' out' errs') := by
  unfold loopElem
  refine (currentSpan_rel hT).bind ?_
  intro b b' hb
  refine h.bind ?_
  intro r r' hr
  refine (currentSpan_rel hT).bind ?_
  intro sp sp' hsp
  have hi := hb.eq_iff hT hsp
  have hs := hsp.span
  by_cases hc : b.lo = sp.lo
  · rw [if_pos hc, if_pos (hi.1 hc)]
    cases hr with
    | success ht => exact .pure ⟨rfl, ho.snoc ht, he.append (one_err ⟨hs, rfl⟩)⟩
    | recovered ht e => exact .pure ⟨rfl, ho.snoc ht, (he.append e).append (one_err ⟨hs, rfl⟩)⟩
    | panic e => exact .pure ⟨rfl, ho, (he.append e).append (one_err ⟨hs, rfl⟩)⟩
  · rw [if_neg hc, if_neg (fun h => hc (hi.2 h))]
    cases hr with
    | success ht => exact .pure ⟨rfl, ho.snoc ht, he⟩
    | recovered ht e => exact .pure ⟨rfl, ho.snoc ht, he.append e⟩
    | panic e => exact .pure ⟨rfl, ho, he.append e⟩

theorem loopLoop_rel (hT : Twins L L') (first : TSet n) {p p' : P (View n) n} (h : PRel L L' p p') : ∀ (fuel : Nat)
    {out out' errs errs'}, SameTrees L L' out out' → SameErrs L L' errs errs' →
    MRel L L' (PairRel (SameTrees L L') (SameErrs L L')) (loopLoop View.ops first p fuel out errs)
      (loopLoop View.ops first p' fuel out' errs') := by
  intro fuel
  induction fuel with
  | zero => intros; exact .fuel
  | succ fuel ih =>
    intro out out' errs errs' ho he
    unfold loopLoop
    refine (peekSrc_rel hT).bind ?_
    rintro tok _ rfl
    split
    · exact .pure ⟨ho, he⟩
    · have hsk : MRel L L' (PairRel (SameErrs L L') Eq)
          (if (!first.contains tok) = true then loopSkip View.ops first fuel errs else pure (errs, true))
          (if (!first.contains tok) = true then loopSkip View.ops first fuel errs' else pure (errs', true)) := by
        split
        · exact loopSkip_rel hT first fuel he
        · exact .pure ⟨he, rfl⟩
      refine hsk.bind ?_
      rintro ⟨e, b⟩ ⟨e', b'⟩ ⟨h1, h2⟩
      cases h2
      dsimp only
      cases b with
      | false => exact .pure ⟨ho, h1⟩
      | true =>
        refine (loopElem_rel hT h ho h1).bind ?_
        rintro ⟨g, o, e⟩ ⟨g', o', e'⟩ ⟨h1, h2, h3⟩
        cases h1
        dsimp only
        cases g with
        | false => exact .pure ⟨h2, h3⟩
        | true => exact ih h2 h3

theorem loop_rel (hT : Twins L L') (first : TSet n) {p p' : P (View n) n} (h : PRel L L' p p') (fuel : Nat) :
    PRel L L' (produceLoop View.ops first p fuel) (produceLoop View.ops first p' fuel) := by
  unfold produceLoop
  refine (loopLoop_rel hT first h fuel .nil .nil).bind ?_
  rintro ⟨o, e⟩ ⟨o', e'⟩ ⟨h1, h2⟩
  dsimp only at h1 h2 ⊢
  cases h1 with
  | nil =>
    refine emptySpan_rel.bind ?_
    intro _ _ hs
    exact .pure (.ofPair (.list hs .nil) h2)
  | cons ht hl => exact .pure (.ofPair (.list ((SameTrees.cons ht hl).spanOf (by simp)) (.cons ht hl)) h2)

/-! ### Lists with separators -/

structure SameAcc (L L' : Layout n) (a b : Acc n) : Prop where
  elems : SameTrees L L' a.elems b.elems
  puncts : SameTrees L L' a.puncts b.puncts
  errs : SameErrs L L' a.errs b.errs

theorem splitTry_rel (hT : Twins L L') (ef : TSet n) {p p' : P (View n) n} (h : PRel L L' p p') {q q' : Tree n}
    (hq : SameTree L L' q q') {a a' : Acc n} (ha : SameAcc L L' a a') {e e' : Option (Err n)}
    (he : OptRel (SameErr L L') e e') :
    MRel L L' (ExRel (SameAcc L L') (PairRel Eq (OptRel (SameErr L L')))) (splitTry View.ops ef p q a e)
      (splitTry View.ops ef p' q' a' e') := by
  unfold splitTry
  refine (peekSrc_rel hT).bind ?_
  rintro tok _ rfl
  split
  · refine h.bind ?_
    intro r r' hr
    cases hr with
    | success ht => exact .pure (.error ⟨ha.elems.snoc ht, ha.puncts.snoc hq, ha.errs.append he.errs⟩)
    | recovered ht e =>
      exact .pure (.error ⟨ha.elems.snoc ht, ha.puncts.snoc hq, (ha.errs.append e).append he.errs⟩)
    | panic e =>
      refine (peekSrc_rel hT).bind ?_
      rintro tok _ rfl
      exact .pure (.ok ⟨rfl, mergePanic_rel he e⟩)
  · cases he with
    | none =>
      refine (expecting_rel hT _).bind ?_
      intro _ _ h
      exact .pure (.ok ⟨rfl, .some h⟩)
    | some h =>
      refine (extendPanic_rel hT h).bind ?_
      intro _ _ h
      exact .pure (.ok ⟨rfl, .some h⟩)

theorem SameAcc.add {a a' : Acc n} (ha : SameAcc L L' a a') {e e' : List (Err n)} (he : SameErrs L L' e e') :
    SameAcc L L' { a with errs := a.errs ++ e } { a' with errs := a'.errs ++ e' } :=
  ⟨ha.elems, ha.puncts, ha.errs.append he⟩

theorem SameAcc.addPunct {a a' : Acc n} (ha : SameAcc L L' a a') {q q' : Tree n} (hq : SameTree L L' q q') :
    SameAcc L L' { a with puncts := a.puncts ++ [q] } { a' with puncts := a'.puncts ++ [q'] } :=
  ⟨ha.elems, ha.puncts.snoc hq, ha.errs⟩

theorem splitInner_rel (hT : Twins L L') (ef pf fol : TSet n) {p p' : P (View n) n} (h : PRel L L' p p') {q q' : Tree n}
    (hq : SameTree L L' q q') : ∀ (fuel : Nat) {a a' : Acc n} {e e' : Option (Err n)}, SameAcc L L' a a' →
    OptRel (SameErr L L') e e' → MRel L L' (PairRel Eq (SameAcc L L')) (splitInner View.ops ef pf fol p q fuel a e)
      (splitInner View.ops ef pf fol p' q' fuel a' e') := by
  intro fuel
  induction fuel with
  | zero => intros; exact .fuel
  | succ fuel ih =>
    intro a a' e e' ha he
    unfold splitInner
    refine (splitTry_rel hT ef h hq ha he).bind ?_
    intro r r' hr
    cases hr with
    | error h => exact .pure ⟨rfl, h⟩
    | @ok x y h =>
      obtain ⟨tok, e⟩ := x
      obtain ⟨tok', e'⟩ := y
      obtain ⟨h1, h2⟩ := h
      cases h1
      dsimp only
      split
      · exact .pure ⟨rfl, ha.add h2.errs⟩
      · split
        · exact .pure ⟨rfl, ha.add h2.errs⟩
        · refine (consume_rel hT).bind ?_
          intro _ _ _
          exact ih ha h2

theorem splitOuter_rel (hT : Twins L L') (ef pf fol : TSet n) {p p' q q' : P (View n) n} (h : PRel L L' p p')
    (hq : PRel L L' q q') : ∀ (fuel : Nat) {a a' : Acc n}, SameAcc L L' a a' →
    MRel L L' (SameAcc L L') (splitOuter View.ops ef pf fol p q fuel a) (splitOuter View.ops ef pf fol p' q' fuel a') := by
  intro fuel
  induction fuel with
  | zero => intros; exact .fuel
  | succ fuel ih =>
    intro a a' ha
    unfold splitOuter
    refine (peekSrc_rel hT).bind ?_
    rintro tok _ rfl
    split
    · refine hq.bind ?_
      intro r r' hr
      cases hr with
      | panic e => exact .pure (ha.add e)
      | success ht =>
        refine (splitInner_rel hT ef pf fol h ht fuel ha .none).bind ?_
        rintro ⟨g, a⟩ ⟨g', a'⟩ ⟨h1, h2⟩
        cases h1
        dsimp only
        cases g with
        | true => exact ih h2
        | false => exact .pure h2
      | recovered ht e =>
        refine (splitInner_rel hT ef pf fol h ht fuel (ha.add e) .none).bind ?_
        rintro ⟨g, a⟩ ⟨g', a'⟩ ⟨h1, h2⟩
        cases h1
        dsimp only
        cases g with
        | true => exact ih h2
        | false => exact .pure h2
    · exact .pure ha

theorem splitDone_rel {lo lo' : Nat} (hl : SamePlace L L' lo lo') {a a' : Acc n} (ha : SameAcc L L' a a') :
    SameRes L L' (splitDone lo a) (splitDone lo' a') :=
  .ofPair (.split ⟨hl, ha.elems.lastHi hl⟩ ha.elems ha.puncts) ha.errs

theorem split_rel (hT : Twins L L') (ef pf fol : TSet n) {p p' q q' : P (View n) n} (h : PRel L L' p p')
    (hq : PRel L L' q q') (fuel : Nat) :
    PRel L L' (produceSplit View.ops ef pf fol p q fuel) (produceSplit View.ops ef pf fol p' q' fuel) := by
  unfold produceSplit
  refine h.bind ?_
  intro r r' hr
  cases hr with
  | panic e => exact .pure (.panic e)
  | success ht =>
    refine (splitOuter_rel hT ef pf fol h hq fuel ⟨.cons ht .nil, .nil, .nil⟩).bind ?_
    intro a a' ha
    exact .pure (splitDone_rel ht.span.lo ha)
  | recovered ht e =>
    refine (splitOuter_rel hT ef pf fol h hq fuel ⟨.cons ht .nil, .nil, e⟩).bind ?_
    intro a a' ha
    exact .pure (splitDone_rel ht.span.lo ha)

theorem punctTry_rel (hT : Twins L L') (ef fol : TSet n) {p p' : P (View n) n} (h : PRel L L' p p')
    {a a' : Acc n} (ha : SameAcc L L' a a') {e e' : Option (Err n)} (he : OptRel (SameErr L L') e e') :
    MRel L L' (ExRel (PairRel Eq (SameAcc L L')) (OptRel (SameErr L L'))) (punctTry View.ops ef fol p a e)
      (punctTry View.ops ef fol p' a' e') := by
  unfold punctTry
  refine (peekSrc_rel hT).bind ?_
  rintro tok _ rfl
  split
  · exact .pure (.error ⟨rfl, ha.add he.errs⟩)
  split
  · refine h.bind ?_
    intro r r' hr
    cases hr with
    | success ht => exact .pure (.error ⟨rfl, ha.elems.snoc ht, ha.puncts, ha.errs.append he.errs⟩)
    | recovered ht e =>
      exact .pure (.error ⟨rfl, ha.elems.snoc ht, ha.puncts, (ha.errs.append he.errs).append e⟩)
    | panic e => exact .pure (.ok (mergePanic_rel he e))
  split
  · exact .pure (.error ⟨rfl, ha.add he.errs⟩)
  · cases he with
    | none =>
      refine (currentSpan_rel hT).bind ?_
      intro _ _ h
      exact .pure (.ok (.some ⟨h.span, rfl⟩))
    | some h =>
      refine (extendPanic_rel hT h).bind ?_
      intro _ _ h
      exact .pure (.ok (.some h))

theorem punctInner_rel (hT : Twins L L') (ef pf fol : TSet n) {p p' : P (View n) n} (h : PRel L L' p p') :
    ∀ (fuel : Nat) {a a' : Acc n} {e e' : Option (Err n)}, SameAcc L L' a a' →
    OptRel (SameErr L L') e e' → MRel L L' (PairRel Eq (SameAcc L L')) (punctInner View.ops ef pf fol p fuel a e)
      (punctInner View.ops ef pf fol p' fuel a' e') := by
  intro fuel
  induction fuel with
  | zero => intros; exact .fuel
  | succ fuel ih =>
    intro a a' e e' ha he
    unfold punctInner
    refine (punctTry_rel hT ef fol h ha he).bind ?_
    intro r r' hr
    cases hr with
    | error h => exact .pure h
    | ok h2 =>
      dsimp only
      refine (peekSrc_rel hT).bind ?_
      rintro tok _ rfl
      split
      · exact .pure ⟨rfl, ha.add h2.errs⟩
      · split
        · exact .pure ⟨rfl, ha.add h2.errs⟩
        · refine (consume_rel hT).bind ?_
          intro _ _ _
          exact ih ha h2

theorem punctOuter_rel (hT : Twins L L') (ef pf fol : TSet n) {p p' q q' : P (View n) n} (h : PRel L L' p p')
    (hq : PRel L L' q q') : ∀ (fuel : Nat) {a a' : Acc n}, SameAcc L L' a a' →
    MRel L L' (SameAcc L L') (punctOuter View.ops ef pf fol p q fuel a) (punctOuter View.ops ef pf fol p' q' fuel a') := by
  intro fuel
  induction fuel with
  | zero => intros; exact .fuel
  | succ fuel ih =>
    intro a a' ha
    unfold punctOuter
    refine (peekSrc_rel hT).bind ?_
    rintro tok _ rfl
    split
    · refine hq.bind ?_
      intro r r' hr
      cases hr with
      | panic e => exact .pure (ha.add e)
      | success ht =>
        refine (punctInner_rel hT ef pf fol h fuel (ha.addPunct ht) .none).bind ?_
        rintro ⟨g, a⟩ ⟨g', a'⟩ ⟨h1, h2⟩
        cases h1
        dsimp only
        cases g with
        | true => exact ih h2
        | false => exact .pure h2
      | recovered ht e =>
        refine (punctInner_rel hT ef pf fol h fuel ((ha.addPunct ht).add e) .none).bind ?_
        rintro ⟨g, a⟩ ⟨g', a'⟩ ⟨h1, h2⟩
        cases h1
        dsimp only
        cases g with
        | true => exact ih h2
        | false => exact .pure h2
    · exact .pure ha

theorem punctDone_rel (hT : Twins L L') {lo lo' : Nat} (hl : SamePlace L L' lo lo') {a a' : Acc n}
    (ha : SameAcc L L' a a') : SameRes L L' (punctDone lo a) (punctDone lo' a') :=
  .ofPair (.split ⟨hl, (ha.elems.lastHi hl).max hT (ha.puncts.lastHi hl)⟩ ha.elems ha.puncts) ha.errs

theorem punct_rel (hT : Twins L L') (ef pf fol : TSet n) {p p' q q' : P (View n) n} (h : PRel L L' p p')
    (hq : PRel L L' q q') (fuel : Nat) :
    PRel L L' (producePunct View.ops ef pf fol p q fuel) (producePunct View.ops ef pf fol p' q' fuel) := by
  unfold producePunct
  refine h.bind ?_
  intro r r' hr
  cases hr with
  | panic e => exact .pure (.panic e)
  | success ht =>
    refine (punctOuter_rel hT ef pf fol h hq fuel ⟨.cons ht .nil, .nil, .nil⟩).bind ?_
    intro a a' ha
    exact .pure (punctDone_rel hT ht.span.lo ha)
  | recovered ht e =>
    refine (punctOuter_rel hT ef pf fol h hq fuel ⟨.cons ht .nil, .nil, e⟩).bind ?_
    intro a a' ha
    exact .pure (punctDone_rel hT ht.span.lo ha)

/-! ### `Recover` -/

structure SameHead (L L' : Layout n) (a b : RHead n) : Prop where
  errs : SameErrs L L' a.errs b.errs
  panic : OptRel (SameErr L L') a.panic b.panic
  span : SameSpan L L' a.span b.span
  head : OptRel (SameTree L L') a.head b.head

theorem recoverHead_rel (hT : Twins L L') (hf : TSet n) {p p' : P (View n) n} (h : PRel L L' p p') :
    MRel L L' (SameHead L L') (recoverHead View.ops hf p) (recoverHead View.ops hf p') := by
  unfold recoverHead
  refine (peekSrc_rel hT).bind ?_
  rintro tok _ rfl
  split
  · refine h.bind ?_
    intro r r' hr
    cases hr with
    | success ht => exact .pure ⟨.nil, .none, ht.span, .some ht⟩
    | recovered ht e => exact .pure ⟨e, .none, ht.span, .some ht⟩
    | panic e =>
      refine emptySpan_rel.bind ?_
      intro _ _ hs
      exact .pure ⟨.nil, e.last, hs, .none⟩
  · refine (expecting_rel hT _).bind ?_
    intro _ _ he
    refine emptySpan_rel.bind ?_
    intro _ _ hs
    exact .pure ⟨.nil, .some he, hs, .none⟩

theorem recoverSkip_rel (hT : Twins L L') (tf : TSet n) {e e' : Option (Err n)} (he : OptRel (SameErr L L') e e') :
    MRel L L' (OptRel (SameErr L L')) (recoverSkip View.ops tf e) (recoverSkip View.ops tf e') := by
  unfold recoverSkip
  cases he with
  | none =>
    refine (expecting_rel hT _).bind ?_
    intro _ _ h
    refine (consume_rel hT).bind ?_
    intro _ _ _
    exact .pure (.some h)
  | some h =>
    refine (extendPanic_rel hT h).bind ?_
    intro _ _ h
    refine (consume_rel hT).bind ?_
    intro _ _ _
    exact .pure (.some h)

theorem recoverLoop_rel (hT : Twins L L') (tf : TSet n) {p p' : P (View n) n} (h : PRel L L' p p') : ∀ (fuel : Nat)
    {errs errs' e e'}, SameErrs L L' errs errs' → OptRel (SameErr L L') e e' →
    MRel L L' (PairRel (OptRel (SameTree L L')) (PairRel (SameErrs L L') (OptRel (SameErr L L'))))
      (recoverLoop View.ops tf p fuel errs e) (recoverLoop View.ops tf p' fuel errs' e') := by
  intro fuel
  induction fuel with
  | zero => intros; exact .fuel
  | succ fuel ih =>
    intro errs errs' e e' h1 h2
    unfold recoverLoop
    refine (peekSrc_rel hT).bind ?_
    rintro tok _ rfl
    split
    · split
      · refine h.bind ?_
        intro r r' hr
        cases hr with
        | success ht => exact .pure ⟨.some ht, h1, h2⟩
        | recovered ht e => exact .pure ⟨.some ht, h1.append e, h2⟩
        | panic e => exact .pure ⟨.none, h1, mergePanic_rel h2 e⟩
      · exact .pure ⟨.none, h1, h2⟩
    · split
      · refine h.bind ?_
        intro r r' hr
        cases hr with
        | success ht => exact .pure ⟨.some ht, h1, h2⟩
        | recovered ht e => exact .pure ⟨.some ht, h1.append e, h2⟩
        | panic e =>
          refine (recoverSkip_rel hT tf (mergePanic_rel h2 e)).bind ?_
          intro _ _ h
          exact ih h1 h
      · refine (recoverSkip_rel hT tf h2).bind ?_
        intro _ _ h
        exact ih h1 h

theorem mkRecover_rel {h h' : RHead n} (hh : SameHead L L' h h') {t t' : Tree n} (ht : SameTree L L' t t') :
    SameTree L L' (mkRecover h t) (mkRecover h' t') := by
  unfold mkRecover
  have := hh.head
  generalize h.head = o at this
  generalize h'.head = o' at this
  cases this with
  | none => exact .recoverNone hh.span ht
  | some hx => exact .recover hh.span hx ht

theorem recover_rel (hT : Twins L L') (hf tf : TSet n) {p p' q q' : P (View n) n} (h : PRel L L' p p')
    (hq : PRel L L' q q') (fuel : Nat) :
    PRel L L' (produceRecover View.ops hf tf p q fuel) (produceRecover View.ops hf tf p' q' fuel) := by
  unfold produceRecover
  refine (recoverHead_rel hT hf h).bind ?_
  intro hd hd' hh
  refine (recoverLoop_rel hT tf hq fuel hh.errs hh.panic).bind ?_
  rintro ⟨t, e, p⟩ ⟨t', e', p'⟩ ⟨h1, h2, h3⟩
  dsimp only at h1 h2 h3 ⊢
  cases h1 with
  | none => exact .pure (.panic (h2.append h3.errs))
  | some ht => exact .pure (.ofPair (mkRecover_rel hh ht) (h2.append h3.errs))

/-! ### All types -/

theorem map_rel {α : Type} {f g : α → P (View n) n} (h : ∀ a, PRel L L' (f a) (g a)) (l : List (α × Option (LSet n))) :
    Pointwise (PairRel (PRel L L') Eq) (l.map fun x => (f x.1, x.2)) (l.map fun x => (g x.1, x.2)) := by
  induction l with
  | nil => exact .nil
  | cons x l ih => exact .cons ⟨h x.1, rfl⟩ ih

theorem step_rel (hT : Twins L L') (S : Schema m n) (md : Metadata (PId m n) n) (fuel : Nat)
    {rec rec' : Ty m n → P (View n) n} (h : ∀ t, PRel L L' (rec t) (rec' t)) (t : Ty m n) :
    PRel L L' (produceStep View.ops S md fuel rec t) (produceStep View.ops S md fuel rec' t) := by
  cases t with
  | term k t => exact term_rel hT _ _
  | user k =>
    cases hS : S k with
    | struct f fs =>
      simp only [produceStep, hS]
      exact struct_rel hT (by simp) (map_rel h _)
    | enum v vs =>
      simp only [produceStep, hS]
      exact enum_rel hT _ _ (map_rel h _)
  | box t => exact h t
  | option t => exact option_rel hT _ (h t) mkOption_rel
  | exist t => exact option_rel hT _ (h t) mkExists_rel
  | quote t => exact text_rel hT (h t)
  | parse t => exact text_rel hT (h t)
  | plus t => exact plus_rel hT _ (h t) _
  | star t => exact option_rel hT _ (plus_rel hT _ (h t) _) mkStar_rel
  | loop t => exact loop_rel hT _ (h t) _
  | split t p => exact split_rel hT _ _ _ (h t) (h p) _
  | punct t p => exact punct_rel hT _ _ _ (h t) (h p) _
  | recover t r => exact recover_rel hT _ _ (h t) (h r) _
  | tup2 a b => exact tuple_rel (by simp) (.cons (h a) (.cons (h b) .nil))
  | tup3 a b c => exact tuple_rel (by simp) (.cons (h a) (.cons (h b) (.cons (h c) .nil)))
  | tup4 a b c d => exact tuple_rel (by simp) (.cons (h a) (.cons (h b) (.cons (h c) (.cons (h d) .nil))))
  | tup5 a b c d e =>
    exact tuple_rel (by simp) (.cons (h a) (.cons (h b) (.cons (h c) (.cons (h d) (.cons (h e) .nil)))))

theorem produce_rel (hT : Twins L L') (S : Schema m n) (md : Metadata (PId m n) n) : ∀ (fuel : Nat) (t : Ty m n),
    PRel L L' (produce View.ops S md fuel t) (produce View.ops S md fuel t) := by
  intro fuel
  induction fuel with
  | zero => intro t; exact .fuel
  | succ fuel ih => intro t; exact step_rel hT S md fuel ih t

end Teleparse
