import Verif.Proof.Calls
/-
Property theorems about parsing a file piece by piece.
-/
namespace Teleparse
variable {m n : Nat}

/-! ## C97: one call after the other -/

section
variable {ext : Fin n → Bool} {S : Schema m n} {fuel : Nat} {t : Ty m n} {md : Metadata (PId m n) n}
  {G : Grammar (PId m n) n} {source : Str} {items : List (Item n)} {p p1 p2 : Parser n} {xs : List (Tree n)}

/-- A call that returns a tree without an error, while tokens are left, read at least one token, and the first of them
is in FIRST, unless the type can be empty. -/
theorem C97_starts (hG : S.IsGrammar t G) (hw : ItemsWF source items) (hp : Reached ext source items p) (f : Nat)
    (x : Tree n) (h : p.parse ext S f t = .ok (.ok (some x)) p1)
    (he : syntaxErrors p1.info.errors = syntaxErrors p.info.errors) (w : TokenSrc n) (hl : p.lookahead ext = some w)
    (hn : ¬ Nullable G t.pid) : FirstOf G t.pid w ∧ p.info.tokens.length < p1.info.tokens.length := by
  obtain ⟨e1, s1, md, r1, q1, m1, y1, rfl, k1, g1⟩ := parse_clean h
  have hc : r1.errs = [] := by
    rw [he] at s1
    exact List.append_cancel_left (s1.symm.trans (List.append_nil _).symm)
  cases k1 hc
  obtain ⟨e, hg⟩ := (g1 x).1 rfl
  have hs : r1.tree?.isSome = true := by cases hg <;> rfl
  obtain ⟨⟨tok, h1, h2⟩, h3⟩ := Calls.begins (Calls.tabs m1 hG) .refl (fun h => hn (nullable_iff.2 h)) hw hp y1
    (by rw [hl]; simp) hc hs
  rw [hp.look hw, hl] at h1
  cases h1
  refine ⟨firstOf_iff.2 h2, ?_⟩
  obtain ⟨ts, g2, g3⟩ := (produce_adv y1).cons
  have g3 := congrArg List.length g3
  unfold View.len at h3
  rw [g2] at h3
  simp only [List.length_append, List.length_map] at g3 h3
  have e1 : (p1.view ext).cells = p1.info.tokens := rfl
  have e2 : (p.view ext).cells = p.info.tokens := rfl
  rw [e1, e2] at g3
  omega

/-- Calls of `parser.parse::<T>()` one after the other, each made while tokens are left, without a syntax error, and up
to a token that cannot begin `T`, give what one call of `parser.parse::<Plus<T>>()` gives: a list of the same trees, and
the same parser, apart from looking at the next token. -/
theorem C97_plus (hmd : S.metadata fuel (.plus t) = some (.ok md)) (hG : S.IsGrammar (.plus t) G)
    (hw : ItemsWF source items) (hp : Reached ext source items p) (h : Calls ext S t p xs p2) (hx : xs ≠ [])
    (he : syntaxErrors p2.info.errors = syntaxErrors p.info.errors)
    (hstop : ∀ w, p2.lookahead ext = some w → ¬ FirstOf G t.pid w) :
    ∃ N, ∀ f ≥ N, p.parse ext S f (.plus t) = .ok (.ok (some (.list (spanOf xs) xs))) (p2.peek ext).2 := by
  have E := Calls.tabs hmd hG
  have hr : PReach S (.plus t) (.plus t.prod) := .refl
  have hn := Calls.not_null hmd hG hr
  obtain ⟨N, hc⟩ := Calls.clean hmd (.step .refl (by simp [Schema.tyParts])) h he
  refine ⟨_, fun f hf => Calls.parse_of (r := .success (.list (spanOf xs) xs)) (N := max N xs.length + 1) hmd rfl ?_ hf⟩
  intro f hf
  obtain ⟨f, rfl⟩ : ∃ i, f = i + 1 := ⟨f - 1, by omega⟩
  exact hc.plus E hr hn hw hx hp ((Calls.stop_iff E hr hn).2 hstop) (by omega) (by omega)

/-- The same for `Star<T>`, also if no call is made. -/
theorem C97_star (hmd : S.metadata fuel (.star t) = some (.ok md)) (hG : S.IsGrammar (.star t) G)
    (hw : ItemsWF source items) (hp : Reached ext source items p) (h : Calls ext S t p xs p2)
    (he : syntaxErrors p2.info.errors = syntaxErrors p.info.errors)
    (hstop : ∀ w, p2.lookahead ext = some w → ¬ FirstOf G t.pid w) :
    ∃ N, ∀ f ≥ N, p.parse ext S f (.star t) =
      .ok (.ok (some (.list (if xs = [] then p.emptySpan else spanOf xs) xs))) (p2.peek ext).2 := by
  have E := Calls.tabs hmd hG
  have hr : PReach S (.star t) (.plus t.prod) :=
    PReach.part (i := .opt (.plus t.prod)) .refl (by simp [Schema.rule, Rule.parts, PId.id])
  have hn := Calls.not_null hmd hG hr
  obtain ⟨N, hc⟩ := Calls.clean hmd (.step (.step .refl (show .plus t ∈ _ by simp [Schema.tyParts]))
    (by simp [Schema.tyParts])) h he
  have hst := (Calls.stop_iff E hr hn).2 hstop
  refine ⟨_, fun f hf => Calls.parse_of (r := .success (.list (if xs = [] then p.emptySpan else spanOf xs) xs))
    (N := max N xs.length + 1) hmd rfl ?_ hf⟩
  intro f hf
  obtain ⟨f, rfl⟩ : ∃ i, f = i + 1 := ⟨f - 1, by omega⟩
  refine bind_ok.2 ⟨_, _, hp.peekSrc hw, ?_⟩
  cases hc with
  | stop =>
    unfold Parser.canStart at hst
    rw [if_neg (by rw [show md.first.get (Ty.plus t).pid = md.first.get (.plus t.prod) from rfl, hst]; simp)]
    refine bind_ok.2 ⟨p.emptySpan, _, ?_, rfl⟩
    rw [← emptySpan_view (peek_view ext p)]
    rfl
  | @call _ p1 _ r x xs hl hg h1 h2 =>
    have hb := (Calls.begins E (hr.seq (rule_plus _) (by simp [Ty.pid])) hn hw hp (h1 N (Nat.le_refl _)) hl
      (Calls.Gives.clean hg).1 (Calls.Gives.clean hg).2).1
    have hcan : p.canStart ext (md.first.get (Ty.plus t).pid) = true :=
      Calls.canStart hw hp E (hb.imp fun tok hf => E.plus_some hr hf)
    unfold Parser.canStart at hcan
    rw [if_pos hcan]
    refine bind_ok.2 ⟨.success (.list (spanOf (x :: xs)) (x :: xs)), (p2.peek ext).2, ?_, rfl⟩
    have := (Calls.Clean.call hl hg h1 h2).plus E hr hn hw (by simp) hp hst (f := f) (k := f) (by omega) (by omega)
    have hpk : producePlus (Parser.ops ext) (md.first.get (Ty.plus t).pid) (produce (Parser.ops ext) S md f t) f
        (p.peek ext).2 = _ := Peeky.bind (Peeky.produce (Calls.peek_peek hp) S md f t) _
    exact hpk.trans this

/-- The same for `Loop<T>`, if the calls read the whole input. -/
theorem C97_loop (hmd : S.metadata fuel (.loop t) = some (.ok md))
    (hw : ItemsWF source items) (hp : Reached ext source items p) (h : Calls ext S t p xs p2)
    (he : syntaxErrors p2.info.errors = syntaxErrors p.info.errors) (hend : p2.lookahead ext = none) :
    ∃ N, ∀ f ≥ N, p.parse ext S f (.loop t) =
      .ok (.ok (some (.list (if xs = [] then p.emptySpan else spanOf xs) xs))) (p2.peek ext).2 := by
  obtain ⟨G, hG, -⟩ := metadata_build hmd
  have E := Calls.tabs hmd hG
  have hr : PReach S (.loop t) (.plus t.prod) := .refl
  have hn := Calls.not_null hmd hG hr
  obtain ⟨N, hc⟩ := Calls.clean hmd (.step .refl (by simp [Schema.tyParts])) h he
  refine ⟨_, fun f hf => Calls.parse_of (r := .success (.list (if xs = [] then p.emptySpan else spanOf xs) xs))
    (N := max N xs.length + 2) hmd rfl ?_ hf⟩
  intro f hf
  obtain ⟨f, rfl⟩ : ∃ i, f = i + 1 := ⟨f - 1, by omega⟩
  refine bind_ok.2 ⟨_, _, hc.loop E hr hn hw (f := f) (by omega) hp hend f (by omega) [], ?_⟩
  cases hc with
  | stop =>
    refine bind_ok.2 ⟨p.emptySpan, _, ?_, rfl⟩
    rw [← emptySpan_view (peek_view ext p)]
    rfl
  | call => rfl

/-- The other way round: the elements of a `Plus<T>` that is produced without an error are what calls of
`parser.parse::<T>()` return, one after the other, and the calls end where the repetition does: before a token that
cannot begin `T`, or where one more call returns nothing, and reports nothing. If separated lists in `T` are not followed
by more in the repetition than alone (see `C78_false_punct`). -/
theorem C97_plus_back_partial (hmd : S.metadata fuel (.plus t) = some (.ok md)) (hG : S.IsGrammar (.plus t) G)
    {md' : Metadata (PId m n) n} {fuel' : Nat} (hmd' : S.metadata fuel' t = some (.ok md'))
    (hpunct : ∀ a b, Reach S.tyParts t (.punct a b) → ∀ tok,
      (md.follow.get (Ty.punct a b).pid).contains (some tok) = true →
        (md'.follow.get (Ty.punct a b).pid).contains (some tok) = true)
    (hw : ItemsWF source items) (hp : Reached ext source items p) (f : Nat) (x : Tree n)
    (h : p.parse ext S f (.plus t) = .ok (.ok (some x)) p1)
    (he : syntaxErrors p1.info.errors = syntaxErrors p.info.errors) (hl : p.lookahead ext ≠ none) :
    ∃ xs p2, x = .list (spanOf xs) xs ∧ xs ≠ [] ∧ Calls ext S t p xs p2 ∧
      syntaxErrors p2.info.errors = syntaxErrors p.info.errors ∧
      (((∀ w, p2.lookahead ext = some w → ¬ FirstOf G t.pid w) ∧ p1 = (p2.peek ext).2) ∨
        ∃ f', p2.parse ext S f' t = .ok (.ok none) p1) := by
  have E := Calls.tabs hmd hG
  have hr : PReach S (.plus t) (.plus t.prod) := .refl
  have hn := Calls.not_null hmd hG hr
  obtain ⟨e1, s1, md1, r1, q1, m1, y1, rfl, k1, g1⟩ := parse_clean h
  have hc : r1.errs = [] := by
    rw [he] at s1
    exact List.append_cancel_left (s1.symm.trans (List.append_nil _).symm)
  cases k1 hc
  cases (metadata_more hmd (Nat.le_max_left fuel f)).symm.trans (metadata_more m1 (Nat.le_max_right fuel f))
  have hx : r1.tree? = some x := by
    obtain ⟨e, hg⟩ := (g1 x).1 rfl
    cases hg <;> rfl
  cases f with
  | zero => exact nomatch y1
  | succ f =>
    obtain ⟨xs, p2, g1, g2, g3, g4, g5⟩ := Calls.plus_back
      (fun p p' r hr hy => C78_alone_partial ext S fuel fuel' (.plus t) t md md' hmd
        (.step .refl (by simp [Schema.tyParts])) hmd' hpunct p p' r hr hy) hmd' hw hp
      (show producePlus _ _ _ _ p = _ from y1) hc hl hx
    refine ⟨xs, p2, g1, g2, g3, g4, ?_⟩
    rcases g5 with ⟨h1, h2⟩ | ⟨_, f', h2, _⟩
    · exact .inl ⟨(Calls.stop_iff E hr hn).1 h1, h2⟩
    · exact .inr ⟨f', h2⟩

/-- The same for `Star<T>`. -/
theorem C97_star_back_partial (hmd : S.metadata fuel (.star t) = some (.ok md)) (hG : S.IsGrammar (.star t) G)
    {md' : Metadata (PId m n) n} {fuel' : Nat} (hmd' : S.metadata fuel' t = some (.ok md'))
    (hpunct : ∀ a b, Reach S.tyParts t (.punct a b) → ∀ tok,
      (md.follow.get (Ty.punct a b).pid).contains (some tok) = true →
        (md'.follow.get (Ty.punct a b).pid).contains (some tok) = true)
    (hw : ItemsWF source items) (hp : Reached ext source items p) (f : Nat) (x : Tree n)
    (h : p.parse ext S f (.star t) = .ok (.ok (some x)) p1)
    (he : syntaxErrors p1.info.errors = syntaxErrors p.info.errors) :
    ∃ sp xs p2, x = .list sp xs ∧ (xs ≠ [] → sp = spanOf xs) ∧ Calls ext S t p xs p2 ∧
      syntaxErrors p2.info.errors = syntaxErrors p.info.errors ∧
      (((∀ w, p2.lookahead ext = some w → ¬ FirstOf G t.pid w) ∧ p1 = (p2.peek ext).2) ∨
        ∃ f', p2.parse ext S f' t = .ok (.ok none) p1) := by
  have E := Calls.tabs hmd hG
  have hr : PReach S (.star t) (.plus t.prod) :=
    PReach.part (i := .opt (.plus t.prod)) .refl (by simp [Schema.rule, Rule.parts, PId.id])
  have hn := Calls.not_null hmd hG hr
  obtain ⟨e1, s1, md1, r1, q1, m1, y1, rfl, k1, g1⟩ := parse_clean h
  have hc : r1.errs = [] := by
    rw [he] at s1
    exact List.append_cancel_left (s1.symm.trans (List.append_nil _).symm)
  cases k1 hc
  cases (metadata_more hmd (Nat.le_max_left fuel f)).symm.trans (metadata_more m1 (Nat.le_max_right fuel f))
  have hx : r1.tree? = some x := by
    obtain ⟨e, hg⟩ := (g1 x).1 rfl
    cases hg <;> rfl
  have ha : Calls.Alone ext S md md' t := fun p p' r hr hy => C78_alone_partial ext S fuel fuel' (.star t) t md md' hmd
    (.step (.step .refl (show .plus t ∈ _ by simp [Schema.tyParts])) (by simp [Schema.tyParts])) hmd' hpunct p p' r hr hy
  cases f with
  | zero => exact nomatch y1
  | succ f =>
    obtain ⟨tok, s2, h1, y2⟩ := bind_ok.1 (show produceOption _ _ _ _ p = _ from y1)
    cases (hp.peekSrc hw).symm.trans h1
    by_cases hcs : p.canStart ext (md.first.get (Ty.plus t).pid) = true
    · have hc' := hcs
      unfold Parser.canStart at hc'
      rw [if_pos hc'] at y2
      have hl : p.lookahead ext ≠ none := by
        intro hn
        rw [hn] at hc'
        exact nomatch hc'
      obtain ⟨r2, q2, h2, y2⟩ := bind_ok.1 y2
      have hpk : producePlus (Parser.ops ext) (md.first.get (Ty.plus t).pid) (produce (Parser.ops ext) S md f t) f
          (p.peek ext).2 = _ := Peeky.bind (Peeky.produce (Calls.peek_peek hp) S md f t) _
      have h2 := hpk.symm.trans h2
      have some_case : ∀ y, r2.errs = [] → r2.tree? = some y → x = mkStar y.span (some y) → q2 = p1 →
          ∃ sp xs p2, x = .list sp xs ∧ (xs ≠ [] → sp = spanOf xs) ∧ Calls ext S t p xs p2 ∧
            syntaxErrors p2.info.errors = syntaxErrors p.info.errors ∧
            (((∀ w, p2.lookahead ext = some w → ¬ FirstOf G t.pid w) ∧ p1 = (p2.peek ext).2) ∨
              ∃ f', p2.parse ext S f' t = .ok (.ok none) p1) := by
        intro y hy1 hy2 hxy hq
        subst hq
        obtain ⟨xs, p2, g1, g2, g3, g4, g5⟩ := Calls.plus_back ha hmd' hw hp h2 hy1 hl hy2
        subst g1
        refine ⟨_, xs, p2, hxy, fun _ => rfl, g3, g4, ?_⟩
        rcases g5 with ⟨h1, h2⟩ | ⟨_, f', h2, _⟩
        · exact .inl ⟨(Calls.stop_iff E hr hn).1 h1, h2⟩
        · exact .inr ⟨f', h2⟩
      cases r2 with
      | success y =>
        obtain ⟨rfl, rfl⟩ := pure_ok.1 y2
        cases hx
        exact some_case y rfl rfl rfl rfl
      | recovered y d =>
        obtain ⟨rfl, rfl⟩ := pure_ok.1 y2
        have hd : d = [] := hc
        subst hd
        cases hx
        exact some_case y rfl rfl rfl rfl
      | panic d =>
        obtain ⟨sp, s3, h3, y2⟩ := bind_ok.1 y2
        obtain ⟨rfl, rfl⟩ := pure_ok.1 y2
        have hd : d = [] := hc
        subst hd
        cases hx
        cases h3
        obtain ⟨r3, q3, h4, h5⟩ := bind_ok.1 h2
        have hpan : r3 = .panic [] ∧ q3 = q2 := by
          cases r3 with
          | success z =>
            obtain ⟨⟨l, e, hi⟩, q4, h6, h5⟩ := bind_ok.1 h5
            have := (pure_ok.1 h5).1
            cases e <;> cases this
          | recovered z d =>
            obtain ⟨⟨l, e, hi⟩, q4, h6, h5⟩ := bind_ok.1 h5
            have := (pure_ok.1 h5).1
            cases e <;> cases this
          | panic d =>
            obtain ⟨h6, rfl⟩ := pure_ok.1 h5
            exact ⟨h6, rfl⟩
        obtain ⟨rfl, rfl⟩ := hpan
        obtain ⟨f', c1, c2⟩ := Calls.one ha hmd' h4 rfl
        exact ⟨_, [], p, rfl, by simp, .stop _, rfl, .inr ⟨f', c1⟩⟩
    · have hc' := hcs
      unfold Parser.canStart at hc'
      rw [if_neg hc'] at y2
      obtain ⟨sp, s3, h3, y2⟩ := bind_ok.1 y2
      obtain ⟨rfl, rfl⟩ := pure_ok.1 y2
      cases hx
      cases h3
      exact ⟨_, [], p, rfl, by simp, .stop _, rfl, .inl ⟨(Calls.stop_iff E hr hn).1 (Bool.not_eq_true _ ▸ hcs), rfl⟩⟩

/-- The same for `Loop<T>`: the calls end at the end of input. -/
theorem C97_loop_back_partial (hmd : S.metadata fuel (.loop t) = some (.ok md))
    {md' : Metadata (PId m n) n} {fuel' : Nat} (hmd' : S.metadata fuel' t = some (.ok md'))
    (hpunct : ∀ a b, Reach S.tyParts t (.punct a b) → ∀ tok,
      (md.follow.get (Ty.punct a b).pid).contains (some tok) = true →
        (md'.follow.get (Ty.punct a b).pid).contains (some tok) = true)
    (hw : ItemsWF source items) (hp : Reached ext source items p) (f : Nat) (x : Tree n)
    (h : p.parse ext S f (.loop t) = .ok (.ok (some x)) p1)
    (he : syntaxErrors p1.info.errors = syntaxErrors p.info.errors) :
    ∃ sp xs p2, x = .list sp xs ∧ (xs ≠ [] → sp = spanOf xs) ∧ Calls ext S t p xs p2 ∧
      syntaxErrors p2.info.errors = syntaxErrors p.info.errors ∧ p1.lookahead ext = none ∧
      (p1 = (p2.peek ext).2 ∨ p2.lookahead ext ≠ none ∧
        ∃ f' q, p2.parse ext S f' t = .ok (.ok none) q ∧ p1 = (q.peek ext).2) := by
  obtain ⟨e1, s1, md1, r1, q1, m1, y1, rfl, k1, g1⟩ := parse_clean h
  have hc : r1.errs = [] := by
    rw [he] at s1
    exact List.append_cancel_left (s1.symm.trans (List.append_nil _).symm)
  cases k1 hc
  cases (metadata_more hmd (Nat.le_max_left fuel f)).symm.trans (metadata_more m1 (Nat.le_max_right fuel f))
  have hx : r1.tree? = some x := by
    obtain ⟨e, hg⟩ := (g1 x).1 rfl
    cases hg <;> rfl
  have ha : Calls.Alone ext S md md' t := fun p p' r hr hy => C78_alone_partial ext S fuel fuel' (.loop t) t md md' hmd
    (.step .refl (by simp [Schema.tyParts])) hmd' hpunct p p' r hr hy
  cases f with
  | zero => exact nomatch y1
  | succ f =>
    obtain ⟨⟨out, errs⟩, s2, h2, y2⟩ := bind_ok.1 (show produceLoop _ _ _ _ p = _ from y1)
    dsimp only at y2
    have fin : ∀ sp, r1 = Res.ofPair (.list sp out) errs → (out ≠ [] → sp = spanOf out) → s2 = p1 →
        ∃ sp xs p2, x = .list sp xs ∧ (xs ≠ [] → sp = spanOf xs) ∧ Calls ext S t p xs p2 ∧
          syntaxErrors p2.info.errors = syntaxErrors p.info.errors ∧ p1.lookahead ext = none ∧
          (p1 = (p2.peek ext).2 ∨ p2.lookahead ext ≠ none ∧
            ∃ f' q, p2.parse ext S f' t = .ok (.ok none) q ∧ p1 = (q.peek ext).2) := by
      intro sp hr hsp hs
      subst hs
      subst hr
      rw [Calls.ofPair_errs] at hc
      subst hc
      obtain ⟨xs, p2, g1, g2, g3, g4, g5⟩ := Calls.loop_back ha hmd' hw f hp h2
      rw [List.nil_append] at g1
      subst g1
      cases hx
      exact ⟨sp, out, p2, rfl, hsp, g2, g3, g4, g5⟩
    split at y2
    · rename_i hemp
      obtain ⟨sp, s3, h3, y2⟩ := bind_ok.1 y2
      obtain ⟨rfl, rfl⟩ := pure_ok.1 y2
      cases h3
      exact fin _ rfl (fun h => absurd (List.isEmpty_iff.1 hemp) h) rfl
    · obtain ⟨rfl, rfl⟩ := pure_ok.1 y2
      exact fin _ rfl (fun _ => rfl) rfl

end

/-! ### Examples -/

/-- Words one by one up to a number: `a b 1`. -/
def clSource : Str := [97, 32, 98, 32, 49]
def clItems : List (Item 3) := [.token ⟨⟨0, 1⟩, 0⟩, .token ⟨⟨2, 3⟩, 0⟩, .token ⟨⟨4, 5⟩, 1⟩]
def clP : Parser 3 := Parser.new clSource clItems
def clT : Ty 0 3 := .tup2 exWord (.option exNum)
def clMd : Metadata (PId 0 3) 3 := okOf ⟨[], [], []⟩ (exS.metadata 30 (.plus exWord))
def clG : Grammar (PId 0 3) 3 := ((registerFrom exS.rule 30 (Ty.plus exWord).pid).getD [])
theorem clG_ok : exS.IsGrammar (.plus exWord) clG := .of_register (fuel := 30) (by rfl)
theorem clMd_ok : exS.metadata 30 (.plus exWord) = some (.ok clMd) := by rfl
theorem cl_wf : ItemsWF clSource clItems := by unfold ItemsWF clItems clSource; decide
theorem cl_calls : ∃ x y p1 p2, clP.parse noExt exS 30 exWord = .ok (.ok (some x)) p1 ∧ clP.lookahead noExt ≠ none ∧
    p1.parse noExt exS 30 exWord = .ok (.ok (some y)) p2 ∧ p1.lookahead noExt ≠ none ∧
    syntaxErrors p1.info.errors = [] ∧ syntaxErrors p2.info.errors = [] ∧ p2.lookahead noExt = some ⟨1, [49]⟩ ∧
    clP.lookahead noExt = some ⟨0, [97]⟩ ∧ spanOf [x, y] = ⟨0, 3⟩ :=
  ⟨_, _, _, _, by rfl, by decide, by rfl, by decide, by rfl, by rfl, by rfl, by rfl, by rfl⟩

def clW : Grammar (PId 0 3) 3 := ((registerFrom exS.rule 30 exWord.pid).getD [])
theorem clW_ok : exS.IsGrammar exWord clW := .of_register (fuel := 30) (by rfl)
def clMdW : Metadata (PId 0 3) 3 := okOf ⟨[], [], []⟩ (exS.metadata 30 exWord)
theorem clMdW_ok : exS.metadata 30 exWord = some (.ok clMdW) := by rfl

example : ∃ x p1, clP.parse noExt exS 30 exWord = .ok (.ok (some x)) p1 ∧ FirstOf clW exWord.pid ⟨0, [97]⟩ ∧
    clP.info.tokens.length < p1.info.tokens.length := by
  obtain ⟨x, y, p1, p2, h1, l1, h2, l2, e1, e2, h3, h4, h5⟩ := cl_calls
  refine ⟨x, p1, h1, C97_starts clW_ok cl_wf .new 30 x h1 (by rw [e1]; rfl) _ h4 (fun h => ?_)⟩
  have := (metadata_first clMdW_ok clW_ok _ none).2 h
  revert this
  decide

/-- Two calls read `a b`, and `Plus` reads the same. -/
example : ∃ xs p2 N, xs.length = 2 ∧ Calls noExt exS exWord clP xs p2 ∧ ∀ f ≥ N,
    clP.parse noExt exS f (.plus exWord) = .ok (.ok (some (.list ⟨0, 3⟩ xs))) (p2.peek noExt).2 := by
  obtain ⟨x, y, p1, p2, h1, l1, h2, l2, e1, e2, h3, h4, h5⟩ := cl_calls
  have hc : Calls noExt exS exWord clP [x, y] p2 := .call l1 h1 (.call l2 h2 (.stop _))
  obtain ⟨N, hN⟩ := C97_plus clMd_ok clG_ok cl_wf .new hc (by simp) (by rw [e2]; rfl) (by
    intro w hw hf
    rw [h3] at hw
    cases hw
    have := (metadata_first clMd_ok clG_ok _ (some _)).2 hf
    revert this
    decide)
  rw [h5] at hN
  exact ⟨_, p2, N, rfl, hc, hN⟩

/-- No call before a number, and `Star` is empty. -/
def clQ : Parser 3 := Parser.new [49] [.token ⟨⟨0, 1⟩, 1⟩]
def clS : Grammar (PId 0 3) 3 := ((registerFrom exS.rule 30 (Ty.star exWord).pid).getD [])
theorem clS_ok : exS.IsGrammar (.star exWord) clS := .of_register (fuel := 30) (by rfl)
def clMdS : Metadata (PId 0 3) 3 := okOf ⟨[], [], []⟩ (exS.metadata 30 (.star exWord))
theorem clMdS_ok : exS.metadata 30 (.star exWord) = some (.ok clMdS) := by rfl
theorem cl_stopS (w : TokenSrc 3) (hw : some w = some ⟨1, [49]⟩) : ¬ FirstOf clS exWord.pid w := by
  intro hf
  cases hw
  have := (metadata_first clMdS_ok clS_ok _ (some _)).2 hf
  revert this
  decide

example : ∃ N, ∀ f ≥ N, clQ.parse noExt exS f (.star exWord) = .ok (.ok (some (.list clQ.emptySpan []))) (clQ.peek noExt).2 := by
  obtain ⟨N, hN⟩ := C97_star (ext := noExt) clMdS_ok clS_ok (source := [49]) (items := [.token ⟨⟨0, 1⟩, 1⟩])
    (by unfold ItemsWF; decide) .new (Calls.stop clQ) rfl (fun w h => cl_stopS w (h.symm.trans (by rfl)))
  exact ⟨N, hN⟩
/-- Two calls before the number. -/
example : ∃ xs p2 N, xs.length = 2 ∧ Calls noExt exS exWord clP xs p2 ∧ ∀ f ≥ N,
    clP.parse noExt exS f (.star exWord) = .ok (.ok (some (.list ⟨0, 3⟩ xs))) (p2.peek noExt).2 := by
  obtain ⟨x, y, p1, p2, h1, l1, h2, l2, e1, e2, h3, h4, h5⟩ := cl_calls
  have hc : Calls noExt exS exWord clP [x, y] p2 := .call l1 h1 (.call l2 h2 (.stop _))
  obtain ⟨N, hN⟩ := C97_star clMdS_ok clS_ok cl_wf .new hc (by rw [e2]; rfl)
    (fun w h => cl_stopS w (h.symm.trans h3))
  rw [if_neg (by simp), h5] at hN
  exact ⟨_, p2, N, rfl, hc, hN⟩

/-- `Loop<(word, num?)>` on `a b 1` and two calls. -/
def clMdL : Metadata (PId 0 3) 3 := okOf ⟨[], [], []⟩ (exS.metadata 30 (.loop clT))
theorem clMdL_ok : exS.metadata 30 (.loop clT) = some (.ok clMdL) := by rfl
example : ∃ xs p2 N, xs.length = 2 ∧ Calls noExt exS clT clP xs p2 ∧ ∀ f ≥ N,
    clP.parse noExt exS f (.loop clT) = .ok (.ok (some (.list ⟨0, 5⟩ xs))) (p2.peek noExt).2 := by
  have h : ∃ x y p1 p2, clP.parse noExt exS 30 clT = .ok (.ok (some x)) p1 ∧ clP.lookahead noExt ≠ none ∧
      p1.parse noExt exS 30 clT = .ok (.ok (some y)) p2 ∧ p1.lookahead noExt ≠ none ∧
      syntaxErrors p2.info.errors = [] ∧ p2.lookahead noExt = none ∧ spanOf [x, y] = ⟨0, 5⟩ :=
    ⟨_, _, _, _, by rfl, by decide, by rfl, by decide, by rfl, by rfl, by rfl⟩
  obtain ⟨x, y, p1, p2, h1, l1, h2, l2, e2, h3, h5⟩ := h
  have hc : Calls noExt exS clT clP [x, y] p2 := .call l1 h1 (.call l2 h2 (.stop _))
  obtain ⟨N, hN⟩ := C97_loop clMdL_ok cl_wf .new hc (by rw [e2]; rfl) h3
  rw [if_neg (by simp), h5] at hN
  exact ⟨_, p2, N, rfl, hc, hN⟩

/-- Back from the lists to the calls. -/
theorem cl_noPunct (a b : Ty 0 3) (h : Reach exS.tyParts exWord (.punct a b)) : False := by
  have := reach_of_check [exWord] (by decide) (by decide +kernel) h
  simp [exWord] at this

example : ∃ xs p2 p1, Calls noExt exS exWord clP xs p2 ∧ xs ≠ [] ∧
    clP.parse noExt exS 30 (.plus exWord) = .ok (.ok (some (.list (spanOf xs) xs))) p1 := by
  have h : ∃ x p1, clP.parse noExt exS 30 (.plus exWord) = .ok (.ok (some x)) p1 ∧ syntaxErrors p1.info.errors = [] :=
    ⟨_, _, by rfl, by rfl⟩
  obtain ⟨x, p1, h1, h2⟩ := h
  obtain ⟨xs, p2, rfl, g1, g2, -⟩ := C97_plus_back_partial clMd_ok clG_ok clMdW_ok
    (fun a b hr => (cl_noPunct a b hr).elim) cl_wf .new 30 x h1 (by rw [h2]; rfl) (by decide)
  exact ⟨xs, p2, p1, g2, g1, h1⟩
example : ∃ sp xs p2 p1, Calls noExt exS exWord clP xs p2 ∧
    clP.parse noExt exS 30 (.star exWord) = .ok (.ok (some (.list sp xs))) p1 := by
  have h : ∃ x p1, clP.parse noExt exS 30 (.star exWord) = .ok (.ok (some x)) p1 ∧ syntaxErrors p1.info.errors = [] :=
    ⟨_, _, by rfl, by rfl⟩
  obtain ⟨x, p1, h1, h2⟩ := h
  obtain ⟨sp, xs, p2, rfl, g1, g2, -⟩ := C97_star_back_partial clMdS_ok clS_ok clMdW_ok
    (fun a b hr => (cl_noPunct a b hr).elim) cl_wf .new 30 x h1 (by rw [h2]; rfl)
  exact ⟨sp, xs, p2, p1, g2, h1⟩

example : ∃ sp xs p2 p1, Calls noExt exS exWord (Parser.new [97] [.token ⟨⟨0, 1⟩, 0⟩]) xs p2 ∧
    (Parser.new [97] [.token ⟨⟨0, 1⟩, 0⟩]).parse noExt exS 30 (.loop exWord) = .ok (.ok (some (.list sp xs))) p1 := by
  have h : ∃ x p1, (Parser.new [97] [.token ⟨⟨0, 1⟩, 0⟩]).parse noExt exS 30 (.loop exWord) = .ok (.ok (some x)) p1 ∧
      syntaxErrors p1.info.errors = [] := ⟨_, _, by rfl, by rfl⟩
  obtain ⟨x, p1, h1, h2⟩ := h
  obtain ⟨sp, xs, p2, rfl, g1, g2, -⟩ := C97_loop_back_partial
    (md := okOf ⟨[], [], []⟩ (exS.metadata 30 (.loop exWord))) (fuel := 30) (by rfl) clMdW_ok
    (fun a b hr => (cl_noPunct a b hr).elim) (by unfold ItemsWF; decide) .new 30 x h1 (by rw [h2]; rfl)
  exact ⟨sp, xs, p2, p1, g2, h1⟩

/-- The other ending really happens: on `a x b`, with `Recover<word, "x">` as the element, the second call reads the
word `b`, returns nothing, and reports nothing. -/
def clE : Ty 0 3 := .recover exWord fxX
theorem C97_silent : ∃ x xs sp p1 p2 p3,
    (Parser.new [97, 32, 120, 32, 98] [.token ⟨⟨0, 1⟩, 0⟩, .token ⟨⟨2, 3⟩, 2⟩, .token ⟨⟨4, 5⟩, 0⟩]).parse noExt exS 30 (.plus clE) =
      .ok (.ok (some (.list sp xs))) p1 ∧ xs = [x] ∧ syntaxErrors p1.info.errors = [] ∧
    (Parser.new [97, 32, 120, 32, 98] [.token ⟨⟨0, 1⟩, 0⟩, .token ⟨⟨2, 3⟩, 2⟩, .token ⟨⟨4, 5⟩, 0⟩]).parse noExt exS 30 clE =
      .ok (.ok (some x)) p2 ∧
    p2.parse noExt exS 30 clE = .ok (.ok none) p3 ∧ p3.info.errors = [] ∧ p3.info.tokens.length = 3 :=
  ⟨_, _, _, _, _, _, by rfl, by rfl, by rfl, by rfl, by rfl, by rfl, by rfl⟩

end Teleparse
