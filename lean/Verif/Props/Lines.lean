import Verif.Proof.Lines
import Verif.Props.Stray
import Verif.Proof.Nodes
/-
Properties of `Loop<Recover<T, terminator>>`: C106.
-/
namespace Teleparse
variable {m n : Nat}

section
variable {ext : Fin n → Bool} {S : Schema m n} {fuel : Nat} {root : Ty m n} {md : Metadata (PId m n) n}
  {G : Grammar (PId m n) n} {source : Str} {items : List (Item n)}

/-! ## C106: a broken statement does not hide or damage the other ones -/

/-- `Recover<t, k>` where `k` is a terminal and `t` is made of other terminals and does not skip tokens: whatever the
tokens before the next terminator are, it stops right after that one, with a tree that has this terminator, and what it
reports lies between. -/
theorem C106_stops (hmd : S.metadata fuel root = some (.ok md)) (hG : S.IsGrammar root G) (hw : ItemsWF source items)
    (t : Ty m n) (i : Nat) (k : Terminal n) (ht : Reach S.tyParts root (.recover t (.term i k))) (hc : Confined S k t)
    (p p' : Parser n) (hp : Reached ext source items p) (r : Res n (Tree n))
    (h : Yields ext S md (.recover t (.term i k)) p r p') (ts l : List (Token n)) (s : Token n)
    (hrest : (p.view ext).rest = ts ++ s :: l) (hts : ∀ a ∈ ts, ¬ a.Is source k) (hs : s.Is source k) :
    (p'.view ext).rest = l ∧
      ((∃ sp x, r.tree? = some (.recover sp x (.tok s))) ∨ ∃ sp, r.tree? = some (.recoverNone sp (.tok s))) ∧
      ∀ e ∈ r.errs, (p.nextSpan ext).lo ≤ e.span.lo ∧ e.span.hi ≤ s.span.hi := by
  have hon := On.of_yields h
  have hv := hp.ready hw
  have E : Rules S root G := ⟨hG⟩
  have hpid : PReach S root (Ty.term i k : Ty m n).pid :=
    (reach_pid ht).part (by simp [Ty.pid, Ty.prod, PId.id, Schema.rule, Rule.parts])
  have hf : ∀ y, (md.first.get (Ty.term i k : Ty m n).pid).contains y = true ↔ ∃ w, y = some w ∧ k.Matches w := by
    intro y
    rw [metadata_first hmd hG]
    cases y with
    | none =>
      simp only [reduceCtorEq, false_and, exists_false, iff_false]
      intro hn
      exact E.term_null (i := (Ty.term i k : Ty m n).pid) rfl (nullable_iff.1 hn)
    | some w =>
      constructor
      · intro h
        exact ⟨w, rfl, E.term_first (i := (Ty.term i k : Ty m n).pid) rfl (firstOf_iff.1 h)⟩
      · rintro ⟨w', e, h⟩
        cases e
        exact firstOf_iff.2 (.term (E.mem hpid) h)
  obtain ⟨g1, ⟨hd, g2⟩, g3⟩ := Lines.recover_to hf hc hv hon hrest hts hs
  refine ⟨g1, ?_, fun e he => ⟨?_, g3 e he⟩⟩
  · unfold mkRecover at g2
    cases hh : hd.head with
    | some x => rw [hh] at g2; exact .inl ⟨_, _, g2⟩
    | none => rw [hh] at g2; exact .inr ⟨_, g2⟩
  · rw [nextSpan_eq]
    exact hon.run.lateCur hv e he

/-- `Loop<Recover<t, k>>`, from any reachable state, and any match of `t` in the rest of the input that begins the input
or comes after a terminator, and that is followed by a terminator. Whatever all the other tokens are, it is in the
tree, no error lies in it, and its tokens are in the store with the semantic types they should have. -/
theorem C106_produce (hmd : S.metadata fuel root = some (.ok md)) (hG : S.IsGrammar root G) (hsafe : SkipSafe G)
    (hpunct : ∀ t p, Reach S.tyParts root (.punct t p) → ∀ a tok, Beyond G a tok →
      ¬ EndsWith G a (Ty.punct t p).pid)
    (henum : ∀ k v vs, S k = .enum v vs → Reachable G root.pid (.user k) → Nullable G (.user k) →
      ∀ tok, ¬ FollowOf G root.pid (.user k) (some tok))
    (hsep : ∀ t p, Reach S.tyParts root (.split t p) → ¬ Nullable G p.pid)
    (hw : ItemsWF source items) (t : Ty m n) (i : Nat) (k : Terminal n)
    (ht : Reach S.tyParts root (.loop (.recover t (.term i k)))) (hc : Confined S k t)
    (p p' : Parser n) (hp : Reached ext source items p) (r : Res n (Tree n))
    (h : Yields ext S md (.loop (.recover t (.term i k))) p r p')
    (pre post : List (Token n)) (c : List (Cell n)) (x : Tree n) (s : Token n)
    (hrest : (p.view ext).rest = pre ++ (c.map (·.token) ++ s :: post)) (hpre : Ended source k pre)
    (hx : Parses S source (afterTokens (endOf 0 p.info.tokens) pre) t c x) (hs : s.Is source k) :
    (∃ sp l1 l2, r.tree? = some (.list sp (l1 ++ .recover x.span x (.tok s) :: l2))) ∧
      (∀ e ∈ r.errs, e.span.Outside (afterTokens (endOf 0 p.info.tokens) pre) s.span.hi) ∧
      ∃ d c', p'.info.tokens = d ++ (c ++ Cell.ofToken s :: c') ∧
        d.map (·.token) = p.info.tokens.map (·.token) ++ pre := by
  have E : Found S md root G := .of_ll1 hmd hG (metadata_ll1 hmd hG hsafe) hpunct henum hsep
  have hr := (reach_iff_schema hG _).2 (reach_pid ht)
  obtain ⟨steps, stuck, h1, h2, h3, -⟩ := C45_steps hmd hG hw _ hr p p' hp r h
  have e1 : afterTokens 0 ((p.view ext).cells.map (·.token) ++ pre) = afterTokens (endOf 0 p.info.tokens) pre := by
    rw [Lines.after_append, ← Lines.endOf_after]
    rfl
  obtain ⟨⟨l1, l2, g1⟩, g2, d, c', g3, g4⟩ := Lines.line E ht hc (loop_first hmd hG hr) hs h1 pre (hp.ready hw) hrest hpre
    (by rw [e1]; exact hx)
  rw [e1] at g2
  refine ⟨⟨_, l1, l2, by rw [h3, g1]⟩, by rw [h2]; exact g2, d, c', g3, g4⟩

/-- Whole inputs, root `Loop<Recover<t, k>>`. -/
theorem C106_parse (t : Ty m n) (i : Nat) (k : Terminal n)
    (hmd : S.metadata fuel (.loop (.recover t (.term i k))) = some (.ok md))
    (hG : S.IsGrammar (.loop (.recover t (.term i k))) G) (hsafe : SkipSafe G)
    (henum : ∀ j v vs, S j = .enum v vs → Reachable G (Ty.loop (.recover t (.term i k))).pid (.user j) →
      Nullable G (.user j) → ∀ tok, ¬ FollowOf G (Ty.loop (.recover t (.term i k))).pid (.user j) (some tok))
    (hc : Confined S k t) (hw : ItemsWF source items) (fuel' : Nat) (a) (p' : Parser n)
    (h : rootParse ext S fuel' (.loop (.recover t (.term i k))) source items = .ok a p')
    (pre post : List (Token n)) (c : List (Cell n)) (x : Tree n) (s : Token n)
    (hin : streamOf ext items = pre ++ (c.map (·.token) ++ s :: post)) (hpre : Ended source k pre)
    (hx : Parses S source (afterTokens 0 pre) t c x) (hs : s.Is source k) :
    (∃ sp l1 l2, a = .ok (some (.list sp (l1 ++ .recover x.span x (.tok s) :: l2)))) ∧
      (∀ e ∈ syntaxErrors p'.info.errors, e.span.Outside (afterTokens 0 pre) s.span.hi) ∧
      ∃ d c', p'.info.tokens = d ++ (c ++ Cell.ofToken s :: c') ∧ d.map (·.token) = pre := by
  have none_here : ∀ u, Reach S.tyParts (.loop (.recover t (.term i k))) u → (∀ a b, u ≠ .punct a b) ∧ ∀ a b, u ≠ .split a b := by
    intro u hu
    rcases hu.cases_head with rfl | ⟨v, hv, hu1⟩
    · simp
    · cases List.mem_singleton.1 hv
      rcases hu1.cases_head with rfl | ⟨w, hw', hu2⟩
      · simp
      · rcases List.mem_cons.1 hw' with e | hw'
        · subst e
          constructor
          · rintro a b rfl; exact hc _ hu2
          · rintro a b rfl; exact hc _ hu2
        · cases List.mem_singleton.1 hw'
          rcases hu2.cases_head with rfl | ⟨v, hv, _⟩
          · simp
          · cases hv
  have hnew : Reached ext source items (Parser.new source items) := .new
  cases a with
  | error e =>
    exfalso
    have h1 := ((C48_grammar_error ext S fuel' _ _ p' e).1 h).1
    have h2 := metadata_any h1 (Nat.le_max_left fuel' fuel)
    rw [metadata_any hmd (Nat.le_max_right fuel' fuel)] at h2
    cases h2
  | ok y =>
    obtain ⟨md', r, q, g1, g2, -, g4, g5, g6⟩ := syntaxErrors_parse h
    have hmd' : md' = md := by
      have h1 := metadata_more g1 (Nat.le_max_left fuel' fuel)
      have h2 := metadata_more hmd (Nat.le_max_right fuel' fuel)
      rw [h1] at h2
      cases h2
      rfl
    subst hmd'
    obtain ⟨⟨sp, l1, l2, k1⟩, k2, d, c', k3, k4⟩ := C106_produce hmd hG hsafe
      (fun t p h => absurd rfl ((none_here _ h).1 t p)) henum (fun t p h => absurd rfl ((none_here _ h).2 t p)) hw t i k
      .refl hc _ q hnew r ⟨_, g2⟩ pre post c x s hin hpre hx hs
    refine ⟨⟨sp, l1, l2, ?_⟩, by rw [g5]; exact k2, d, c', (congrArg View.cells g6).trans k3, k4⟩
    have : y = some _ := (g4 _).2 (by
      cases r with
      | success z => exact .inl (by cases k1; rfl)
      | recovered z e => exact .inr ⟨e, by cases k1; rfl⟩
      | panic e => cases k1)
    rw [this]

end

/-! ### Examples -/

/-- `Loop<Recover<(word, num), "x">>` on `x 1 a 1 x b c 2 x d 3 x e`: a stray terminator and token, a statement, a broken one,
another statement, an incomplete one. -/
def lnT : Ty 0 3 := .tup2 exWord exNum
def lnRoot : Ty 0 3 := .loop (.recover lnT fxX)
def lnK : Terminal 3 := ⟨2, some [120]⟩
def lnSource : Str := [120, 49, 97, 49, 120, 98, 99, 50, 120, 100, 51, 120, 101]
def lnTok (p : Nat) (k : Fin 3) : Token 3 := ⟨⟨p, p + 1⟩, k⟩
def lnPre : List (Token 3) := [lnTok 0 2, lnTok 1 1, lnTok 2 0, lnTok 3 1, lnTok 4 2, lnTok 5 0, lnTok 6 0, lnTok 7 1, lnTok 8 2]
def lnToks : List (Token 3) := lnPre ++ [lnTok 9 0, lnTok 10 1, lnTok 11 2, lnTok 12 0]
def lnItems : List (Item 3) := lnToks.map .token
def lnMd : Metadata (PId 0 3) 3 := okOf ⟨[], [], []⟩ (exS.metadata 40 lnRoot)
def lnG : Grammar (PId 0 3) 3 := (registerFrom exS.rule 40 lnRoot.pid).getD []
theorem lnMd_ok : exS.metadata 40 lnRoot = some (.ok lnMd) := rfl
theorem lnG_ok : exS.IsGrammar lnRoot lnG := .of_register (fuel := 40) rfl

theorem ln_confined : Confined exS lnK lnT := by
  intro u hu
  have := reach_of_check [lnT, exWord, exNum] (by decide) (by decide +kernel) hu
  simp only [List.mem_cons, List.not_mem_nil, or_false] at this
  rcases this with rfl | rfl | rfl
  · trivial
  · exact .inl (by decide)
  · exact .inl (by decide)

/-- The statement `d 3` is found, whatever the ones before it are. -/
example (fuel' : Nat) (a) (p' : Parser 3) (h : rootParse noExt exS fuel' lnRoot lnSource lnItems = .ok a p') :
    (∃ sp l1 l2, a = .ok (some (.list sp (l1 ++
        .recover ⟨9, 11⟩ (.seq ⟨9, 11⟩ [.tok (lnTok 9 0), .tok (lnTok 10 1)]) (.tok (lnTok 11 2)) :: l2)))) ∧
      ∀ e ∈ syntaxErrors p'.info.errors, e.span.Outside 9 12 := by
  have hx : Parses exS lnSource 9 lnT [Cell.ofToken (lnTok 9 0), Cell.ofToken (lnTok 10 1)]
      (.seq ⟨9, 11⟩ [.tok (lnTok 9 0), .tok (lnTok 10 1)]) :=
    Parses.tuple (t := lnT) (ts := [exWord, exNum]) (cs := [[Cell.ofToken (lnTok 9 0)], [Cell.ofToken (lnTok 10 1)]])
      (l := [.tok (lnTok 9 0), .tok (lnTok 10 1)])
      (.inl ⟨_, _, rfl, rfl⟩) (.cons (.term ⟨rfl, by simp⟩) (.cons (.term ⟨rfl, by simp⟩) .nil))
  have h1 := C106_parse (ext := noExt) lnT 2 lnK lnMd_ok lnG_ok (skipSafe_of_check lnMd_ok lnG_ok 4 (by decide +kernel))
    (fun k => k.elim0) ln_confined (by unfold ItemsWF lnItems lnSource; decide) fuel' a p' h lnPre [lnTok 12 0] _ _
    (lnTok 11 2) rfl (by intro a ha; cases ha; exact ⟨rfl, by intro s hs; cases hs; decide⟩) hx
    ⟨rfl, by intro s hs; cases hs; decide⟩
  exact ⟨h1.1, h1.2.1⟩

/-- The run of the model on the same input: there is a result, it has three statements, and three errors. -/
example : ∃ x y z sp p', rootParse noExt exS 60 lnRoot lnSource lnItems = .ok (.ok (some (.list sp [x, y, z]))) p' ∧
    p'.info.errors.map (·.span) = [⟨0, 2⟩, ⟨6, 8⟩, ⟨13, 13⟩] :=
  ⟨_, _, _, _, _, by rfl, by rfl⟩

/-! ### What is not claimed -/

/-- `Split` in a statement skips over the terminator: `Loop<Recover<(word, Split<num, word>, num), "x">>` on
`a 1 b x a 1 2 x`. The second statement is fine, but it is not in the tree: the only element covers the input, and the
error lies on its first token. -/
theorem C106_needs_confined : ∃ x p', rootParse noExt exS 60 (.loop (.recover (.tup3 exWord (.split exNum exWord) exNum) fxX))
      [97, 49, 98, 120, 97, 49, 50, 120]
      ([lnTok 0 0, lnTok 1 1, lnTok 2 0, lnTok 3 2, lnTok 4 0, lnTok 5 1, lnTok 6 1, lnTok 7 2].map .token) =
      .ok (.ok (some (.list ⟨0, 8⟩ [x]))) p' ∧ p'.info.errors.map (·.span) = [⟨3, 5⟩] :=
  ⟨_, _, by rfl, by rfl⟩

end Teleparse
