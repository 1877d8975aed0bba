import Verif.Proof.ChosenOf
import Verif.Props.Exact
/-
Property C90: parsing without errors is predictive matching.
-/
namespace Teleparse
variable {m n : Nat}

/-! ## C90: a parse without errors is a predictive match -/

/-- The next token with its text. -/
def nextWord (source : Str) (rest : List (Token n)) : Option (TokenSrc n) := rest.head?.map (·.word source)

theorem la_eq_nextWord {source : Str} (rest : List (Token n)) : la source rest = nextWord source rest := rfl

theorem Chosen.does_view {S : Schema m n} {md : Metadata (PId m n) n} {ext : Fin n → Bool} {source : Str}
    {items : List (Item n)} (hw : ItemsWF source items) {p : Parser n} (hp : Reached ext source items p) {t : Ty m n}
    {c : List (Cell n)} {x : Tree n} {rest : List (Token n)} (hrest : (p.view ext).rest = c.map (·.token) ++ rest)
    (h : Chosen S md source (.ty p.emptySpan.lo t c x (nextWord source rest))) :
    ∃ p', Yields ext S md t p (.success x) p' ∧ p'.view ext = ⟨source, p.info.tokens ++ c, rest⟩ := by
  have hv : p.view ext = ⟨source, p.info.tokens, toks c ++ rest⟩ := by
    have hs := hp.source
    cases h : p.view ext with
    | mk a b d =>
      rw [h] at hrest
      cases h
      rw [hs, ← hrest]
  have hr := hp.ready hw
  rw [hv] at hr
  have hd := h.done p.info.tokens rest (by rfl) hr rfl
  rw [← hv] at hd
  exact hd.yields (hp.inSource hw)

/-- A predictive match of the next tokens is found: the parser returns its tree without an error, records its cells and
stops after its last token. For all types, and all sets. -/
theorem C90_found (ext : Fin n → Bool) (S : Schema m n) (md : Metadata (PId m n) n) (source : Str)
    (items : List (Item n)) (hw : ItemsWF source items) (p : Parser n) (hp : Reached ext source items p) (t : Ty m n)
    (c : List (Cell n)) (x : Tree n) (rest : List (Token n)) (hrest : (p.view ext).rest = c.map (·.token) ++ rest)
    (h : Chosen S md source (.ty p.emptySpan.lo t c x (nextWord source rest))) :
    ∃ p', Yields ext S md t p (.success x) p' ∧ p'.info.tokens = p.info.tokens ++ c ∧ (p'.view ext).rest = rest := by
  obtain ⟨p', h1, h2⟩ := h.does_view hw hp hrest
  exact ⟨p', h1, congrArg View.cells h2, congrArg View.rest h2⟩

/-- A predictive match of the next tokens is unique: its length, its tree and the semantic types of its tokens. -/
theorem C90_unique (ext : Fin n → Bool) (S : Schema m n) (md : Metadata (PId m n) n) (source : Str)
    (items : List (Item n)) (hw : ItemsWF source items) (p : Parser n) (hp : Reached ext source items p) (t : Ty m n)
    (c d : List (Cell n)) (x y : Tree n) (rest rest' : List (Token n))
    (hrest : (p.view ext).rest = c.map (·.token) ++ rest) (hrest' : (p.view ext).rest = d.map (·.token) ++ rest')
    (h : Chosen S md source (.ty p.emptySpan.lo t c x (nextWord source rest)))
    (h' : Chosen S md source (.ty p.emptySpan.lo t d y (nextWord source rest'))) : c = d ∧ x = y ∧ rest = rest' := by
  obtain ⟨q, h1, h2⟩ := h.does_view hw hp hrest
  obtain ⟨q', h3, h4⟩ := h'.does_view hw hp hrest'
  obtain ⟨e1, e2⟩ := h1.unique h3
  subst e2
  rw [h2] at h4
  injection h4 with _ e3 e4
  exact ⟨List.append_cancel_left e3, (Res.success.inj e1), e4⟩

/-- If the parser returns a tree without an error, the tokens it consumed are a predictive match with this tree.
Missing for the full statement: types in which a silent failure is absorbed, if nothing is left after the
parse (false, see `C90_false`). -/
theorem C90_success_partial (ext : Fin n → Bool) (S : Schema m n) (md : Metadata (PId m n) n) (source : Str)
    (items : List (Item n)) (hw : ItemsWF source items) (p p' : Parser n) (hp : Reached ext source items p) (t : Ty m n)
    (hl : Loud S t ∨ (p'.view ext).rest ≠ []) (x : Tree n) (hy : Yields ext S md t p (.success x) p') :
    ∃ c, (p.view ext).rest = c.map (·.token) ++ (p'.view ext).rest ∧ p'.info.tokens = p.info.tokens ++ c ∧
      Chosen S md source (.ty p.emptySpan.lo t c x (nextWord source (p'.view ext).rest)) := by
  obtain ⟨fuel, h⟩ := On.of_yields hy
  obtain ⟨c, h1, h2⟩ := (chosen_of_produce fuel t .refl).clean _ _ _ (hp.ready hw) (Sure.of hl) h
  exact ⟨c, h1.rest, h1.cells, h2⟩

/-- Whole inputs: `Root::parse` returns the tree without a syntax error exactly if a beginning of the input is a
predictive match with this tree. Missing for the full statement: as for `C90_success_partial`. -/
theorem C90_parse_partial (ext : Fin n → Bool) (S : Schema m n) (fuel : Nat) (root : Ty m n)
    (md : Metadata (PId m n) n) (hmd : S.metadata fuel root = some (.ok md)) (source : Str)
    (items : List (Item n)) (hw : ItemsWF source items) (x : Tree n) (c : List (Cell n)) (rest : List (Token n))
    (hl : Loud S root ∨ rest ≠ []) :
    (∃ p' fuel', rootParse ext S fuel' root source items = .ok (.ok (some x)) p' ∧ syntaxErrors p'.info.errors = [] ∧
      p'.info.tokens = c ∧ (p'.view ext).rest = rest) ↔
    (streamOf ext items = c.map (·.token) ++ rest ∧
      Chosen S md source (.ty 0 root c x (nextWord source rest))) := by
  have hnew : Reached ext source items (Parser.new source items) := .new
  constructor
  · rintro ⟨p', f, h, he, rfl, rfl⟩
    obtain ⟨md', r, q, g1, g2, -, g4, g5, g6⟩ := syntaxErrors_parse h
    rw [he] at g5
    have hy : Yields ext S md' root (Parser.new source items) r q := ⟨_, g2⟩
    have hsnd := hy.sound hnew hw (by rw [← g6]; exact hl)
    have : r = .success x := by
      rcases (g4 x).1 rfl with h | ⟨e, h⟩
      · exact h
      · subst h
        exact absurd g5.symm (hsnd.recovered _ _ rfl)
    subst this
    have : md' = md := by
      have h1 := metadata_more g1 (Nat.le_max_left f fuel)
      have h2 := metadata_more hmd (Nat.le_max_right f fuel)
      rw [h1] at h2
      cases h2
      rfl
    subst this
    obtain ⟨c, h1, h2, h3⟩ := C90_success_partial ext S md' source items hw _ q hnew root (by rw [← g6]; exact hl) x hy
    have e1 : p'.info.tokens = q.info.tokens := congrArg View.cells g6
    have e2 : q.info.tokens = c := by rw [h2]; rfl
    rw [g6, e1, e2]
    exact ⟨h1, h3⟩
  · rintro ⟨h1, h2⟩
    obtain ⟨q, ⟨f, hq⟩, h3, h4⟩ := C90_found ext S md source items hw _ hnew root c x rest h1 h2
    have hm := metadata_more hmd (Nat.le_max_left fuel f)
    have hq := produce_more hq (Nat.le_max_right fuel f)
    obtain ⟨y, p', hp⟩ := C48_defined ext S (max fuel f) root _ _ md _ hm hq
    obtain ⟨md', r, q', g1, g2, -, g4, g5, g6⟩ := syntaxErrors_parse hp
    cases hm.symm.trans g1
    cases hq.symm.trans g2
    have hy : y = some x := (g4 x).2 (.inl rfl)
    subst hy
    refine ⟨p', _, hp, g5, ?_, by rw [g6, h4]⟩
    have e1 : p'.info.tokens = q.info.tokens := congrArg View.cells g6
    rw [e1, h3]
    rfl

/-- The claim is false for silent failures: `Star<Recover<word, number>>` on `a 1 b` returns a tree without an error, and no
beginning of the input is a predictive match with this tree followed by the tokens that are left. -/
theorem C90_false : exS.metadata 30 sxT = some (.ok sxMd) ∧ ItemsWF [97, 32, 49, 32, 98] sxItems ∧
    ∃ x p', Yields exExt exS sxMd sxT (Parser.new [97, 32, 49, 32, 98] sxItems) (.success x) p' ∧
      ¬ ∃ c rest, streamOf exExt sxItems = c.map (·.token) ++ rest ∧
        Chosen exS sxMd [97, 32, 49, 32, 98] (.ty 0 sxT c x (nextWord [97, 32, 49, 32, 98] rest)) := by
  obtain ⟨-, h1, h2, p', hy, hn⟩ := C37_false
  refine ⟨h1, h2, _, p', hy, ?_⟩
  rintro ⟨c, rest, hc, h⟩
  obtain ⟨q, hq, -, hr⟩ := C90_found exExt exS sxMd _ _ h2 _ .new sxT c _ rest hc h
  obtain ⟨-, rfl⟩ := hy.unique hq
  have : rest = [] := by
    unfold Parser.lookahead at hn
    rw [hr] at hn
    cases rest with
    | nil => rfl
    | cons => cases hn
  subst this
  have hlen : c.length = 3 := by
    have := congrArg List.length hc
    rw [List.append_nil, List.length_map] at this
    exact this.symm.trans (by rfl)
  have hp := h.holds
  revert hp
  show Parses _ _ _ _ _ _ → False
  have aux : ∀ u y, sxT = u → y = Tree.list ⟨0, 3⟩ [.recover ⟨0, 1⟩ (.tok ⟨⟨0, 1⟩, 0⟩) (.tok ⟨⟨2, 3⟩, 1⟩)] →
      Parses exS [97, 32, 49, 32, 98] 0 u c y → False := by
    intro u y hu hy hp
    cases hp with
    | starSome hs =>
      cases hu
      injection hy with _ hy
      subst hy
      rcases hs with _ | ⟨he, hs⟩
      generalize hv : Ty.recover exWord exNum = v at he
      generalize hz : Tree.recover _ _ _ = z at he
      have hs' := hs.lengths.1.trans hs.lengths.2.symm
      cases he with
      | recover a =>
        cases hv
        injection hz with _ hx hy
        subst hx
        subst hy
        rcases a with _ | ⟨ha, a⟩
        rcases a with _ | ⟨hb, a⟩
        cases a
        cases ha
        cases hb
        simp at hs'
        subst hs'
        simp at hlen
      | tuple ht => rw [← hv] at ht; simp [Ty.isTuple] at ht
      | _ => cases hv
    | _ => first | (cases hu; done) | (cases hy; done)
  exact aux _ _ rfl rfl

/-! ### Examples -/

/-- `(Star<word>, number?)` -/
def ycT : Ty 0 3 := .tup2 (.star exWord) (.option exNum)
def ycMd : Metadata (PId 0 3) 3 := okOf ⟨[], [], []⟩ (exS.metadata 40 ycT)
/-- `a b 1 2` -/
def ycSource : Str := [97, 32, 98, 32, 49, 32, 50]
def ycItems : List (Item 3) :=
  [.token ⟨⟨0, 1⟩, 0⟩, .token ⟨⟨2, 3⟩, 0⟩, .token ⟨⟨4, 5⟩, 1⟩, .token ⟨⟨6, 7⟩, 1⟩]
def ycA : Token 3 := ⟨⟨0, 1⟩, 0⟩
def ycB : Token 3 := ⟨⟨2, 3⟩, 0⟩
def yc1 : Token 3 := ⟨⟨4, 5⟩, 1⟩
def yc2 : Token 3 := ⟨⟨6, 7⟩, 1⟩
def ycX : Tree 3 := .seq ⟨0, 5⟩ [.list ⟨0, 3⟩ [.tok ycA, .tok ycB], .optSome ⟨4, 5⟩ (.tok yc1)]
def ycCells : List (Cell 3) := [Cell.ofToken ycA, Cell.ofToken ycB, Cell.ofToken yc1]

theorem ycMd_ok : exS.metadata 40 ycT = some (.ok ycMd) := by rfl
theorem yc_items : ItemsWF ycSource ycItems := by unfold ItemsWF ycItems ycSource; decide

/-- The first three tokens are a predictive match: the words are repeated while there are words, then comes a number, and
the second number is left. -/
theorem yc_chosen : Chosen exS ycMd ycSource (.ty 0 ycT ycCells ycX (nextWord ycSource [yc2])) := by
  have h1 : Chosen exS ycMd ycSource (.ty 0 exWord [Cell.ofToken ycA] (.tok ycA) (some ⟨0, [98]⟩)) := .term (by decide)
  have h2 : Chosen exS ycMd ycSource (.ty 1 exWord [Cell.ofToken ycB] (.tok ycB) (some ⟨1, [49]⟩)) := .term (by decide)
  have h3 : Chosen exS ycMd ycSource (.ty 3 exNum [Cell.ofToken yc1] (.tok yc1) (some ⟨1, [50]⟩)) := .term (by decide)
  have h4 : Chosen exS ycMd ycSource (.more 3 exWord [] [] (some ⟨1, [49]⟩)) :=
    .moreStop (by rintro ⟨w, e, h⟩; cases e; revert h; decide)
  have h5 : Chosen exS ycMd ycSource (.more 1 exWord [[Cell.ofToken ycB]] [.tok ycB] (some ⟨1, [49]⟩)) :=
    .moreGo ⟨⟨0, [98]⟩, by decide, by decide⟩ h2 h4
  have h6 : Chosen exS ycMd ycSource (.ty 0 (.star exWord) [Cell.ofToken ycA, Cell.ofToken ycB]
      (.list ⟨0, 3⟩ [.tok ycA, .tok ycB]) (some ⟨1, [49]⟩)) :=
    Chosen.starSome (c := [Cell.ofToken ycA]) (cs := [[Cell.ofToken ycB]]) ⟨⟨0, [97]⟩, by decide, by decide⟩ h1 h5
  have h7 : Chosen exS ycMd ycSource (.ty 3 (.option exNum) [Cell.ofToken yc1] (.optSome ⟨4, 5⟩ (.tok yc1))
      (some ⟨1, [50]⟩)) := .optSome ⟨⟨1, [49]⟩, by decide, by decide⟩ h3
  exact Chosen.tuple (cs := [[Cell.ofToken ycA, Cell.ofToken ycB], [Cell.ofToken yc1]]) (.inl ⟨_, _, rfl, rfl⟩)
    (.seqCons h6 (.seqCons h7 .seqNil))

example : ∃ p', Yields exExt exS ycMd ycT (Parser.new ycSource ycItems) (.success ycX) p' ∧
    p'.info.tokens = [] ++ ycCells ∧ (p'.view exExt).rest = [yc2] :=
  C90_found exExt exS ycMd ycSource ycItems yc_items _ .new ycT ycCells ycX [yc2] (by rfl) yc_chosen

theorem yc_loud : Loud exS ycT := by
  refine (RecoverFree.loud ?_).1
  intro u hu a b e
  have := reach_of_check [ycT, .star exWord, .plus exWord, .option exNum, exWord, exNum] (by decide) (by decide) hu
  subst e
  simp [ycT, exWord, exNum] at this

example : ∃ p' fuel', rootParse exExt exS fuel' ycT ycSource ycItems = .ok (.ok (some ycX)) p' ∧
    syntaxErrors p'.info.errors = [] ∧ p'.info.tokens = ycCells ∧ (p'.view exExt).rest = [yc2] :=
  (C90_parse_partial exExt exS 40 ycT ycMd ycMd_ok ycSource ycItems yc_items ycX ycCells [yc2] (.inl yc_loud)).2
    ⟨by rfl, yc_chosen⟩

/-- A match that is not predictive: `Star<word>` does not stop after `a` in `a b`. -/
example : Parses exS ycSource 0 (.star exWord) [Cell.ofToken ycA] (.list ⟨0, 1⟩ [.tok ycA]) ∧
    ¬ Chosen exS ycMd ycSource (.ty 0 (.star exWord) [Cell.ofToken ycA] (.list ⟨0, 1⟩ [.tok ycA])
      (nextWord ycSource [ycB, yc1, yc2])) := by
  refine ⟨Parses.starSome (k := 0) (cs := [[Cell.ofToken ycA]]) (l := [.tok ycA]) (.cons (.term (by decide)) .nil), ?_⟩
  intro h
  obtain ⟨p', h1, -, h3⟩ := C90_found exExt exS ycMd ycSource ycItems yc_items (Parser.new ycSource ycItems) .new
    (.star exWord) _ _ [ycB, yc1, yc2] (by rfl) h
  have : ∃ p'', Yields exExt exS ycMd (.star exWord) (Parser.new ycSource ycItems)
      (.success (.list ⟨0, 3⟩ [.tok ycA, .tok ycB])) p'' := ⟨_, 20, by rfl⟩
  obtain ⟨p'', h4⟩ := this
  obtain ⟨e, -⟩ := h1.unique h4
  cases e

end Teleparse
