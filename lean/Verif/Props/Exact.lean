import Verif.Spec.Layout
import Verif.Props.Completeness
import Verif.Props.Lookahead
import Verif.Props.Soundness
/-
Property C77: parsing accepts exactly the sentences, and stops at the first token that cannot go on.
-/
namespace Teleparse
variable {m n : Nat}

/-! ## C77: exactly the language, and the longest match -/

theorem syntaxErrors_parse {ext : Fin n → Bool} {S : Schema m n} {fuel : Nat} {root : Ty m n} {source : Str}
    {items : List (Item n)} {x : Option (Tree n)} {p' : Parser n}
    (h : rootParse ext S fuel root source items = .ok (.ok x) p') :
    ∃ md r q, S.metadata fuel root = some (.ok md) ∧
      produce (Parser.ops ext) S md fuel root (Parser.new source items) = .ok r q ∧
      (x = none ↔ ∃ e, r = .panic e) ∧ (∀ y, x = some y ↔ (r = .success y ∨ ∃ e, r = .recovered y e)) ∧
      syntaxErrors p'.info.errors = r.errs ∧ p'.view ext = q.view ext := by
  obtain ⟨md, r, q, chars, h1, hq, h2, h3, herr, hch, hp⟩ := C48_parse ext S fuel root _ _ _ h
  refine ⟨md, r, q, h1, hq, h2, h3, ?_, ?_⟩
  · unfold syntaxErrors
    rw [herr, List.filter_append, List.filter_eq_nil_iff.2, List.nil_append, List.filter_eq_self]
    · intro e he
      simpa using produce_kinds hq e he
    · intro e he
      simpa using hch e (by simpa [Parser.new] using he)
  · rw [hp]; rfl

theorem rootParse_more {ext : Fin n → Bool} {S : Schema m n} {fuel fuel' : Nat} {root : Ty m n} {source : Str}
    {items : List (Item n)} {x : Option (Tree n)} {p' : Parser n}
    (h : rootParse ext S fuel root source items = .ok (.ok x) p') (hle : fuel ≤ fuel') :
    rootParse ext S fuel' root source items = .ok (.ok x) p' := by
  obtain ⟨md, r, q, h1, hq, -⟩ := syntaxErrors_parse h
  unfold rootParse Parser.parse Parser.parseWithMeta at h ⊢
  rw [h1] at h
  rw [metadata_more h1 hle]
  simp only [hq] at h
  simp only [produce_more hq hle]
  exact h

/-- A match of a part `t` of the root that comes next in the input is found if the token after it can follow `t`,
or if it cannot belong to `t` after the tokens of the match. Missing for the full statement: as for
`C35_produce_partial`; and in the second case types that can end with a `Punct` or with an enum that can be empty
(false, see `C77_false_punct` and `C77_false_enum`). -/
theorem C77_produce_partial (ext : Fin n → Bool) (S : Schema m n) (fuel : Nat) (root : Ty m n)
    (md : Metadata (PId m n) n) (G : Grammar (PId m n) n) (hmd : S.metadata fuel root = some (.ok md))
    (hG : S.IsGrammar root G) (hsafe : SkipSafe G)
    (hpunct : ∀ t p, Reach S.tyParts root (.punct t p) → ∀ a tok, Beyond G a tok →
      ¬ EndsWith G a (Ty.punct t p).pid)
    (henum : ∀ k v vs, S k = .enum v vs → Reachable G root.pid (.user k) → Nullable G (.user k) →
      ∀ tok, ¬ FollowOf G root.pid (.user k) (some tok))
    (hsep : ∀ t p, Reach S.tyParts root (.split t p) → ¬ Nullable G p.pid)
    (source : Str) (items : List (Item n)) (hw : ItemsWF source items) (p : Parser n)
    (hp : Reached ext source items p) (t : Ty m n) (ht : Reach S.tyParts root t) (hl : LoopFree S t)
    (c : List (Cell n)) (x : Tree n) (hx : Parses S source p.emptySpan.lo t c x) (rest : List (Token n))
    (hrest : (p.view ext).rest = c.map (·.token) ++ rest)
    (hnext : ∀ tok, rest.head?.map (·.word source) = some tok → FollowOf G root.pid t.pid (some tok) ∨
      (Calm S G t.pid ∧ ¬ Continues G t.pid (wordOf source c) tok)) :
    ∃ p', Yields ext S md t p (.success x) p' ∧ p'.info.tokens = p.info.tokens ++ c ∧
      (p'.view ext).rest = rest := by
  have E : Found S md root G := .of_ll1 hmd hG (metadata_ll1 hmd hG hsafe) hpunct henum hsep
  have hv : p.view ext = ⟨source, p.info.tokens, toks c ++ rest⟩ := by
    have hs := hp.source
    cases h : p.view ext with
    | mk a b d =>
      rw [h] at hrest
      cases h
      rw [hs, ← hrest]
  have hr := hp.ready hw
  rw [hv] at hr
  have C : Comp S md source t root G := E.comp ht hl
  have hd := C.finds (fx := false) hx p.info.tokens rest (by rfl) hr ⟨.refl, reach_pid ht⟩ hnext
  rw [← hv] at hd
  obtain ⟨p', h1, h2⟩ := hd.yields (hp.inSource hw)
  exact ⟨p', h1, congrArg View.cells h2, congrArg View.rest h2⟩

/-- Whole inputs: if some first tokens of the input are a sentence of the root, and the token after them could not
come next in any longer sentence with this beginning, `Root::parse` returns the tree of these first tokens, without
a syntax error, and stops there. Missing for the full statement: as for `C77_produce_partial`. -/
theorem C77_longest_partial (ext : Fin n → Bool) (S : Schema m n) (fuel : Nat) (root : Ty m n)
    (md : Metadata (PId m n) n) (G : Grammar (PId m n) n) (hmd : S.metadata fuel root = some (.ok md))
    (hG : S.IsGrammar root G) (hsafe : SkipSafe G)
    (hpunct : ∀ t p, Reach S.tyParts root (.punct t p) → ∀ a tok, Beyond G a tok →
      ¬ EndsWith G a (Ty.punct t p).pid)
    (henum : ∀ k v vs, S k = .enum v vs → Reachable G root.pid (.user k) → Nullable G (.user k) →
      ∀ tok, ¬ FollowOf G root.pid (.user k) (some tok))
    (hsep : ∀ t p, Reach S.tyParts root (.split t p) → ¬ Nullable G p.pid) (hl : LoopFree S root)
    (hcalm : Calm S G root.pid)
    (source : Str) (items : List (Item n)) (hw : ItemsWF source items) (u rest : List (Token n))
    (hu : streamOf ext items = u ++ rest)
    (hs : Derives G [.nt root.pid] ((u.map (·.word source)).map .tok))
    (hstop : ∀ a l, rest = a :: l → ¬ Continues G root.pid (u.map (·.word source)) (a.word source)) :
    ∃ x c p' N, (∀ fuel' ≥ N, rootParse ext S fuel' root source items = .ok (.ok (some x)) p') ∧
      Parses S source 0 root c x ∧ c.map (·.token) = u ∧ p'.info.tokens = c ∧ (p'.view ext).rest = rest ∧
      syntaxErrors p'.info.errors = [] := by
  obtain ⟨c, x, hx, hc⟩ := Der.matches (source := source) hG .refl hs u 0 rfl
  have hnew : Reached ext source items (Parser.new source items) := .new
  have hword : wordOf source c = u.map (·.word source) := by
    rw [← hc, List.map_map]; rfl
  have hrest : ((Parser.new source items).view ext).rest = c.map (·.token) ++ rest := by
    rw [hc, ← hu]; rfl
  obtain ⟨q, ⟨f, h1⟩, h2, h3⟩ := C77_produce_partial ext S fuel root md G hmd hG hsafe hpunct henum hsep source items hw
    _ hnew root .refl hl c x hx rest hrest (by
      intro tok ht
      cases rest with
      | nil => cases ht
      | cons a l =>
        cases ht
        exact .inr ⟨hcalm, by rw [hword]; exact hstop a l rfl⟩)
  have hm := metadata_more hmd (Nat.le_max_left fuel f)
  have hq := produce_more h1 (Nat.le_max_right fuel f)
  obtain ⟨y, p', hp⟩ := C48_defined ext S (max fuel f) root _ _ md _ hm hq
  obtain ⟨md', r, q', g1, g2, -, g4, g5, g6⟩ := syntaxErrors_parse hp
  cases hm.symm.trans g1
  cases hq.symm.trans g2
  have hy : y = some x := (g4 x).2 (.inl rfl)
  subst hy
  refine ⟨x, c, p', max fuel f, fun f' hf' => rootParse_more hp hf', hx, hc, ?_, ?_, g5⟩
  · have := congrArg View.cells g6
    exact this.trans (by rw [show (q.view ext).cells = q.info.tokens from rfl, h2]; rfl)
  · rw [g6, h3]

/-- `Root::parse` returns a tree without a syntax error and with nothing left over exactly for the sentences of the
root. Missing for the full statement: for one direction as for `C35_parse_partial`; for the other one `Loop`
(which accepts the empty input although its production does not) and silent failures (see `C37_false`). -/
theorem C77_accepts_partial (ext : Fin n → Bool) (S : Schema m n) (fuel : Nat) (root : Ty m n)
    (md : Metadata (PId m n) n) (G : Grammar (PId m n) n) (hmd : S.metadata fuel root = some (.ok md))
    (hG : S.IsGrammar root G) (hsafe : SkipSafe G)
    (hpunct : ∀ t p, Reach S.tyParts root (.punct t p) → ∀ a tok, Beyond G a tok →
      ¬ EndsWith G a (Ty.punct t p).pid)
    (henum : ∀ k v vs, S k = .enum v vs → Reachable G root.pid (.user k) → Nullable G (.user k) →
      ∀ tok, ¬ FollowOf G root.pid (.user k) (some tok))
    (hsep : ∀ t p, Reach S.tyParts root (.split t p) → ¬ Nullable G p.pid) (hl : LoopFree S root)
    (hloud : Loud S root) (source : Str) (items : List (Item n)) (hw : ItemsWF source items) :
    (∃ x p' fuel', rootParse ext S fuel' root source items = .ok (.ok (some x)) p' ∧
      syntaxErrors p'.info.errors = [] ∧ (p'.view ext).rest = []) ↔
    Derives G [.nt root.pid] ((inputWords ext source items).map .tok) := by
  constructor
  · rintro ⟨x, p', f, h, he, hr⟩
    obtain ⟨md', r, q, g1, g2, -, g4, g5, g6⟩ := syntaxErrors_parse h
    rw [he] at g5
    have hy : Yields ext S md' root (Parser.new source items) r q := ⟨_, g2⟩
    have hnew : Reached ext source items (Parser.new source items) := .new
    have hsnd := hy.sound hnew hw (.inl hloud)
    have : r = .success x := by
      rcases (g4 x).1 rfl with h | ⟨e, h⟩
      · exact h
      · subst h
        exact absurd g5.symm (hsnd.recovered _ _ rfl)
    subst this
    obtain ⟨c, h4, h5, h6⟩ := C34_loud ext source items hw S md' root _ _ (.inl hloud) hnew x hy
    have hd := h5.der hG hl ⟨.refl, .refl⟩
    rw [← g6, hr, List.append_nil] at h6
    have h6 : streamOf ext items = c.map (·.token) := h6
    unfold inputWords
    rw [h6, show (c.map (·.token)).map (·.word source) = wordOf source c by rw [List.map_map]; rfl]
    exact hd
  · intro hs
    have E : Found S md root G := .of_ll1 hmd hG (metadata_ll1 hmd hG hsafe) hpunct henum hsep
    obtain ⟨x, c, p', N, h1, -, -, -, h5, h6, -⟩ := parse_sentence ext S fuel root md G hmd hG E (.free hl) source items hw hs
    refine ⟨x, p', N, h1 N (Nat.le_refl _), ?_, h5⟩
    unfold syntaxErrors
    rw [List.filter_eq_nil_iff]
    intro e he
    simp [h6 e he]

/-- Also with a `Loop` at the end: `Root::parse` returns a tree without a syntax error and with nothing left over
exactly if the type, in which `Loop` stands for any number of elements, has a match with all tokens, and the tree is
that of the match. Missing for the full statement: as for `C77_accepts_partial` except for `Loop`. -/
theorem C77_matches_partial (ext : Fin n → Bool) (S : Schema m n) (fuel : Nat) (root : Ty m n)
    (md : Metadata (PId m n) n) (G : Grammar (PId m n) n) (hmd : S.metadata fuel root = some (.ok md))
    (hG : S.IsGrammar root G) (hsafe : SkipSafe G)
    (hpunct : ∀ t p, Reach S.tyParts root (.punct t p) → ∀ a tok, Beyond G a tok →
      ¬ EndsWith G a (Ty.punct t p).pid)
    (henum : ∀ k v vs, S k = .enum v vs → Reachable G root.pid (.user k) → Nullable G (.user k) →
      ∀ tok, ¬ FollowOf G root.pid (.user k) (some tok))
    (hsep : ∀ t p, Reach S.tyParts root (.split t p) → ¬ Nullable G p.pid) (hl : LoopTail S root)
    (hloud : Loud S root) (source : Str) (items : List (Item n)) (hw : ItemsWF source items) (x : Tree n) :
    (∃ p' fuel', rootParse ext S fuel' root source items = .ok (.ok (some x)) p' ∧
      syntaxErrors p'.info.errors = [] ∧ (p'.view ext).rest = []) ↔
    ∃ c, Parses S source 0 root c x ∧ c.map (·.token) = streamOf ext items := by
  constructor
  · rintro ⟨p', f, h, he, hr⟩
    obtain ⟨md', r, q, g1, g2, -, g4, g5, g6⟩ := syntaxErrors_parse h
    rw [he] at g5
    have hy : Yields ext S md' root (Parser.new source items) r q := ⟨_, g2⟩
    have hnew : Reached ext source items (Parser.new source items) := .new
    have hsnd := hy.sound hnew hw (.inl hloud)
    have : r = .success x := by
      rcases (g4 x).1 rfl with h | ⟨e, h⟩
      · exact h
      · subst h
        exact absurd g5.symm (hsnd.recovered _ _ rfl)
    subst this
    obtain ⟨c, h4, h5, h6⟩ := C34_loud ext source items hw S md' root _ _ (.inl hloud) hnew x hy
    rw [← g6, hr, List.append_nil] at h6
    exact ⟨c, h5, h6.symm⟩
  · rintro ⟨c, hx, hc⟩
    have E : Found S md root G := .of_ll1 hmd hG (metadata_ll1 hmd hG hsafe) hpunct henum hsep
    obtain ⟨p', N, h1, -, h5, h6, -⟩ := parse_match ext S fuel root md G hmd E hl source items hw c x hx hc
    refine ⟨p', N, h1 N (Nat.le_refl _), ?_, h5⟩
    unfold syntaxErrors
    rw [List.filter_eq_nil_iff]
    intro e he
    simp [h6 e he]

/-- A token that parsing leaves over could not have been used: whatever the outcome of parsing an input is, if the
token `a` was not consumed, no input that agrees with it up to and including `a` is a sentence. Missing for the full
statement: as for `C35_parse_partial`. -/
theorem C77_stops_partial (ext : Fin n → Bool) (S : Schema m n) (fuel fuel' : Nat) (root : Ty m n)
    (md : Metadata (PId m n) n) (G : Grammar (PId m n) n) (hmd : S.metadata fuel root = some (.ok md))
    (hG : S.IsGrammar root G) (hsafe : SkipSafe G)
    (hpunct : ∀ t p, Reach S.tyParts root (.punct t p) → ∀ a tok, Beyond G a tok →
      ¬ EndsWith G a (Ty.punct t p).pid)
    (henum : ∀ k v vs, S k = .enum v vs → Reachable G root.pid (.user k) → Nullable G (.user k) →
      ∀ tok, ¬ FollowOf G root.pid (.user k) (some tok))
    (hsep : ∀ t p, Reach S.tyParts root (.split t p) → ¬ Nullable G p.pid) (hl : LoopTail S root)
    (common q1 q2 : Str) (pre post1 post2 : List (Item n)) (a : Token n)
    (hw1 : ItemsWF (common ++ q1) (pre ++ .token a :: post1))
    (hw2 : ItemsWF (common ++ q2) (pre ++ .token a :: post2)) (ha : a.span.hi ≤ common.length)
    (hext : ext a.ty = false) (x : Option (Tree n)) (p1' : Parser n)
    (h : rootParse ext S fuel' root (common ++ q1) (pre ++ .token a :: post1) = .ok (.ok x) p1')
    (hc : p1'.info.tokens.length ≤ (streamOf ext pre).length) :
    ¬ Derives G [.nt root.pid] ((inputWords ext (common ++ q2) (pre ++ .token a :: post2)).map .tok) := by
  intro hs
  have E : Found S md root G := .of_ll1 hmd hG (metadata_ll1 hmd hG hsafe) hpunct henum hsep
  obtain ⟨y, c, p', N, h1, -, h3, h4, -⟩ := parse_sentence ext S fuel root md G hmd hG E hl _ _ hw2 hs
  obtain ⟨p2', g1, g2, -⟩ := C68_parse ext S fuel' root common q1 q2 pre post1 post2 a hw1 hw2 ha hext x p1' h hc
  have e1 := h1 (max N fuel') (Nat.le_max_left _ _)
  rw [rootParse_more g1 (Nat.le_max_right N fuel')] at e1
  cases e1
  have hlen := congrArg List.length h3
  rw [← h4, g2, streamOf_append] at hlen
  simp only [List.length_map, List.length_append] at hlen
  have : 0 < (streamOf ext (.token a :: post2)).length := by simp [streamOf, tokensOf, hext]
  omega

/-! ### Examples -/

/-- Words open a list and the literal closes it: the difference for a symbol of `cxG`. -/
def cxWeight : Sym (PId 2 3) 3 → Int
  | .tok t => if t.ty = 0 then 1 else if t.ty = 2 then -1 else 0
  | .nt (.term ty _) => if ty = 0 then 1 else if ty = 2 then -1 else 0
  | .nt _ => 0

/-- Nothing is closed that was not opened. -/
def CxBal : Int → List (Sym (PId 2 3) 3) → Prop
  | k, [] => 0 ≤ k
  | k, s :: l => 0 ≤ k ∧ CxBal (k + cxWeight s) l

def cxSum (l : List (Sym (PId 2 3) 3)) : Int := (l.map cxWeight).sum

theorem cxBal_append (k : Int) (a b : List (Sym (PId 2 3) 3)) :
    CxBal k (a ++ b) ↔ CxBal k a ∧ CxBal (k + cxSum a) b := by
  induction a generalizing k with
  | nil =>
    simp only [List.nil_append, CxBal, cxSum, List.map_nil, List.sum_nil, Int.add_zero]
    constructor
    · intro h
      refine ⟨?_, h⟩
      cases b with
      | nil => exact h
      | cons s b => exact h.1
    · exact fun h => h.2
  | cons s a ih =>
    simp only [List.cons_append, CxBal, ih, cxSum, List.map_cons, List.sum_cons, and_assoc, Int.add_assoc]

theorem cxBal_mono {k k' : Int} (h : k ≤ k') : ∀ {l : List (Sym (PId 2 3) 3)}, CxBal k l → CxBal k' l
  | [], hl => Int.le_trans hl h
  | s :: _, hl => ⟨Int.le_trans hl.1 h, cxBal_mono (Int.add_le_add_right h (cxWeight s)) hl.2⟩

/-- The rules of `cxG` keep the difference and close nothing that was not opened. -/
def cxRuleOk : PId 2 3 × Rule (PId 2 3) 3 → Bool
  | (i, .eps) => cxWeight (.nt i) == 0
  | (i, .term t) => cxWeight (.nt i) == cxWeight (.tok ⟨t.ty, []⟩)
  | (i, .alt l) => l.all fun j => cxWeight (.nt i) == cxWeight (.nt j)
  | (i, .seq l) => cxWeight (.nt i) == 0 && (l.map .nt).foldl (fun k s => k.bind fun k =>
      if k + cxWeight s < 0 then none else some (k + cxWeight s)) (some (0 : Int)) == some 0

theorem cxFold {l : List (Sym (PId 2 3) 3)} {k : Int} (hk : 0 ≤ k)
    (h : l.foldl (fun k s => k.bind fun k => if k + cxWeight s < 0 then none else some (k + cxWeight s)) (some k) =
      some 0) : CxBal k l ∧ k + cxSum l = 0 := by
  induction l generalizing k with
  | nil =>
    cases h
    exact ⟨Int.le_refl _, rfl⟩
  | cons s l ih =>
    simp only [List.foldl_cons, Option.bind_some] at h
    split at h
    · exfalso
      have : ∀ l : List (Sym (PId 2 3) 3), l.foldl (fun k s => k.bind fun k => if k + cxWeight s < 0 then none else
          some (k + cxWeight s)) (none : Option Int) = none := by
        intro l
        induction l with
        | nil => rfl
        | cons s l ih => exact ih
      rw [this] at h
      cases h
    · obtain ⟨h1, h2⟩ := ih (by omega) h
      exact ⟨⟨hk, h1⟩, by simp only [cxSum, List.map_cons, List.sum_cons] at h2 ⊢; omega⟩

theorem cxExpands {i : PId 2 3} {γ} (h : Expands cxG i γ) (k : Int) (hk : CxBal k [.nt i]) :
    CxBal k γ ∧ cxSum γ = cxWeight (.nt i) := by
  have hall : cxG.all cxRuleOk = true := by decide +kernel
  have hok (r) (hr : (i, r) ∈ cxG) : cxRuleOk (i, r) = true := List.all_eq_true.1 hall _ hr
  cases h with
  | eps hm =>
    have := hok _ hm
    simp only [cxRuleOk, beq_iff_eq] at this
    exact ⟨hk.1, this.symm⟩
  | term hm ht =>
    have := hok _ hm
    simp only [cxRuleOk, beq_iff_eq] at this
    rename_i t tok
    have e : cxWeight (.tok tok) = cxWeight (.nt i) := by rw [this]; simp [cxWeight, ht.1]
    exact ⟨⟨hk.1, by rw [e]; exact hk.2⟩, by simp [cxSum, e]⟩
  | seq hm =>
    have := hok _ hm
    simp only [cxRuleOk, Bool.and_eq_true, beq_iff_eq] at this
    obtain ⟨h1, h2⟩ := cxFold (Int.le_refl 0) this.2
    exact ⟨cxBal_mono hk.1 h1, by omega⟩
  | alt hm hj =>
    have := hok _ hm
    simp only [cxRuleOk] at this
    have := List.all_eq_true.1 this _ hj
    simp only [beq_iff_eq] at this
    exact ⟨⟨hk.1, by rw [← this]; exact hk.2⟩, by simp [cxSum, this]⟩

theorem cxDerives {α δ : List (Sym (PId 2 3) 3)} (h : Derives cxG α δ) : CxBal 0 α → CxBal 0 δ := by
  induction h with
  | refl => exact id
  | step he _ ih =>
    intro hb
    apply ih
    rw [List.append_cons, cxBal_append, cxBal_append] at hb
    rw [cxBal_append, cxBal_append]
    obtain ⟨h1, h2⟩ := cxExpands he _ hb.1.2
    refine ⟨⟨hb.1.1, h1⟩, ?_⟩
    have : ∀ a b : List (Sym (PId 2 3) 3), cxSum (a ++ b) = cxSum a + cxSum b := by simp [cxSum]
    have h3 := hb.2
    rw [this] at h3 ⊢
    rw [h2]
    simpa [cxSum] using h3

/-- Example: one or more `E`, with `E = num | L` and `L = word E* "x"`. -/
def xxT : Ty 2 3 := .plus (.user 0)
/-- The input `a 1 x 3 x`: the first four tokens are a sentence, and the last one cannot come next. -/
def xxSource : Str := [97, 32, 49, 32, 120, 32, 51, 32, 120]
def xxU : List (Token 3) := [⟨⟨0, 1⟩, 0⟩, ⟨⟨2, 3⟩, 1⟩, ⟨⟨4, 5⟩, 2⟩, ⟨⟨6, 7⟩, 1⟩]
def xxA : Token 3 := ⟨⟨8, 9⟩, 2⟩
def xxItems : List (Item 3) := (xxU ++ [xxA]).map .token

theorem xx_wf : ItemsWF xxSource xxItems := by unfold ItemsWF xxItems xxSource xxU xxA; decide
theorem xxMd_ok : cxS.metadata 40 xxT = some (.ok cxMd) := rfl
theorem xxG_ok : cxS.IsGrammar xxT cxG := .of_register (fuel := 40) rfl

theorem xx_sentence : Derives cxG [.nt xxT.pid] ((xxU.map (·.word xxSource)).map .tok) := by
  have num (s) : Der cxG (.user 0) [⟨1, s⟩] :=
    Der.alt (l := [.term 1 ⟨1, none⟩, .user 1]) (j := .term 1 ⟨1, none⟩) (by decide) (by decide)
      (Der.term (t := ⟨1, none⟩) (by decide) ⟨rfl, by simp⟩)
  have nil : Der cxG (.opt (.plus (.user 0))) [] :=
    Der.alt (l := [.plus (.user 0), .eps]) (j := .eps) (by decide) (by decide) (Der.eps (by decide))
  have one {w} (h : Der cxG (.user 0) w) : Der cxG (.plus (.user 0)) w := by
    have := Der.seq1 (i := .plus (.user 0)) (by decide) h nil
    simpa using this
  have hword : Der cxG (.term 0 ⟨0, none⟩) [⟨0, [97]⟩] := Der.term (t := ⟨0, none⟩) (by decide) ⟨rfl, by simp⟩
  have hx : Der cxG (.term 2 ⟨2, some [120]⟩) [⟨2, [120]⟩] :=
    Der.term (t := ⟨2, some [120]⟩) (by decide) ⟨rfl, by simp⟩
  have hl : Der cxG (.user 1) [⟨0, [97]⟩, ⟨1, [49]⟩, ⟨2, [120]⟩] :=
    Der.seq (i := .user 1) (by decide) (.cons hword (.cons
      (Der.alt (i := .opt (.plus (.user 0))) (l := [.plus (.user 0), .eps]) (by decide) (by decide)
        (one (num [49]))) (.cons hx .nil)))
  have he : Der cxG (.user 0) [⟨0, [97]⟩, ⟨1, [49]⟩, ⟨2, [120]⟩] :=
    Der.alt (l := [.term 1 ⟨1, none⟩, .user 1]) (j := .user 1) (by decide) (by decide) hl
  exact Der.seq1 (i := .plus (.user 0)) (b := .opt (.plus (.user 0))) (by decide) he
    (Der.alt (l := [.plus (.user 0), .eps]) (j := .plus (.user 0)) (by decide) (by decide) (one (num [51])))

theorem xx_stop : ¬ Continues cxG xxT.pid (xxU.map (·.word xxSource)) (xxA.word xxSource) := by
  rintro ⟨β, h⟩
  have := cxDerives h ⟨by decide, show (0 : Int) ≤ _ by decide⟩
  rw [List.append_cons, cxBal_append] at this
  obtain ⟨_, _, _, _, _, h5⟩ := this.1
  exact absurd (show (0 : Int) ≤ _ from h5) (by decide +kernel)

theorem xx_calm : Calm cxS cxG xxT.pid := by
  have hnul : ∀ i, Null cxG i → (cxMd.first.get i).contains none = true :=
    fun i hi => (metadata_first cxMd_ok cxG_ok i none).2 hi.nullable
  constructor
  · intro t p h
    have := tail_of_check hnul (s := [.plus (.user 0), .opt (.plus (.user 0)), .eps, .user 0, .term 1 ⟨1, none⟩, .user 1,
      .term 2 ⟨2, some [120]⟩]) (by decide +kernel) (by decide) h.tailOf
    simp [Ty.pid, Ty.prod, PId.id] at this
  · intro k v vs _ _ hn
    have h := (metadata_first cxMd_ok cxG_ok (.user k) none).2 hn
    have hno : ∀ k : Fin 2, (cxMd.first.get (.user k)).contains none = false := by decide +kernel
    rw [hno k] at h
    cases h

theorem xx_loop : LoopFree cxS xxT := loopFree_of_check (xxT :: cxU) (by decide) (by decide +kernel) (by decide +kernel)
theorem xx_reach {t : Ty 2 3} (h : Reach cxS.tyParts xxT t) : t ∈ xxT :: cxU :=
  reach_of_check (xxT :: cxU) (by decide) (by decide +kernel) h
theorem xx_punct (t p : Ty 2 3) (h : Reach cxS.tyParts xxT (.punct t p)) :
    ∀ a tok, Beyond cxG a tok → ¬ EndsWith cxG a (Ty.punct t p).pid := by
  have := xx_reach h
  simp [cxU, xxT] at this
theorem xx_sep (t p : Ty 2 3) (h : Reach cxS.tyParts xxT (.split t p)) : ¬ Nullable cxG p.pid := by
  have := xx_reach h
  simp [cxU, xxT] at this
theorem xx_loud : Loud cxS xxT := by
  refine (RecoverFree.loud ?_).1
  intro t ht a b h
  subst h
  have := xx_reach ht
  simp [cxU, xxT] at this

/-- Parsing stops before the last token, with the tree of the four tokens before it. -/
example : ∃ x c p' N, (∀ fuel' ≥ N, rootParse noExt cxS fuel' xxT xxSource xxItems = .ok (.ok (some x)) p') ∧
    Parses cxS xxSource 0 xxT c x ∧ c.map (·.token) = xxU ∧ p'.info.tokens = c ∧ (p'.view noExt).rest = [xxA] ∧
    syntaxErrors p'.info.errors = [] :=
  C77_longest_partial noExt cxS 40 xxT cxMd cxG xxMd_ok xxG_ok cx_safe xx_punct cx_enum xx_sep xx_loop xx_calm
    xxSource xxItems xx_wf xxU [xxA] (by rfl) xx_sentence
    (by rintro a l h; cases h; exact xx_stop)

/-- `a 1 x 3` is accepted and, with the literal at the end, it is not. -/
example : (∃ x p' fuel', rootParse noExt cxS fuel' xxT (xxSource.take 7) (xxU.map .token) = .ok (.ok (some x)) p' ∧
    syntaxErrors p'.info.errors = [] ∧ (p'.view noExt).rest = []) :=
  (C77_accepts_partial noExt cxS 40 xxT cxMd cxG xxMd_ok xxG_ok cx_safe xx_punct cx_enum xx_sep xx_loop xx_loud
    (xxSource.take 7) (xxU.map .token) (by unfold ItemsWF xxSource xxU; decide)).2 xx_sentence

theorem cx_loud : Loud cxS cxT := by
  refine (RecoverFree.loud ?_).1
  intro t ht a b h
  subst h
  have := reach_of_check (cxT :: cxU) (by decide) (by decide +kernel) ht
  simp [cxU, cxT] at this

/-- `Loop<E>` accepts the empty input, with an empty list. -/
example : ∃ p' fuel', rootParse noExt cxS fuel' cxT [] [] = .ok (.ok (some (.list ⟨0, 0⟩ []))) p' ∧
    syntaxErrors p'.info.errors = [] ∧ (p'.view noExt).rest = [] :=
  (C77_matches_partial noExt cxS 40 cxT cxMd cxG cxMd_ok cxG_ok cx_safe cx_punct cx_enum cx_sep cx_loop cx_loud
    [] [] (by unfold ItemsWF; decide) (.list ⟨0, 0⟩ [])).2 ⟨[], .loopNone, rfl⟩

/-- Whatever comes after the last token, the input is not a sentence. -/
example (q : Str) (post : List (Item 3))
    (hw : ItemsWF (xxSource ++ q) (xxU.map .token ++ .token xxA :: post)) :
    ¬ Derives cxG [.nt xxT.pid] ((inputWords noExt (xxSource ++ q) (xxU.map .token ++ .token xxA :: post)).map .tok) := by
  have hr : ∃ x p', rootParse noExt cxS 60 xxT xxSource xxItems = .ok (.ok x) p' ∧ p'.info.tokens.length = 4 :=
    ⟨_, _, by rfl, by rfl⟩
  obtain ⟨x, p', h1, h2⟩ := hr
  exact C77_stops_partial noExt cxS 40 60 xxT cxMd cxG xxMd_ok xxG_ok cx_safe xx_punct cx_enum xx_sep (.free xx_loop)
    xxSource [] q (xxU.map .token) [] post xxA (by rw [List.append_nil]; exact xx_wf) hw (by decide) rfl x p'
    (by rw [List.append_nil]; exact h1) (by rw [h2]; decide)

/-! ### Counterexamples -/

/-- `Punct<word, num>` on `a 1 x`: `a 1` is a sentence, `x` is not even a token of the grammar, and an error is
reported and `x` is skipped: the list insists on the token after a trailing separator. -/
def xpT : Ty 0 3 := .punct exWord exNum
def xpG : Grammar (PId 0 3) 3 := (registerFrom exS.rule 30 xpT.pid).getD []
def xpSource : Str := [97, 32, 49, 32, 120]
def xpU : List (Token 3) := [⟨⟨0, 1⟩, 0⟩, ⟨⟨2, 3⟩, 1⟩]
def xpA : Token 3 := ⟨⟨4, 5⟩, 2⟩

/-- A token type without a terminal is not in any sentential form. -/
theorem derives_no_type {I : Type} {G : Grammar I n} {ty : Fin n} (hG : ∀ i t, (i, Rule.term t) ∈ G → t.ty ≠ ty)
    {α δ : List (Sym I n)} (h : Derives G α δ) : (∀ t, Sym.tok t ∈ α → t.ty ≠ ty) → ∀ t, Sym.tok t ∈ δ → t.ty ≠ ty := by
  induction h with
  | refl => exact id
  | step he _ ih =>
    intro ha
    apply ih
    intro t ht
    simp only [List.mem_append] at ht
    rcases ht with (ht | ht) | ht
    · exact ha t (by simp [ht])
    · cases he with
      | eps _ => cases ht
      | term hm hmt =>
        cases List.mem_singleton.1 ht
        rw [hmt.1]
        exact hG _ _ hm
      | seq _ => simp at ht
      | alt _ _ => simp at ht
    · exact ha t (by simp [ht])

/-- Terminals of other types only. -/
def noTerm (ty : Fin n) : PId m n × Rule (PId m n) n → Bool
  | (_, .term t) => decide (t.ty ≠ ty)
  | _ => true

theorem not_continues_of_check {G : Grammar (PId m n) n} {i : PId m n} {w : List (TokenSrc n)} {tok : TokenSrc n}
    (h : G.all (noTerm tok.ty) = true) : ¬ Continues G i w tok := by
  rintro ⟨β, hd⟩
  refine derives_no_type (ty := tok.ty) ?_ hd (by simp) tok (by simp) rfl
  intro i t hm
  have := List.all_eq_true.1 h _ hm
  simpa [noTerm] using this

theorem C77_false_punct : accepted exS xpT = true ∧ exS.IsGrammar xpT xpG ∧ NoNullableInterior xpG ∧ LoopFree exS xpT ∧
    ItemsWF xpSource ((xpU ++ [xpA]).map .token) ∧
    Derives xpG [.nt xpT.pid] ((xpU.map (·.word xpSource)).map .tok) ∧
    ¬ Continues xpG xpT.pid (xpU.map (·.word xpSource)) (xpA.word xpSource) ∧
    summary noExt (rootParse noExt exS 60 xpT xpSource ((xpU ++ [xpA]).map .token)) = some (true, 1, 0) := by
  refine ⟨by rfl, .of_register (fuel := 30) rfl,
    noInterior_of_check (S := exS) (md := okOf ⟨[], [], []⟩ (exS.metadata 60 xpT)) (fuel := 60) (root := xpT) (by rfl)
      (.of_register (fuel := 30) rfl) (by decide +kernel),
    loopFree_of_check [xpT, exWord, exNum] (by decide) (by decide +kernel) (by decide +kernel),
    by unfold ItemsWF xpSource xpU xpA; decide, ?_, not_continues_of_check (by decide +kernel), by rfl⟩
  have hw : Der xpG exWord.pid [⟨0, [97]⟩] := Der.term (t := ⟨0, none⟩) (by decide) ⟨rfl, by simp⟩
  have hn : Der xpG exNum.pid [⟨1, [49]⟩] := Der.term (t := ⟨1, none⟩) (by decide) ⟨rfl, by simp⟩
  have h0 : Der xpG (.opt xpT.prod) [] :=
    Der.alt (l := [xpT.pid, .eps]) (j := .eps) (by decide) (by decide) (Der.eps (by decide))
  have h1 : Der xpG (.tup2 exNum.prod (.opt xpT.prod)) [⟨1, [49]⟩] :=
    Der.seq1 (i := .tup2 exNum.prod (.opt xpT.prod)) (by decide) hn h0
  have h2 : Der xpG (.opt (.tup2 exNum.prod (.opt xpT.prod))) [⟨1, [49]⟩] :=
    Der.alt (l := [.tup2 exNum.prod (.opt xpT.prod), .eps]) (by decide) (by decide) h1
  exact Der.seq1 (G := xpG) (i := xpT.pid) (by decide) hw h2

/-- `enum E = num? | Y` on a word: nothing is a sentence, the word is not even a token of the grammar, and no tree
is returned. -/
def xeT : Ty 1 4 := .user 0
def xeG : Grammar (PId 1 4) 4 := (registerFrom exNE.rule 30 xeT.pid).getD []
def xeA : Token 4 := ⟨⟨0, 1⟩, 0⟩

theorem C77_false_enum : accepted exNE xeT = true ∧ exNE.IsGrammar xeT xeG ∧ NoNullableInterior xeG ∧
    LoopFree exNE xeT ∧ ItemsWF [97] [.token xeA] ∧ Derives xeG [.nt xeT.pid] [] ∧
    ¬ Continues xeG xeT.pid [] (xeA.word [97]) ∧
    summary noExt (rootParse noExt exNE 60 xeT [97] [.token xeA]) = some (false, 1, 1) := by
  refine ⟨by rfl, .of_register (fuel := 30) rfl,
    noInterior_of_check (S := exNE) (md := okOf ⟨[], [], []⟩ (exNE.metadata 60 xeT)) (fuel := 60) (root := xeT) (by rfl)
      (.of_register (fuel := 30) rfl) (by decide +kernel),
    loopFree_of_check [xeT, .option (.term 1 ⟨1, none⟩), .term 1 ⟨1, none⟩, .term 3 ⟨3, none⟩] (by decide)
      (by decide +kernel) (by decide +kernel),
    by unfold ItemsWF xeA; decide, ?_, not_continues_of_check (by decide +kernel), by rfl⟩
  exact Der.alt (G := xeG) (i := .user 0) (l := [.opt (.term 1 ⟨1, none⟩), .term 3 ⟨3, none⟩])
    (j := .opt (.term 1 ⟨1, none⟩)) (by decide) (by decide)
    (Der.alt (l := [.term 1 ⟨1, none⟩, .eps]) (j := .eps) (by decide) (by decide) (Der.eps (by decide)))

end Teleparse
