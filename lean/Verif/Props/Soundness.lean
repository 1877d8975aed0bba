import Verif.Props.Combinators
import Verif.Proof.Sound
import Verif.Proof.Sentence
import Verif.Proof.Shape
import Verif.Proof.Nest
import Verif.Proof.Lead
/-
Properties C34 (soundness), C37 (errors are reported), C40 (shapes), C42 (nested spans), C43 (semantic
types of fields), C44 (text of a quoted node).
-/
namespace Teleparse
variable {m n : Nat}

/-! ## C34: soundness -/

/-- Success in any reachable state with any table: the cells appended to the token store match the type and
the tree is the tree of this match; their tokens are the next tokens of the input. `Loud` says that no part
that can fail without an error (`Recover`, see C37) is inside an option, a repetition or a `Recover`. Such failures are
at the end of the input (`C37_end_partial`), so the claim holds for any type if the parse leaves something. -/
theorem C34_loud (ext : Fin n → Bool) (source : Str) (items : List (Item n)) (hw : ItemsWF source items)
    (S : Schema m n) (md : Metadata (PId m n) n) (t : Ty m n) (p p' : Parser n)
    (hl : Loud S t ∨ (p'.view ext).rest ≠ []) (hp : Reached ext source items p) (x : Tree n) (h : Yields ext S md t p (.success x) p') :
    ∃ c, p'.info.tokens = p.info.tokens ++ c ∧ Parses S source p.emptySpan.lo t c x ∧
      (p.view ext).rest = c.map (·.token) ++ (p'.view ext).rest := by
  obtain ⟨c, h1, h2⟩ := (h.sound hp hw hl).success x rfl
  refine ⟨c, h1, h2, ?_⟩
  obtain ⟨ts, h3, h4⟩ := h.run.adv.cons
  have h5 : ts = c.map (·.token) := by
    have : (p.view ext).cells.map (·.token) ++ ts = (p.view ext).cells.map (·.token) ++ c.map (·.token) := by
      rw [← List.map_append, ← h1]; exact h4.symm
    exact List.append_cancel_left this
  rw [← h5]
  exact h3

/-- The statement of C34: types without `Recover`. -/
theorem C34_success (ext : Fin n → Bool) (source : Str) (items : List (Item n)) (hw : ItemsWF source items)
    (S : Schema m n) (md : Metadata (PId m n) n) (t : Ty m n) (hl : RecoverFree S t) (p p' : Parser n)
    (hp : Reached ext source items p) (x : Tree n) (h : Yields ext S md t p (.success x) p') :
    ∃ c, p'.info.tokens = p.info.tokens ++ c ∧ Parses S source p.emptySpan.lo t c x ∧
      (p.view ext).rest = c.map (·.token) ++ (p'.view ext).rest :=
  C34_loud ext source items hw S md t p p' (.inl hl.loud.1) hp x h

/-- The consumed tokens are derived from the type's symbol in the context-free grammar. Types with `Loop`
are left out because `Loop` accepts the empty input and its production does not (see C45). -/
theorem C34_grammar (ext : Fin n → Bool) (source : Str) (items : List (Item n)) (hw : ItemsWF source items)
    (S : Schema m n) (md : Metadata (PId m n) n) (t : Ty m n) (hloop : LoopFree S t)
    (G : Grammar (PId m n) n) (hG : S.IsGrammar t G) (p p' : Parser n)
    (hl : Loud S t ∨ (p'.view ext).rest ≠ []) (hp : Reached ext source items p)
    (x : Tree n) (h : Yields ext S md t p (.success x) p') :
    ∃ c, p'.info.tokens = p.info.tokens ++ c ∧ Derives G [.nt t.pid] ((wordOf source c).map .tok) := by
  obtain ⟨c, h1, h2⟩ := (h.sound hp hw hl).success x rfl
  exact ⟨c, h1, h2.der hG hloop ⟨.refl, .refl⟩⟩

/-- Whole parses: `Root::parse` returns a tree and there are no errors. The tree is a match of a prefix of
the input. (Recovered trees always have errors, C37.) -/
theorem C34_parse (ext : Fin n → Bool) (source : Str) (items : List (Item n)) (hw : ItemsWF source items)
    (S : Schema m n) (fuel : Nat) (t : Ty m n) (p' : Parser n) (hl : Loud S t ∨ (p'.view ext).rest ≠ []) (x : Tree n)
    (h : rootParse ext S fuel t source items = .ok (.ok (some x)) p') (he : p'.info.errors = []) :
    ∃ c rest, Parses S source 0 t c x ∧ streamOf ext items = c.map (·.token) ++ rest ∧
      p'.info.tokens = c := by
  rcases parse_ok h with ⟨e, _, he, _⟩ | ⟨md, x', _, hx', h1⟩
  · cases he
  cases hx'
  obtain ⟨r, q, h2, rfl, _, h3⟩ := parseWithMeta_ok h1
  have hy : Yields ext S md t (Parser.new source items) r q := ⟨_, h2⟩
  have hnew : Reached ext source items (Parser.new source items) := .new
  obtain ⟨e, hg⟩ := (h3 x).1 rfl
  have hs := hy.sound hnew hw hl
  have hre : r.errs = [] := (List.append_eq_nil_iff.1 he).2
  have : r = .success x := by
    cases hg with
    | success => rfl
    | recovered e => exact absurd hre (hs.recovered _ _ rfl)
  subst this
  obtain ⟨c, h4, h5, h6⟩ := C34_loud ext source items hw S md t _ q hl hnew x hy
  exact ⟨c, (q.view ext).rest, h5, h6, h4⟩

/-- Example: `(word, Option<number>)` matches `ab $%12` (the invalid characters are not tokens). -/
theorem RecoverFree.example : RecoverFree exS (.tup2 exWord (.option exNum)) := by
  intro u hu
  have : u = .tup2 exWord (.option exNum) ∨ u = exWord ∨ u = .option exNum ∨ u = exNum := by
    induction hu with
    | refl => exact .inl rfl
    | step _ hj ih =>
      rcases ih with rfl | rfl | rfl | rfl <;> simp [Schema.tyParts, exWord, exNum] at hj ⊢
      · rcases hj with rfl | rfl <;> simp
      · simp [hj]
  rcases this with rfl | rfl | rfl | rfl <;> intro a b h <;> cases h
example : ∃ p', Yields exExt exS rxMd (.tup2 exWord (.option exNum)) (Parser.new exSource exItems)
    (.success (.seq ⟨0, 7⟩ [.tok ⟨⟨0, 2⟩, 0⟩, .optSome ⟨5, 7⟩ (.tok ⟨⟨5, 7⟩, 1⟩)])) p' := ⟨_, 10, by rfl⟩
example : ∃ p', Yields exExt exS rxMd (.tup2 exWord exNum) (Parser.new exSource exItems)
    (.success (.seq ⟨0, 7⟩ [.tok ⟨⟨0, 2⟩, 0⟩, .tok ⟨⟨5, 7⟩, 1⟩])) p' := ⟨_, 10, by rfl⟩

/-! ## C37: errors are reported -/

/-- Recovering always has an error; failing has one or the type is a `Recover` or fails with it. Missing
for the full statement: `Recover` (false there). -/
theorem C37_partial (ext : Fin n → Bool) (source : Str) (items : List (Item n)) (hw : ItemsWF source items)
    (S : Schema m n) (md : Metadata (PId m n) n) (t : Ty m n) (p p' : Parser n)
    (hl : Loud S t ∨ (p'.view ext).rest ≠ []) (hp : Reached ext source items p) (r : Res n (Tree n)) (h : Yields ext S md t p r p') :
    (∀ x e, r = .recovered x e → e ≠ []) ∧ (∀ e, r = .panic e → e ≠ [] ∨ Silent S t) :=
  ⟨(h.sound hp hw hl).recovered, fun e he => ((h.sound hp hw hl).panic e he).imp id (·.1)⟩

/-- The full statement for types without `Recover`. -/
theorem C37_recoverFree_partial (ext : Fin n → Bool) (source : Str) (items : List (Item n))
    (hw : ItemsWF source items) (S : Schema m n) (md : Metadata (PId m n) n) (t : Ty m n)
    (hl : RecoverFree S t) (p p' : Parser n) (hp : Reached ext source items p) (r : Res n (Tree n))
    (h : Yields ext S md t p r p') (hns : ∀ x, r ≠ .success x) : r.errs ≠ [] := by
  obtain ⟨h1, h2⟩ := C37_partial ext source items hw S md t p p' (.inl hl.loud.1) hp r h
  cases r with
  | success x => exact absurd rfl (hns x)
  | recovered x e => exact h1 x e rfl
  | panic e => exact (h2 e rfl).resolve_right hl.loud.2

/-- Also with `Recover` a failure without errors happens only at the end of input. -/
theorem C37_end_partial (ext : Fin n → Bool) (S : Schema m n) (md : Metadata (PId m n) n) (t : Ty m n)
    (p p' : Parser n) (h : Yields ext S md t p (.panic []) p') : p'.lookahead ext = none := by
  have : (p'.view ext).rest = [] := h.run.shape rfl
  simp [Parser.lookahead, this]

/-- `Parser::parse` returning no tree reports an error, if the root does not fail silently. -/
theorem C37_parse_partial (ext : Fin n → Bool) (source : Str) (items : List (Item n))
    (hw : ItemsWF source items) (S : Schema m n) (fuel : Nat) (t : Ty m n) (hl : Loud S t)
    (hns : ¬ Silent S t) (p p' : Parser n) (hp : Reached ext source items p)
    (h : p.parse ext S fuel t = .ok (.ok none) p') : p'.info.errors ≠ [] := by
  rcases parse_ok h with ⟨e, _, he, _⟩ | ⟨md, x', _, hx', h1⟩
  · cases he
  cases hx'
  obtain ⟨r, q, h2, rfl, h3, _⟩ := parseWithMeta_ok h1
  obtain ⟨e, rfl⟩ := h3.1 rfl
  have hy : Yields ext S md t p (.panic e) q := ⟨_, h2⟩
  have := ((hy.sound hp hw (.inl hl)).panic e rfl).resolve_right fun h => hns h.1
  intro he
  exact this (List.append_eq_nil_iff.1 he).2

def sxT : Ty 0 3 := .star (.recover exWord exNum)
def sxMd : Metadata (PId 0 3) 3 := okOf ⟨[], [], []⟩ (exS.metadata 30 sxT)
def sxItems : List (Item 3) := [.token ⟨⟨0, 1⟩, 0⟩, .token ⟨⟨2, 3⟩, 1⟩, .token ⟨⟨4, 5⟩, 0⟩]
/-- Parse result and number of errors. -/
def outcome : Out (Parser 3) (Except (GErr (PId 0 3)) (Option (Tree 3))) → Option (Bool × Nat × Nat)
  | .ok (.ok x) p => some (x.isSome, p.info.tokens.length, p.info.errors.length)
  | _ => none

/-- The claim is false: `Recover<word, number>` on `a` returns no tree and no error; and
`Star<Recover<word, number>>` on `a 1 b` succeeds with one element, having dropped `b` without an error. -/
theorem C37_false :
    outcome (rootParse exExt exS 30 (.recover exWord exNum) [97] [.token ⟨⟨0, 1⟩, 0⟩]) = some (false, 1, 0) ∧
    exS.metadata 30 sxT = some (.ok sxMd) ∧ ItemsWF [97, 32, 49, 32, 98] sxItems ∧
    ∃ p', Yields exExt exS sxMd sxT (Parser.new [97, 32, 49, 32, 98] sxItems) (.success (.list ⟨0, 3⟩
      [.recover ⟨0, 1⟩ (.tok ⟨⟨0, 1⟩, 0⟩) (.tok ⟨⟨2, 3⟩, 1⟩)])) p' ∧ p'.lookahead exExt = none := by
  refine ⟨by rfl, by rfl, by unfold ItemsWF sxItems; decide, _, ⟨20, by rfl⟩, by rfl⟩

/-- Examples: a failing parse of a type without `Recover`; `Loud` with a `Recover`. -/
example : ∃ p' e, Yields exExt exS rxMd (.tup2 exWord (.option exNum)) (Parser.new [49] [.token ⟨⟨0, 1⟩, 1⟩])
    (.panic [e]) p' := ⟨_, _, 10, by rfl⟩
example : Loud exS (.recover exWord exNum) := by
  intro u hu
  have : u = .recover exWord exNum ∨ u = exWord ∨ u = exNum := by
    induction hu with
    | refl => exact .inl rfl
    | step _ hj ih =>
      rcases ih with rfl | rfl | rfl <;> simp [Schema.tyParts, exWord, exNum] at hj ⊢ <;> simp_all
  rcases this with rfl | rfl | rfl <;> intro e he hs
  · simp [Ty.absorbed] at he
    subst he
    cases hs with
    | tuple ht => rcases ht with ⟨_, _, h, _⟩ | ⟨_, _, _, h, _⟩ | ⟨_, _, _, _, h, _⟩ | ⟨_, _, _, _, _, h, _⟩ <;> cases h
  · simp [Ty.absorbed, exWord] at he
  · simp [Ty.absorbed, exNum] at he

/-! ## C40: shapes of repetitions -/

theorem tree?_ofPair {x y : Tree n} {e : List (Err n)} (h : (Res.ofPair x e).tree? = some y) : y = x := by
  unfold Res.ofPair at h
  cases e <;> simp [Res.tree?] at h <;> exact h.symm

/-- `Plus` is never empty. -/
theorem C40_plus (ext : Fin n → Bool) (S : Schema m n) (md : Metadata (PId m n) n) (t : Ty m n)
    (p p' : Parser n) (r : Res n (Tree n)) (h : Yields ext S md (.plus t) p r p') (x : Tree n)
    (hx : r.tree? = some x) : ∃ sp l, x = .list sp l ∧ 1 ≤ l.length := by
  have hr := h.run
  generalize p.view ext = v at hr
  generalize p'.view ext = v' at hr
  cases hr with
  | tuple ht => cases ht
  | tuplePanic ht => cases ht
  | optNone ht => cases ht
  | optSuccess ht => cases ht
  | optRecovered ht => cases ht
  | optPanic ht => cases ht
  | textSuccess ht => cases ht
  | textRecovered ht => cases ht
  | textPanic ht => cases ht
  | plusPanic => cases hx
  | plus _ _ hi =>
    obtain ⟨new, h1⟩ := hi.shape
    rw [tree?_ofPair hx]
    exact ⟨_, _, rfl, by rw [h1]; simp⟩

/-- `Split` has at least one element and one separator less than elements, also when recovered. -/
theorem C40_split (ext : Fin n → Bool) (S : Schema m n) (md : Metadata (PId m n) n) (t q : Ty m n)
    (p p' : Parser n) (r : Res n (Tree n)) (h : Yields ext S md (.split t q) p r p') (x : Tree n)
    (hx : r.tree? = some x) : ∃ sp es ps, x = .split sp es ps ∧ es.length = ps.length + 1 := by
  have hr := h.run
  generalize p.view ext = v at hr
  generalize p'.view ext = v' at hr
  cases hr with
  | tuple ht => cases ht
  | tuplePanic ht => cases ht
  | optNone ht => cases ht
  | optSuccess ht => cases ht
  | optRecovered ht => cases ht
  | optPanic ht => cases ht
  | textSuccess ht => cases ht
  | textRecovered ht => cases ht
  | textPanic ht => cases ht
  | splitPanic => cases hx
  | split _ _ hi =>
    obtain ⟨es, ps, h1, h2, h3⟩ := hi.shape
    rw [tree?_ofPair hx]
    exact ⟨_, _, _, rfl, by rw [h1, h2]; simp [h3]⟩

/-- `Punct` has at least one element; after a success as many separators as elements or one less. -/
theorem C40_punct (ext : Fin n → Bool) (S : Schema m n) (md : Metadata (PId m n) n) (t q : Ty m n)
    (p p' : Parser n) (r : Res n (Tree n)) (h : Yields ext S md (.punct t q) p r p') (x : Tree n)
    (hx : r.tree? = some x) : ∃ sp es ps, x = .split sp es ps ∧ 1 ≤ es.length ∧
      (r = .success x → es.length = ps.length ∨ es.length = ps.length + 1) := by
  have hr := h.run
  generalize p.view ext = v at hr
  generalize p'.view ext = v' at hr
  cases hr with
  | tuple ht => cases ht
  | tuplePanic ht => cases ht
  | optNone ht => cases ht
  | optSuccess ht => cases ht
  | optRecovered ht => cases ht
  | optPanic ht => cases ht
  | textSuccess ht => cases ht
  | textRecovered ht => cases ht
  | textPanic ht => cases ht
  | punctPanic => cases hx
  | @punct _ _ _ _ _ e _ a _ _ _ hi =>
    obtain ⟨e', es, ps, h0, h1, h2, h3, _⟩ := hi.shape
    rw [tree?_ofPair hx]
    refine ⟨_, _, _, rfl, by rw [h1]; simp, ?_⟩
    intro hs
    have he : a.errs = [] := by
      unfold punctDone Res.ofPair at hs
      cases hb : a.errs with
      | nil => rfl
      | cons b l => rw [hb] at hs; cases hs
    rw [h0] at he
    have := h3 (List.append_eq_nil_iff.1 he).2
    rw [h1, h2]
    simp
    omega

/-- Examples: `Split` of words by numbers on `a 1` drops the separator; `Punct` keeps it. -/
def pxItems : List (Item 3) := [.token ⟨⟨0, 1⟩, 0⟩, .token ⟨⟨2, 3⟩, 1⟩]
def pxMd : Metadata (PId 0 3) 3 := okOf ⟨[], [], []⟩ (exS.metadata 30 (.punct exWord exNum))
def splitMd : Metadata (PId 0 3) 3 := okOf ⟨[], [], []⟩ (exS.metadata 30 (.split exWord exNum))
example : ∃ p' e, Yields exExt exS splitMd (.split exWord exNum) (Parser.new [97, 32, 49] pxItems)
    (.recovered (.split ⟨0, 1⟩ [.tok ⟨⟨0, 1⟩, 0⟩] []) [e]) p' := ⟨_, _, 20, by rfl⟩
example : ∃ p', Yields exExt exS pxMd (.punct exWord exNum) (Parser.new [97, 32, 49] pxItems)
    (.success (.split ⟨0, 3⟩ [.tok ⟨⟨0, 1⟩, 0⟩] [.tok ⟨⟨2, 3⟩, 1⟩])) p' := ⟨_, 20, by rfl⟩

/-! ## C42: nested spans -/

/-- After a success all spans are in order and nested, and lie between the ends of the last tokens consumed
before and after. Missing for the full statement: recovered trees (false there). -/
theorem C42_success_partial (ext : Fin n → Bool) (source : Str) (items : List (Item n))
    (hw : ItemsWF source items) (S : Schema m n) (md : Metadata (PId m n) n) (t : Ty m n)
    (p p' : Parser n) (hl : Loud S t ∨ (p'.view ext).rest ≠ []) (hp : Reached ext source items p) (x : Tree n)
    (h : Yields ext S md t p (.success x) p') :
    x.Nested ∧ p.emptySpan.lo ≤ x.span.lo ∧ x.span.hi ≤ p'.emptySpan.lo := by
  obtain ⟨c, h1, h2⟩ := (h.sound hp hw hl).success x rfl
  have hs := (hp.sortedView hw).run h.run
  obtain ⟨h3, h4, h5⟩ := h2.between (hs.after h1)
  refine ⟨h4, h3, ?_⟩
  rw [← pos_of_cells h1] at h5
  exact h5

/-- All trees, also recovered ones and with `Recover`, if the text ends with the last token. -/
theorem C42_end_partial (ext : Fin n → Bool) (source : Str) (items : List (Item n))
    (hw : ItemsWF source items)
    (hend : ((streamOf ext items).getLast?.map (·.span.hi)).getD 0 = source.length)
    (S : Schema m n) (md : Metadata (PId m n) n) (t : Ty m n)
    (p p' : Parser n) (hp : Reached ext source items p) (r : Res n (Tree n)) (x : Tree n)
    (h : Yields ext S md t p r p') (hx : r.tree? = some x) :
    x.Nested ∧ p.emptySpan.lo ≤ x.span.lo ∧ x.span.hi ≤ p'.emptySpan.lo := by
  have ht : Tight source (p.view ext) := ⟨hp.sortedView hw, by
    have := hp.total
    rw [show (p.view ext).cells = p.info.tokens from rfl, this]; exact hend⟩
  have hg : ∃ e, r.Gives x e := by
    cases r with
    | success y => cases hx; exact ⟨_, .success _⟩
    | recovered y e => cases hx; exact ⟨_, .recovered _ _⟩
    | panic e => cases hx
  obtain ⟨e, hg⟩ := hg
  obtain ⟨h3, h4, h5⟩ := h.run.nest ht x e hg
  exact ⟨h4, h3, h5⟩

/-- Example: `(word, ("x", Option<number>))` on `a `: the missing literal is put at the end of the text, the
option at the end of the last token before. -/
def nxT : Ty 0 3 := .tup2 exWord (.tup2 fxX (.option exNum))
def nxMd : Metadata (PId 0 3) 3 := okOf ⟨[], [], []⟩ (exS.metadata 30 nxT)
def nxTree : Tree 3 := .seq ⟨0, 1⟩ [.tok ⟨⟨0, 1⟩, 0⟩, .seq ⟨2, 1⟩ [.tok ⟨⟨2, 2⟩, 2⟩, .optNone ⟨1, 1⟩]]

/-- The claim is false: the inner pair has the span 2..1. -/
theorem C42_false : exS.metadata 30 nxT = some (.ok nxMd) ∧ ItemsWF [97, 32] [.token (n := 3) ⟨⟨0, 1⟩, 0⟩] ∧
    (∃ p' e, Yields (fun _ => false) exS nxMd nxT (Parser.new [97, 32] [.token ⟨⟨0, 1⟩, 0⟩])
      (.recovered nxTree [e]) p') ∧ ¬ nxTree.Nested := by
  refine ⟨by rfl, by unfold ItemsWF; decide, ⟨_, _, 20, by rfl⟩, ?_⟩
  intro h
  cases h with
  | node h1 h2 =>
    cases h2 _ (.head _) _ (.tail _ (.head _)) with
    | node h3 => exact absurd h3 (by decide)

example : ((streamOf exExt pxItems).getLast?.map (·.span.hi)).getD 0 = [97, 32, 49].length := by decide

/-! ## C43: semantic types of fields -/

/-- A successfully parsed struct: the appended cells are those of the fields one after the other, each group
with the semantic types of its own field added; the cells before are unchanged. Missing for the full
statement: types that are not `Loud`, if nothing is left after the parse; see `C43_false`. -/
theorem C43_struct_partial (ext : Fin n → Bool) (source : Str) (items : List (Item n)) (hw : ItemsWF source items)
    (S : Schema m n) (md : Metadata (PId m n) n) (k : Fin m) (f : Field m n)
    (fs : List (Field m n)) (hk : S k = .struct f fs) (p p' : Parser n)
    (hl : Loud S (.user k) ∨ (p'.view ext).rest ≠ []) (hp : Reached ext source items p)
    (x : Tree n) (h : Yields ext S md (.user k) p (.success x) p') :
    ∃ cs l, x = .seq (spanOf l) l ∧ ParsesSeq S source p.emptySpan.lo ((f :: fs).map (·.1)) cs l ∧
      cs.length = (f :: fs).length ∧
      p'.info.tokens = p.info.tokens ++ addAll cs ((f :: fs).map (·.2)) := by
  obtain ⟨c, h1, h2, _⟩ := C34_loud ext source items hw S md _ p p' hl hp x h
  cases h2 with
  | @struct _ _ f' fs' cs l hk' hs =>
    rw [hk] at hk'
    cases hk'
    exact ⟨cs, l, rfl, hs, by simpa using hs.lengths.1, h1⟩
  | enum hk' => rw [hk] at hk'; cases hk'
  | tuple ht =>
    rcases ht with ⟨_, _, h, _⟩ | ⟨_, _, _, h, _⟩ | ⟨_, _, _, _, h, _⟩ | ⟨_, _, _, _, _, h, _⟩ <;> cases h

/-- Enums: all appended cells, and only they, get the semantic types of the variant. -/
theorem C43_enum_partial (ext : Fin n → Bool) (source : Str) (items : List (Item n)) (hw : ItemsWF source items)
    (S : Schema m n) (md : Metadata (PId m n) n) (k : Fin m) (f : Field m n)
    (fs : List (Field m n)) (hk : S k = .enum f fs) (p p' : Parser n)
    (hl : Loud S (.user k) ∨ (p'.view ext).rest ≠ []) (hp : Reached ext source items p)
    (x : Tree n) (h : Yields ext S md (.user k) p (.success x) p') :
    ∃ i t sem c y, x = .variant i y ∧ (f :: fs)[i]? = some (t, sem) ∧
      Parses S source p.emptySpan.lo t c y ∧
      p'.info.tokens = p.info.tokens ++ c.map (Cell.add sem) := by
  obtain ⟨c, h1, h2, _⟩ := C34_loud ext source items hw S md _ p p' hl hp x h
  cases h2 with
  | struct hk' => rw [hk] at hk'; cases hk'
  | enum hk' hi hp =>
    rw [hk] at hk'
    cases hk'
    exact ⟨_, _, _, _, _, rfl, hi, hp, h1⟩
  | tuple ht =>
    rcases ht with ⟨_, _, h, _⟩ | ⟨_, _, _, h, _⟩ | ⟨_, _, _, _, h, _⟩ | ⟨_, _, _, _, _, h, _⟩ <;> cases h

/-- What the groups mean: the `j`-th cell of the `i`-th group is the cell the field's type appended, with
the field's semantic types and no others added. -/
theorem C43_groups (cs : List (List (Cell n))) (sems : List (Option (LSet n))) (i j : Nat) (c : List (Cell n))
    (d : Cell n) (sem : Option (LSet n)) (hlen : cs.length = sems.length) (hi : cs[i]? = some c)
    (hs : sems[i]? = some sem) (hj : c[j]? = some d) :
    ∃ d', (addAll cs sems)[((cs.take i).map List.length).sum + j]? = some d' ∧ d'.token = d.token ∧
      (sem = none → d'.semantic = d.semantic) ∧ (∀ s, sem = some s → d'.semantic = d.semantic.union s) := by
  induction cs generalizing i sems with
  | nil => simp at hi
  | cons c0 cs ih =>
    cases sems with
    | nil => simp at hlen
    | cons s0 sems =>
      simp only [List.length_cons, Nat.add_right_cancel_iff] at hlen
      cases i with
      | zero =>
        simp only [List.getElem?_cons_zero, Option.some.injEq] at hi hs
        subst hi hs
        have hjl : j < c0.length := by
          rw [List.getElem?_eq_some_iff] at hj; exact hj.1
        refine ⟨Cell.add s0 d, ?_, by cases s0 <;> rfl, by rintro rfl; rfl, by rintro s rfl; rfl⟩
        simp only [addAll, List.take_zero, List.map_nil, List.sum_nil, Nat.zero_add]
        rw [List.getElem?_append_left (by simpa using hjl), List.getElem?_map, hj]
        rfl
      | succ i =>
        simp only [List.getElem?_cons_succ] at hi hs
        obtain ⟨d', h1, h2⟩ := ih sems i hlen hi hs
        refine ⟨d', ?_, h2⟩
        simp only [addAll, List.take_succ_cons, List.map_cons, List.sum_cons]
        rw [List.getElem?_append_right (by simp; omega), ← h1]
        congr 1
        simp; omega

/-- Example: `struct(#[teleparse(semantic(X))] word, number)` where X is the token type 2, on `a 1`. -/
def semS : Schema 1 3 := fun _ => .struct (.term 0 ⟨0, none⟩, some (LSet.new.insert 2)) [(.term 1 ⟨1, none⟩, none)]
example : ∃ p', Yields exExt semS ⟨[], [], []⟩ (.user 0) (Parser.new [97, 32, 49] pxItems)
    (.success (.seq ⟨0, 3⟩ [.tok ⟨⟨0, 1⟩, 0⟩, .tok ⟨⟨2, 3⟩, 1⟩])) p' ∧
    p'.info.tokens.map (fun c => (c.token.ty, (List.finRange 3).filter c.semantic.contains)) = [(0, [2]), (1, [])] :=
  ⟨_, ⟨10, by rfl⟩, by rfl⟩

/-- Without `Loud` a success need not be a sentence, and then the claim is false: the option of the silently
failing `Recover` consumed the word but is empty, and the word does not get the field's semantic type. -/
def semS2 : Schema 1 3 := fun _ =>
  .struct (.option (.recover (.term 0 ⟨0, none⟩) (.term 1 ⟨1, none⟩)), some (LSet.new.insert 2))
    [(.option (.term 2 ⟨2, none⟩), none)]
def semMd : Metadata (PId 1 3) 3 := okOf ⟨[], [], []⟩ (semS2.metadata 30 (.user 0))
theorem C43_false : semS2.metadata 30 (.user 0) = some (.ok semMd) ∧
    ∃ p', Yields exExt semS2 semMd (.user 0) rxP (.success (.seq ⟨1, 1⟩ [.optNone ⟨1, 1⟩, .optNone ⟨1, 1⟩])) p' ∧
      p'.info.tokens.map (fun c => (c.token.ty, (List.finRange 3).filter c.semantic.contains)) = [(0, [])] :=
  ⟨by rfl, _, ⟨10, by rfl⟩, by rfl⟩

/-! ## C44: the text of a quoted node -/

/-- On success the text goes from the start of the first token to the end of the last, if the type's matches
begin with a token of its leftmost part. Missing for the full statement: types that begin with an absent
option (false there). -/
theorem C44_tokens_partial (ext : Fin n → Bool) (source : Str) (items : List (Item n))
    (hw : ItemsWF source items) (S : Schema m n) (md : Metadata (PId m n) n) (t t' : Ty m n)
    (ht : t' = .quote t ∨ t' = .parse t) (hlead : Leads S t) (p p' : Parser n) (hl : Loud S t' ∨ (p'.view ext).rest ≠ [])
    (hp : Reached ext source items p) (x : Tree n) (h : Yields ext S md t' p (.success x) p') :
    ∃ c first last, p'.info.tokens = p.info.tokens ++ c ∧ c.head? = some first ∧ c.getLast? = some last ∧
      x = .text ⟨first.token.span.lo, last.token.span.hi⟩
        ((source.drop first.token.span.lo).take (last.token.span.hi - first.token.span.lo)) := by
  obtain ⟨c, h1, h2, _⟩ := C34_loud ext source items hw S md _ p p' hl hp x h
  have hs := (hp.sortedView hw).run h.run
  have key : ∀ y, Parses S source p.emptySpan.lo t c y → x = .text y.span (textOf source y.span) →
      ∃ c first last, p'.info.tokens = p.info.tokens ++ c ∧ c.head? = some first ∧ c.getLast? = some last ∧
      x = .text ⟨first.token.span.lo, last.token.span.hi⟩
        ((source.drop first.token.span.lo).take (last.token.span.hi - first.token.span.lo)) := by
    intro y hy hx
    obtain ⟨d, c', hc, hlo⟩ := hlead.starts hy
    have hf := hy.fits (hs.after (v := p.view ext) h1)
    cases hlast : c.getLast? with
    | none => rw [List.getLast?_eq_none_iff] at hlast; rw [hlast] at hc; cases hc
    | some last =>
      have hhi : y.span.hi = last.token.span.hi := by rw [hf.hi]; simp [endOf, hlast]
      refine ⟨c, d, last, h1, by rw [hc]; rfl, hlast, ?_⟩
      rw [hx]
      have hsp : y.span = ⟨d.token.span.lo, last.token.span.hi⟩ := by
        rw [← hlo, ← hhi]
      rw [hsp]
      rfl
  rcases ht with rfl | rfl
  · cases h2 with
    | quote hy => exact key _ hy rfl
    | tuple ht =>
      rcases ht with ⟨_, _, h, _⟩ | ⟨_, _, _, h, _⟩ | ⟨_, _, _, _, h, _⟩ | ⟨_, _, _, _, _, h, _⟩ <;> cases h
  · cases h2 with
    | parse hy => exact key _ hy rfl
    | tuple ht =>
      rcases ht with ⟨_, _, h, _⟩ | ⟨_, _, _, h, _⟩ | ⟨_, _, _, _, h, _⟩ | ⟨_, _, _, _, _, h, _⟩ <;> cases h

example : Leads exS (.tup2 exWord (.option exNum)) := .tuple (.inl ⟨_, _, rfl, rfl⟩) (.term _ _)

end Teleparse
