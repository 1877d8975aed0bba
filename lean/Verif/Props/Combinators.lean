import Verif.Props.Safety
import Verif.Proof.Accept
import Verif.Proof.Never
/-
Properties C39 (never failing types), C41 (Option), C44 (Quote and Parse), C53 (missing literals),
C54 (sequences), C55 (enums).
-/
namespace Teleparse
variable {m n : Nat}

/-! ## C54: sequences -/

/-- Tuples: the parts are produced from left to right up to the first failing one; the result follows from
theirs, with all errors in order. -/
theorem C54_tuple (ext : Fin n → Bool) (S : Schema m n) (md : Metadata (PId m n) n) (t : Ty m n)
    (ts : List (Ty m n)) (htup : t.isTuple ts) (p p' : Parser n) (r : Res n (Tree n)) :
    Yields ext S md t p r p' ↔ ∃ rs, Parts ext S md ts p rs p' ∧ SeqResult rs r := by
  have ht := tupLike_of htup
  rw [yields_iff]
  simp only [tupLike_step ht, produceTuple]
  constructor
  · rintro ⟨fuel, h⟩
    rw [bind_ok] at h
    obtain ⟨res, p1, h1, h2⟩ := h
    obtain ⟨rs, h3, h4⟩ := seqLoop_parts ts fuel _ _ _ _ _ h1
    rcases h4 with ⟨h4, rfl⟩ | ⟨h4, rfl⟩
    · simp only [List.nil_append, pure_ok] at h2
      obtain ⟨rfl, rfl⟩ := h2
      exact ⟨rs, h3, seqResult_ofPair h4⟩
    · simp only [List.nil_append, pure_ok] at h2
      obtain ⟨rfl, rfl⟩ := h2
      exact ⟨rs, h3, .panic h4⟩
  · rintro ⟨rs, h1, h2⟩
    obtain ⟨N, h3⟩ := parts_seqLoop h1
    obtain ⟨h4, h5⟩ := h3 N (Nat.le_refl _) [] []
    refine ⟨N, ?_⟩
    rw [bind_ok]
    by_cases hn : noneFailed rs
    · refine ⟨_, _, h4 hn, ?_⟩
      simp only [List.nil_append, pure_ok, and_true]
      exact (seqResult_ofPair hn).unique h2
    · refine ⟨_, _, h5 hn, ?_⟩
      simp only [List.nil_append, pure_ok, and_true]
      exact (SeqResult.panic hn).unique h2

/-- Structs: the same for the fields; afterwards, if none failed, the semantic types of the fields are
applied. -/
theorem C54_struct (ext : Fin n → Bool) (S : Schema m n) (md : Metadata (PId m n) n) (k : Fin m)
    (f : Field m n) (fs : List (Field m n)) (hk : S k = .struct f fs) (p p' : Parser n)
    (r : Res n (Tree n)) :
    Yields ext S md (.user k) p r p' ↔
      ∃ rs p1, Parts ext S md ((f :: fs).map (·.1)) p rs p1 ∧ SeqResult rs r ∧
        (noneFailed rs → p' = p1.applyAll ((allTrees rs).zip ((f :: fs).map (·.2)))) ∧
        (¬ noneFailed rs → p' = p1) := by
  rw [yields_iff]
  simp only [produceStep, hk, produceStruct, List.map_map]
  have hmap : ∀ fuel, (f :: fs).map (Prod.fst ∘ fun g => (produce (Parser.ops ext) S md fuel g.1, g.2)) =
      ((f :: fs).map (·.1)).map (produce (Parser.ops ext) S md fuel) := by
    intro fuel; simp [Function.comp_def]
  have hsem : ∀ fuel, (f :: fs).map (Prod.snd ∘ fun g => (produce (Parser.ops ext) S md fuel g.1, g.2)) =
      (f :: fs).map (·.2) := by
    intro fuel; simp [Function.comp_def]
  simp only [hmap, hsem]
  constructor
  · rintro ⟨fuel, h⟩
    rw [bind_ok] at h
    obtain ⟨res, p1, h1, h2⟩ := h
    obtain ⟨rs, h3, h4⟩ := seqLoop_parts _ fuel _ _ _ _ _ h1
    refine ⟨rs, p1, h3, ?_⟩
    rcases h4 with ⟨h4, rfl⟩ | ⟨h4, rfl⟩
    · simp only [List.nil_append, bind_ok, applyFields_parser, pure_ok] at h2
      obtain ⟨_, _, rfl, rfl, rfl⟩ := h2
      exact ⟨seqResult_ofPair h4, fun _ => rfl, fun hn => absurd h4 hn⟩
    · simp only [List.nil_append, pure_ok] at h2
      obtain ⟨rfl, rfl⟩ := h2
      exact ⟨.panic h4, fun hn => absurd hn h4, fun _ => rfl⟩
  · rintro ⟨rs, p1, h1, h2, h6, h7⟩
    obtain ⟨N, h3⟩ := parts_seqLoop h1
    obtain ⟨h4, h5⟩ := h3 N (Nat.le_refl _) [] []
    refine ⟨N, ?_⟩
    rw [bind_ok]
    by_cases hn : noneFailed rs
    · refine ⟨_, _, h4 hn, ?_⟩
      simp only [List.nil_append, bind_ok, applyFields_parser, pure_ok]
      exact ⟨(), _, rfl, (seqResult_ofPair hn).unique h2, (h6 hn).symm⟩
    · refine ⟨_, _, h5 hn, ?_⟩
      simp only [List.nil_append, pure_ok]
      exact ⟨(SeqResult.panic hn).unique h2, (h7 hn).symm⟩

/-- The errors are those of the attempted parts in order; all parts before the last attempted one did not
fail; the sequence fails iff a part fails. -/
theorem C54_errors (rs : List (Res n (Tree n))) (r : Res n (Tree n)) (h : SeqResult rs r) :
    r.errs = rs.flatMap Res.errs ∧ (r.tree? = none ↔ ∃ e, .panic e ∈ rs) := by
  have hp : noneFailed rs ↔ ¬ ∃ e, .panic e ∈ rs := by
    constructor
    · rintro hn ⟨e, he⟩
      have := hn _ he
      simp [Res.tree?] at this
    · intro hn r hr
      cases r with
      | success => rfl
      | recovered => rfl
      | panic e => exact absurd ⟨e, hr⟩ hn
  cases h with
  | success hn he => exact ⟨he.symm, by simpa [Res.tree?] using hp.1 hn⟩
  | recovered hn he => exact ⟨rfl, by simpa [Res.tree?] using hp.1 hn⟩
  | panic hn =>
    refine ⟨rfl, ?_⟩
    simp only [Res.tree?, true_iff]
    exact Classical.not_not.1 fun h => hn (hp.2 h)

/-- Success iff all parts succeed, if recovered parts carry errors (C37 says when they do). -/
theorem C54_success_partial (rs : List (Res n (Tree n))) (r : Res n (Tree n)) (h : SeqResult rs r)
    (hloud : ∀ x e, .recovered x e ∈ rs → e ≠ []) :
    ((∃ x, r = .success x) ↔ ∀ r' ∈ rs, ∃ x, r' = .success x) ∧
    ((∃ x e, r = .recovered x e) ↔ (∀ r' ∈ rs, r'.tree?.isSome = true) ∧ ∃ x e, .recovered x e ∈ rs) := by
  have h1 : noneFailed rs → (allErrs rs = [] ↔ ∀ r' ∈ rs, ∃ x, r' = .success x) := by
    intro hn
    unfold allErrs
    rw [List.flatMap_eq_nil_iff]
    constructor
    · intro he r' hr'
      cases r' with
      | success x => exact ⟨x, rfl⟩
      | recovered x e => exact absurd (he _ hr') (hloud x e hr')
      | panic e => simpa [Res.tree?] using hn _ hr'
    · intro ha r' hr'
      obtain ⟨x, rfl⟩ := ha r' hr'
      rfl
  have h2 : noneFailed rs → (allErrs rs ≠ [] ↔ ∃ x e, .recovered x e ∈ rs) := by
    intro hn
    rw [ne_eq, h1 hn]
    constructor
    · intro hx
      apply Classical.not_not.1
      intro hno
      apply hx
      intro r' hr'
      cases r' with
      | success x => exact ⟨x, rfl⟩
      | recovered x e => exact absurd ⟨x, e, hr'⟩ hno
      | panic e => simpa [Res.tree?] using hn _ hr'
    · rintro ⟨x, e, hr⟩ ha
      obtain ⟨y, hy⟩ := ha _ hr
      cases hy
  cases h with
  | success hn he =>
    refine ⟨⟨fun _ => (h1 hn).1 he, fun _ => ⟨_, rfl⟩⟩, ⟨fun ⟨x, e, h⟩ => (by cases h), ?_⟩⟩
    rintro ⟨_, hx⟩
    exact absurd he ((h2 hn).2 hx)
  | recovered hn he =>
    refine ⟨⟨fun ⟨x, h⟩ => (by cases h), fun ha => absurd ((h1 hn).2 ha) he⟩,
      ⟨fun _ => ⟨hn, (h2 hn).1 he⟩, fun _ => ⟨_, _, rfl⟩⟩⟩
  | panic hn =>
    refine ⟨⟨fun ⟨x, h⟩ => (by cases h), fun ha => absurd (fun r' hr' => ?_) hn⟩,
      ⟨fun ⟨x, e, h⟩ => (by cases h), fun h => absurd h.1 hn⟩⟩
    obtain ⟨x, rfl⟩ := ha r' hr'
    rfl

/-- Example: a pair of `Option<Recover<word, number>>` and `Option<number>` on the input `a`. -/
def rxT : Ty 0 3 := .option (.recover exWord exNum)
def rxP : Parser 3 := Parser.new [97] [.token ⟨⟨0, 1⟩, 0⟩]
def okOf {α β : Type} (d : β) : Option (Except α β) → β
  | some (.ok x) => x
  | _ => d
def rxMd : Metadata (PId 0 3) 3 := okOf ⟨[], [], []⟩ (exS.metadata 30 (.tup2 rxT (.option exNum)))
def Out.stateOr {σ α : Type} (d : σ) : Out σ α → σ
  | .ok _ s => s
  | _ => d
def rxP1 : Parser 3 := (produce (Parser.ops exExt) exS rxMd 10 rxT rxP).stateOr rxP

/-- The claim is false without that hypothesis: the grammar is accepted, the first part only recovers, and
the pair succeeds; the word was dropped without an error. -/
theorem C54_false : exS.metadata 30 (.tup2 rxT (.option exNum)) = some (.ok rxMd) ∧
    Parts exExt exS rxMd [rxT, .option exNum] rxP
      [.recovered (.optNone ⟨1, 1⟩) [], .success (.optNone ⟨1, 1⟩)] rxP1 ∧
    Yields exExt exS rxMd (.tup2 rxT (.option exNum)) rxP
      (.success (.seq ⟨1, 1⟩ [.optNone ⟨1, 1⟩, .optNone ⟨1, 1⟩])) rxP1 := by
  refine ⟨by rfl, .next (p1 := rxP1) ⟨10, by rfl⟩ rfl (.next (p1 := rxP1) ⟨10, by rfl⟩ rfl .nil), ⟨10, by rfl⟩⟩

/-- Example: a pair of a word and a number on `ab $%12`, where the second part is read. -/
example : (Ty.tup2 exWord exNum).isTuple [exWord, exNum] := .inl ⟨_, _, rfl, rfl⟩
example : ∃ p', Parts exExt exS rxMd [exWord, exNum] (Parser.new exSource exItems)
    [.success (.tok ⟨⟨0, 2⟩, 0⟩), .success (.tok ⟨⟨5, 7⟩, 1⟩)] p' ∧ SeqResult (n := 3)
    [.success (.tok ⟨⟨0, 2⟩, 0⟩), .success (.tok ⟨⟨5, 7⟩, 1⟩)]
    (.success (.seq ⟨0, 7⟩ [.tok ⟨⟨0, 2⟩, 0⟩, .tok ⟨⟨5, 7⟩, 1⟩])) :=
  ⟨_, .next ⟨10, by rfl⟩ rfl (.next ⟨10, by rfl⟩ rfl .nil), .success (by simp [noneFailed, Res.tree?]) rfl⟩

/-! ## C39: types that never fail -/

/-- `Option`, `Exists`, `Star`, `Loop` and everything built from them by sequencing and repetition always
return a tree, whatever the table and the input. -/
theorem C39_tree (ext : Fin n → Bool) (S : Schema m n) (md : Metadata (PId m n) n) (t : Ty m n)
    (h : CannotFail S t) (p p' : Parser n) (r : Res n (Tree n)) (hy : Yields ext S md t p r p') :
    ∃ x, r.tree? = some x :=
  Option.isSome_iff_exists.1 (run_cannotFail h _ _ _ hy.run)

/-- In particular `Parser::parse` of such a root returns a tree. -/
theorem C39_parse (ext : Fin n → Bool) (S : Schema m n) (t : Ty m n) (h : CannotFail S t) (fuel : Nat)
    (p p' : Parser n) (x : Option (Tree n)) (hp : p.parse ext S fuel t = .ok (.ok x) p') :
    x.isSome = true := by
  rcases parse_ok hp with ⟨e, _, he, _⟩ | ⟨md, x', _, hx', h1⟩
  · cases he
  · cases hx'
    obtain ⟨r, q, h2, _, h3, _⟩ := parseWithMeta_ok h1
    obtain ⟨y, hy⟩ := C39_tree ext S md t h _ _ _ ⟨_, h2⟩
    cases x with
    | some => rfl
    | none =>
      obtain ⟨e, rfl⟩ := h3.1 rfl
      cases hy

example : CannotFail exS (.tup2 (.option exWord) (.split (.star exNum) exWord)) :=
  .tup2 (.option _) (.split _ (.star _))

/-! ## C41: Option -/

/-- The span of an empty node: zero length, at the end of the last consumed token. -/
theorem C41_empty_span (p : Parser n) : p.emptySpan.lo = p.emptySpan.hi ∧
    (∀ c l, p.info.tokens = l ++ [c] → p.emptySpan.lo = c.token.span.hi) := by
  refine ⟨rfl, ?_⟩
  intro c l h
  simp [Parser.emptySpan, h]

/-- `Option<T>`, in any reachable state: if the lookahead can start `T` then `T` is produced; its tree is
the content, unless it failed. Otherwise the node is empty and only the lookahead was read. -/
theorem C41_option (ext : Fin n → Bool) (source : Str) (items : List (Item n)) (hw : ItemsWF source items)
    (S : Schema m n) (md : Metadata (PId m n) n) (t : Ty m n) (p p' : Parser n)
    (hp : Reached ext source items p) (r : Res n (Tree n)) :
    Yields ext S md (.option t) p r p' ↔
      if p.canStart ext (md.first.get t.pid) then
        ∃ r0, Yields ext S md t (p.peek ext).2 r0 p' ∧
          ((∃ x, r0 = .success x ∧ r = .success (.optSome x.span x)) ∨
           (∃ x e, r0 = .recovered x e ∧ r = .recovered (.optSome x.span x) e) ∨
           (∃ e, r0 = .panic e ∧ r = .recovered (.optNone p'.emptySpan) e))
      else r = .success (.optNone p.emptySpan) ∧ p' = (p.peek ext).2 := by
  rw [yields_iff]
  simp only [produceStep, produceOption_ok hp hw]
  have key : ∀ r0 : Res n (Tree n), (r = optWrap mkOption p'.emptySpan r0 ↔
          ((∃ x, r0 = .success x ∧ r = .success (.optSome x.span x)) ∨
           (∃ x e, r0 = .recovered x e ∧ r = .recovered (.optSome x.span x) e) ∨
           (∃ e, r0 = .panic e ∧ r = .recovered (.optNone p'.emptySpan) e))) := by
    intro r0; cases r0 <;> simp [optWrap, mkOption, and_assoc]
  split
  · constructor
    · rintro ⟨fuel, r0, h1, h2⟩; exact ⟨r0, ⟨fuel, h1⟩, (key r0).1 h2⟩
    · rintro ⟨r0, ⟨fuel, h1⟩, h2⟩; exact ⟨fuel, r0, h1, (key r0).2 h2⟩
  · exact ⟨fun ⟨_, h⟩ => h, fun h => ⟨0, h⟩⟩

/-- `Exists<T>` the same, with the flag for the tree. -/
theorem C41_exists (ext : Fin n → Bool) (source : Str) (items : List (Item n)) (hw : ItemsWF source items)
    (S : Schema m n) (md : Metadata (PId m n) n) (t : Ty m n) (p p' : Parser n)
    (hp : Reached ext source items p) (r : Res n (Tree n)) :
    Yields ext S md (.exist t) p r p' ↔
      if p.canStart ext (md.first.get t.pid) then
        ∃ r0, Yields ext S md t (p.peek ext).2 r0 p' ∧
          ((∃ x, r0 = .success x ∧ r = .success (.exist x.span true)) ∨
           (∃ x e, r0 = .recovered x e ∧ r = .recovered (.exist x.span true) e) ∨
           (∃ e, r0 = .panic e ∧ r = .recovered (.exist p'.emptySpan false) e))
      else r = .success (.exist p.emptySpan false) ∧ p' = (p.peek ext).2 := by
  rw [yields_iff]
  simp only [produceStep, produceOption_ok hp hw]
  have key : ∀ r0 : Res n (Tree n), (r = optWrap mkExists p'.emptySpan r0 ↔
          ((∃ x, r0 = .success x ∧ r = .success (.exist x.span true)) ∨
           (∃ x e, r0 = .recovered x e ∧ r = .recovered (.exist x.span true) e) ∨
           (∃ e, r0 = .panic e ∧ r = .recovered (.exist p'.emptySpan false) e))) := by
    intro r0; cases r0 <;> simp [optWrap, mkExists, and_assoc]
  split
  · constructor
    · rintro ⟨fuel, r0, h1, h2⟩; exact ⟨r0, ⟨fuel, h1⟩, (key r0).1 h2⟩
    · rintro ⟨r0, ⟨fuel, h1⟩, h2⟩; exact ⟨fuel, r0, h1, (key r0).2 h2⟩
  · exact ⟨fun ⟨_, h⟩ => h, fun h => ⟨0, h⟩⟩

/-- For an accepted grammar the test is the textbook one: there is a next token and it is in FIRST. Reading
the lookahead consumes nothing. -/
theorem C41_test (ext : Fin n → Bool) (S : Schema m n) (root : Ty m n) (fuel : Nat)
    (md : Metadata (PId m n) n) (hm : S.metadata fuel root = some (.ok md)) (G : Grammar (PId m n) n)
    (hG : S.IsGrammar root G) (t : Ty m n) (p : Parser n) :
    (p.canStart ext (md.first.get t.pid) = true ↔
      ∃ tok, p.lookahead ext = some tok ∧ FirstOf G t.pid tok) ∧
    (p.peek ext).2.view ext = p.view ext := by
  refine ⟨?_, peek_view ext p⟩
  unfold Parser.canStart
  cases hl : p.lookahead ext with
  | none => simp
  | some tok =>
    simp only [Option.isSome_some, Bool.true_and, Option.some.injEq, exists_eq_left']
    exact metadata_first hm hG t.pid (some tok)

/-- Both cases occur. -/
example : (Parser.new exSource exItems).canStart exExt (rxMd.first.get exWord.pid) = true ∧
    (Parser.new exSource exItems).canStart exExt (rxMd.first.get exNum.pid) = false := by decide

/-! ## C44: Quote and Parse -/

/-- `Quote<T>` and `Parse<T>` accept, consume and report what `T` does, and get the source text of the span
of `T`'s tree. -/
theorem C44_slice (ext : Fin n → Bool) (source : Str) (items : List (Item n)) (hw : ItemsWF source items)
    (S : Schema m n) (md : Metadata (PId m n) n) (t t' : Ty m n) (ht : t' = .quote t ∨ t' = .parse t)
    (p p' : Parser n) (hp : Reached ext source items p) (r : Res n (Tree n)) :
    Yields ext S md t' p r p' ↔
      ∃ r0, Yields ext S md t p r0 p' ∧ r = r0.mapTree fun x =>
        .text x.span ((source.drop x.span.lo).take (x.span.hi - x.span.lo)) := by
  rw [yields_iff]
  have step : ∀ fuel, produceStep (Parser.ops ext) S md fuel (produce (Parser.ops ext) S md fuel) t' =
      produceText (Parser.ops ext) (produce (Parser.ops ext) S md fuel t) := by
    intro fuel; rcases ht with rfl | rfl <;> rfl
  simp only [step, produceText, bind_ok]
  have key : ∀ fuel r0 p1, produce (Parser.ops ext) S md fuel t p = .ok r0 p1 → ∀ x, r0.tree? = some x →
      (Parser.ops ext).mGetSrc x.span p1 =
        .ok ((source.drop x.span.lo).take (x.span.hi - x.span.lo)) p1 := by
    intro fuel r0 p1 h x hx
    have hr1 : Reached ext source items p1 := .produce S md fuel t r0 hp h
    have hs : p1.info.source = source := hr1.source
    have hx' : ∃ e, r0.Gives x e := by
      cases r0 with
      | success y => cases hx; exact ⟨_, .success _⟩
      | recovered y e => cases hx; exact ⟨_, .recovered _ _⟩
      | panic e => cases hx
    obtain ⟨e, hx'⟩ := hx'
    have hg := (C47_tree ext source items hw p p1 hp S md fuel t r0 x e h hx').self
    rw [mGetSrc_parser (by rw [hs]; exact hg), hs]
  constructor
  · rintro ⟨fuel, r0, p1, h1, h2⟩
    cases r0 with
    | success x =>
      simp only [bind_ok, key fuel _ _ h1 x rfl, pure_ok] at h2
      obtain ⟨_, _, h3, rfl, rfl⟩ := h2
      cases h3
      exact ⟨_, ⟨fuel, h1⟩, rfl⟩
    | recovered x e =>
      simp only [bind_ok, key fuel _ _ h1 x rfl, pure_ok] at h2
      obtain ⟨_, _, h3, rfl, rfl⟩ := h2
      cases h3
      exact ⟨_, ⟨fuel, h1⟩, rfl⟩
    | panic e =>
      rw [pure_ok] at h2
      obtain ⟨rfl, rfl⟩ := h2
      exact ⟨_, ⟨fuel, h1⟩, rfl⟩
  · rintro ⟨r0, ⟨fuel, h1⟩, rfl⟩
    refine ⟨fuel, r0, p', h1, ?_⟩
    cases r0 with
    | success x =>
      rw [bind_ok]
      exact ⟨_, _, key fuel _ _ h1 x rfl, rfl⟩
    | recovered x e =>
      rw [bind_ok]
      exact ⟨_, _, key fuel _ _ h1 x rfl, rfl⟩
    | panic e => rfl

/-- Example: a word and a quoted `(Option<number>, word)` on `a b`. -/
def qxT : Ty 0 3 := .tup2 exWord (.quote (.tup2 (.option exNum) exWord))
def qxItems : List (Item 3) := [.token ⟨⟨0, 1⟩, 0⟩, .token ⟨⟨2, 3⟩, 0⟩]
def qxMd : Metadata (PId 0 3) 3 := okOf ⟨[], [], []⟩ (exS.metadata 30 qxT)

/-- The claim is false as stated: the quoted part consists of the one token `b`, the text is ` b`, because
the empty option has the span at the end of the previous token. -/
theorem C44_false : exS.metadata 30 qxT = some (.ok qxMd) ∧
    ItemsWF [97, 32, 98] qxItems ∧
    ∃ p', Yields exExt exS qxMd qxT (Parser.new [97, 32, 98] qxItems)
      (.success (.seq ⟨0, 3⟩ [.tok ⟨⟨0, 1⟩, 0⟩, .text ⟨1, 3⟩ [32, 98]])) p' := by
  refine ⟨by rfl, by unfold ItemsWF qxItems; decide, _, 10, by rfl⟩

/-! ## C53: missing literals -/

/-- Missing literal: the next token (or the end) is not the literal but in its FOLLOW set. The terminal is
repaired with one error naming it; nothing is consumed. -/
theorem C53_repair (ext : Fin n → Bool) (source : Str) (items : List (Item n)) (hw : ItemsWF source items)
    (S : Schema m n) (md : Metadata (PId m n) n) (i : Nat) (k : Terminal n) (lit : Str)
    (hlit : k.lit = some lit) (p : Parser n) (hp : Reached ext source items p)
    (hmiss : p.lookahead ext ≠ some ⟨k.ty, lit⟩)
    (hfol : (md.follow.get (.term i k)).contains (p.lookahead ext) = true) :
    ∃ x p', Yields ext S md (.term i k) p
      (.recovered (.tok x) [⟨p.nextSpan ext, .expecting (TSet.one k.ty (some lit))⟩]) p' ∧
      x.ty = k.ty ∧ x.span.lo = x.span.hi ∧ p'.view ext = p.view ext := by
  obtain ⟨x, h1, h2, h3⟩ := term_missing (S := S) hlit (hp.getHead hw) (by rw [hp.look hw]; exact hmiss)
    (by rw [hp.look hw]; exact hfol) 0
  obtain ⟨p', h4, h5⟩ := yields_of_view h1
  exact ⟨x, p', by rw [nextSpan_eq]; exact h4, h2, h3, h5⟩

/-- The rest of the sequence continues at the same token. -/
theorem C53_sequence (ext : Fin n → Bool) (source : Str) (items : List (Item n)) (hw : ItemsWF source items)
    (S : Schema m n) (md : Metadata (PId m n) n) (i : Nat) (k : Terminal n) (lit : Str)
    (hlit : k.lit = some lit) (p p' : Parser n) (hp : Reached ext source items p)
    (hmiss : p.lookahead ext ≠ some ⟨k.ty, lit⟩)
    (hfol : (md.follow.get (.term i k)).contains (p.lookahead ext) = true) (ts : List (Ty m n))
    (rs : List (Res n (Tree n))) (h : Parts ext S md (.term i k :: ts) p rs p') :
    ∃ x rs' p1, rs = .recovered (.tok x) [⟨p.nextSpan ext, .expecting (TSet.one k.ty (some lit))⟩] :: rs' ∧
      p1.view ext = p.view ext ∧ Parts ext S md ts p1 rs' p' := by
  obtain ⟨x, q, h1, _, _, h2⟩ := C53_repair ext source items hw S md i k lit hlit p hp hmiss hfol
  cases h with
  | next hy _ hrest =>
    obtain ⟨rfl, rfl⟩ := hy.unique h1
    exact ⟨x, _, _, rfl, h2, hrest⟩
  | fail hy => cases (hy.unique h1).1

/-- For an accepted grammar: what can follow the literal in the grammar triggers the repair, unless it comes
beyond a part that can be empty. Missing for the full statement: those tokens (false for them). -/
theorem C53_grammar_partial (ext : Fin n → Bool) (source : Str) (items : List (Item n))
    (hw : ItemsWF source items) (S : Schema m n) (root : Ty m n) (fuel : Nat) (md : Metadata (PId m n) n)
    (hm : S.metadata fuel root = some (.ok md)) (G : Grammar (PId m n) n) (hG : S.IsGrammar root G)
    (i : Nat) (k : Terminal n) (lit : Str) (hlit : k.lit = some lit)
    (p : Parser n) (hp : Reached ext source items p) (hmiss : p.lookahead ext ≠ some ⟨k.ty, lit⟩)
    (hfol : FollowOf G root.pid (.term i k) (p.lookahead ext))
    (hsk : ∀ a tok, p.lookahead ext = some tok → Beyond G a tok → ¬ EndsWith G a (.term i k)) :
    ∃ x p', Yields ext S md (.term i k) p
      (.recovered (.tok x) [⟨p.nextSpan ext, .expecting (TSet.one k.ty (some lit))⟩]) p' ∧
      x.ty = k.ty ∧ x.span.lo = x.span.hi ∧ p'.view ext = p.view ext := by
  refine C53_repair ext source items hw S md i k lit hlit p hp hmiss ?_
  exact metadata_follow hm hG hfol hsk

/-- Example: `"x" number? word` with two token types; the table has only the number as FOLLOW of `"x"`. -/
def fxX : Ty 0 3 := .term 2 ⟨2, some [120]⟩
def fxT : Ty 0 3 := .tup3 fxX (.option exNum) exWord
def fxP : Parser 3 := Parser.new [97] [.token ⟨⟨0, 1⟩, 0⟩]
def fxMd : Metadata (PId 0 3) 3 := okOf ⟨[], [], []⟩ (exS.metadata 30 fxT)
def fxG : Grammar (PId 0 3) 3 := ((registerFrom exS.rule 30 fxT.pid).getD [])

theorem fxG_ok : exS.IsGrammar fxT fxG := Schema.IsGrammar.of_register (fuel := 30) (by rfl)

/-- In terms of the grammar the claim is false: the grammar is accepted, the word can follow the literal,
but on the input `a` the literal is not repaired and the parse fails. -/
theorem C53_false : exS.metadata 30 fxT = some (.ok fxMd) ∧ exS.IsGrammar fxT fxG ∧
    FollowOf fxG fxT.pid fxX.pid (fxP.lookahead (fun _ => false)) ∧
    ∃ p', Yields (fun _ => false) exS fxMd fxT fxP (.panic [⟨⟨0, 1⟩, .expecting (TSet.one 2 (some [120]))⟩]) p' := by
  refine ⟨by rfl, fxG_ok, ?_, _, 10, by rfl⟩
  have h0 : Derives fxG [.nt fxT.pid] [.nt fxX.pid, .nt (Ty.option exNum).pid, .nt exWord.pid] :=
    Derives.one (Expands.seq (l := [fxX.pid, (Ty.option exNum).pid, exWord.pid]) (by decide))
  have h1 : Derives fxG [.nt (Ty.option exNum).pid] [.nt .eps] :=
    Derives.one (Expands.alt (l := [exNum.pid, .eps]) (by decide) (by decide))
  have h2 : Derives fxG [.nt .eps] [] := Derives.one (Expands.eps (by decide))
  have h3 : Derives fxG [.nt exWord.pid] [.tok ⟨0, [97]⟩] :=
    Derives.one (Expands.term (t := ⟨0, none⟩) (by decide) ⟨rfl, by simp⟩)
  have e1 := (h1.trans h2).ctx [.nt fxX.pid] [.nt exWord.pid]
  have e2 := h3.ctx [.nt fxX.pid] []
  rw [show fxP.lookahead (fun _ => false) = some ⟨0, [97]⟩ from rfl]
  exact ⟨[], [], h0.trans (Derives.trans (by simpa using e1) (by simpa using e2))⟩

/-- Example of the repair: `(word, "x", number)` on `a 1`. -/
def gxT : Ty 0 3 := .tup3 exWord fxX exNum
def gxP : Parser 3 := Parser.new [97, 32, 49] [.token ⟨⟨0, 1⟩, 0⟩, .token ⟨⟨2, 3⟩, 1⟩]
def gxMd : Metadata (PId 0 3) 3 := okOf ⟨[], [], []⟩ (exS.metadata 30 gxT)
example : ∃ p', Yields (fun _ => false) exS gxMd gxT gxP (.recovered (.seq ⟨0, 3⟩
    [.tok ⟨⟨0, 1⟩, 0⟩, .tok ⟨⟨1, 1⟩, 2⟩, .tok ⟨⟨2, 3⟩, 1⟩])
    [⟨⟨2, 3⟩, .expecting (TSet.one 2 (some [120]))⟩]) p' := ⟨_, 10, by rfl⟩

/-! ## C55: enums -/

/-- The alternative selected by the lookahead is produced, and no other; then its semantic types are
applied. -/
theorem C55_selected (ext : Fin n → Bool) (source : Str) (items : List (Item n)) (hw : ItemsWF source items)
    (S : Schema m n) (root : Ty m n) (fuel : Nat) (md : Metadata (PId m n) n)
    (hm : S.metadata fuel root = some (.ok md)) (G : Grammar (PId m n) n) (hG : S.IsGrammar root G)
    (k : Fin m) (f : Field m n) (fs : List (Field m n)) (hk : S k = .enum f fs)
    (hreach : Reachable G root.pid (.user k)) (p p' : Parser n) (hp : Reached ext source items p)
    (i : Nat) (t : Ty m n) (sem : Option (LSet n)) (hi : (f :: fs)[i]? = some (t, sem))
    (hs : Starts G t.pid (p.lookahead ext)) (r : Res n (Tree n)) :
    Yields ext S md (.user k) p r p' ↔
      ∃ r0 p1, Yields ext S md t (p.peek ext).2 r0 p1 ∧ r = r0.mapTree (.variant i) ∧
        p' = p1.applyAll (r0.tree?.toList.map fun x => (x, sem)) := by
  have hrule : S.rule (.user k) = .alt ((f :: fs).map fun v => v.1.pid) := by simp [Schema.rule, hk]
  obtain ⟨_, j2, _⟩ := metadata_jump hm hG hreach hrule (p.lookahead ext)
  have hlook := j2 i t.pid (by rw [List.getElem?_map, hi]; rfl) hs
  rw [yields_iff]
  simp only [produceStep, hk, produceEnum, bind_ok]
  have hvar : ∀ fuel, ((f :: fs).map fun v => (produce (Parser.ops ext) S md fuel v.1, v.2))[i]? =
      some (produce (Parser.ops ext) S md fuel t, sem) := by
    intro fuel; rw [List.getElem?_map, hi]; rfl
  have hmap : ∀ (r0 : Res n (Tree n)) (p1 : Parser n),
      mapVariant (Parser.ops ext) i sem r0 p1 = .ok (r0.mapTree (.variant i))
        (p1.applyAll (r0.tree?.toList.map fun x => (x, sem))) := by
    intro r0 p1
    cases r0 with
    | success x =>
      unfold mapVariant
      rw [bind_ok]
      exact ⟨(), _, applyFields_parser.2 rfl, rfl⟩
    | recovered x e =>
      unfold mapVariant
      rw [bind_ok]
      exact ⟨(), _, applyFields_parser.2 rfl, rfl⟩
    | panic e => rfl
  constructor
  · rintro ⟨fuel', tok, p0, h1, h2⟩
    rw [hp.peekSrc hw] at h1
    cases h1
    rw [hlook] at h2
    simp only [hvar, bind_ok] at h2
    obtain ⟨r0, p1, h3, h4⟩ := h2
    rw [hmap] at h4
    cases h4
    exact ⟨r0, p1, ⟨fuel', h3⟩, rfl, rfl⟩
  · rintro ⟨r0, p1, ⟨fuel', h3⟩, rfl, rfl⟩
    refine ⟨fuel', _, _, hp.peekSrc hw, ?_⟩
    rw [hlook]
    simp only [hvar, bind_ok]
    exact ⟨r0, p1, h3, hmap r0 p1⟩

/-- At most one alternative is selected. -/
theorem C55_unique (S : Schema m n) (root : Ty m n) (fuel : Nat) (md : Metadata (PId m n) n)
    (hm : S.metadata fuel root = some (.ok md)) (G : Grammar (PId m n) n) (hG : S.IsGrammar root G)
    (k : Fin m) (f : Field m n) (fs : List (Field m n)) (hk : S k = .enum f fs)
    (hreach : Reachable G root.pid (.user k)) (x : Option (TokenSrc n)) (i j : Nat) (g h : Field m n)
    (hi : (f :: fs)[i]? = some g) (hj : (f :: fs)[j]? = some h) (h1 : Starts G g.1.pid x)
    (h2 : Starts G h.1.pid x) : i = j := by
  have hrule : S.rule (.user k) = .alt ((f :: fs).map fun v => v.1.pid) := by simp [Schema.rule, hk]
  exact (metadata_jump hm hG hreach hrule x).2.2 i j _ _
    (by rw [List.getElem?_map, hi]; rfl) (by rw [List.getElem?_map, hj]; rfl) h1 h2

/-- If there is none, it fails without consuming anything, with one error at the next token that names what
the enum can start with. -/
theorem C55_none (ext : Fin n → Bool) (source : Str) (items : List (Item n)) (hw : ItemsWF source items)
    (S : Schema m n) (root : Ty m n) (fuel : Nat) (md : Metadata (PId m n) n)
    (hm : S.metadata fuel root = some (.ok md)) (G : Grammar (PId m n) n) (hG : S.IsGrammar root G)
    (k : Fin m) (f : Field m n) (fs : List (Field m n)) (hk : S k = .enum f fs)
    (hreach : Reachable G root.pid (.user k)) (p : Parser n) (hp : Reached ext source items p)
    (hs : ∀ g ∈ f :: fs, ¬ Starts G g.1.pid (p.lookahead ext)) :
    ∃ set p', Yields ext S md (.user k) p (.panic [⟨p.nextSpan ext, .expecting set⟩]) p' ∧
      p'.view ext = p.view ext ∧ ∀ x, set.contains x = true ↔ Starts G (.user k) x := by
  have hrule : S.rule (.user k) = .alt ((f :: fs).map fun v => v.1.pid) := by simp [Schema.rule, hk]
  obtain ⟨j1, _, _⟩ := metadata_jump hm hG hreach hrule (p.lookahead ext)
  have hlook : md.jump.lookUp (.user k) (p.lookahead ext) = none := by
    cases hl : md.jump.lookUp (.user k) (p.lookahead ext) with
    | none => rfl
    | some j =>
      obtain ⟨c, h1, h2⟩ := j1 j hl
      obtain ⟨g, hg, rfl⟩ := List.mem_map.1 (List.mem_of_getElem? h1)
      exact absurd h2 (hs g hg)
  have hrun : produce View.ops S md 1 (.user k) (p.view ext) =
      .ok (.panic [⟨p.nextSpan ext, .expecting (md.first.get (.user k))⟩]) (p.view ext) := by
    unfold produce
    simp only [produceStep, hk, produceEnum]
    rw [bind_ok]
    refine ⟨_, _, mPeekSrc_ok.2 ⟨rfl, rfl, hp.getHead hw⟩, ?_⟩
    rw [hp.look hw, hlook]
    simp only
    rw [bind_ok]
    exact ⟨_, _, mExpecting_ok.2 ⟨rfl, rfl⟩, by rw [nextSpan_eq]; rfl⟩
  obtain ⟨p', h4, h5⟩ := yields_of_view hrun
  exact ⟨_, p', h4, h5, fun x => metadata_first hm hG (.user k) x⟩

/-- Example: `enum E { A(word), B(number) }`. -/
def exE : Schema 1 3 := fun _ => .enum (.term 0 ⟨0, none⟩, none) [(.term 1 ⟨1, none⟩, none)]
example : (∃ md, exE.metadata 30 (.user 0) = some (.ok md)) ∧
    ∃ G, exE.IsGrammar (.user 0) G ∧ Reachable G (Ty.user (n := 3) 0).pid (.user 0) ∧
      Starts G (.term 0 ⟨0, none⟩) ((Parser.new exSource exItems).lookahead exExt) := by
  refine ⟨⟨_, by rfl⟩, _, Schema.IsGrammar.of_register (fuel := 30) (by rfl), .refl, ?_⟩
  exact ⟨[], Derives.one (Expands.term (t := ⟨0, none⟩) (by decide) ⟨rfl, by simp⟩)⟩

end Teleparse
