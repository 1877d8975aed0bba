import Verif.Proof.Yields
/-
Properties C01 (Lexer::next), C02 (peek and consume), C03 (extracted tokens), C04 (invalid characters),
C05 (conservation), C06 (invalid tokens), C07 (parse_token), C08 (parse_token_lit), C09 (positions).
-/
namespace Teleparse
variable {m n : Nat}

/-- Example: source `ab $ 12`, where the blanks are skipped and `$` is not recognised; token type 0 are
words, 1 numbers, 2 comments (not used by a terminal, hence extracted). -/
def exSource : Str := [97, 98, 32, 36, 37, 49, 50, 35]
def exItems : List (Item 3) :=
  [.token ⟨⟨0, 2⟩, 0⟩, .error ⟨3, 4⟩, .error ⟨4, 5⟩, .token ⟨⟨5, 7⟩, 1⟩, .token ⟨⟨7, 8⟩, 2⟩]
def exExt : Fin 3 → Bool := fun t => t = 2

theorem exItems_wf : ItemsWF exSource exItems := by
  unfold ItemsWF exItems exSource; decide

/-! ## C01: the lexer -/

/-- A call returns the next token, and with it one span for all unrecognised pieces before it. -/
theorem C01_token (errs : List Span) (t : Token n) (rest : List (Item n)) (last : Span) :
    Lexer.next ⟨errs.map .error ++ .token t :: rest, last⟩ =
      ((mergeSpans errs, some t), ⟨rest, t.span⟩) :=
  next_token errs t rest last

/-- At the end of input there is no token, but unrecognised pieces are still reported, once. -/
theorem C01_end (errs : List Span) (last : Span) :
    (Lexer.next ⟨(errs.map .error : List (Item n)), last⟩).1 = (mergeSpans errs, none) ∧
    (Lexer.next ⟨(errs.map .error : List (Item n)), last⟩).2.next.1 = (none, none) := by
  obtain ⟨last', h⟩ := next_end (n := n) errs last
  rw [h]
  exact ⟨rfl, rfl⟩

/-- Calling `next` until it returns no token yields exactly the tokens of the scanner in order, and
reports exactly the maximal runs of unrecognised pieces; further calls return `(None, None)`. -/
theorem C01_all (l : Lexer n) (k : Nat) (hk : (tokensOf l.items).length < k) :
    (l.calls k).1.filterMap (·.2) = tokensOf l.items ∧
    (l.calls k).1.filterMap (·.1) = invalidRuns l.items ∧
    (l.calls k).2.next.1 = (none, none) := by
  have done : ∀ k (l : Lexer n), l.items = [] → (l.calls k).1.filterMap (·.2) = [] ∧
      (l.calls k).1.filterMap (·.1) = [] ∧ (l.calls k).2.next.1 = (none, none) := by
    intro k
    induction k with
    | zero => intro l hl; obtain ⟨it, la⟩ := l; subst hl; exact ⟨rfl, rfl, rfl⟩
    | succ k ih =>
      intro l hl
      obtain ⟨it, la⟩ := l
      subst hl
      exact ih ⟨[], la⟩ rfl
  induction k generalizing l with
  | zero => omega
  | succ k ih =>
    obtain ⟨items, last⟩ := l
    rcases items_cases items with ⟨errs, t, rest, rfl⟩ | ⟨errs, rfl⟩
    · have h1 := next_token errs t rest last
      simp only [tokensOf_append, tokensOf_errors, tokensOf, List.nil_append, List.length_cons] at hk
      obtain ⟨h2, h3, h4⟩ := ih ⟨rest, t.span⟩ (by simp only; omega)
      simp only [Lexer.calls, h1]
      refine ⟨?_, ?_, h4⟩
      · simp only [List.filterMap_cons, h2, tokensOf_append, tokensOf_errors, tokensOf, List.nil_append]
      · unfold invalidRuns at h3 ⊢
        rw [invalidRunsFrom_errors]
        simp only [List.nil_append, invalidRunsFrom, ← h3]
        cases mergeSpans errs <;> rfl
    · obtain ⟨last', h1⟩ := next_end (n := n) errs last
      obtain ⟨h2, h3, h4⟩ := done k ⟨[], last'⟩ rfl
      simp only [Lexer.calls, h1]
      refine ⟨?_, ?_, h4⟩
      · simp only [List.filterMap_cons, h2, tokensOf_errors]
      · unfold invalidRuns
        rw [← List.append_nil (errs.map _), invalidRunsFrom_errors]
        simp only [List.nil_append, invalidRunsFrom, List.filterMap_cons, h3]
        cases mergeSpans errs <;> rfl

example : ((⟨exItems, ⟨0, 0⟩⟩ : Lexer 3).calls 5).1 =
    [(none, some ⟨⟨0, 2⟩, 0⟩), (some ⟨3, 5⟩, some ⟨⟨5, 7⟩, 1⟩), (none, some ⟨⟨7, 8⟩, 2⟩), (none, none),
      (none, none)] := by decide
example : tokensOf exItems = [⟨⟨0, 2⟩, 0⟩, ⟨⟨5, 7⟩, 1⟩, ⟨⟨7, 8⟩, 2⟩] ∧ invalidRuns exItems = [⟨3, 5⟩] := by
  decide

/-! ## C02: peeking and consuming -/

/-- The answers of one call and the stream after it. -/
theorem call_spec (ext : Fin n → Bool) {source : Str} (p : Parser n) (hp : InSource source (p.view ext))
    (hs : ∀ t ∈ (p.view ext).rest, t.span.lo < t.span.hi) (c : Call) :
    (p.call ext c).1 = expectedAnswer source (p.view ext).rest c ∧
    ((p.call ext c).2.view ext).rest = afterCall (p.view ext).rest c ∧
    Adv (p.view ext) ((p.call ext c).2.view ext) ∧
    (c ≠ .consume → (p.call ext c).2.view ext = p.view ext) := by
  have hsim := sim_closed ext
  have hsrc : (p.view ext).source = source := hp.src
  cases c with
  | peek =>
    obtain ⟨p', h1, h2⟩ := Sim.run hsim.peek (mPeek_ok.2 ⟨rfl, rfl⟩ : _ = Out.ok _ (p.view ext))
    simp only [Parser.call, h1, Answer.ofOut, expectedAnswer, afterCall, h2]
    exact ⟨trivial, trivial, .refl _, fun _ => trivial⟩
  | consume =>
    obtain ⟨p', h1, h2⟩ := Sim.run hsim.consume (mConsume_ok.2 ⟨rfl, rfl⟩ : _ = Out.ok _ (p.view ext).skip)
    simp only [Parser.call, h1, Answer.ofOut, expectedAnswer, afterCall, h2]
    refine ⟨trivial, ?_, .skip _, by simp⟩
    unfold View.skip View.consume
    cases hr : (p.view ext).rest <;> simp [hr]
  | currentSpan =>
    obtain ⟨p', h1, h2⟩ :=
      Sim.run hsim.currentSpan (mCurrentSpan_ok.2 ⟨rfl, rfl⟩ : _ = Out.ok _ (p.view ext))
    simp only [Parser.call, h1, Answer.ofOut, expectedAnswer, afterCall, h2]
    refine ⟨?_, trivial, .refl _, fun _ => trivial⟩
    unfold View.cur
    cases (p.view ext).rest <;> simp [hsrc]
  | peekSrc =>
    obtain ⟨p', h1, h2⟩ := Sim.run hsim.peekSrc
      (mPeekSrc_ok.2 ⟨rfl, rfl, fun t ht => by
        rw [hsrc]
        exact get?_isSome (hp.good.rest t (List.mem_of_head? ht))⟩ : _ = Out.ok _ (p.view ext))
    simp only [Parser.call, h1, Answer.ofOut, expectedAnswer, afterCall, h2]
    refine ⟨?_, trivial, .refl _, fun _ => trivial⟩
    unfold View.look
    cases hr : (p.view ext).rest with
    | nil => rfl
    | cons t l =>
      have ht : t ∈ (p.view ext).rest := by simp [hr]
      have := get?_eq (hp.good.rest t ht) (hs t ht)
      simp [Token.toSrc, Token.src, Span.get, hsrc, this]

theorem calls_spec (ext : Fin n → Bool) {source : Str} (cs : List Call) : ∀ (p : Parser n),
    InSource source (p.view ext) → (∀ t ∈ (p.view ext).rest, t.span.lo < t.span.hi) →
    (p.calls ext cs).1 = expectedAnswers source cs (p.view ext).rest ∧
    ((p.calls ext cs).2.view ext).rest = afterCalls (p.view ext).rest cs ∧
    Adv (p.view ext) ((p.calls ext cs).2.view ext) := by
  induction cs with
  | nil => intro p hp hs; exact ⟨rfl, rfl, .refl _⟩
  | cons c cs ih =>
    intro p hp hs
    obtain ⟨h1, h2, h3, _⟩ := call_spec ext p hp hs c
    obtain ⟨i1, i2, i3⟩ := ih _ (hp.adv h3) (by
      intro t ht
      rw [h2] at ht
      cases c with
      | consume => exact hs t (List.mem_of_mem_tail ht)
      | _ => exact hs t ht)
    simp only [Parser.calls, expectedAnswers, afterCalls, List.foldl_cons]
    rw [h1, i1, h2]
    refine ⟨rfl, ?_, h3.trans i3⟩
    rw [i2, h2]; rfl

/-- Any sequence of calls on a fresh parser is answered as if the non-extracted tokens were a list:
consuming removes its head, peeking does not change it; and the token store holds what was consumed. -/
theorem C02_calls (ext : Fin n → Bool) (source : Str) (items : List (Item n)) (hw : ItemsWF source items)
    (cs : List Call) :
    ((Parser.new source items).calls ext cs).1 = expectedAnswers source cs (streamOf ext items) ∧
    ((Parser.new source items).calls ext cs).2.info.tokens.map (·.token) ++
      afterCalls (streamOf ext items) cs = streamOf ext items := by
  have hr : Reached ext source items (Parser.new source items) := .new
  have hv : ((Parser.new source items).view ext).rest = streamOf ext items := rfl
  obtain ⟨h1, h2, h3⟩ := calls_spec ext (source := source) cs (Parser.new source items) (hr.inSource hw)
    (fun t ht => (hw.sorted (ext := ext)).1 t ht)
  rw [hv] at h1 h2
  refine ⟨h1, ?_⟩
  obtain ⟨ts, e1, e2⟩ := h3.cons
  rw [h2, hv] at e1
  rw [show ((Parser.new source items).calls ext cs).2.info.tokens.map (·.token) = ts by
    simpa [Parser.view, Parser.new] using e2]
  exact e1.symm

/-- The same from any reachable state, and peeking (in any of its forms) changes nothing visible. -/
theorem C02_reached (ext : Fin n → Bool) (source : Str) (items : List (Item n)) (hw : ItemsWF source items)
    (p : Parser n) (hp : Reached ext source items p) (cs : List Call) :
    (p.calls ext cs).1 = expectedAnswers source cs (p.view ext).rest ∧
    ((p.calls ext cs).2.view ext).rest = afterCalls (p.view ext).rest cs :=
  have hs := calls_spec ext (source := source) cs p (hp.inSource hw) (by
    intro t ht
    exact (hw.sorted (ext := ext)).1 t (by rw [← hp.total]; exact List.mem_append_right _ ht))
  ⟨hs.1, hs.2.1⟩

theorem C02_peek_pure (ext : Fin n → Bool) (source : Str) (items : List (Item n))
    (hw : ItemsWF source items) (p : Parser n) (hp : Reached ext source items p) (c : Call)
    (hc : c ≠ .consume) : (p.call ext c).2.view ext = p.view ext :=
  (call_spec ext (source := source) p (hp.inSource hw) (by
    intro t ht
    exact (hw.sorted (ext := ext)).1 t (by rw [← hp.total]; exact List.mem_append_right _ ht)) c).2.2.2 hc

example : ((Parser.new exSource exItems).calls exExt
      [.peek, .peekSrc, .consume, .currentSpan, .consume, .peek, .consume, .currentSpan]).1 =
    [.token (some ⟨⟨0, 2⟩, 0⟩), .src (some ⟨0, [97, 98]⟩), .token (some ⟨⟨0, 2⟩, 0⟩), .span ⟨5, 7⟩,
      .token (some ⟨⟨5, 7⟩, 1⟩), .token none, .token none, .span ⟨8, 8⟩] := by decide

/-! ## C03: extracted tokens -/

/-- In every reachable state there is a prefix of the scanner's outcomes (what has been read) such that the
extracted tokens are exactly those of the prefix without a terminal. -/
theorem C03_extracted (ext : Fin n → Bool) (source : Str) (items : List (Item n)) (p : Parser n)
    (hp : Reached ext source items p) :
    ∃ read, items = read ++ p.lexer.items ∧
      p.info.extracted = (tokensOf read).filter (fun t => ext t.ty) ∧
      p.info.tokens.map (·.token) ++ p.peeked.toList = (tokensOf read).filter (fun t => !ext t.ty) := by
  obtain ⟨done, h⟩ := hp.inv
  exact ⟨done, h.split, h.extracted, h.stream⟩

/-- They are never returned and never stored. -/
theorem C03_never_seen (ext : Fin n → Bool) (source : Str) (items : List (Item n)) (p : Parser n)
    (hp : Reached ext source items p) :
    (∀ t ∈ p.info.tokens.map (·.token), ext t.ty = false) ∧
    (∀ t, (p.peek ext).1 = some t → ext t.ty = false) ∧
    (∀ t, (p.consume ext).1 = some t → ext t.ty = false) := by
  have key : ∀ q, Reached ext source items q →
      ∀ t ∈ q.info.tokens.map (·.token) ++ q.peeked.toList, ext t.ty = false := by
    intro q hq t ht
    obtain ⟨done, h⟩ := hq.inv
    rw [h.stream] at ht
    simpa using (List.mem_filter.1 ht).2
  refine ⟨fun t ht => key p hp t (List.mem_append_left _ ht), fun t ht => ?_, fun t ht => ?_⟩
  · have : (p.peek ext).2.peeked = some t := ht
    exact key _ hp.peek t (List.mem_append_right _ (by rw [this]; simp))
  · have hc := view_consume ext p
    rw [hc.1] at ht
    have hq := key _ hp.consume t
    refine hq (List.mem_append_left _ ?_)
    have : (p.consume ext).2.info.tokens = ((p.view ext).consume.2).cells := by rw [← hc.2]; rfl
    rw [this]
    unfold View.consume at ht ⊢
    cases hr : (p.view ext).rest with
    | nil => rw [hr] at ht; cases ht
    | cons a l =>
      rw [hr] at ht
      cases ht
      simp [TokenVec.push, Cell.ofToken]

/-- Once the end of input has been seen, all of them have been set aside. -/
theorem C03_all (ext : Fin n → Bool) (source : Str) (items : List (Item n)) (p : Parser n)
    (hp : Reached ext source items p) (hend : (p.peek ext).1 = none) :
    (p.peek ext).2.info.extracted = (tokensOf items).filter (fun t => ext t.ty) := by
  obtain ⟨done, h⟩ := hp.inv
  obtain ⟨done', h', _, _, h4, _⟩ := fill_spec h
  have h5 := h4 hend
  have h6 := h'.split
  rw [h5, List.append_nil] at h6
  rw [h6]
  exact h'.extracted

example : Reached exExt exSource exItems
      (((Parser.new exSource exItems).consume exExt).2.consume exExt).2 ∧
    ((((Parser.new exSource exItems).consume exExt).2.consume exExt).2.peek exExt).1 = none ∧
    ((((Parser.new exSource exItems).consume exExt).2.consume exExt).2.peek exExt).2.info.extracted =
      [⟨⟨7, 8⟩, 2⟩] :=
  ⟨.consume (.consume .new), by decide, by decide⟩

/-! ## C04: invalid characters -/

/-- In every reachable state, also between and after parses, `invalid_source` is the list of unrecognised
runs of what has been read (the same prefix as in C03), and `errors` has exactly one `UnexpectedCharacters`
error for each, in the same order. -/
theorem C04_recorded (ext : Fin n → Bool) (source : Str) (items : List (Item n)) (p : Parser n)
    (hp : Reached ext source items p) :
    ∃ read, items = read ++ p.lexer.items ∧
      p.info.extracted = (tokensOf read).filter (fun t => ext t.ty) ∧
      p.info.invalidSource = invalidRuns read ∧
      p.info.errors.filter (fun e => decide (e.kind = .unexpectedCharacters)) =
        p.info.invalidSource.map fun sp => ⟨sp, .unexpectedCharacters⟩ := by
  obtain ⟨done, h⟩ := hp.inv
  exact ⟨done, h.split, h.extracted, h.invalid, by rw [h.invalid]; exact h.errors⟩

/-- After the end of input was seen, everything has been recorded. -/
theorem C04_all (ext : Fin n → Bool) (source : Str) (items : List (Item n)) (p : Parser n)
    (hp : Reached ext source items p) (hend : (p.peek ext).1 = none) :
    (p.peek ext).2.info.invalidSource = invalidRuns items := by
  obtain ⟨done, h⟩ := hp.inv
  obtain ⟨done', h', _, _, h4, _⟩ := fill_spec h
  have h6 := h'.split
  rw [h4 hend, List.append_nil] at h6
  rw [h6]
  exact h'.invalid

/-- Peeking again at the end of input adds nothing. -/
theorem C04_idempotent (ext : Fin n → Bool) (source : Str) (items : List (Item n)) (p : Parser n)
    (hp : Reached ext source items p) :
    ((p.peek ext).2.peek ext).2 = (p.peek ext).2 := by
  obtain ⟨done, h⟩ := hp.inv
  obtain ⟨done', h', _, _, h4, _⟩ := fill_spec h
  show (p.fill ext).fill ext = p.fill ext
  generalize p.fill ext = q at *
  unfold Parser.fill
  cases hq : q.peeked with
  | some t => rfl
  | none =>
    have := h4 hq
    obtain ⟨info, ⟨its, last⟩, pk⟩ := q
    simp only at this hq
    subst this hq
    rfl

example : ((((Parser.new exSource exItems).consume exExt).2.consume exExt).2.info.invalidSource,
    (((Parser.new exSource exItems).consume exExt).2.consume exExt).2.info.errors) =
    ([⟨3, 5⟩], [⟨⟨3, 5⟩, .unexpectedCharacters⟩]) := by decide

/-! ## C05: conservation -/

/-- What is consumed, then what is pending: always the same list. Producing only moves tokens from the
front of the pending ones to the end of the store, whatever the result is. -/
theorem C05_produce (ext : Fin n → Bool) (S : Schema m n) (md : Metadata (PId m n) n) (fuel : Nat)
    (t : Ty m n) (p p' : Parser n) (r : Res n (Tree n))
    (h : produce (Parser.ops ext) S md fuel t p = .ok r p') :
    ∃ ts, (p.view ext).rest = ts ++ (p'.view ext).rest ∧
      p'.info.tokens.map (·.token) = p.info.tokens.map (·.token) ++ ts :=
  (produce_adv h).cons

theorem C05_reached (ext : Fin n → Bool) (source : Str) (items : List (Item n)) (p : Parser n)
    (hp : Reached ext source items p) :
    p.info.tokens.map (·.token) ++ (p.view ext).rest = streamOf ext items :=
  hp.total

/-- The token store is sorted in every reachable state. -/
theorem C05_sorted (ext : Fin n → Bool) (source : Str) (items : List (Item n)) (hw : ItemsWF source items)
    (p : Parser n) (hp : Reached ext source items p) : SortedStore p.info.tokens :=
  hp.sorted hw

/-- Example program: terminals `word` (type 0) and `number` (type 1), and the root `Loop<word>`. -/
def exS : Schema 0 3 := fun k => k.elim0
def exWord : Ty 0 3 := .term 0 ⟨0, none⟩
def exNum : Ty 0 3 := .term 1 ⟨1, none⟩

def exLoop : Option (List (Token 3) × List (Err 3) × List (Token 3) × List Bool) :=
  match rootParse exExt exS 20 (.loop exWord) exSource exItems with
  | .ok (.ok t) p => some (p.info.tokens.map (·.token), p.info.errors, p.info.invalidTokens, [t.isSome])
  | _ => none

example : exLoop = some ([⟨⟨0, 2⟩, 0⟩, ⟨⟨5, 7⟩, 1⟩],
    [⟨⟨3, 5⟩, .unexpectedCharacters⟩, ⟨⟨5, 7⟩, .unexpectedTokens⟩], [], [true]) := by decide +kernel

/-! ## C06: invalid tokens -/

/-- `Info::invalid_tokens` is never filled, whatever happens. -/
theorem C06_never_filled (ext : Fin n → Bool) (source : Str) (items : List (Item n)) (p : Parser n)
    (hp : Reached ext source items p) : p.info.invalidTokens = [] := by
  obtain ⟨done, h⟩ := hp.inv
  exact h.skipped

/-- So the claim is false: parsing `ab 12` as `Loop<word>` skips the number (the error says so), but
`invalid_tokens` stays empty. -/
theorem C06_false : ∃ p t, rootParse exExt exS 20 (.loop exWord) exSource exItems = .ok (.ok (some t)) p ∧
    ⟨⟨5, 7⟩, .unexpectedTokens⟩ ∈ p.info.errors ∧ ⟨⟨5, 7⟩, 1⟩ ∈ p.info.tokens.map (·.token) ∧
    p.info.invalidTokens = [] := by
  have h : exLoop = some ([⟨⟨0, 2⟩, 0⟩, ⟨⟨5, 7⟩, 1⟩],
    [⟨⟨3, 5⟩, .unexpectedCharacters⟩, ⟨⟨5, 7⟩, .unexpectedTokens⟩], [], [true]) := by decide +kernel
  unfold exLoop at h
  split at h
  · rename_i t p hp
    simp only [Option.some.injEq, Prod.mk.injEq, List.cons.injEq, and_true] at h
    obtain ⟨h1, h2, h3, h4⟩ := h
    obtain ⟨x, rfl⟩ := Option.isSome_iff_exists.1 h4
    exact ⟨p, x, hp, by rw [h2]; simp, by rw [h1]; simp, h3⟩
  · cases h

/-! ## C07: parse_token -/

/-- `parse_token` takes the next token if it has the type, and otherwise does nothing but report it. -/
theorem C07_parse_token (ext : Fin n → Bool) (p : Parser n) (ty : Fin n) :
    ∃ r p', (Parser.ops ext).parseToken ty p = .ok r p' ∧
      match (p.view ext).rest with
      | [] => r = .panic [⟨⟨p.info.source.length, p.info.source.length⟩, .expecting (TSet.one ty none)⟩] ∧
          p'.view ext = p.view ext
      | t :: l =>
        if t.ty = ty then r = .success t ∧
          p'.view ext = ⟨p.info.source, p.info.tokens ++ [Cell.ofToken t], l⟩
        else r = .panic [⟨t.span, .expecting (TSet.one ty none)⟩] ∧ p'.view ext = p.view ext := by
  have hv : ∃ r v', (View.ops (n := n)).parseToken ty (p.view ext) = .ok r v' ∧
      match (p.view ext).rest with
      | [] => r = .panic [⟨⟨p.info.source.length, p.info.source.length⟩, .expecting (TSet.one ty none)⟩] ∧
          v' = p.view ext
      | t :: l =>
        if t.ty = ty then r = .success t ∧ v' = ⟨p.info.source, p.info.tokens ++ [Cell.ofToken t], l⟩
        else r = .panic [⟨t.span, .expecting (TSet.one ty none)⟩] ∧ v' = p.view ext := by
    unfold Ops.parseToken
    simp only [bind_ok, mPeek_ok]
    cases hr : (p.view ext).rest with
    | nil =>
      refine ⟨_, _, ⟨_, _, ⟨rfl, rfl⟩, ?_⟩, rfl, rfl⟩
      simp only [List.head?_nil, bind_ok, mExpecting_ok, pure_ok]
      exact ⟨_, _, ⟨rfl, rfl⟩, by rw [View.cur, hr]; rfl, rfl⟩
    | cons t l =>
      by_cases ht : t.ty = ty
      · refine ⟨.success t, (p.view ext).skip, ⟨_, _, ⟨rfl, rfl⟩, ?_⟩, ?_⟩
        · simp only [hr, List.head?_cons, ht, if_true, bind_ok, mConsume_ok, pure_ok]
          exact ⟨_, _, ⟨rfl, rfl⟩, trivial, rfl⟩
        · simp only [ht, if_true, View.skip, View.consume, hr, true_and]
          rfl
      · refine ⟨.panic [⟨t.span, .expecting (TSet.one ty none)⟩], p.view ext, ⟨_, _, ⟨rfl, rfl⟩, ?_⟩, ?_⟩
        · simp only [List.head?_cons, ht, if_false, bind_ok, mExpecting_ok, pure_ok]
          exact ⟨_, _, ⟨rfl, rfl⟩, by simp [View.cur, hr], rfl⟩
        · simp [ht]
  obtain ⟨r, v', h1, h2⟩ := hv
  obtain ⟨p', h3, h4⟩ := Sim.run (ext := ext) (x := (Parser.ops ext).parseToken ty)
    ((sim_closed ext).parseToken ty) h1
  subst h4
  exact ⟨r, p', h3, h2⟩

example : (((Parser.ops exExt).parseToken 0 (Parser.new exSource exItems)).value? = some (.success ⟨⟨0, 2⟩, 0⟩)) ∧
    (((Parser.ops exExt).parseToken 1 (Parser.new exSource exItems)).value? =
      some (.panic [⟨⟨0, 2⟩, .expecting (TSet.one 1 none)⟩])) := by decide

/-! ## C08: parse_token_lit -/

/-- The literal: taken if it is next; inserted with an error if the next token (or the end) may follow it;
a failure otherwise. -/
theorem C08_parse_token_lit (ext : Fin n → Bool) (source : Str) (items : List (Item n))
    (hw : ItemsWF source items) (p : Parser n) (hp : Reached ext source items p) (ty : Fin n) (lit : Str)
    (follow : TSet n) :
    ∃ r p', (Parser.ops ext).parseTokenLit ty lit follow p = .ok r p' ∧
      match (p.view ext).rest with
      | [] => p'.view ext = p.view ext ∧ r =
          if follow.containsE then
            .recovered ⟨⟨source.length, source.length⟩, ty⟩
              [⟨⟨source.length, source.length⟩, .expecting (TSet.one ty (some lit))⟩]
          else .panic [⟨⟨source.length, source.length⟩, .unexpectedEof⟩]
      | t :: l =>
        let text := (source.drop t.span.lo).take (t.span.hi - t.span.lo)
        if t.ty = ty ∧ text = lit then
          r = .success t ∧ p'.view ext = ⟨source, p.info.tokens ++ [Cell.ofToken t], l⟩
        else p'.view ext = p.view ext ∧ r =
          if follow.contains (some ⟨t.ty, text⟩) then
            .recovered ⟨p.emptySpan, ty⟩ [⟨t.span, .expecting (TSet.one ty (some lit))⟩]
          else .panic [⟨t.span, .expecting (TSet.one ty (some lit))⟩] := by
  have hsrc : (p.view ext).source = source := hp.source
  have hv : ∃ r v', (View.ops (n := n)).parseTokenLit ty lit follow (p.view ext) = .ok r v' ∧
      match (p.view ext).rest with
      | [] => v' = p.view ext ∧ r =
          if follow.containsE then
            .recovered ⟨⟨source.length, source.length⟩, ty⟩
              [⟨⟨source.length, source.length⟩, .expecting (TSet.one ty (some lit))⟩]
          else .panic [⟨⟨source.length, source.length⟩, .unexpectedEof⟩]
      | t :: l =>
        let text := (source.drop t.span.lo).take (t.span.hi - t.span.lo)
        if t.ty = ty ∧ text = lit then
          r = .success t ∧ v' = ⟨source, p.info.tokens ++ [Cell.ofToken t], l⟩
        else v' = p.view ext ∧ r =
          if follow.contains (some ⟨t.ty, text⟩) then
            .recovered ⟨p.emptySpan, ty⟩ [⟨t.span, .expecting (TSet.one ty (some lit))⟩]
          else .panic [⟨t.span, .expecting (TSet.one ty (some lit))⟩] := by
    unfold Ops.parseTokenLit
    simp only [bind_ok, mPeek_ok]
    cases hr : (p.view ext).rest with
    | nil =>
      have hcur : (p.view ext).cur = ⟨source.length, source.length⟩ := by simp [View.cur, hr, hsrc]
      refine ⟨_, _, ⟨_, _, ⟨rfl, rfl⟩, ?_⟩, rfl, rfl⟩
      simp only [List.head?_nil]
      split
      · simp only [bind_ok, mCurrentSpan_ok, mExpecting_ok, pure_ok]
        exact ⟨_, _, ⟨rfl, rfl⟩, _, _, ⟨rfl, rfl⟩, by rw [hcur], rfl⟩
      · simp only [bind_ok, mUnexpectedEof_ok, pure_ok]
        exact ⟨_, _, ⟨rfl, rfl⟩, by rw [hcur], rfl⟩
    | cons t l =>
      have hmem : t ∈ (p.view ext).rest := by simp [hr]
      have hcur : (p.view ext).cur = t.span := by simp [View.cur, hr]
      have hlt : t.span.lo < t.span.hi := (hw.sorted (ext := ext)).1 t (by
        rw [← hp.total]; exact List.mem_append_right _ hmem)
      have hget := get?_eq ((hp.inSource hw).good.rest t hmem) hlt
      by_cases ht : t.ty = ty ∧ (source.drop t.span.lo).take (t.span.hi - t.span.lo) = lit
      · refine ⟨.success t, (p.view ext).skip, ⟨_, _, ⟨rfl, rfl⟩, ?_⟩, ?_⟩
        · simp only [List.head?_cons, bind_ok, mGetSrc_ok]
          refine ⟨_, _, ⟨by rw [hsrc]; exact hget, rfl⟩, ?_⟩
          rw [if_pos ht]
          simp only [bind_ok, mConsume_ok, pure_ok]
          exact ⟨_, _, ⟨rfl, rfl⟩, trivial, rfl⟩
        · simp only [ht, and_self, if_true, View.skip, View.consume, hr, true_and, hsrc]
          rfl
      · refine ⟨if follow.contains (some ⟨t.ty, (source.drop t.span.lo).take (t.span.hi - t.span.lo)⟩) then
            .recovered ⟨p.emptySpan, ty⟩ [⟨t.span, .expecting (TSet.one ty (some lit))⟩]
          else .panic [⟨t.span, .expecting (TSet.one ty (some lit))⟩], p.view ext,
          ⟨_, _, ⟨rfl, rfl⟩, ?_⟩, ?_⟩
        rotate_left
        · simp only
          rw [if_neg ht]
          exact ⟨trivial, trivial⟩
        · simp only [List.head?_cons, bind_ok, mGetSrc_ok]
          refine ⟨_, _, ⟨by rw [hsrc]; exact hget, rfl⟩, ?_⟩
          rw [if_neg ht]
          split
          · simp only [bind_ok, mEmptySpan_ok, mExpecting_ok, pure_ok]
            exact ⟨_, _, ⟨rfl, rfl⟩, _, _, ⟨rfl, rfl⟩, by rw [hcur]; rfl, rfl⟩
          · simp only [bind_ok, mExpecting_ok, pure_ok]
            exact ⟨_, _, ⟨rfl, rfl⟩, by rw [hcur], rfl⟩
  obtain ⟨r, v', h1, h2⟩ := hv
  obtain ⟨p', h3, h4⟩ := Sim.run (ext := ext) (x := (Parser.ops ext).parseTokenLit ty lit follow)
    ((sim_closed ext).parseTokenLit ty lit follow) h1
  subst h4
  exact ⟨r, p', h3, h2⟩

/-- Example: the literal `ab`; the literal `x` if a word may follow; the literal `x` otherwise. -/
example : ((Parser.ops exExt).parseTokenLit 0 [97, 98] (TSet.empty) (Parser.new exSource exItems)).value? =
      some (.success ⟨⟨0, 2⟩, 0⟩) ∧
    ((Parser.ops exExt).parseTokenLit 1 [120] (TSet.one 0 none) (Parser.new exSource exItems)).value? =
      some (.recovered ⟨⟨0, 0⟩, 1⟩ [⟨⟨0, 2⟩, .expecting (TSet.one 1 (some [120]))⟩]) ∧
    ((Parser.ops exExt).parseTokenLit 1 [120] (TSet.one 1 none) (Parser.new exSource exItems)).value? =
      some (.panic [⟨⟨0, 2⟩, .expecting (TSet.one 1 (some [120]))⟩]) := by decide

/-! ## C09: positions -/

/-- `current_span`, `empty_span` and `remaining` in any reachable state; none changes the stream. -/
theorem C09_positions (ext : Fin n → Bool) (source : Str) (items : List (Item n))
    (hw : ItemsWF source items) (p : Parser n) (hp : Reached ext source items p) :
    (∃ sp p', (Parser.ops ext).mCurrentSpan p = .ok sp p' ∧ p'.view ext = p.view ext ∧
      sp = (((p.view ext).rest.head?.map (·.span)).getD ⟨source.length, source.length⟩)) ∧
    (∃ s p', (Parser.ops ext).mRemaining p = .ok s p' ∧ p'.view ext = p.view ext ∧
      s = source.drop (((p.view ext).rest.head?.map (·.span.lo)).getD source.length)) ∧
    (p.info.tokens = [] → p.emptySpan = ⟨0, 0⟩) ∧
    (∀ c, p.info.tokens.getLast? = some c → p.emptySpan = ⟨c.token.span.hi, c.token.span.hi⟩) ∧
    (∀ c ∈ p.info.tokens, c.token.span.hi ≤ p.emptySpan.lo) ∧
    (∀ t ∈ (p.view ext).rest, p.emptySpan.hi ≤ t.span.lo) := by
  have hsrc : (p.view ext).source = source := hp.source
  refine ⟨?_, ?_, ?_, ?_, ?_, ?_⟩
  · obtain ⟨p', h1, h2⟩ := Sim.run (sim_closed ext).currentSpan
      (mCurrentSpan_ok.2 ⟨rfl, rfl⟩ : _ = Out.ok _ (p.view ext))
    refine ⟨_, p', h1, h2, ?_⟩
    unfold View.cur
    cases (p.view ext).rest <;> simp [hsrc]
  · obtain ⟨p', h1, h2⟩ := Sim.run (sim_closed ext).remaining (mRemaining_good (hp.inSource hw))
    refine ⟨_, p', h1, h2, ?_⟩
    rw [hsrc]
    unfold View.cur
    cases (p.view ext).rest <;> simp [hsrc]
  · intro h; simp [Parser.emptySpan, h]
  · intro c h; simp [Parser.emptySpan, h]
  · intro c hc
    have hs := hp.sorted hw
    obtain ⟨init, last, hl⟩ : ∃ init last, p.info.tokens = init ++ [last] := by
      rcases List.eq_nil_or_concat p.info.tokens with h | ⟨i, l, h⟩
      · rw [h] at hc; cases hc
      · exact ⟨i, l, by simpa using h⟩
    have he : p.emptySpan = ⟨last.token.span.hi, last.token.span.hi⟩ := by simp [Parser.emptySpan, hl]
    rw [he]
    rw [hl] at hc hs
    rcases List.mem_append.1 hc with hc | hc
    · have h1 := hs.2
      simp only [List.map_append, List.pairwise_append] at h1
      have h2 := h1.2.2 c.token (List.mem_map_of_mem hc) last.token (by simp)
      have h3 := hs.1 last.token (by simp)
      simp only at h2 ⊢
      omega
    · cases List.mem_singleton.1 hc
      exact Nat.le_refl _
  · intro t ht
    rcases List.eq_nil_or_concat p.info.tokens with h | ⟨i, l, h⟩
    · simp [Parser.emptySpan, h]
    · have hs := hw.sorted (ext := ext)
      rw [← hp.total] at hs
      have h1 := (List.pairwise_append.1 hs.2).2.2 l.token (by rw [h]; simp) t ht
      simpa [Parser.emptySpan, h] using h1

/-- Example: after consuming `ab`, `empty_span` is at 2 and the remaining text starts at the number, after
the unrecognised characters. -/
example : ((Parser.new exSource exItems).consume exExt).2.emptySpan = ⟨2, 2⟩ ∧
    ((Parser.ops exExt).mRemaining ((Parser.new exSource exItems).consume exExt).2).value? =
      some [49, 50, 35] := by decide

end Teleparse
