import Verif.Props.Parser
/-
Properties C47 (error spans), C48 (Parser::parse) and C52 (no out-of-bounds slicing).
-/
namespace Teleparse
variable {m n : Nat}

/-! ## C47: error spans -/

/-- Every error of a result has both ends in the source, on character boundaries, whatever the type, the
parse table and the input. -/
theorem C47_produce (ext : Fin n → Bool) (source : Str) (items : List (Item n)) (hw : ItemsWF source items)
    (p p' : Parser n) (hp : Reached ext source items p) (S : Schema m n) (md : Metadata (PId m n) n)
    (fuel : Nat) (t : Ty m n) (r : Res n (Tree n))
    (h : produce (Parser.ops ext) S md fuel t p = .ok r p') (e : Err n) (he : e ∈ r.errs) :
    e.span.InSource source :=
  ((produce_good h (hp.inSource hw).good).errs e he).1

/-- Every span of a produced tree has both ends in the source. -/
theorem C47_tree (ext : Fin n → Bool) (source : Str) (items : List (Item n)) (hw : ItemsWF source items)
    (p p' : Parser n) (hp : Reached ext source items p) (S : Schema m n) (md : Metadata (PId m n) n)
    (fuel : Nat) (t : Ty m n) (r : Res n (Tree n)) (x : Tree n) (e : List (Err n))
    (h : produce (Parser.ops ext) S md fuel t p = .ok r p') (hx : r.Gives x e) :
    x.AllSpans (·.InSource source) := by
  have := produce_good h (hp.inSource hw).good
  cases hx with
  | success => exact this
  | recovered => exact this.1

/-- All recorded errors, also those about unrecognised characters and of earlier parses. -/
theorem C47_recorded (ext : Fin n → Bool) (source : Str) (items : List (Item n)) (hw : ItemsWF source items)
    (p : Parser n) (hp : Reached ext source items p) (e : Err n) (he : e ∈ p.info.errors) :
    e.span.InSource source := hp.errorsInSource hw e he

/-- Example: errors about characters and about tokens after a parse of the example source. -/
example : ∃ p, Reached exExt exSource exItems p ∧ p.info.errors =
    [⟨⟨3, 5⟩, .unexpectedCharacters⟩, ⟨⟨5, 7⟩, .unexpectedTokens⟩] := by
  have h : exLoop = some ([⟨⟨0, 2⟩, 0⟩, ⟨⟨5, 7⟩, 1⟩],
    [⟨⟨3, 5⟩, .unexpectedCharacters⟩, ⟨⟨5, 7⟩, .unexpectedTokens⟩], [], [true]) := by decide +kernel
  unfold exLoop at h
  split at h
  · rename_i t p hp
    simp only [Option.some.injEq, Prod.mk.injEq] at h
    exact ⟨p, .parse _ _ _ _ .new hp, h.2.1⟩
  · cases h

/-! ## C48: Parser::parse -/

/-- A grammar error is returned iff the metadata is an error, and then nothing happens. -/
theorem C48_grammar_error (ext : Fin n → Bool) (S : Schema m n) (fuel : Nat) (root : Ty m n)
    (p p' : Parser n) (e : GErr (PId m n)) :
    p.parse ext S fuel root = .ok (.error e) p' ↔ S.metadata fuel root = some (.error e) ∧ p' = p := by
  constructor
  · intro h
    rcases parse_ok h with ⟨e', h1, h2, h3⟩ | ⟨md, x, _, h2, _⟩
    · cases h2; exact ⟨h1, h3⟩
    · cases h2
  · rintro ⟨h, rfl⟩
    unfold Parser.parse
    rw [h]

/-- Otherwise it returns the tree that `produce` built, or `None` iff `produce` failed. The errors are those
before, then those about unrecognised input met meanwhile, then exactly those of the result; nothing else
of what `produce` left behind is touched. -/
theorem C48_parse (ext : Fin n → Bool) (S : Schema m n) (fuel : Nat) (root : Ty m n) (p p' : Parser n)
    (x : Option (Tree n)) (h : p.parse ext S fuel root = .ok (.ok x) p') :
    ∃ md r q chars, S.metadata fuel root = some (.ok md) ∧
      produce (Parser.ops ext) S md fuel root p = .ok r q ∧
      (x = none ↔ ∃ e, r = .panic e) ∧
      (∀ y, x = some y ↔ (r = .success y ∨ ∃ e, r = .recovered y e)) ∧
      p'.info.errors = p.info.errors ++ chars ++ r.errs ∧
      (∀ e ∈ chars, e.kind = .unexpectedCharacters) ∧
      p' = { q with info := { q.info with errors := p'.info.errors } } := by
  rcases parse_ok h with ⟨e, _, h2, _⟩ | ⟨md, y, h1, h2, h3⟩
  · cases h2
  · cases h2
    obtain ⟨r, q, h4, h5, h6, h7⟩ := parseWithMeta_ok h3
    obtain ⟨es, g1, g2⟩ := produce_grows h4
    refine ⟨md, r, q, es, h1, h4, h6, ?_, ?_, g2, ?_⟩
    · intro y
      rw [h7]
      constructor
      · rintro ⟨e, he⟩
        cases he with
        | success => exact .inl rfl
        | recovered => exact .inr ⟨_, rfl⟩
      · rintro (rfl | ⟨e, rfl⟩)
        · exact ⟨_, .success _⟩
        · exact ⟨_, .recovered _ _⟩
    · rw [h5]; simp only [g1]
    · rw [h5]

/-- The converse: whenever the metadata is fine and `produce` ends, so does `parse`. -/
theorem C48_defined (ext : Fin n → Bool) (S : Schema m n) (fuel : Nat) (root : Ty m n) (p q : Parser n)
    (md : Metadata (PId m n) n) (r : Res n (Tree n)) (h1 : S.metadata fuel root = some (.ok md))
    (h2 : produce (Parser.ops ext) S md fuel root p = .ok r q) :
    ∃ x p', p.parse ext S fuel root = .ok (.ok x) p' := by
  unfold Parser.parse Parser.parseWithMeta
  rw [h1]
  simp only [h2]
  cases r <;> exact ⟨_, _, rfl⟩

/-- The next parse starts at the first token that was not consumed: the tokens left are a suffix of those
before, and the difference is what was added to the token store. -/
theorem C48_resume (ext : Fin n → Bool) (S : Schema m n) (fuel : Nat) (root : Ty m n) (p p' : Parser n)
    (r : Except (GErr (PId m n)) (Option (Tree n))) (h : p.parse ext S fuel root = .ok r p') :
    ∃ ts, (p.view ext).rest = ts ++ (p'.view ext).rest ∧
      p'.info.tokens.map (·.token) = p.info.tokens.map (·.token) ++ ts := by
  rcases parse_ok h with ⟨e, _, _, rfl⟩ | ⟨md, x, _, _, hq⟩
  · exact ⟨[], by simp⟩
  · obtain ⟨r, q, hq', rfl, _, _⟩ := parseWithMeta_ok hq
    exact (produce_adv hq').cons

/-- The outcome of a parse depends only on the tokens left, the consumed tokens and the source; not on
what was peeked, nor on earlier errors. -/
theorem C48_history (ext : Fin n → Bool) (S : Schema m n) (fuel : Nat) (root : Ty m n) (p q p' : Parser n)
    (r : Except (GErr (PId m n)) (Option (Tree n))) (hv : p.view ext = q.view ext)
    (h : p.parse ext S fuel root = .ok r p') :
    ∃ q', q.parse ext S fuel root = .ok r q' ∧ p'.view ext = q'.view ext := by
  rcases parse_ok h with ⟨e, h1, rfl, rfl⟩ | ⟨md, x, h1, rfl, hq⟩
  · exact ⟨q, (C48_grammar_error ..).2 ⟨h1, rfl⟩, hv⟩
  · have hp' : produce View.ops S md fuel root (p.view ext) = _ := produce_view ext S md fuel root p
    have hq' : produce View.ops S md fuel root (q.view ext) = _ := produce_view ext S md fuel root q
    rw [hv, hq'] at hp'
    unfold Parser.parseWithMeta at hq
    unfold Parser.parse Parser.parseWithMeta
    rw [h1]
    simp only
    cases ha : produce (Parser.ops ext) S md fuel root p with
    | fuel => rw [ha] at hq; cases hq
    | crash => rw [ha] at hq; cases hq
    | ok a p1 =>
      cases hb : produce (Parser.ops ext) S md fuel root q with
      | fuel => rw [ha, hb] at hp'; cases hp'
      | crash => rw [ha, hb] at hp'; cases hp'
      | ok b q1 =>
        rw [ha, hb] at hp'
        simp only [Out.mapState, Out.ok.injEq] at hp'
        obtain ⟨rfl, hv'⟩ := hp'
        rw [ha] at hq
        cases b with
        | success t => cases hq; exact ⟨_, rfl, hv'.symm⟩
        | recovered t e => cases hq; exact ⟨_, rfl, hv'.symm⟩
        | panic e => cases hq; exact ⟨_, rfl, hv'.symm⟩

/-- Example: the two tokens of the example source, parsed one after the other; the first attempt to parse a
number fails without consuming the word. -/
def exThree : List (Option Bool) × List (Err 3) × List (Token 3) :=
  let run (t : Ty 0 3) (p : Parser 3) : Option Bool × Parser 3 :=
    match p.parse exExt exS 20 t with
    | .ok (.ok x) p => (some x.isSome, p)
    | _ => (none, p)
  let a := run exNum (Parser.new exSource exItems)
  let b := run exWord a.2
  let c := run exNum b.2
  ([a.1, b.1, c.1], c.2.info.errors, c.2.info.tokens.map (·.token))

example : exThree = ([some false, some true, some true],
    [⟨⟨0, 2⟩, .expecting (TSet.one 1 none)⟩, ⟨⟨3, 5⟩, .unexpectedCharacters⟩],
    [⟨⟨0, 2⟩, 0⟩, ⟨⟨5, 7⟩, 1⟩]) := by decide +kernel

/-! ## C52: no out-of-bounds slicing -/

/-- Neither producing nor parsing panics, whatever the type, the parse table and the input. -/
theorem C52_produce (ext : Fin n → Bool) (source : Str) (items : List (Item n)) (hw : ItemsWF source items)
    (p : Parser n) (hp : Reached ext source items p) (S : Schema m n) (md : Metadata (PId m n) n)
    (fuel : Nat) (t : Ty m n) : produce (Parser.ops ext) S md fuel t p ≠ .crash := by
  intro h
  have h1 := produce_view ext S md fuel t p
  rw [h] at h1
  exact (produce_safe S md fuel t (p.view ext) (hp.inSource hw)).1 h1

theorem C52_parse (ext : Fin n → Bool) (source : Str) (items : List (Item n)) (hw : ItemsWF source items)
    (p : Parser n) (hp : Reached ext source items p) (S : Schema m n) (fuel : Nat) (t : Ty m n) :
    p.parse ext S fuel t ≠ .crash := by
  unfold Parser.parse Parser.parseWithMeta
  cases S.metadata fuel t with
  | none => simp
  | some x =>
    cases x with
    | error e => simp
    | ok md =>
      have := C52_produce ext source items hw p hp S md fuel t
      simp only
      cases h : produce (Parser.ops ext) S md fuel t p with
      | fuel => simp
      | crash => exact absurd h this
      | ok r q => cases r <;> simp

/-- Neither does any call of the stream API. -/
theorem C52_calls (ext : Fin n → Bool) (source : Str) (items : List (Item n)) (hw : ItemsWF source items)
    (p : Parser n) (hp : Reached ext source items p) :
    (Parser.ops ext).mPeekSrc p ≠ .crash ∧ (Parser.ops ext).mRemaining p ≠ .crash ∧
    (Parser.ops ext).mCurrentSpan p ≠ .crash ∧
    (∀ ty, (Parser.ops ext).parseToken ty p ≠ .crash) ∧
    ∀ ty lit follow, (Parser.ops ext).parseTokenLit ty lit follow p ≠ .crash := by
  obtain ⟨⟨_, _, h1, _⟩, ⟨_, _, h2, _⟩, _⟩ := C09_positions ext source items hw p hp
  refine ⟨?_, ?_, ?_, ?_, ?_⟩
  · obtain ⟨p', h3, _⟩ := Sim.run (sim_closed ext).peekSrc
      (mPeekSrc_ok.2 ⟨rfl, rfl, fun t ht => by
        rw [(hp.inSource hw).src]
        exact get?_isSome ((hp.inSource hw).good.rest t (List.mem_of_head? ht))⟩ :
        _ = Out.ok _ (p.view ext))
    rw [h3]; simp
  · rw [h2]; simp
  · rw [h1]; simp
  · intro ty
    obtain ⟨r, p', h3, _⟩ := C07_parse_token ext p ty
    rw [h3]; simp
  · intro ty lit follow
    obtain ⟨r, p', h3, _⟩ := C08_parse_token_lit ext source items hw p hp ty lit follow
    rw [h3]; simp

/-- The hypothesis is needed: a scanner reporting a token in the middle of a character makes the parser
crash. -/
example : ((Parser.ops (fun _ => false)).mPeekSrc
    (Parser.new [0xc3, 0xa9] [Item.token ⟨⟨0, 1⟩, (0 : Fin 1)⟩])) = .crash := by rfl

example : ItemsWF exSource exItems := exItems_wf

end Teleparse
