import Verif.Spec.Lexing
import Verif.Proof.Rel
import Verif.Proof.TokenVec
/-
The parser state: reading tokens, the invariant of reachable states, and the simulation of the abstract
stream.
-/
namespace Teleparse
variable {m n : Nat}

theorem tokensOf_append (a b : List (Item n)) : tokensOf (a ++ b) = tokensOf a ++ tokensOf b := by
  induction a with
  | nil => rfl
  | cons x a ih => cases x <;> simp [tokensOf, ih]

theorem tokensOf_errors (l : List Span) : tokensOf (l.map Item.error : List (Item n)) = [] := by
  induction l with
  | nil => rfl
  | cons x a ih => simpa [tokensOf] using ih

theorem mergeSpans_cons (s : Span) (l : List Span) :
    mergeSpans (s :: l) = some ⟨s.lo, ((s :: l).getLast (by simp)).hi⟩ := by
  simp [mergeSpans, List.getLast?_eq_some_getLast]

theorem mergeSpans_snoc (l : List Span) (s : Span) (hl : l ≠ []) :
    mergeSpans (l ++ [s]) = (mergeSpans l).map fun m => ⟨m.lo, s.hi⟩ := by
  cases l with
  | nil => exact absurd rfl hl
  | cons a l =>
    have : (a :: (l ++ [s])).getLast? = some s := by
      rw [← List.cons_append, List.getLast?_append]; simp
    simp [mergeSpans, this, List.getLast?_eq_some_getLast]

/-! ### Lexer -/

/-- Every list of outcomes starts with a run of errors, followed by a token or the end. -/
theorem items_cases (l : List (Item n)) :
    (∃ (errs : List Span) (t : Token n) (rest : List (Item n)),
      l = errs.map Item.error ++ .token t :: rest) ∨
    ∃ errs : List Span, l = errs.map Item.error := by
  induction l with
  | nil => exact .inr ⟨[], rfl⟩
  | cons x l ih =>
    cases x with
    | token t => exact .inl ⟨[], t, l, rfl⟩
    | error sp =>
      rcases ih with ⟨errs, t, rest, h⟩ | ⟨errs, h⟩
      · exact .inl ⟨sp :: errs, t, rest, by simp [h]⟩
      · exact .inr ⟨sp :: errs, by simp [h]⟩

theorem nextLoop_token (errs : List Span) (t : Token n) (rest : List (Item n)) :
    ∀ last has s e, Lexer.nextLoop (errs.map Item.error ++ .token t :: rest) last has s e =
      ((if has ∨ errs ≠ [] then
          some ⟨if has then s else (errs.head?.map (·.lo)).getD s, (errs.getLast?.map (·.hi)).getD e⟩
        else none, some t), ⟨rest, t.span⟩) := by
  induction errs with
  | nil => intro last has s e; simp [Lexer.nextLoop]
  | cons sp errs ih =>
    intro last has s e
    simp only [List.map_cons, List.cons_append, Lexer.nextLoop]
    rw [ih]
    cases errs with
    | nil => simp
    | cons sp' errs => simp [List.getLast?_eq_some_getLast]

theorem nextLoop_end (errs : List Span) :
    ∀ last has s e, ∃ last', Lexer.nextLoop (errs.map Item.error : List (Item n)) last has s e =
      ((if has ∨ errs ≠ [] then
          some ⟨if has then s else (errs.head?.map (·.lo)).getD s, (errs.getLast?.map (·.hi)).getD e⟩
        else none, none), ⟨[], last'⟩) := by
  induction errs with
  | nil => intro last has s e; exact ⟨last, by simp [Lexer.nextLoop]⟩
  | cons sp errs ih =>
    intro last has s e
    simp only [List.map_cons, Lexer.nextLoop]
    obtain ⟨last', h⟩ := ih sp true (if has then s else sp.lo) sp.hi
    refine ⟨last', ?_⟩
    rw [h]
    cases errs with
    | nil => simp
    | cons sp' errs => simp [List.getLast?_eq_some_getLast]

theorem next_token (errs : List Span) (t : Token n) (rest : List (Item n)) (last : Span) :
    Lexer.next ⟨errs.map Item.error ++ .token t :: rest, last⟩ =
      ((mergeSpans errs, some t), ⟨rest, t.span⟩) := by
  unfold Lexer.next
  rw [nextLoop_token]
  cases errs with
  | nil => simp [mergeSpans]
  | cons sp errs => simp [mergeSpans_cons, List.getLast?_eq_some_getLast]

theorem next_end (errs : List Span) (last : Span) : ∃ last',
    Lexer.next ⟨(errs.map Item.error : List (Item n)), last⟩ =
      ((mergeSpans errs, none), ⟨[], last'⟩) := by
  unfold Lexer.next
  obtain ⟨last', h⟩ := nextLoop_end (n := n) errs last false last.hi last.hi
  refine ⟨last', ?_⟩
  rw [h]
  cases errs with
  | nil => simp [mergeSpans]
  | cons sp errs => simp [mergeSpans_cons, List.getLast?_eq_some_getLast]

theorem invalidRunsFrom_token (a : List (Item n)) (t : Token n) (b : List (Item n)) :
    ∀ cur, invalidRunsFrom cur (a ++ .token t :: b) =
      invalidRunsFrom cur (a ++ [.token t]) ++ invalidRunsFrom [] b := by
  induction a with
  | nil => intro cur; simp [invalidRunsFrom, mergeSpans]
  | cons x a ih =>
    intro cur
    cases x with
    | token t' => simp [invalidRunsFrom, ih]
    | error sp => simp [invalidRunsFrom, ih]

theorem invalidRunsFrom_errors (l : List Span) (b : List (Item n)) :
    ∀ cur, invalidRunsFrom cur (l.map Item.error ++ b) = invalidRunsFrom (cur ++ l) b := by
  induction l with
  | nil => intro cur; simp
  | cons s l ih => intro cur; simp [invalidRunsFrom, ih]

/-! ### Invariant -/

/-- The prefix of the scanner's outcomes that was read ends with a token (or is empty). -/
def Whole (done : List (Item n)) : Prop := done = [] ∨ ∃ d t, done = d ++ [.token t]

theorem Whole.runs {done : List (Item n)} (h : Whole done) (x : List (Item n)) :
    invalidRuns (done ++ x) = invalidRuns done ++ invalidRuns x := by
  rcases h with rfl | ⟨d, t, rfl⟩
  · simp [invalidRuns, invalidRunsFrom, mergeSpans]
  · unfold invalidRuns
    rw [List.append_assoc, List.singleton_append, invalidRunsFrom_token]

def Err.isChars (e : Err n) : Bool := decide (e.kind = .unexpectedCharacters)

/-- The invariant of reachable parser states, except for the semantic types in the store. -/
structure PInv (ext : Fin n → Bool) (source : Str) (items done : List (Item n)) (p : Parser n) : Prop where
  split : items = done ++ p.lexer.items
  whole : Whole done ∨ p.lexer.items = []
  src : p.info.source = source
  extracted : p.info.extracted = (tokensOf done).filter (fun t => ext t.ty)
  stream : p.info.tokens.map (·.token) ++ p.peeked.toList = streamOf ext done
  invalid : p.info.invalidSource = invalidRuns done
  errors : p.info.errors.filter Err.isChars =
    (invalidRuns done).map fun sp => ⟨sp, .unexpectedCharacters⟩
  skipped : p.info.invalidTokens = []

theorem PInv.new (ext : Fin n → Bool) (source : Str) (items : List (Item n)) :
    PInv ext source items [] (Parser.new source items) :=
  ⟨rfl, .inl (.inl rfl), rfl, rfl, rfl, by simp [Parser.new, invalidRuns, invalidRunsFrom, mergeSpans],
    by simp [Parser.new, invalidRuns, invalidRunsFrom, mergeSpans], rfl⟩

theorem noteInvalid_errors (info : Info n) (x : Option Span) :
    (Parser.noteInvalid info x).errors =
      info.errors ++ x.toList.map fun sp => ⟨sp, .unexpectedCharacters⟩ := by
  cases x <;> simp [Parser.noteInvalid]

theorem noteInvalid_invalid (info : Info n) (x : Option Span) :
    (Parser.noteInvalid info x).invalidSource = info.invalidSource ++ x.toList := by
  cases x <;> simp [Parser.noteInvalid]

theorem noteInvalid_rest (info : Info n) (x : Option Span) :
    (Parser.noteInvalid info x).source = info.source ∧ (Parser.noteInvalid info x).tokens = info.tokens ∧
    (Parser.noteInvalid info x).extracted = info.extracted ∧
    (Parser.noteInvalid info x).invalidTokens = info.invalidTokens := by
  cases x <;> simp [Parser.noteInvalid]

theorem streamOf_append (ext : Fin n → Bool) (a b : List (Item n)) :
    streamOf ext (a ++ b) = streamOf ext a ++ streamOf ext b := by
  simp [streamOf, tokensOf_append]

/-- One iteration of reading on the invariant. -/
theorem PInv.step {ext : Fin n → Bool} {source : Str} {items done : List (Item n)} {p : Parser n}
    (h : PInv ext source items done p) (errs : List Span) (x : List (Item n)) (rest : List (Item n))
    (last : Span) (hx : (∃ t, x = [.token t]) ∨ (x = [] ∧ rest = []))
    (hi : p.lexer.items = errs.map .error ++ x ++ rest)
    (ex : List (Token n)) (pk : Option (Token n))
    (hex : ex = (tokensOf x).filter (fun t => ext t.ty))
    (hpk : p.peeked.toList ++ streamOf ext x = pk.toList) :
    PInv ext source items (done ++ (errs.map .error ++ x))
      ⟨{ Parser.noteInvalid p.info (mergeSpans errs) with
          extracted := (Parser.noteInvalid p.info (mergeSpans errs)).extracted ++ ex }, ⟨rest, last⟩, pk⟩ := by
  have hruns : invalidRuns (done ++ (errs.map .error ++ x)) =
      invalidRuns done ++ (mergeSpans errs).toList := by
    have hx' : invalidRuns (errs.map .error ++ x : List (Item n)) = (mergeSpans errs).toList := by
      unfold invalidRuns
      rw [invalidRunsFrom_errors]
      rcases hx with ⟨t, rfl⟩ | ⟨rfl, _⟩
      · simp [invalidRunsFrom, mergeSpans]
      · simp [invalidRunsFrom]
    rcases h.whole with hw | hw
    · rw [hw.runs, hx']
    · rw [hw] at hi
      have hn := hi.symm
      simp only [List.append_eq_nil_iff] at hn
      rw [hn.1.1, hn.1.2]
      have : errs = [] := by simpa using hn.1.1
      subst this
      simp [mergeSpans]
  have hr := noteInvalid_rest p.info (mergeSpans errs)
  refine ⟨?_, ?_, ?_, ?_, ?_, ?_, ?_, ?_⟩
  · simp [h.split, hi]
  · rcases hx with ⟨t, rfl⟩ | ⟨_, hr⟩
    · exact .inl (.inr ⟨done ++ errs.map .error, t, by simp⟩)
    · exact .inr hr
  · simp [hr, h.src]
  · simp [hr, h.extracted, tokensOf_append, tokensOf_errors, hex]
  · simp only [hr.2.1, streamOf_append]
    rw [← hpk, ← h.stream]
    simp [streamOf, tokensOf_errors]
  · simp only [noteInvalid_invalid, h.invalid, hruns]
  · simp only [noteInvalid_errors, List.filter_append, h.errors, hruns, List.map_append]
    congr 1
    rw [List.filter_eq_self.2]
    intro a ha
    simp only [List.mem_map] at ha
    obtain ⟨sp, _, rfl⟩ := ha
    simp [Err.isChars]
  · simp [hr, h.skipped]

/-- What reading the next token does. -/
theorem readLoop_spec (ext : Fin n → Bool) (source : Str) (items : List (Item n)) :
    ∀ (fuel : Nat) (done : List (Item n)) (p : Parser n), p.lexer.items.length < fuel →
      p.peeked = none → PInv ext source items done p →
      ∃ done', PInv ext source items done' (Parser.readLoop ext fuel p) ∧
        (Parser.readLoop ext fuel p).view ext = p.view ext ∧
        (Parser.readLoop ext fuel p).peeked = (p.view ext).rest.head? ∧
        ((Parser.readLoop ext fuel p).peeked = none → (Parser.readLoop ext fuel p).lexer.items = []) ∧
        ∃ ds, done' = done ++ ds := by
  intro fuel
  induction fuel with
  | zero => intro done p hl; omega
  | succ fuel ih =>
    intro done p hl hpk h
    unfold Parser.readLoop
    rcases items_cases p.lexer.items with ⟨errs, t, rest, hi⟩ | ⟨errs, hi⟩
    · have hn : p.lexer.next = ((mergeSpans errs, some t), ⟨rest, t.span⟩) := by
        have := next_token errs t rest p.lexer.last
        rw [← hi] at this
        exact this
      rw [hn]
      simp only
      by_cases he : ext t.ty = true
      · rw [if_pos he]
        have h1 := h.step errs [.token t] rest t.span (.inl ⟨t, rfl⟩) (by simp [hi]) [t] none
          (by simp [tokensOf, he]) (by simp [hpk, streamOf, tokensOf, he])
        rw [hpk]
        obtain ⟨done', h2, h3, h4, h5, ds, h6⟩ := ih _ _ (by
          have := congrArg List.length hi
          simp at this ⊢; omega) rfl h1
        refine ⟨done', h2, ?_, ?_, h5, ?_⟩
        · rw [h3]
          simp [Parser.view, noteInvalid_rest, hpk, hi, streamOf, tokensOf_append, tokensOf_errors,
            tokensOf, he]
        · rw [h4]
          simp [Parser.view, hpk, hi, streamOf, tokensOf_append, tokensOf_errors, tokensOf, he]
        · exact ⟨_, by rw [h6, List.append_assoc]⟩
      · rw [if_neg he]
        have h1 := h.step errs [.token t] rest t.span (.inl ⟨t, rfl⟩) (by simp [hi]) [] (some t)
          (by simp [tokensOf, he]) (by simp [hpk, streamOf, tokensOf, he])
        refine ⟨done ++ (errs.map .error ++ [.token t]), ?_, ?_, ?_, ?_, _, rfl⟩
        · simpa using h1
        · simp [Parser.view, noteInvalid_rest, hpk, hi, streamOf, tokensOf_append, tokensOf_errors,
            tokensOf, he]
        · simp [Parser.view, hpk, hi, streamOf, tokensOf_append, tokensOf_errors, tokensOf, he]
        · intro hx; cases hx
    · obtain ⟨last', hn'⟩ := next_end (n := n) errs p.lexer.last
      have hn : p.lexer.next = ((mergeSpans errs, none), ⟨[], last'⟩) := by
        rw [← hi] at hn'
        exact hn'
      rw [hn]
      simp only
      have h1 := h.step errs [] [] last' (.inr ⟨rfl, rfl⟩) (by simp [hi]) [] none
        (by simp [tokensOf]) (by simp [hpk, streamOf, tokensOf])
      refine ⟨done ++ (errs.map .error ++ []), ?_, ?_, ?_, ?_, _, rfl⟩
      · rw [hpk]; simpa using h1
      · simp [Parser.view, noteInvalid_rest, hpk, hi, streamOf, tokensOf_errors, tokensOf]
      · simp [Parser.view, hpk, hi, streamOf, tokensOf_errors]
      · simp

/-- `fill` on the invariant and the abstract stream. -/
theorem fill_spec {ext : Fin n → Bool} {source : Str} {items done : List (Item n)} {p : Parser n}
    (h : PInv ext source items done p) :
    ∃ done', PInv ext source items done' (p.fill ext) ∧ (p.fill ext).view ext = p.view ext ∧
      (p.fill ext).peeked = (p.view ext).rest.head? ∧
      ((p.fill ext).peeked = none → (p.fill ext).lexer.items = []) ∧ ∃ ds, done' = done ++ ds := by
  unfold Parser.fill
  cases hp : p.peeked with
  | none =>
    exact readLoop_spec ext source items _ done p (by omega) hp h
  | some t =>
    refine ⟨done, h, rfl, ?_, ?_, [], by simp⟩
    · simp [Parser.view, hp]
    · intro hx; rw [hp] at hx; cases hx

/-- Every parser state satisfies the invariant for some history (used for the view only). -/
theorem view_fill (ext : Fin n → Bool) (p : Parser n) :
    (p.fill ext).view ext = p.view ext ∧ (p.fill ext).peeked = (p.view ext).rest.head? := by
  unfold Parser.fill
  cases hp : p.peeked with
  | some t => exact ⟨rfl, by simp [Parser.view, hp]⟩
  | none =>
    have key : ∀ (fuel : Nat) (p : Parser n), p.lexer.items.length < fuel → p.peeked = none →
        (Parser.readLoop ext fuel p).view ext = p.view ext ∧
        (Parser.readLoop ext fuel p).peeked = (p.view ext).rest.head? := by
      intro fuel
      induction fuel with
      | zero => intro p hl; omega
      | succ fuel ih =>
        intro p hl hpk
        unfold Parser.readLoop
        rcases items_cases p.lexer.items with ⟨errs, t, rest, hi⟩ | ⟨errs, hi⟩
        · have hn : p.lexer.next = ((mergeSpans errs, some t), ⟨rest, t.span⟩) := by
            have := next_token errs t rest p.lexer.last
            rw [← hi] at this
            exact this
          rw [hn]
          simp only
          by_cases he : ext t.ty = true
          · rw [if_pos he, hpk]
            obtain ⟨h3, h4⟩ := ih ⟨{ Parser.noteInvalid p.info (mergeSpans errs) with
                extracted := (Parser.noteInvalid p.info (mergeSpans errs)).extracted ++ [t] },
                ⟨rest, t.span⟩, none⟩ (by
              have := congrArg List.length hi
              simp at this ⊢; omega) rfl
            rw [h3, h4]
            simp [Parser.view, noteInvalid_rest, hpk, hi, streamOf, tokensOf_append, tokensOf_errors,
              tokensOf, he]
          · rw [if_neg he]
            simp [Parser.view, noteInvalid_rest, hpk, hi, streamOf, tokensOf_append, tokensOf_errors,
              tokensOf, he]
        · obtain ⟨last', hn'⟩ := next_end (n := n) errs p.lexer.last
          have hn : p.lexer.next = ((mergeSpans errs, none), ⟨[], last'⟩) := by
            rw [← hi] at hn'
            exact hn'
          rw [hn]
          simp [Parser.view, noteInvalid_rest, hpk, hi, streamOf, tokensOf_errors, tokensOf]
    exact key _ p (by omega) hp

theorem view_consume (ext : Fin n → Bool) (p : Parser n) :
    (p.consume ext).1 = (p.view ext).consume.1 ∧
    (p.consume ext).2.view ext = (p.view ext).consume.2 := by
  obtain ⟨h1, h2⟩ := view_fill ext p
  unfold Parser.consume
  simp only
  rw [← h1] at h2 ⊢
  cases hp : (p.fill ext).peeked with
  | none =>
    rw [hp] at h2
    have : ((p.fill ext).view ext).rest = [] := by simpa using h2.symm
    simp [View.consume, this]
  | some t =>
    simp [View.consume, Parser.view, hp]

/-- State component of an outcome. -/
def Out.mapState {σ τ α : Type} (f : σ → τ) : Out σ α → Out τ α
  | .fuel => .fuel
  | .crash => .crash
  | .ok a s => .ok a (f s)

/-- The parser simulates the abstract stream. -/
theorem sim_closed (ext : Fin n → Bool) :
    Closed 0 (fun {α} (x : M (Parser n) α) (y : M (View n) α) =>
      ∀ p, y (p.view ext) = (x p).mapState (Parser.view ext)) (Parser.ops ext) View.ops where
  pure a p := rfl
  bind {α β x y f g} hx hf p := by
    show M.bind y g (p.view ext) = (M.bind x f p).mapState (Parser.view ext)
    unfold M.bind
    rw [hx p]
    cases x p with
    | fuel => rfl
    | crash => rfl
    | ok a s => exact hf a s
  fuel y hy p := by rw [hy rfl]; rfl
  crash p := rfl
  peek p := by
    have := view_fill ext p
    simp [Ops.mPeek, Parser.ops, View.ops, Parser.peek, Out.mapState, this]
  consume p := by
    have := view_consume ext p
    simp [Ops.mConsume, Parser.ops, View.ops, Out.mapState, this]
  source p := rfl
  emptySpan p := rfl
  apply sp sem p := rfl

/-- Producing on the parser is producing on its abstract stream. -/
theorem produce_view (ext : Fin n → Bool) (S : Schema m n) (md : Metadata (PId m n) n) (fuel : Nat)
    (t : Ty m n) (p : Parser n) :
    produce View.ops S md fuel t (p.view ext) =
      (produce (Parser.ops ext) S md fuel t p).mapState (Parser.view ext) :=
  (sim_closed ext).produce S md fuel t p

/-- More fuel does not change a result. -/
theorem mono_closed {σ : Type} (o : Ops σ n) (k : Nat) :
    Closed k (fun {α} (x y : M σ α) => ∀ s, x s ≠ .fuel → y s = x s) o o where
  pure a s _ := rfl
  bind {α β x y f g} hx hf s h := by
    show M.bind y g s = M.bind x f s
    have h' : M.bind x f s ≠ .fuel := h
    unfold M.bind at h' ⊢
    cases hxs : x s with
    | fuel => rw [hxs] at h'; exact absurd rfl h'
    | crash =>
      have := hx s (by rw [hxs]; intro h; cases h)
      rw [this, hxs]
    | ok a s' =>
      have := hx s (by rw [hxs]; intro h; cases h)
      rw [this, hxs]
      rw [hxs] at h'
      exact hf a s' h'
  fuel y _ s h := absurd rfl h
  crash s _ := rfl
  peek s _ := rfl
  consume s _ := rfl
  source s _ := rfl
  emptySpan s _ := rfl
  apply sp sem s _ := rfl

theorem produce_mono {σ : Type} (o : Ops σ n) (S : Schema m n) (md : Metadata (PId m n) n) {f f' : Nat}
    (hf : f ≤ f') (t : Ty m n) (s : σ) (h : produce o S md f t s ≠ .fuel) :
    produce o S md f' t s = produce o S md f t s := by
  obtain ⟨k, rfl⟩ := Nat.exists_eq_add_of_le hf
  exact (mono_closed o k).produce S md f t s h

/-- A reflexive and transitive relation on states respected by the operations holds between the states
before and after. -/
theorem pres_closed {σ : Type} (o : Ops σ n) (R : σ → σ → Prop) (hrefl : ∀ s, R s s)
    (htrans : ∀ a b c, R a b → R b c → R a c) (hpeek : ∀ s, R s (o.peek s).2)
    (hconsume : ∀ s, R s (o.consume s).2) (happly : ∀ s sp sem, R s (o.applySemantic s sp sem)) :
    Closed 0 (fun {α} (x _ : M σ α) => ∀ s a s', x s = .ok a s' → R s s') o o where
  pure a s b s' h := by cases h; exact hrefl _
  bind {α β x y f g} hx hf s b s' h := by
    have h' : M.bind x f s = .ok b s' := h
    unfold M.bind at h'
    cases hxs : x s with
    | fuel => rw [hxs] at h'; cases h'
    | crash => rw [hxs] at h'; cases h'
    | ok a s1 =>
      rw [hxs] at h'
      exact htrans _ _ _ (hx _ _ _ hxs) (hf a _ _ _ h')
  fuel y _ s a s' h := by cases h
  crash s a s' h := by cases h
  peek s a s' h := by cases h; exact hpeek s
  consume s a s' h := by cases h; exact hconsume s
  source s a s' h := by cases h; exact hrefl _
  emptySpan s a s' h := by cases h; exact hrefl _
  apply sp sem s a s' h := by cases h; exact happly _ _ _

theorem applySemanticInside_tokens (v : TokenVec n) (sp : Span) (sem : LSet n)
    (hb : ∀ lo hi, v.insideBounds sp = some (lo, hi) → lo ≤ hi) :
    (v.applySemanticInside sp sem).map (·.token) = v.map (·.token) := by
  unfold TokenVec.applySemanticInside
  split
  · rename_i lo hi h
    have hle := hb lo hi h
    have e : v = v.take lo ++ ((v.drop lo).take (hi - lo)) ++ v.drop hi := by
      have : v.drop hi = (v.drop lo).drop (hi - lo) := by
        rw [List.drop_drop]; congr 1; omega
      rw [this, List.append_assoc, List.take_append_drop, List.take_append_drop]
    conv => rhs; rw [e]
    simp [TokenVec.applySemantic, List.map_map, Function.comp_def]
  · rfl

theorem insideBounds_le (v : TokenVec n) (sp : Span) :
    ∀ lo hi, v.insideBounds sp = some (lo, hi) → lo ≤ hi := by
  intro lo hi h
  rw [TokenVec.insideBounds_eq] at h
  split at h
  · cases h; omega
  · cases h

theorem apply_tokens (v : TokenVec n) (sp : Span) (sem : LSet n) :
    (v.applySemanticInside sp sem).map (·.token) = v.map (·.token) :=
  applySemanticInside_tokens v sp sem (insideBounds_le v sp)

/-! ### The invariant is preserved by everything -/

/-- From `done` to more. -/
def PInv.Some (ext : Fin n → Bool) (source : Str) (items : List (Item n)) (p : Parser n) : Prop :=
  ∃ done, PInv ext source items done p

theorem PInv.peek {ext : Fin n → Bool} {source : Str} {items : List (Item n)} {p : Parser n}
    (h : PInv.Some ext source items p) : PInv.Some ext source items (p.peek ext).2 := by
  obtain ⟨done, h⟩ := h
  obtain ⟨done', h', _⟩ := fill_spec h
  exact ⟨done', h'⟩

theorem PInv.consume {ext : Fin n → Bool} {source : Str} {items : List (Item n)} {p : Parser n}
    (h : PInv.Some ext source items p) : PInv.Some ext source items (p.consume ext).2 := by
  obtain ⟨done, h⟩ := h
  obtain ⟨done', h', _⟩ := fill_spec h
  unfold Parser.consume
  simp only
  cases hp : (p.fill ext).peeked with
  | none => exact ⟨done', h'⟩
  | some t =>
    refine ⟨done', ⟨h'.split, h'.whole, h'.src, h'.extracted, ?_, h'.invalid, h'.errors, h'.skipped⟩⟩
    have := h'.stream
    rw [hp] at this
    simpa [TokenVec.push, Cell.ofToken] using this

theorem PInv.applySem {ext : Fin n → Bool} {source : Str} {items : List (Item n)} {p : Parser n}
    (h : PInv.Some ext source items p) (sp : Span) (sem : LSet n) :
    PInv.Some ext source items (p.applySemantic sp sem) := by
  obtain ⟨done, h⟩ := h
  refine ⟨done, ⟨h.split, h.whole, h.src, h.extracted, ?_, h.invalid, h.errors, h.skipped⟩⟩
  simp only [Parser.applySemantic, apply_tokens]
  exact h.stream

theorem PInv.produce {ext : Fin n → Bool} {source : Str} {items : List (Item n)} {p p' : Parser n}
    (h : PInv.Some ext source items p) (S : Schema m n) (md : Metadata (PId m n) n) (fuel : Nat)
    (t : Ty m n) (r : Res n (Tree n)) (hr : produce (Parser.ops ext) S md fuel t p = .ok r p') :
    PInv.Some ext source items p' := by
  have hc := pres_closed (Parser.ops ext)
    (fun p p' => PInv.Some ext source items p → PInv.Some ext source items p') (fun _ h => h)
    (fun _ _ _ h1 h2 h => h2 (h1 h)) (fun _ h => PInv.peek h) (fun _ h => PInv.consume h)
    (fun _ sp sem h => PInv.applySem h sp sem)
  exact hc.produce S md fuel t p r p' hr h

end Teleparse
