import Verif.Proof.ErrCount
import Verif.Props.Parser
import Verif.Props.RepairEnum
/-
Property C113: how many errors are reported.
-/
namespace Teleparse
variable {m n : Nat}

/-! ## C113: the number of errors -/

/-- Producing any type adds at most one error for every call of `peek_token` or `consume_token`, for any schema and
any tables. -/
theorem C113_ops (ext : Fin n → Bool) (S : Schema m n) (md : Metadata (PId m n) n) (t : Ty m n) (p p' : Parser n)
    (r : Res n (Tree n)) (k : Nat) (h : Takes ext S md t p r p' k) : r.errs.length ≤ k := by
  obtain ⟨fuel, h⟩ := h
  have := produce_led (o := Parser.ops ext) S md fuel t _ _ _ _ _ (h fuel (Nat.le_refl _))
  simpa [Res.cnt] using this

theorem invalidRunsFrom_le (cur : List Span) (l : List (Item n)) :
    (invalidRunsFrom cur l).length ≤ (tokensOf l).length + 1 := by
  induction l generalizing cur with
  | nil => cases h : mergeSpans cur <;> simp [invalidRunsFrom, tokensOf, h]
  | cons a l ih =>
    cases a with
    | error sp => exact ih _
    | token t =>
      have := ih []
      cases h : mergeSpans cur <;> simp [invalidRunsFrom, tokensOf, h] <;> omega

/-- In every state of the parser there are at most as many errors about characters as there are gaps between
tokens. -/
theorem C113_characters (ext : Fin n → Bool) (source : Str) (items : List (Item n)) (p : Parser n)
    (hp : Reached ext source items p) :
    (p.info.errors.filter fun e => decide (e.kind = .unexpectedCharacters)).length ≤ (tokensOf items).length + 1 := by
  obtain ⟨read, h1, -, h3, h4⟩ := C04_recorded ext source items p hp
  rw [h4, List.length_map, h3]
  have := invalidRunsFrom_le [] read
  rw [h1, tokensOf_append, List.length_append]
  unfold invalidRuns
  omega

/-- Parsing a type from any state adds at most `K * (c + 1)` errors, where `c` is the number of tokens consumed. `K`
depends on the types only. -/
theorem C113_linear (S : Schema m n) (t : Ty m n) : ∃ K, ∀ (md : Metadata (PId m n) n) (ext : Fin n → Bool)
    (p p' : Parser n) (r : Res n (Tree n)), Yields ext S md t p r p' → r.errs.length ≤ K * (p.consumedSince p' + 1) := by
  obtain ⟨K, hK⟩ := C76_linear S t
  refine ⟨K, fun md ext p p' r hy => ?_⟩
  obtain ⟨k, h⟩ := (C76_defined ext S md t p p' r).1 hy
  exact Nat.le_trans (C113_ops ext S md t p p' r k h) (hK md ext p p' r k h)

/-- A whole text: `Info::errors` has at most `K * (N + 1)` errors of all kinds, where `N` is the number of
tokens of the text. -/
theorem C113_text (S : Schema m n) (root : Ty m n) :
    ∃ K, ∀ (ext : Fin n → Bool) (source : Str) (items : List (Item n)),
      ∀ fuel x p', rootParse ext S fuel root source items = .ok (.ok x) p' →
        p'.info.errors.length ≤ K * ((tokensOf items).length + 1) := by
  obtain ⟨K, hK⟩ := C113_linear S root
  refine ⟨K + 1, fun ext source items f x p' h => ?_⟩
  obtain ⟨md, r, q, h1, hq, -, -, h4, h5⟩ := syntaxErrors_parse h
  have hr := hK md ext _ q r ⟨f, hq⟩
  have hq' : q.info.tokens.length ≤ (tokensOf items).length := by
    have hqr : Reached ext source items q := Yields.reached .new ⟨f, hq⟩
    have := congrArg List.length hqr.total
    simp only [List.length_append, List.length_map] at this
    have h6 : (streamOf ext items).length ≤ (tokensOf items).length := List.length_filter_le _ _
    omega
  have hc : (Parser.new source items).consumedSince q ≤ (tokensOf items).length := by
    unfold Parser.consumedSince; omega
  have hp' : Reached ext source items p' := .parse _ _ _ _ .new h
  have h7 := C113_characters ext source items p' hp'
  have h8 : p'.info.errors.length = (p'.info.errors.filter fun e => decide (e.kind = .unexpectedCharacters)).length +
      (syntaxErrors p'.info.errors).length := by
    unfold syntaxErrors
    generalize p'.info.errors = l
    induction l with
    | nil => rfl
    | cons a l ih => by_cases ha : a.kind = .unexpectedCharacters <;> simp [ha, ih] <;> omega
  rw [h4] at h8
  have h9 : K * ((Parser.new source items).consumedSince q + 1) ≤ K * ((tokensOf items).length + 1) :=
    Nat.mul_le_mul_left _ (by omega)
  rw [Nat.add_mul, Nat.one_mul]
  omega

/-! ### Examples -/

/-- The type `E = num | L`, `L = word E* "x"`, read by `Loop<E>`: the bound holds for every text. -/
example : ∃ K, ∀ (source : Str) (items : List (Item 3)) fuel x p',
    rootParse exExt txS fuel txT source items = .ok (.ok x) p' →
      p'.info.errors.length ≤ K * ((tokensOf items).length + 1) :=
  (C113_text txS txT).imp fun _ h => h exExt

/-- A text with three errors: two words where the grammar needs an `"x"`, and a character that is no token. -/
example : summary exExt (rootParse exExt txS 60 txT [97, 97, 36, 49]
    [.token ⟨⟨0, 1⟩, 0⟩, .token ⟨⟨1, 2⟩, 0⟩, .error ⟨2, 3⟩, .token ⟨⟨3, 4⟩, 1⟩]) = some (true, 3, 0) := by rfl

end Teleparse
