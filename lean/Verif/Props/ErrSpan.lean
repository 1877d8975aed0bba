import Verif.Proof.ErrSpan
import Verif.Props.Steps
import Verif.Props.Completeness
/-
Property C73: where errors are.
-/
namespace Teleparse
variable {m n : Nat}

/-! ## C73: errors lie between where a type begins and where it stops -/

/-- Every error of a result begins at or after the token at which the type began, ends at or after its beginning,
and reaches at most to the end of the token at which the type stopped; it does not begin after that token begins.
For any type, parse table and input. -/
theorem C73_between (ext : Fin n → Bool) (S : Schema m n) (md : Metadata (PId m n) n) (t : Ty m n) (source : Str)
    (items : List (Item n)) (hw : ItemsWF source items) (p p' : Parser n) (hp : Reached ext source items p)
    (r : Res n (Tree n)) (h : Yields ext S md t p r p') (e : Err n) (he : e ∈ r.errs) :
    (p.nextSpan ext).lo ≤ e.span.lo ∧ e.span.lo ≤ e.span.hi ∧ e.span.lo ≤ (p'.nextSpan ext).lo ∧
      e.span.hi ≤ (p'.nextSpan ext).hi := by
  have hrun := (On.of_yields h).run
  have h1 := hrun.lateCur (hp.ready hw) e he
  have h2 := hrun.upTo (hp.ready hw) e he
  rw [nextSpan_eq, nextSpan_eq]
  exact ⟨h1, h2.1, h2.2.1, h2.2.2⟩

/-- The errors of what is parsed first do not begin after those of what is parsed next. -/
theorem C73_order (ext : Fin n → Bool) (S S' : Schema m n) (md md' : Metadata (PId m n) n) (t u : Ty m n)
    (source : Str) (items : List (Item n)) (hw : ItemsWF source items) (p q p' : Parser n)
    (hp : Reached ext source items p) (r r' : Res n (Tree n)) (h : Yields ext S md t p r q)
    (h' : Yields ext S' md' u q r' p') (e e' : Err n) (he : e ∈ r.errs) (he' : e' ∈ r'.errs) :
    e.span.lo ≤ e'.span.lo := by
  have hq : Reached ext source items q := by
    obtain ⟨fuel, h⟩ := h
    exact .produce S md fuel t r hp h
  exact Nat.le_trans (C73_between ext S md t source items hw p q hp r h e he).2.2.1
    (C73_between ext S' md' u source items hw q p' hq r' h' e' he').1

/-- A type that fails before the end of input says so: its last error has the span of the token at which it
stopped. -/
theorem C73_fails (ext : Fin n → Bool) (S : Schema m n) (md : Metadata (PId m n) n) (t : Ty m n) (p p' : Parser n)
    (e : List (Err n)) (h : Yields ext S md t p (.panic e) p') :
    p'.lookahead ext = none ∨ ∃ x, e.getLast? = some x ∧ x.span = p'.nextSpan ext := by
  rcases (On.of_yields h).run.atNext with h1 | ⟨x, h1, h2⟩
  · refine .inl ?_
    unfold Parser.lookahead
    rw [h1]; rfl
  · exact .inr ⟨x, h1, by rw [nextSpan_eq]; exact h2⟩

/-- No error of a parser ends before it begins, and those about unrecognised characters are not empty. -/
theorem C73_recorded (ext : Fin n → Bool) (source : Str) (items : List (Item n)) (hw : ItemsWF source items)
    (p : Parser n) (hp : Reached ext source items p) (e : Err n) (he : e ∈ p.info.errors) :
    e.span.lo ≤ e.span.hi ∧ (e.kind = .unexpectedCharacters → e.span.lo < e.span.hi) := by
  refine ⟨?_, hp.charSpans hw e he⟩
  by_cases hk : e.kind = .unexpectedCharacters
  · exact Nat.le_of_lt (hp.charSpans hw e he hk)
  · exact hp.otherSpans hw e he hk

/-- Example: `(word, num)` on `a b c` fails at the second word, with the error there. -/
def esT : Ty 0 3 := .tup2 exWord exNum
def esSource : Str := [97, 32, 98, 32, 99]
def esItems : List (Item 3) := [.token ⟨⟨0, 1⟩, 0⟩, .token ⟨⟨2, 3⟩, 0⟩, .token ⟨⟨4, 5⟩, 0⟩]
def esMd : Metadata (PId 0 3) 3 :=
  okOf ⟨[], [], []⟩ (exS.metadata 30 esT)

example : ItemsWF esSource esItems ∧ ∃ e p', Yields noExt exS esMd esT (Parser.new esSource esItems) (.panic e) p' ∧
    e.map (·.span) = [⟨2, 3⟩] ∧ p'.nextSpan noExt = ⟨2, 3⟩ ∧ p'.lookahead noExt ≠ none := by
  refine ⟨by unfold ItemsWF esItems esSource; decide, _, _, ⟨20, by rfl⟩, by rfl, by rfl, ?_⟩
  intro h; cases h

end Teleparse
