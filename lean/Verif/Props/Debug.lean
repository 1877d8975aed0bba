import Verif.Proof.Debug
import Verif.Props.LexSet
/-
C123: what the `Debug` texts tell about spans, tokens, sets and nodes.
-/
namespace Teleparse
variable {n : Nat}

/-- **C123** Two spans print the same text exactly if they are the same, or both without text at the same place. -/
theorem C123_span (s t : Span) : s.debug = t.debug ↔ s.Alike t := by
  constructor
  · intro h
    have h' : s.debug ++ [] = t.debug ++ [] := by rw [h]
    exact (span_split (Stops.nil _) (Stops.nil _) h').1
  · rintro ⟨h1, h2 | ⟨h2, h3⟩⟩
    · unfold Span.debug
      rw [h1, h2]
    · unfold Span.debug
      rw [if_pos h2, if_pos h3, h1]

/-- **C123** Spans that do not end before they begin are told apart. -/
theorem C123_wellformed (s t : Span) (hs : s.lo ≤ s.hi) (ht : t.lo ≤ t.hi) (h : s.debug = t.debug) : s = t := by
  obtain ⟨h1, h2⟩ := (C123_span s t).1 h
  have : s.hi = t.hi := by rcases h2 with h2 | ⟨h2, h3⟩ <;> omega
  cases s; cases t; simp_all

/-- **C123** All spans are not: one that ends before it begins prints what an empty one prints. -/
theorem C123_reversed_false : ¬ ∀ s t : Span, s.debug = t.debug → s = t := by
  intro h
  have := h ⟨3, 3⟩ ⟨3, 2⟩ (by exact (C123_span _ _).2 ⟨rfl, .inr ⟨by decide, by decide⟩⟩)
  simp at this

/-- **C123** The text of a token tells its type and its span. -/
theorem C123_token {name : Fin n → Str} (hn : GoodNames name) (t u : Token n) :
    t.debug name = u.debug name ↔ t.ty = u.ty ∧ t.span.Alike u.span := by
  constructor
  · intro h
    exact (token_split hn (x := []) (y := []) (by rw [h])).1
  · rintro ⟨h1, h2⟩
    unfold Token.debug
    rw [h1, (C123_span _ _).2 h2]

/-- **C123** The text of a set of token types tells which types are in it. -/
theorem C123_set {name : Fin n → Str} (hn : GoodNames name) (hle : n ≤ 128) (s t : LSet n) :
    s.debug name = t.debug name ↔ ∀ ty, s.contains ty = t.contains ty := by
  unfold LSet.debug
  rw [C16_iter hle, C16_iter hle]
  constructor
  · intro h ty
    have := debugSet_inj (separate_names hn) h
    have h2 : ty ∈ (List.finRange n).filter s.contains ↔ ty ∈ (List.finRange n).filter t.contains := by rw [this]
    simp only [List.mem_filter, List.mem_finRange, true_and] at h2
    exact Bool.eq_iff_iff.2 h2
  · intro h
    rw [show s.contains = t.contains from funext h]

/-- **C123** The text of a cell of the token store tells its token and its semantic types. -/
theorem C123_cell {name : Fin n → Str} (hn : GoodNames name) (hle : n ≤ 128) (c d : Cell n) :
    c.debug name = d.debug name ↔ (c.token.ty = d.token.ty ∧ c.token.span.Alike d.token.span) ∧
      ∀ ty, c.semantic.contains ty = d.semantic.contains ty := by
  constructor
  · intro h
    simp only [Cell.debug, List.append_assoc] at h
    obtain ⟨h1, h2⟩ := token_split hn h
    exact ⟨h1, (C123_set hn hle _ _).1 (List.append_cancel_left h2)⟩
  · rintro ⟨h1, h2⟩
    unfold Cell.debug
    rw [(C123_token hn _ _).2 h1, (C123_set hn hle _ _).2 h2]

/-- **C123** The text of a set of terminals tells which tokens are in it, and whether it has the empty symbol
(`none`), and nothing else. -/
theorem C123_terminals {name : Fin n → Str} (hn : GoodNames name) {quote : Str → Str} (hq : GoodQuote quote)
    (hs : ∀ a x y, quote a ++ x ≠ 42 :: y) (s t : TSet n) :
    s.debug name quote = t.debug name quote ↔ ∀ x, s.contains x = t.contains x := by
  constructor
  · intro h x
    have he : s.entries = t.entries := debugSet_inj (separate_entries hn hq hs) h
    rw [Bool.eq_iff_iff, TSet.contains_entries, TSet.contains_entries, he]
  · intro h
    unfold TSet.debug
    rw [TSet.entries_same h]

/-- **C123** The texts of string literals satisfy the hypotheses of `C123_terminals`. -/
theorem C123_literals : GoodQuote debugText ∧ ∀ a x y, debugText a ++ x ≠ 42 :: y :=
  ⟨goodQuote_debugText, debugText_first⟩

/-- **C123** The text of a node tells its span and the text of its value. -/
theorem C123_node (s t : Span) (v w : Str) : nodeDebug s v = nodeDebug t w ↔ s.Alike t ∧ v = w := by
  have ha : ascii " => " = [32, 61, 62, 32] := by decide
  constructor
  · intro h
    simp only [nodeDebug, ha, List.append_assoc] at h
    obtain ⟨h1, h2⟩ := span_split (Stops.cons (by simp [Digit])) (Stops.cons (by simp [Digit])) h
    exact ⟨h1, by simpa using h2⟩
  · rintro ⟨h1, rfl⟩
    unfold nodeDebug
    rw [(C123_span _ _).2 h1]

/-! ### Examples -/

/-- The names `Op` and `Id`. -/
def exDebugName (i : Fin 2) : Str := if i = 0 then [79, 112] else [73, 100]

theorem exDebugName_good : GoodNames exDebugName where
  inj a b := by revert a b; decide
  ident a := by
    have : a = 0 ∨ a = 1 := by omega
    rcases this with rfl | rfl <;> simp [exDebugName, IdentByte]

/-- **C123** The `Display` text of a set of terminals does not tell: literals are not escaped, and all types of
literals look alike. -/
theorem C123_display_false : ¬ ∀ s t : TSet 2, s.display exDebugName = t.display exDebugName →
    ∀ x, s.contains x = t.contains x := by
  intro h
  have := h (TSet.one 0 (some (ascii "a"))) (TSet.one 1 (some (ascii "a"))) (by decide) (some ⟨0, ascii "a"⟩)
  revert this
  decide

/-- **C123** Also not within one type. -/
theorem C123_display_escape_false : ¬ ∀ s t : TSet 2, s.display exDebugName = t.display exDebugName →
    (∀ x y, (s.contains (some ⟨1, x⟩) || t.contains (some ⟨1, y⟩)) = false) → ∀ x, s.contains x = t.contains x := by
  intro h
  have := h ((TSet.one 0 (some (ascii "a"))).insert 0 (some (ascii "b"))).1 (TSet.one 0 (some (ascii "a\", \"b")))
    (by decide) (fun x y => by rfl) (some ⟨0, ascii "a"⟩)
  revert this
  decide

/-- `Span::new(10, 12)` prints `10..12`. -/
example : (⟨10, 12⟩ : Span).debug = ascii "10..12" := by
  simp [Span.debug, dec, ascii]

example : (⟨⟨3, 3⟩, 1⟩ : Token 2).debug exDebugName ≠ (⟨⟨3, 3⟩, 0⟩ : Token 2).debug exDebugName := by
  rw [Ne, C123_token exDebugName_good]
  simp

/-- Literals with quotes, commas and braces do not confuse: `{Op:"a", Op:"b"}` is not the text of a set with the
one literal `a", Op:"b`. -/
example : (((TSet.empty : TSet 2).insert 0 (some (ascii "a"))).1.insert 0 (some (ascii "b"))).1.debug exDebugName debugText ≠
    ((TSet.empty : TSet 2).insert 0 (some (ascii "a\", Op:\"b"))).1.debug exDebugName debugText := by
  rw [Ne, C123_terminals exDebugName_good C123_literals.1 C123_literals.2]
  intro h
  have := h (some ⟨0, ascii "a"⟩)
  revert this
  decide

end Teleparse
