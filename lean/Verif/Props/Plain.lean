import Verif.Proof.Plain
import Verif.Props.Exact
import Verif.Props.Program
/-
Properties of roots that pass a check: C98.
-/
namespace Teleparse
variable {m n : Nat}

/-! ## C98 -/

/-- `parse` always returns, in every state a parser can get to, and it does not return an error about the grammar. -/
theorem C98_returns (ext : Fin n → Bool) (S : Schema m n) (fuel : Nat) (root : Ty m n)
    (h : S.plain fuel root = true) (source : Str) (items : List (Item n)) (hw : ItemsWF source items) (p : Parser n)
    (hp : Reached ext source items p) :
    ∃ x p' N, ∀ fuel' ≥ N, p.parse ext S fuel' root = .ok (.ok x) p' := by
  obtain ⟨md, G, g⟩ := Plain.good h
  obtain ⟨r, p', f, h1⟩ := C38_productive_partial ext S fuel root md G g.md g.gram g.productive
    (fun k v vs hk hn => absurd hn (g.enum k v vs hk)) source items hw p hp
  have step : ∀ f' ≥ max fuel f, p.parse ext S f' root = match p.parseWithMeta ext S md f root with
      | .fuel => .fuel
      | .crash => .crash
      | .ok t p => .ok (.ok t) p := by
    intro f' hf'
    unfold Parser.parse Parser.parseWithMeta
    rw [metadata_more g.md (Nat.le_trans (Nat.le_max_left _ _) hf')]
    simp only [produce_more h1 (Nat.le_trans (Nat.le_max_right fuel f) hf'), h1]
    cases r <;> rfl
  unfold Parser.parseWithMeta at step
  rw [h1] at step
  cases r with
  | success x => exact ⟨_, _, _, step⟩
  | recovered x e => exact ⟨_, _, _, step⟩
  | panic e => exact ⟨_, _, _, step⟩

/-- `parse` returns the tree `x`, without a syntax error and with nothing left, exactly if `x` is a match of the
type with the input. -/
theorem C98_exact (ext : Fin n → Bool) (S : Schema m n) (fuel : Nat) (root : Ty m n)
    (h : S.plain fuel root = true) (source : Str) (items : List (Item n)) (hw : ItemsWF source items) (x : Tree n) :
    (∃ p' N, (∀ fuel' ≥ N, rootParse ext S fuel' root source items = .ok (.ok (some x)) p') ∧
      syntaxErrors p'.info.errors = [] ∧ (p'.view ext).rest = []) ↔
    ∃ c, Parses S source 0 root c x ∧ c.map (·.token) = streamOf ext items := by
  obtain ⟨md, G, g⟩ := Plain.good h
  constructor
  · rintro ⟨p', f, h, he, hr⟩
    obtain ⟨md', r, q, g1, g2, -, g4, g5, g6⟩ := syntaxErrors_parse (h f (Nat.le_refl _))
    rw [he] at g5
    have hy : Yields ext S md' root (Parser.new source items) r q := ⟨_, g2⟩
    have hnew : Reached ext source items (Parser.new source items) := .new
    have hsnd := hy.sound hnew hw (.inl g.loud)
    have : r = .success x := by
      rcases (g4 x).1 rfl with h | ⟨e, h⟩
      · exact h
      · subst h
        exact absurd g5.symm (hsnd.recovered _ _ rfl)
    subst this
    obtain ⟨c, h4, h5, h6⟩ := C34_loud ext source items hw S md' root _ _ (.inl g.loud) hnew x hy
    rw [← g6, hr, List.append_nil] at h6
    exact ⟨c, h5, h6.symm⟩
  · rintro ⟨c, hx, hc⟩
    obtain ⟨p', N, h1, h2, h3, h4, -⟩ := parse_match ext S fuel root md G g.md g.found g.loop source items hw c x hx hc
    refine ⟨p', N, h1, ?_, h3⟩
    unfold syntaxErrors
    rw [List.filter_eq_nil_iff]
    intro e he
    simp [h4 e he]

/-- There is at most one match of the type with an input: the tree is what the input means. -/
theorem C98_unique (ext : Fin n → Bool) (S : Schema m n) (fuel : Nat) (root : Ty m n)
    (h : S.plain fuel root = true) (source : Str) (items : List (Item n)) (hw : ItemsWF source items) (x y : Tree n)
    (c d : List (Cell n)) (hx : Parses S source 0 root c x) (hc : c.map (·.token) = streamOf ext items)
    (hy : Parses S source 0 root d y) (hd : d.map (·.token) = streamOf ext items) : x = y ∧ c = d := by
  obtain ⟨md, G, g⟩ := Plain.good h
  obtain ⟨p, N, h1, h2, -⟩ := parse_match ext S fuel root md G g.md g.found g.loop source items hw c x hx hc
  obtain ⟨q, M, k1, k2, -⟩ := parse_match ext S fuel root md G g.md g.found g.loop source items hw d y hy hd
  have := (h1 (max N M) (Nat.le_max_left _ _)).symm.trans (k1 (max N M) (Nat.le_max_right _ _))
  cases this
  exact ⟨rfl, h2.symm.trans k2⟩

/-- Without `Loop`: a tree without a syntax error and with nothing left is returned exactly for the sentences. -/
theorem C98_sentences (ext : Fin n → Bool) (S : Schema m n) (fuel : Nat) (root : Ty m n) (G : Grammar (PId m n) n)
    (h : S.plain fuel root = true) (hl : S.lacks fuel Ty.isLoopB root = true) (hG : S.IsGrammar root G)
    (source : Str) (items : List (Item n)) (hw : ItemsWF source items) :
    (∃ x p' N, (∀ fuel' ≥ N, rootParse ext S fuel' root source items = .ok (.ok (some x)) p') ∧
      syntaxErrors p'.info.errors = [] ∧ (p'.view ext).rest = []) ↔
    Derives G [.nt root.pid] ((inputWords ext source items).map .tok) := by
  constructor
  · rintro ⟨x, hx⟩
    obtain ⟨c, h1, h2⟩ := (C98_exact ext S fuel root h source items hw x).1 hx
    have hd := h1.der hG (Plain.loopFree hl) ⟨.refl, .refl⟩
    unfold inputWords
    rw [← h2, show (c.map (·.token)).map (·.word source) = wordOf source c by rw [List.map_map]; rfl]
    exact hd
  · intro hs
    obtain ⟨c, x, h1, h2⟩ := Der.matches (source := source) hG .refl hs (streamOf ext items) 0 rfl
    exact ⟨x, (C98_exact ext S fuel root h source items hw x).2 ⟨c, h1, h2⟩⟩

/-! ### Examples -/

/-- `E = num | L`, `L = word E* "x"`, root `Loop<E>` -/
theorem cx_plain : cxS.plain 40 cxT = true := by decide +kernel

/-- Any input, whatever it is: `parse` returns. -/
example (source : Str) (items : List (Item 3)) (hw : ItemsWF source items) :
    ∃ x p' N, ∀ fuel' ≥ N, (Parser.new source items).parse noExt cxS fuel' cxT = .ok (.ok x) p' :=
  C98_returns noExt cxS 40 cxT cx_plain source items hw _ .new

/-- A part that can be empty after another one: `(num*, "x"?, word)` passes, because a word is not a number. -/
def plT : Ty 0 3 := .tup3 (.star exNum) (.option (.term 2 ⟨2, some [120]⟩)) exWord
theorem pl_plain : exS.plain 30 plT = true := by decide +kernel
theorem pl_free : exS.lacks 30 Ty.isLoopB plT = true := by decide +kernel

example (source : Str) (items : List (Item 3)) (hw : ItemsWF source items) (G : Grammar (PId 0 3) 3)
    (hG : exS.IsGrammar plT G) :
    (∃ x p' N, (∀ fuel' ≥ N, rootParse noExt exS fuel' plT source items = .ok (.ok (some x)) p') ∧
      syntaxErrors p'.info.errors = [] ∧ (p'.view noExt).rest = []) ↔
    Derives G [.nt plT.pid] ((inputWords noExt source items).map .tok) :=
  C98_sentences noExt exS 30 plT G pl_plain pl_free hG source items hw

/-- `((word, num?), "x"?, num)` does not pass, although the grammar is accepted: on `a 1`, the number is taken for the
optional one. -/
example : accepted exS (.tup3 (.tup2 exWord (.option exNum)) (.option (.term 2 ⟨2, some [120]⟩)) exNum) = true ∧
    exS.plain 30 (.tup3 (.tup2 exWord (.option exNum)) (.option (.term 2 ⟨2, some [120]⟩)) exNum) = false := by
  decide +kernel

/-- `(Loop<word>, num)` and `Recover` in a repetition do not pass. -/
example : accepted exS (.tup2 (.loop exWord) exNum) = true ∧ exS.plain 30 (.tup2 (.loop exWord) exNum) = false ∧
    accepted exS (.star (.recover exWord exNum)) = true ∧ exS.plain 30 (.star (.recover exWord exNum)) = false ∧
    exS.plain 30 (.recover (.star exWord) exNum) = true := by
  decide +kernel

namespace Prog
open Macro Syn
variable {E : Engine} {P : Program} {L : Lexicon} {vs : List Variant}

/-- From the declarations and a text: if the root passes the check, and the lexicon, as declared, splits the text into
tokens and ignored text, `parse` returns a tree, with no errors and nothing left, exactly if the tokens are of the
declared language. -/
theorem C98_program {G : Logos} (hG : G.Agrees E) (h : Macro.expand E P.lexicon = .ok L)
    (hvs : P.lexicon.variants = some vs) (htx : P.lexicon.Texts)
    (hb : vs.Pairwise fun a b => ¬ (a.Blank ∧ b.Lexed)) (hcl : P.lexicon.Clear G)
    (hd : P.Distinct vs) {c : Fin P.types.length → Code P.types.length vs.length}
    (hc : ∀ k, P.code L k = some (c k)) {S : Schema P.types.length vs.length} (hS : P.Declares vs S)
    {e : TyE} {root : Ty P.types.length vs.length} (hroot : Means P vs e root) {fuel : Nat}
    (hplain : S.plain fuel root = true) {source : Str} (hu : Utf8 source) {toks : List (Nat × Str)}
    (hs : P.lexicon.Splits G source toks) {items : List (Item vs.length)} (hscan : L.Scan G source 0 items) :
    (∃ x p' N, (∀ fuel' ≥ N, rootParseOf L.shouldExtract c fuel' root source items = .ok (.ok (some x)) p') ∧
      p'.info.errors = [] ∧ (p'.view L.shouldExtract).rest = []) ↔ Sent P vs e (Decl.words vs toks) := by
  obtain ⟨md, Gr, g⟩ := Plain.good hplain
  have hw := C81_wf hG h htx hu hscan
  rw [← C83_words_partial hG h hvs htx hd.variants hb hcl hs hscan]
  constructor
  · rintro ⟨x, p', f, h1, h2, h3⟩
    exact C92_sound_partial h hvs hd hc hS hw hroot g.loud (h1 f (Nat.le_refl _)) h2 h3
  · intro hsent
    obtain ⟨ts, rfl, -⟩ := C83_scan_partial hG h hvs htx hd.variants hb hcl hs hscan
    obtain ⟨S', -, h2, -, h4⟩ := C92_program h hvs hd hc
    cases h2 S hS
    obtain ⟨k, x, g1, g2⟩ := sent_matches hd hS source hsent root hroot (streamOf L.shouldExtract _) 0 rfl
    obtain ⟨p', N, k1, -, k3, -, k5⟩ := parse_match L.shouldExtract S fuel root md Gr g.md g.found g.loop source _ hw k x
      g1 g2
    exact ⟨x, p', N, fun f hf => by rw [h4]; exact k1 f hf, k5 (by simp), k3⟩

/-- The program `peP` of C92, with the same check. -/
example {source : Str} (hu : Utf8 source) {toks : List (Nat × Str)} (hs : peP.lexicon.Splits altLogos source toks)
    {items : List (Item 3)} (hscan : teL.Scan altLogos source 0 items) :
    (∃ x p' N, (∀ fuel' ≥ N, rootParseOf teL.shouldExtract peCode fuel' peT source items = .ok (.ok (some x)) p') ∧
      p'.info.errors = [] ∧ (p'.view teL.shouldExtract).rest = []) ↔
    Sent peP teVars (.name [20]) (Decl.words teVars toks) :=
  C98_program (P := peP) altAgrees teOk (vs := teVars) rfl teTexts (by decide) (clear_of (by decide)) peDistinct
    peCode_ok peDeclares peRoot (fuel := 40) (by decide +kernel) hu hs hscan

end Prog

end Teleparse
