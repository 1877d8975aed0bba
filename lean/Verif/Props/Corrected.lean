import Verif.Proof.Corrected
import Verif.Props.Plain
import Verif.Props.Tokens
/-
Property C103: trees with mistakes in them.
-/
namespace Teleparse
variable {m n : Nat}

/-! ## C103: a tree returned with errors is the tree of a corrected input -/

/-- If every symbol of the grammar derives something, what is missing can be filled in. -/
theorem C103_fillable (S : Schema m n) (root : Ty m n) (G : Grammar (PId m n) n) (hG : S.IsGrammar root G)
    (hprod : ∀ i, Reachable G root.pid i → Productive G i) (source : Str) : Fillable S source root := by
  intro u hu a b hab
  have ha : Reach S.tyParts root a := .step hu (by rcases hab with rfl | rfl <;> simp [Schema.tyParts])
  have hp := reach_pid ha
  exact fill_of_der hG hp (hprod _ ((reach_iff_schema hG _).2 hp))

/-- All results with a tree, for any table and in any state. There are words that match the type and that have the form
of the tree: the tokens of the tree stand for themselves, the terminals with an empty span for words that were put in.
The tokens among the words are consumed tokens, in order. Without `Punct` and `Recover` in the type there is an error for
each word that was put in. -/
theorem C103_produce (ext : Fin n → Bool) (source : Str) (items : List (Item n)) (hw : ItemsWF source items)
    (S : Schema m n) (md : Metadata (PId m n) n) (t : Ty m n) (hf : Fillable S source t) (p p' : Parser n)
    (hp : Reached ext source items p) (r : Res n (Tree n)) (x : Tree n) (h : Yields ext S md t p r p')
    (hx : r.tree? = some x) :
    ∃ f ts, FormOf S source t f ∧ x.Has StandsFor True f ∧ (keptOf f.leaves).Sublist ts ∧
      (p.view ext).rest = ts ++ (p'.view ext).rest ∧ (NoGaps S t → putsOf f.leaves ≤ r.errs.length) := by
  have hg : r.Gives x r.errs := by
    cases r with
    | success y => cases hx; exact .success _
    | recovered y e => cases hx; exact .recovered _ _
    | panic e => cases hx
  obtain ⟨f, h1, h2, ⟨ts, h3, h4⟩, h5⟩ := (h.run.fixed (source := source) (hp.ready hw) hf x _ hg).one
  exact ⟨f, ts, h1, h2, h4, h3, h5⟩

/-- Whole parses. -/
theorem C103_parse (ext : Fin n → Bool) (source : Str) (items : List (Item n)) (hw : ItemsWF source items)
    (S : Schema m n) (fuel : Nat) (t : Ty m n) (hf : Fillable S source t) (x : Tree n) (p' : Parser n)
    (h : rootParse ext S fuel t source items = .ok (.ok (some x)) p') :
    ∃ f, FormOf S source t f ∧ x.Has StandsFor True f ∧ (keptOf f.leaves).Sublist (streamOf ext items) ∧
      (NoGaps S t → putsOf f.leaves ≤ (syntaxErrors p'.info.errors).length) := by
  obtain ⟨md, r, q, -, h2, -, h4, h5, -⟩ := syntaxErrors_parse h
  have hx : r.tree? = some x := by
    rcases (h4 x).1 rfl with h | ⟨e, h⟩ <;> rw [h] <;> rfl
  obtain ⟨f, ts, g1, g2, g3, g4, g5⟩ := C103_produce ext source items hw S md t hf (Parser.new source items) q .new r x
    ⟨_, h2⟩ hx
  have hs : ts.Sublist (streamOf ext items) := by
    have : streamOf ext items = ts ++ (q.view ext).rest := g4
    rw [this]
    exact List.sublist_append_left _ _
  exact ⟨f, g1, g2, g3.trans hs, by rw [h5]; exact g5⟩

/-- Nothing is corrected on success: the words are the consumed tokens, all of them, and nothing is missing in the
tree. -/
theorem C103_success (ext : Fin n → Bool) (source : Str) (items : List (Item n)) (hw : ItemsWF source items)
    (S : Schema m n) (md : Metadata (PId m n) n) (t : Ty m n) (p p' : Parser n)
    (hl : Loud S t ∨ (p'.view ext).rest ≠ []) (hp : Reached ext source items p) (x : Tree n)
    (h : Yields ext S md t p (.success x) p') :
    ∃ f ts, FormOf S source t f ∧ x.Has StandsFor False f ∧ f.leaves = ts.map .kept ∧
      (p.view ext).rest = ts ++ (p'.view ext).rest := by
  obtain ⟨c, -, h2, h3⟩ := C34_loud ext source items hw S md t p p' hl hp x h
  obtain ⟨f, h4, h5, h6⟩ := h2.form fun a ha => (hp.ready hw).pos (by rw [h3]; exact List.mem_append_left _ ha)
  exact ⟨f, _, h4, h5, h6, h3⟩

/-- The corrected words are parsed: if a root that passes the check of C98 returns a tree, with or without errors, then
there are words for it as in `C103_parse`, and any text with these words is parsed without a syntax error, nothing is
left, and the new tree has the same form. -/
theorem C103_reparse (ext : Fin n → Bool) (S : Schema m n) (fuel : Nat) (root : Ty m n)
    (hpl : S.plain fuel root = true) (source : Str) (items : List (Item n)) (hw : ItemsWF source items) (fuel' : Nat)
    (x : Tree n) (p' : Parser n) (h : rootParse ext S fuel' root source items = .ok (.ok (some x)) p') :
    ∃ f, FormOf S source root f ∧ x.Has StandsFor True f ∧ (keptOf f.leaves).Sublist (streamOf ext items) ∧
      (NoGaps S root → putsOf f.leaves ≤ (syntaxErrors p'.info.errors).length) ∧
      ∀ source' items', ItemsWF source' items' → inputWords ext source' items' = f.leaves.map (Leaf.word source) →
        ∃ y q N, (∀ k ≥ N, rootParse ext S k root source' items' = .ok (.ok (some y)) q) ∧
          syntaxErrors q.info.errors = [] ∧ (q.view ext).rest = [] ∧ y.Has (SameWord source source') False f := by
  obtain ⟨md, G, g⟩ := Plain.good hpl
  obtain ⟨f, h1, h2, h3, h4⟩ := C103_parse ext source items hw S fuel' root
    (C103_fillable S root G g.gram g.productive source) x p' h
  refine ⟨f, h1, h2, h3, h4, fun source' items' hw' he => ?_⟩
  obtain ⟨c, y, h5, h6, h7⟩ := h1.parses source' (streamOf ext items') 0 he.symm
  obtain ⟨q, N, h8, h9, h10⟩ := (C98_exact ext S fuel root hpl source' items' hw' y).2 ⟨c, h5, h6⟩
  exact ⟨y, q, N, h8, h9, h10, h7⟩

/-- Elements of a `Punct` can be missing: for `a x 1 1 x b x` the tree has two words and three separators. No words have
the form of this tree with nothing missing. -/
theorem C103_gaps_needed : exS.metadata 30 dpT = some (.ok dpMd) ∧ ItemsWF dpSource dpItems ∧
    ∃ x e p', Yields noExt exS dpMd dpT (Parser.new dpSource dpItems) (.recovered x e) p' ∧
      ∀ f, ¬ x.Has StandsFor False f := by
  refine ⟨by rfl, by unfold ItemsWF dpItems dpSource; decide, .split ⟨0, 13⟩ [.tok ⟨⟨0, 1⟩, 0⟩, .tok ⟨⟨10, 11⟩, 0⟩]
        [.tok ⟨⟨2, 3⟩, 2⟩, .tok ⟨⟨8, 9⟩, 2⟩, .tok ⟨⟨12, 13⟩, 2⟩], _, _, ⟨20, by rfl⟩, ?_⟩
  intro f hf
  cases hf with
  | split h1 h2 h3 h4 =>
    rcases h2 with rfl | ⟨h, -⟩
    · rw [h1.length, h3.length] at h4
      simp at h4
    · exact h

/-! ### Examples -/

/-- `(word, "x", number)` -/
def coT : Ty 0 3 := .tup3 exWord (.term 2 ⟨2, some [120]⟩) exNum

/-- `a 1`: the `x` is missing. -/
def coItems : List (Item 3) := [.token ⟨⟨0, 1⟩, 0⟩, .token ⟨⟨2, 3⟩, 1⟩]

def coTree : Tree 3 := .seq ⟨0, 3⟩ [.tok ⟨⟨0, 1⟩, 0⟩, .tok ⟨⟨1, 1⟩, 2⟩, .tok ⟨⟨2, 3⟩, 1⟩]

/-- The tree is that of `a x 1`. -/
def coForm : Form 3 := .node [.leaf (.kept ⟨⟨0, 1⟩, 0⟩), .leaf (.put ⟨2, [120]⟩), .leaf (.kept ⟨⟨2, 3⟩, 1⟩)]

example : exS.plain 30 coT = true ∧ ItemsWF [97, 32, 49] coItems ∧
    (∃ p', rootParse noExt exS 30 coT [97, 32, 49] coItems = .ok (.ok (some coTree)) p' ∧
      (syntaxErrors p'.info.errors).length = 1) ∧
    FormOf exS [97, 32, 49] coT coForm ∧ coTree.Has StandsFor True coForm ∧ putsOf coForm.leaves = 1 ∧
    inputWords noExt [97, 32, 120, 32, 49] [.token ⟨⟨0, 1⟩, 0⟩, .token ⟨⟨2, 3⟩, 2⟩, .token ⟨⟨4, 5⟩, 1⟩] =
      coForm.leaves.map (Leaf.word [97, 32, 49]) := by
  refine ⟨by rfl, by unfold ItemsWF coItems; decide, ⟨_, by rfl, by rfl⟩, ?_, ?_, by rfl, by rfl⟩
  · refine .tuple (.inr (.inl ⟨_, _, _, rfl, rfl⟩)) (.cons (.term ⟨rfl, ?_⟩) (.cons (.term ⟨rfl, ?_⟩)
      (.cons (.term ⟨rfl, ?_⟩) .nil)))
    · intro lit h; cases h
    · intro lit h; cases h; rfl
    · intro lit h; cases h
  · exact .seq (.cons (.tok ⟨rfl, by decide⟩) (.cons (.tok ⟨rfl, rfl⟩) (.cons (.tok ⟨rfl, by decide⟩) .nil)))

/-- There is neither `Punct` nor `Recover` in it. -/
example : NoGaps exS coT := by
  intro u hu
  have : u = coT ∨ u = exWord ∨ u = .term 2 ⟨2, some [120]⟩ ∨ u = exNum := by
    induction hu with
    | refl => exact .inl rfl
    | step _ hj ih =>
      rcases ih with rfl | rfl | rfl | rfl <;> simp [Schema.tyParts, exWord, exNum, coT] at hj ⊢
      rcases hj with rfl | rfl | rfl <;> simp
  rcases this with rfl | rfl | rfl | rfl <;> intro a b <;> refine ⟨?_, ?_⟩ <;> intro h <;> cases h

end Teleparse
