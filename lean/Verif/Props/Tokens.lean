import Verif.Proof.Tokens
import Verif.Props.Delimited
/-
Property C75: the tokens of a tree.
-/
namespace Teleparse
variable {m n : Nat}

/-! ## C75: a tree holds tokens of the input, each at most once, in order -/

/-- The tree is made of tokens that were consumed for it, each used once, in the order of the input. All results with
a tree, for any table and in any state. -/
theorem C75_produce (ext : Fin n → Bool) (source : Str) (items : List (Item n)) (hw : ItemsWF source items)
    (S : Schema m n) (md : Metadata (PId m n) n) (t : Ty m n) (p p' : Parser n) (hp : Reached ext source items p)
    (r : Res n (Tree n)) (x : Tree n) (h : Yields ext S md t p r p') (hx : r.tree? = some x) :
    ∃ w ts, x.Reads w ∧ w.Sublist ts ∧ w.Pairwise (fun a b => a.span.hi ≤ b.span.lo) ∧
      p'.info.tokens.map (·.token) = p.info.tokens.map (·.token) ++ ts ∧
      (p.view ext).rest = ts ++ (p'.view ext).rest := by
  have hg : ∃ e, r.Gives x e := by
    cases r with
    | success y => cases hx; exact ⟨_, .success _⟩
    | recovered y e => cases hx; exact ⟨_, .recovered _ _⟩
    | panic e => cases hx
  obtain ⟨e, hg⟩ := hg
  have hready := hp.ready hw
  obtain ⟨w, h1, ts, h2, h3⟩ := h.run.made hready x e hg
  obtain ⟨ts', h4, h5⟩ := h.run.adv.cons
  have : ts' = ts := List.append_cancel_right (h4.symm.trans h2)
  subst this
  refine ⟨w, ts', h1, h3, ?_, h5, h2⟩
  have hs := (List.pairwise_append.1 hready.sorted.tokens.2).2.1
  rw [h2] at hs
  exact (List.pairwise_append.1 hs).1.sublist h3

/-- Whole parses: the tokens of the returned tree are among those consumed by this call. -/
theorem C75_parse (ext : Fin n → Bool) (source : Str) (items : List (Item n)) (hw : ItemsWF source items)
    (S : Schema m n) (fuel : Nat) (t : Ty m n) (p p' : Parser n) (hp : Reached ext source items p) (x : Tree n)
    (h : p.parse ext S fuel t = .ok (.ok (some x)) p') :
    ∃ w ts, x.Reads w ∧ w.Sublist ts ∧ w.Pairwise (fun a b => a.span.hi ≤ b.span.lo) ∧
      p'.info.tokens.map (·.token) = p.info.tokens.map (·.token) ++ ts := by
  rcases parse_ok h with ⟨e, _, he, _⟩ | ⟨md, x', _, hx', h1⟩
  · cases he
  cases hx'
  obtain ⟨r, q, h2, rfl, _, h3⟩ := parseWithMeta_ok h1
  obtain ⟨e, hg⟩ := (h3 x).1 rfl
  have hx : r.tree? = some x := by cases hg <;> rfl
  obtain ⟨w, ts, h4, h5, h6, h7, -⟩ := C75_produce ext source items hw S md t p q hp r x ⟨_, h2⟩ hx
  exact ⟨w, ts, h4, h5, h6, h7⟩

/-- Nothing is lost on success: if the type has no `Exists`, `Quote` or `Parse` in it, the tree holds all tokens that
were consumed. -/
theorem C75_complete (ext : Fin n → Bool) (source : Str) (items : List (Item n)) (hw : ItemsWF source items)
    (S : Schema m n) (md : Metadata (PId m n) n) (t : Ty m n) (hk : Keeps S t) (p p' : Parser n)
    (hl : Loud S t ∨ (p'.view ext).rest ≠ []) (hp : Reached ext source items p) (x : Tree n) (h : Yields ext S md t p (.success x) p') :
    ∃ ts, x.Reads ts ∧ p'.info.tokens.map (·.token) = p.info.tokens.map (·.token) ++ ts ∧
      (p.view ext).rest = ts ++ (p'.view ext).rest := by
  obtain ⟨c, h1, h2⟩ := (h.sound hp hw hl).success x rfl
  obtain ⟨ts, h3, h4⟩ := h.run.adv.cons
  have h5 : ts = c.map (·.token) := by
    have : (p.view ext).cells.map (·.token) ++ ts = (p.view ext).cells.map (·.token) ++ c.map (·.token) := by
      rw [← List.map_append, ← h1]; exact h4.symm
    exact List.append_cancel_left this
  subst h5
  refine ⟨_, h2.reads hk ?_, h4, h3⟩
  intro a ha
  have h3' : (p.view ext).rest = c.map (·.token) ++ (p'.view ext).rest := h3
  exact (hp.ready hw).pos (by rw [h3']; exact List.mem_append_left _ ha)

/-- `Punct<word, "x">` on `a x 1 1 x b x` (see C72): the tree holds the words and the separators, not the skipped
numbers. -/
example : ItemsWF dpSource dpItems ∧ (∃ e p', Yields noExt exS dpMd dpT (Parser.new dpSource dpItems) (.recovered
      (.split ⟨0, 13⟩ [.tok ⟨⟨0, 1⟩, 0⟩, .tok ⟨⟨10, 11⟩, 0⟩]
        [.tok ⟨⟨2, 3⟩, 2⟩, .tok ⟨⟨8, 9⟩, 2⟩, .tok ⟨⟨12, 13⟩, 2⟩]) e) p') ∧
    Tree.Reads (n := 3) (.split ⟨0, 13⟩ [.tok ⟨⟨0, 1⟩, 0⟩, .tok ⟨⟨10, 11⟩, 0⟩]
        [.tok ⟨⟨2, 3⟩, 2⟩, .tok ⟨⟨8, 9⟩, 2⟩, .tok ⟨⟨12, 13⟩, 2⟩])
      [⟨⟨0, 1⟩, 0⟩, ⟨⟨2, 3⟩, 2⟩, ⟨⟨8, 9⟩, 2⟩, ⟨⟨10, 11⟩, 0⟩, ⟨⟨12, 13⟩, 2⟩] := by
  refine ⟨by unfold ItemsWF dpItems dpSource; decide, ⟨_, _, 20, by rfl⟩, ?_⟩
  refine .split (.cons (.tok (by decide)) (.cons (.tok (by decide)) .nil))
    (.cons (.tok (by decide)) (.cons (.tok (by decide)) (.cons (.tok (by decide)) .nil))) ?_
  exact .left (.right (.right (.left (.right .nil))))

theorem Keeps.example : Keeps exS (.tup2 exWord (.option exNum)) := by
  intro u hu
  have : u = .tup2 exWord (.option exNum) ∨ u = exWord ∨ u = .option exNum ∨ u = exNum := by
    induction hu with
    | refl => exact .inl rfl
    | step _ hj ih =>
      rcases ih with rfl | rfl | rfl | rfl <;> simp [Schema.tyParts, exWord, exNum] at hj ⊢
      · rcases hj with rfl | rfl <;> simp
      · simp [hj]
  rcases this with rfl | rfl | rfl | rfl <;> intro a <;> refine ⟨?_, ?_, ?_⟩ <;> intro h <;> cases h

/-- `(word, Option<number>)` keeps its tokens; it is parsed successfully (see C34). -/
example : Loud exS (.tup2 exWord (.option exNum)) ∧ Keeps exS (.tup2 exWord (.option exNum)) ∧
    ∃ p', Yields exExt exS rxMd (.tup2 exWord (.option exNum)) (Parser.new exSource exItems)
      (.success (.seq ⟨0, 7⟩ [.tok ⟨⟨0, 2⟩, 0⟩, .optSome ⟨5, 7⟩ (.tok ⟨⟨5, 7⟩, 1⟩)])) p' :=
  ⟨RecoverFree.example.loud.1, Keeps.example, ⟨_, 10, by rfl⟩⟩

end Teleparse
