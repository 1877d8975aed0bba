import Verif.Proof.Nodes
import Verif.Props.Tokens
/-
Property C84: the tokens in the span of a node.
-/
namespace Teleparse
variable {m n : Nat}

/-! ## C84: the tokens found for the span of a node are the tokens of the node -/

/-- The store `q` is the store of `p` with more tokens after it (their types may differ). -/
def Parser.Later (p q : Parser n) : Prop :=
  ∃ ts, q.info.tokens.map (·.token) = p.info.tokens.map (·.token) ++ ts

/-- Successful parses: every node of the tree, at any depth, is a parse of a type in the parsed type, and the tokens
found for its span in the store are exactly the tokens of that parse, in order. This is so at once and after anything
parsed later. -/
theorem C84_success (ext : Fin n → Bool) (source : Str) (items : List (Item n)) (hw : ItemsWF source items)
    (S : Schema m n) (md : Metadata (PId m n) n) (t : Ty m n) (p p' : Parser n)
    (hl : Loud S t ∨ (p'.view ext).rest ≠ []) (hp : Reached ext source items p) (x : Tree n) (h : Yields ext S md t p (.success x) p') (y : Tree n)
    (hy : x.Node y) :
    ∃ u pos c, Inner S t u ∧ Parses S source pos u c y ∧
      ∀ q, Reached ext source items q → p'.Later q →
        ∃ d, TokenVec.inside? q.info.tokens y.span = some d ∧ d.map (·.token) = c.map (·.token) := by
  obtain ⟨c, h1, h2⟩ := (h.sound hp hw hl).success x rfl
  obtain ⟨a, c', d, u, h3, h4, h5⟩ := h2.node y hy
  refine ⟨u, _, c', h5, h4, fun q hq ⟨ts, ht⟩ => ?_⟩
  refine inside_node (pre := p.info.tokens ++ a) (post := d ++ ts.map Cell.ofToken) h4 (hq.sortedView hw).store ?_ ?_
  · rw [endOf_append]; rfl
  · show q.info.tokens.map (·.token) = _
    have h1' : p'.info.tokens = p.info.tokens ++ c := h1
    rw [ht, h1', List.map_append, h3]
    simp [Function.comp_def, Cell.ofToken]

/-- The same with the tokens that can be read in the tree: if the type has no `Exists`, `Quote` or `Parse` in it, the
store holds for the span of a node what the node holds. -/
theorem C84_reads (ext : Fin n → Bool) (source : Str) (items : List (Item n)) (hw : ItemsWF source items)
    (S : Schema m n) (md : Metadata (PId m n) n) (t : Ty m n) (hk : Keeps S t) (p p' : Parser n)
    (hl : Loud S t ∨ (p'.view ext).rest ≠ []) (hp : Reached ext source items p) (x : Tree n) (h : Yields ext S md t p (.success x) p') (y : Tree n)
    (hy : x.Node y) (q : Parser n) (hq : Reached ext source items q) (hpq : p'.Later q) :
    ∃ d, TokenVec.inside? q.info.tokens y.span = some d ∧ y.Reads (d.map (·.token)) := by
  obtain ⟨u, pos, c, h1, h2, h3⟩ := C84_success ext source items hw S md t p p' hl hp x h y hy
  obtain ⟨d, h4, h5⟩ := h3 q hq hpq
  refine ⟨d, h4, ?_⟩
  rw [h5]
  refine h2.reads ?_ ?_
  · intro w hw'
    rcases h1 with h1 | ⟨v, rfl, h1⟩
    · exact hk w (h1.trans hw')
    · intro a
      rcases hw'.cases_head with rfl | ⟨b, hb, hb'⟩
      · exact ⟨by simp, by simp, by simp⟩
      · rw [show S.tyParts (.option v) = [v] from rfl, List.mem_singleton] at hb
        subst hb
        exact hk w (h1.trans hb') a
  · intro a ha
    rw [← h5] at ha
    obtain ⟨e, he, rfl⟩ := List.mem_map.1 ha
    have hs := (hq.sortedView hw).store
    rw [show TokenVec.inside? q.info.tokens y.span = _ from C10_inside hs _] at h4
    cases h4
    exact hs.1 _ (List.mem_map_of_mem (List.mem_filter.1 he).1)

/-- All results with a tree, recovered ones too, for any table and in any state: a token of the input that a node of
the tree holds is inside the span of the node, and is found in the store for that span. -/
theorem C84_held (ext : Fin n → Bool) (source : Str) (items : List (Item n)) (hw : ItemsWF source items)
    (S : Schema m n) (md : Metadata (PId m n) n) (t : Ty m n) (p p' : Parser n) (hp : Reached ext source items p)
    (r : Res n (Tree n)) (x : Tree n) (h : Yields ext S md t p r p') (hx : r.tree? = some x) (y : Tree n)
    (hy : x.Node y) (a : Token n) (ha : y.Node (.tok a)) (hne : a.span.lo < a.span.hi) :
    a.span.Inside y.span ∧ ∀ q, Reached ext source items q → p'.Later q →
      ∃ d, TokenVec.inside? q.info.tokens y.span = some d ∧ a ∈ d.map (·.token) := by
  have hg : ∃ e, r.Gives x e := by
    cases r with
    | success y => cases hx; exact ⟨_, .success _⟩
    | recovered y e => cases hx; exact ⟨_, .recovered _ _⟩
    | panic e => cases hx
  obtain ⟨e, hg⟩ := hg
  have hr := hp.ready hw
  have hb : Bnd (p.view ext) x (p'.view ext) := RunX.bnd h.run hr x e hg
  have hi := hb.cov y hy a ⟨ha, hne⟩
  refine ⟨hi, fun q hq ⟨ts, ht⟩ => ?_⟩
  have hs := (hq.sortedView hw).store
  refine ⟨_, C10_inside hs _, ?_⟩
  have hm : a ∈ p'.info.tokens.map (·.token) := by
    obtain ⟨h1, h2⟩ := hb.held a ⟨hy.trans ha, hne⟩
    obtain ⟨us, h3, h4⟩ := hb.adv.cons
    have h4' : p'.info.tokens.map (·.token) = _ := h4
    rw [h4']
    rw [h3] at h1
    rcases List.mem_append.1 h1 with h1 | h1
    · exact List.mem_append_right _ h1
    · have := (hr.adv hb.adv).rest_ge h1
      omega
  have hm : a ∈ q.info.tokens.map (·.token) := by rw [ht]; exact List.mem_append_left _ hm
  obtain ⟨d, hd, rfl⟩ := List.mem_map.1 hm
  exact List.mem_map_of_mem (List.mem_filter.2 ⟨hd, by simpa using hi⟩)

/-- `(word, Option<number>)` on `ab (12)`-like text (see C34): the node of the number is found at its span. -/
example : ItemsWF exSource exItems ∧ Loud exS (.tup2 exWord (.option exNum)) ∧
    Keeps exS (.tup2 exWord (.option exNum)) ∧ Reached exExt exSource exItems (Parser.new exSource exItems) ∧
    ∃ p', Yields exExt exS rxMd (.tup2 exWord (.option exNum)) (Parser.new exSource exItems)
      (.success (.seq ⟨0, 7⟩ [.tok ⟨⟨0, 2⟩, 0⟩, .optSome ⟨5, 7⟩ (.tok ⟨⟨5, 7⟩, 1⟩)])) p' ∧
      Tree.Node (n := 3) (.seq ⟨0, 7⟩ [.tok ⟨⟨0, 2⟩, 0⟩, .optSome ⟨5, 7⟩ (.tok ⟨⟨5, 7⟩, 1⟩)])
        (.optSome ⟨5, 7⟩ (.tok ⟨⟨5, 7⟩, 1⟩)) ∧ p'.Later p' ∧
      (TokenVec.inside? p'.info.tokens ⟨5, 7⟩).map (·.map (·.token)) = some [⟨⟨5, 7⟩, 1⟩] ∧
      (TokenVec.inside? p'.info.tokens ⟨0, 7⟩).map (·.map (·.token)) = some [⟨⟨0, 2⟩, 0⟩, ⟨⟨5, 7⟩, 1⟩] :=
  ⟨by unfold ItemsWF exItems exSource; decide, RecoverFree.example.loud.1, Keeps.example, .new, _, ⟨10, by rfl⟩,
    .part (.head _) (.tail _ (.head _)) .refl, ⟨[], by simp⟩, by rfl, by rfl⟩

/-- Recovered trees: the tokens in the span of a node are not all in the node. `Punct<word, "x">` on `a x 1 1 x b x`
skips the numbers; they are inside the span of the list. -/
theorem C84_recovered_more : exS.metadata 30 dpT = some (.ok dpMd) ∧ ItemsWF dpSource dpItems ∧ Loud exS dpT ∧ Keeps exS dpT ∧
    ∃ x e p' d, Yields noExt exS dpMd dpT (Parser.new dpSource dpItems) (.recovered x e) p' ∧
      TokenVec.inside? p'.info.tokens x.span = some d ∧ (⟨⟨4, 5⟩, 1⟩ : Token 3) ∈ d.map (·.token) ∧
      ¬ x.Node (.tok ⟨⟨4, 5⟩, 1⟩) := by
  have parts : ∀ u, Reach exS.tyParts dpT u → u = dpT ∨ u = exWord ∨ u = fxX := by
    intro u hu
    induction hu with
    | refl => exact .inl rfl
    | step _ hj ih =>
      rcases ih with rfl | rfl | rfl
      · exact .inr (by simpa [dpT, Schema.tyParts] using hj)
      · simp [exWord, Schema.tyParts] at hj
      · simp [fxX, Schema.tyParts] at hj
  refine ⟨by rfl, by unfold ItemsWF dpItems dpSource; decide, ?_, ?_,
    .split ⟨0, 13⟩ [.tok ⟨⟨0, 1⟩, 0⟩, .tok ⟨⟨10, 11⟩, 0⟩] [.tok ⟨⟨2, 3⟩, 2⟩, .tok ⟨⟨8, 9⟩, 2⟩, .tok ⟨⟨12, 13⟩, 2⟩],
    _, _, _, ⟨20, by rfl⟩, by rfl, by decide, ?_⟩
  · have hf : RecoverFree exS dpT := by
      intro u hu a b h
      rcases parts u hu with rfl | rfl | rfl <;> cases h
    exact hf.loud.1
  · intro u hu a
    rcases parts u hu with rfl | rfl | rfl <;> refine ⟨?_, ?_, ?_⟩ <;> intro h <;> cases h
  · intro h
    rcases h.cases' with h | ⟨l, hl, z, hz, h⟩
    · cases h
    · have hk : ∀ z : Tree 3, z ∈ l → ∃ t : Token 3, z = .tok t ∧ t ≠ ⟨⟨4, 5⟩, 1⟩ := by
        simp only [Tree.kids, List.mem_cons, List.not_mem_nil, or_false] at hl
        rcases hl with rfl | rfl <;> intro z hz <;> simp only [List.mem_cons, List.not_mem_nil, or_false] at hz
        · rcases hz with rfl | rfl <;> exact ⟨_, rfl, by decide⟩
        · rcases hz with rfl | rfl | rfl <;> exact ⟨_, rfl, by decide⟩
      obtain ⟨t, rfl, ht⟩ := hk z hz
      rcases h.cases' with h | ⟨_, hl, _⟩
      · cases h; exact ht rfl
      · cases hl

/-- The hypotheses of `C84_held` for this tree: its node `b`. -/
example : ∃ x e p', Yields noExt exS dpMd dpT (Parser.new dpSource dpItems) (.recovered x e) p' ∧
    x.Node x ∧ x.Node (.tok ⟨⟨10, 11⟩, 0⟩) ∧ x.span = ⟨0, 13⟩ :=
  ⟨.split ⟨0, 13⟩ [.tok ⟨⟨0, 1⟩, 0⟩, .tok ⟨⟨10, 11⟩, 0⟩] [.tok ⟨⟨2, 3⟩, 2⟩, .tok ⟨⟨8, 9⟩, 2⟩, .tok ⟨⟨12, 13⟩, 2⟩],
    _, _, ⟨20, by rfl⟩, .refl, .part (.head _) (.tail _ (.head _)) .refl, rfl⟩

end Teleparse
