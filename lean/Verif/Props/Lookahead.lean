import Verif.Proof.Local
import Verif.Proof.Steps
import Verif.Props.Combinators
import Verif.Props.Safety
/-
Property C68: the parser looks one token ahead and no further.
-/
namespace Teleparse
variable {m n : Nat}

/-! ## C68: one token of lookahead -/

/-- Two sources with a common beginning have the same text at every span in it. -/
theorem sameOn_common (c q1 q2 : Str) : SameOn (fun x => Edge (c ++ q1) x ∧ Edge (c ++ q2) x ∧ x ≤ c.length)
    (c ++ q1) (c ++ q2) := by
  rintro ⟨lo, hi⟩ ⟨⟨a1, a2, a3⟩, b1, b2, b3⟩
  simp only at *
  unfold Span.get?
  simp only
  split
  · rfl
  · rename_i hlt
    rw [Nat.min_eq_left b1.1, Nat.min_eq_left b2.1]
    unfold sliceStr?
    rw [if_pos ⟨by omega, b1.1, a1.2, b1.2⟩, if_pos ⟨by omega, b2.1, a2.2, b2.2⟩]
    have h : ∀ q : Str, List.take (hi - lo) (List.drop lo (c ++ q)) = List.take (hi - lo) (List.drop lo c) := by
      intro q
      rw [List.drop_append_of_le_length a3, List.take_append_of_le_length (by rw [List.length_drop]; omega)]
    rw [h, h]

theorem lookahead_fuel (ext : Fin n → Bool) (S : Schema m n) (md : Metadata (PId m n) n) (t : Ty m n)
    (common q1 q2 : Str) (items1 items2 : List (Item n)) (hw1 : ItemsWF (common ++ q1) items1)
    (hw2 : ItemsWF (common ++ q2) items2) (p1 p2 p1' : Parser n)
    (h1 : Reached ext (common ++ q1) items1 p1) (h2 : Reached ext (common ++ q2) items2 p2)
    (u l1 l2 : List (Token n)) (a : Token n) (ha : a.span.hi ≤ common.length)
    (htok : p1.info.tokens = p2.info.tokens) (hs1 : (p1.view ext).rest = u ++ a :: l1)
    (hs2 : (p2.view ext).rest = u ++ a :: l2) (r : Res n (Tree n)) (fuel : Nat)
    (hy : produce (Parser.ops ext) S md fuel t p1 = .ok r p1')
    (hc : p1'.info.tokens.length ≤ p1.info.tokens.length + u.length) :
    ∃ p2', produce (Parser.ops ext) S md fuel t p2 = .ok r p2' ∧ p2'.info.tokens = p1'.info.tokens ∧
      (p2'.peek ext).1 = (p1'.peek ext).1 := by
  have hv := produce_view ext S md fuel t p1
  rw [hy] at hv
  have hv : produce View.ops S md fuel t (p1.view ext) = .ok r (p1'.view ext) := hv
  have hadv : Adv (p1.view ext) (p1'.view ext) := (run_of_produce S md fuel t _ _ _ hv).adv
  have e1 : p1.view ext = ⟨common ++ q1, p1.info.tokens, (u ++ [a]) ++ l1⟩ := by
    have := h1.source
    have hr := hs1
    cases hp : p1.view ext
    rw [hp] at hr
    have hs := congrArg View.source hp
    have hcl := congrArg View.cells hp
    simp only [Parser.view] at hs hcl
    simp only at hr
    rw [hr, ← hs, ← hcl, this]
    simp
  have e2 : p2.view ext = ⟨common ++ q2, p1.info.tokens, (u ++ [a]) ++ l2⟩ := by
    have := h2.source
    have hr := hs2
    cases hp : p2.view ext
    rw [hp] at hr
    have hs := congrArg View.source hp
    have hcl := congrArg View.cells hp
    simp only [Parser.view] at hs hcl
    simp only at hr
    rw [hr, ← hs, ← hcl, this, htok]
    simp
  have hin1 := (h1.inSource hw1).good
  have hin2 := (h2.inSource hw2).good
  have hsort := (h1.ready hw1).sorted.tokens
  obtain ⟨ts, hts1, hts2⟩ := hadv.cons
  -- what was consumed is a part of `u`
  have hlen : ts.length ≤ u.length := by
    have := congrArg List.length hts2
    simp only [List.length_map, List.length_append] at this
    have e : (p1'.view ext).cells.length = p1'.info.tokens.length := rfl
    have e' : (p1.view ext).cells.length = p1.info.tokens.length := rfl
    omega
  rw [hs1] at hts1
  obtain ⟨u', rfl⟩ : ∃ u', u = ts ++ u' := by
    have h3 := congrArg (List.take ts.length) hts1
    rw [List.take_append_of_le_length hlen, List.take_left'  rfl] at h3
    exact ⟨u.drop ts.length, by conv => lhs; rw [← List.take_append_drop ts.length u, h3]⟩
  have hrest : (p1'.view ext).rest = (u' ++ [a]) ++ l1 := by
    rw [List.append_assoc] at hts1
    simpa using (List.append_cancel_left hts1).symm
  have hE := sameOn_common common q1 q2
  have hmem : ∀ x, x ∈ p1.info.tokens.map (·.token) ∨ x ∈ (ts ++ u') ++ [a] →
      x.span.OnEdges (fun y => Edge (common ++ q1) y ∧ Edge (common ++ q2) y ∧ y ≤ common.length) := by
    intro x hx
    have g1 : x.span.OnEdges (Edge (common ++ q1)) := by
      rcases hx with hx | hx
      · exact hin1.cells x hx
      · exact hin1.rest x (by rw [e1]; exact List.mem_append_left _ hx)
    have g2 : x.span.OnEdges (Edge (common ++ q2)) := by
      rcases hx with hx | hx
      · exact hin2.cells x (by rw [e2]; exact hx)
      · exact hin2.rest x (by rw [e2]; exact List.mem_append_left _ hx)
    have hord : x.span.hi ≤ a.span.hi := by
      have hpw := hsort.2
      have hpos := hsort.1
      rw [e1] at hpw hpos
      simp only [View.cells, ← List.append_assoc] at hpw hpos
      have hpa := hpos a (by simp)
      by_cases hxa : x = a
      · subst hxa; exact Nat.le_refl _
      · have : x.span.hi ≤ a.span.lo := by
          rw [List.pairwise_append] at hpw
          have hpw := hpw.1
          rw [List.pairwise_append] at hpw
          refine hpw.2.2 x ?_ a (by simp)
          rcases hx with hx | hx
          · simp only [List.append_assoc, List.mem_append]; exact .inl hx
          · rcases List.mem_append.1 hx with hx | hx
            · rw [List.append_assoc]; exact List.mem_append_right _ hx
            · exact absurd (List.mem_singleton.1 hx) hxa
        omega
    have hposx : x.span.lo < x.span.hi := by
      refine hsort.1 x ?_
      rcases hx with hx | hx
      · exact List.mem_append_left _ hx
      · exact List.mem_append_right _ (by rw [e1]; exact List.mem_append_left _ hx)
    exact ⟨⟨g1.1, g2.1, by omega⟩, g1.2, g2.2, by omega⟩
  have hnear : Near (fun y => Edge (common ++ q1) y ∧ Edge (common ++ q2) y ∧ y ≤ common.length)
      (p1'.view ext) := by
    refine ⟨⟨Edge.zero _, Edge.zero _, by omega⟩, ?_, ?_⟩
    · intro x hx
      rw [hts2] at hx
      rcases List.mem_append.1 hx with hx | hx
      · exact hmem x (.inl hx)
      · exact hmem x (.inr (by simp [hx]))
    · unfold View.cur
      rw [hrest]
      cases u' with
      | nil => exact hmem a (.inr (by simp))
      | cons b u' => exact hmem b (.inr (by simp))
  have hloc := (produce_loc (l1 := l1) (l2 := l2) hE S md fuel t).2 p1.info.tokens ((ts ++ u') ++ [a]) r
    (p1'.view ext) (u' ++ [a]) (by rw [← e1]; exact hv) (by simp) hrest hnear
  rw [← e2] at hloc
  obtain ⟨p2', h5, h6⟩ := Sim.run (produce_view ext S md fuel t) hloc
  refine ⟨p2', h5, congrArg View.cells h6, ?_⟩
  have g (p : Parser n) : (p.peek ext).1 = (p.view ext).rest.head? := (view_fill ext p).2
  rw [g, g, h6, hrest]
  cases u' <;> rfl

/-- The result of a syntax type depends only on the tokens it consumes and the one after them: let two parsers
be in states with the same consumed tokens and with streams `u ++ a :: l1` and `u ++ a :: l2`, in sources
that agree up to the end of `a`. If a run of the first one does not consume `a`, the second one does the same:
same result (tree and errors), same tokens consumed, same next token. -/
theorem C68_lookahead (ext : Fin n → Bool) (S : Schema m n) (md : Metadata (PId m n) n) (t : Ty m n)
    (common q1 q2 : Str) (items1 items2 : List (Item n)) (hw1 : ItemsWF (common ++ q1) items1)
    (hw2 : ItemsWF (common ++ q2) items2) (p1 p2 p1' : Parser n)
    (h1 : Reached ext (common ++ q1) items1 p1) (h2 : Reached ext (common ++ q2) items2 p2)
    (u l1 l2 : List (Token n)) (a : Token n) (ha : a.span.hi ≤ common.length)
    (htok : p1.info.tokens = p2.info.tokens) (hs1 : (p1.view ext).rest = u ++ a :: l1)
    (hs2 : (p2.view ext).rest = u ++ a :: l2) (r : Res n (Tree n)) (hy : Yields ext S md t p1 r p1')
    (hc : p1'.info.tokens.length ≤ p1.info.tokens.length + u.length) :
    ∃ p2', Yields ext S md t p2 r p2' ∧ p2'.info.tokens = p1'.info.tokens ∧
      (p2'.peek ext).1 = (p1'.peek ext).1 := by
  obtain ⟨fuel, hy⟩ := hy
  obtain ⟨p2', h3, h4⟩ := lookahead_fuel ext S md t common q1 q2 items1 items2 hw1 hw2 p1 p2 p1' h1 h2 u l1 l2 a ha
    htok hs1 hs2 r fuel hy hc
  exact ⟨p2', ⟨fuel, h3⟩, h4⟩

/-- The same for `Root::parse`: if the scanner gives the same outcomes up to a token `a`, in sources that agree
up to its end, and parsing the first one does not consume `a`, then parsing the second one returns the same
tree, consumes the same tokens (with the same semantic types) and reports the same syntax errors. -/
theorem C68_parse (ext : Fin n → Bool) (S : Schema m n) (fuel : Nat) (root : Ty m n)
    (common q1 q2 : Str) (pre post1 post2 : List (Item n)) (a : Token n)
    (hw1 : ItemsWF (common ++ q1) (pre ++ .token a :: post1))
    (hw2 : ItemsWF (common ++ q2) (pre ++ .token a :: post2)) (ha : a.span.hi ≤ common.length)
    (hext : ext a.ty = false) (x : Option (Tree n)) (p1' : Parser n)
    (h : rootParse ext S fuel root (common ++ q1) (pre ++ .token a :: post1) = .ok (.ok x) p1')
    (hc : p1'.info.tokens.length ≤ (streamOf ext pre).length) :
    ∃ p2', rootParse ext S fuel root (common ++ q2) (pre ++ .token a :: post2) = .ok (.ok x) p2' ∧
      p2'.info.tokens = p1'.info.tokens ∧
      p2'.info.errors.filter (fun e : Err n => e.kind ≠ .unexpectedCharacters) =
        p1'.info.errors.filter (fun e : Err n => e.kind ≠ .unexpectedCharacters) := by
  have hst (l : List (Item n)) : streamOf ext (pre ++ .token a :: l) = streamOf ext pre ++ a :: streamOf ext l := by
    rw [streamOf_append]
    simp [streamOf, tokensOf, hext]
  have hnew (src : Str) (l : List (Item n)) : ((Parser.new src (pre ++ .token a :: l)).view ext).rest =
      streamOf ext pre ++ a :: streamOf ext l := by
    rw [← hst]; rfl
  obtain ⟨md, r, q, chars, hmd, hq, hx1, hx2, herr, hch, hp1⟩ := C48_parse ext S fuel root _ _ _ h
  have htok : p1'.info.tokens = q.info.tokens := by rw [hp1]
  obtain ⟨q', h3, h4, -⟩ := lookahead_fuel ext S md root common q1 q2 _ _ hw1 hw2 _ _ q .new .new _ _ _ a ha
    rfl (hnew _ _) (hnew _ _) r fuel hq (by rw [← htok]; simpa [Parser.new] using hc)
  obtain ⟨x', p2', hp2⟩ := C48_defined ext S fuel root _ _ md r hmd h3
  obtain ⟨md', r', q'', chars', hmd', hq', hy1, hy2, herr', hch', hp2'⟩ := C48_parse ext S fuel root _ _ _ hp2
  cases hmd.symm.trans hmd'
  cases h3.symm.trans hq'
  have hx : x' = x := by
    cases x with
    | none => exact hy1.2 (hx1.1 rfl)
    | some y => exact (hy2 y).2 ((hx2 y).1 rfl)
  subst hx
  refine ⟨p2', hp2, by rw [hp2', htok]; exact h4, ?_⟩
  have hfil (c : List (Err n)) (hc : ∀ e ∈ c, e.kind = .unexpectedCharacters) :
      ([] ++ c ++ r.errs).filter (fun e : Err n => e.kind ≠ ErrKind.unexpectedCharacters) = r.errs := by
    rw [List.nil_append, List.filter_append, List.filter_eq_nil_iff.2, List.nil_append, List.filter_eq_self]
    · intro e he
      simpa using produce_kinds hq e he
    · intro e he
      simpa using hc e he
  rw [herr, herr']
  exact (hfil _ hch').trans (hfil _ hch).symm

/-- Example: `word*` on `a b 1 2` and on `a b 1 c`: the number `1` is not consumed, so what comes after it does
not matter. -/
def laT : Ty 0 3 := .star exWord
def laPre : List (Item 3) := [.token ⟨⟨0, 1⟩, 0⟩, .token ⟨⟨2, 3⟩, 0⟩]
def laSrc : Str := [97, 32, 98, 32, 49]
example :
    ItemsWF (laSrc ++ [32, 50]) (laPre ++ .token ⟨⟨4, 5⟩, 1⟩ :: [.token ⟨⟨6, 7⟩, 1⟩]) ∧
    ItemsWF (laSrc ++ [32, 99]) (laPre ++ .token ⟨⟨4, 5⟩, 1⟩ :: [.token ⟨⟨6, 7⟩, 0⟩]) ∧
    ∃ x p1', rootParse (fun _ => false) exS 20 laT (laSrc ++ [32, 50])
        (laPre ++ .token ⟨⟨4, 5⟩, 1⟩ :: [.token ⟨⟨6, 7⟩, 1⟩]) = .ok (.ok x) p1' ∧
      p1'.info.tokens.length = 2 ∧ (streamOf (fun _ => false) laPre).length = 2 :=
  ⟨by unfold ItemsWF; decide, by unfold ItemsWF; decide, _, _, by rfl, by rfl, by rfl⟩

end Teleparse
