import Verif.Proof.FirstError
import Verif.Props.Viable
import Verif.Props.RepairEnum
import Verif.Props.Completeness
/-
Property C126: the first error is exactly at the first token that cannot be there.
-/
namespace Teleparse
variable {m n : Nat}

/-! ## C126: the place of the first error -/

/-- The first error begins where some token begins (or at the end of the source), no error begins before it, the
tokens before it are the beginning of a sentence of `i`, and with the token at the error (or with nothing more, if
the error is at the end) they are not. -/
def FirstErrorExact (G : Grammar (PId m n) n) (i : PId m n) (source : Str) (stream : List (Token n))
    (errs : List (Err n)) : Prop :=
  ∃ ts rest, stream = ts ++ rest ∧ (∀ e ∈ errs, beginOf source rest ≤ e.span.lo) ∧
    (∃ e ∈ errs, e.span.lo = beginOf source rest) ∧ Begins G i (ts.map (Token.word source)) ∧
    match rest with
    | [] => ¬ Derives G [.nt i] ((ts.map (Token.word source)).map .tok)
    | a :: _ => ¬ Begins G i ((ts ++ [a]).map (Token.word source))

/-- A sentence that begins with the tokens of an input up to some token is found in another input with the same
text up to there. -/
theorem begins_input {ext : Fin n → Bool} {G : Grammar (PId m n) n} (hs : Spellable ext G) {i : PId m n}
    {source : Str} (hsrc : Joins source) {items : List (Item n)} (hw : ItemsWF source items)
    {ts rest : List (Token n)} {a : Token n} (h : streamOf ext items = ts ++ a :: rest)
    (hb : Begins G i ((ts ++ [a]).map (Token.word source))) :
    ∃ common q1 q2 pre post1 post2, source = common ++ q1 ∧ items = pre ++ post1 ∧ streamOf ext pre = ts ++ [a] ∧
      streamOf ext post1 = rest ∧ (∀ t ∈ streamOf ext pre, t.span.hi ≤ common.length) ∧
      ItemsWF (common ++ q2) (pre ++ post2) ∧
      Derives G [.nt i] ((inputWords ext (common ++ q2) (pre ++ post2)).map .tok) := by
  obtain ⟨pre, post, rfl, h1, h2⟩ := split_stream h
  have hmem : ∀ t ∈ ts ++ [a], Item.token t ∈ pre ++ .token a :: post := by
    intro t ht
    rw [← h1] at ht
    have := mem_of_streamOf ht
    simp only [List.mem_append, List.mem_cons, List.not_mem_nil, or_false] at this ⊢
    rcases this with h | h
    · exact .inl h
    · exact .inr (.inl h)
  have hlast := hw.1 (.token a) (by simp)
  have hhi : ∀ x ∈ pre ++ [.token a], x.span.hi ≤ a.span.hi := by
    intro x hx
    rcases List.mem_append.1 hx with hx | hx
    · have h3 := (List.pairwise_append.1 hw.2).2.2 x hx (.token a) (by simp)
      have h4 := hlast.1
      have h3 : x.span.hi ≤ a.span.lo := h3
      have h4 : a.span.lo < a.span.hi := h4
      omega
    · simp only [List.mem_singleton] at hx
      subst hx
      exact Nat.le_refl _
  obtain ⟨ws, hd, hws⟩ := hb.spelled hs (by
    intro w hw'
    obtain ⟨t, ht, rfl⟩ := List.mem_map.1 hw'
    obtain ⟨g1, g2, g3, -⟩ := hw.1 _ (hmem t ht)
    exact word_text hsrc g1 g2 g3)
  have hcl : (source.take a.span.hi).length = a.span.hi := by
    rw [List.length_take]
    have : a.span.hi ≤ source.length := hlast.2.1
    omega
  have hsplit : source = source.take a.span.hi ++ source.drop a.span.hi := (List.take_append_drop _ _).symm
  obtain ⟨⟨l1, l2⟩, l3⟩ := layFrom_wf (fun w h => (hws w h).1) (source.take a.span.hi) a.span.hi hcl.symm
  have hstream : streamOf ext (pre ++ [.token a]) = ts ++ [a] := h1
  have htok : ∀ t ∈ ts ++ [a], t.span.hi ≤ (source.take a.span.hi).length := by
    intro t ht
    rw [hcl]
    rw [← hstream] at ht
    exact hhi _ (mem_of_streamOf ht)
  refine ⟨source.take a.span.hi, source.drop a.span.hi, textsOf ws, pre ++ [.token a], post,
    layFrom a.span.hi ws, hsplit, by simp, hstream, h2, ?_, ⟨?_, ?_⟩, ?_⟩
  · rw [hstream]; exact htok
  · intro x hx
    rcases List.mem_append.1 hx with hx | hx
    · have hx' : x ∈ pre ++ .token a :: post := by
        simp only [List.mem_append, List.mem_cons, List.not_mem_nil, or_false] at hx ⊢
        rcases hx with h | h
        · exact .inl h
        · exact .inr (.inl h)
      obtain ⟨g1, g2, g3, g4⟩ := hw.1 x hx'
      have g5 := hhi x hx
      rw [hsplit] at g3 g4
      have hj := joins_texts fun w h => (hws w h).1
      refine ⟨g1, ?_, boundary_swap hj (by omega) g3, boundary_swap hj (by omega) g4⟩
      rw [List.length_append, hcl]
      omega
    · exact l1 x hx
  · refine List.pairwise_append.2 ⟨?_, l2, fun x hx y hy => Nat.le_trans (hhi x hx) (l3 y hy)⟩
    have := hw.2
    rw [show pre ++ Item.token a :: post = (pre ++ [.token a]) ++ post by simp] at this
    exact (List.pairwise_append.1 this).1
  · unfold inputWords
    rw [streamOf_append, hstream, List.map_append,
      layFrom_words (fun w h => (hws w h).2) (source.take a.span.hi) a.span.hi hcl.symm]
    have e : (ts ++ [a]).map (fun t => t.word (source.take a.span.hi ++ textsOf ws)) =
        (ts ++ [a]).map (Token.word source) := by
      refine List.map_congr_left fun t ht => ?_
      unfold Token.word
      rw [textOf_common _ (textsOf ws) (source.drop a.span.hi) (htok t ht), ← hsplit]
    rw [e]
    exact hd

/-- The general form, for tables with which sentences are found. -/
theorem first_error_exact (ext : Fin n → Bool) (S : Schema m n) (root : Ty m n)
    (md : Metadata (PId m n) n) (G : Grammar (PId m n) n) (hG : S.IsGrammar root G)
    (hfind : ∀ source items, ItemsWF source items →
      Derives G [.nt root.pid] ((inputWords ext source items).map .tok) →
      ∃ r p', Yields ext S md root (Parser.new source items) r p' ∧ r.errs = [])
    (hprod : ∀ i, Reachable G root.pid i → Productive G i) (hloud : Loud S root) (hk : KeepsErrors S root)
    (hspell : Spellable ext G) (source : Str) (hsrc : Joins source) (items : List (Item n))
    (hw : ItemsWF source items) (r : Res n (Tree n)) (p' : Parser n)
    (hy : Yields ext S md root (Parser.new source items) r p') (he : r.errs ≠ []) :
    FirstErrorExact G root.pid source (streamOf ext items) r.errs := by
  obtain ⟨ts, rest, ws, h0, h2, ⟨e, he1, he2⟩, h4⟩ :=
    C70_produce_partial ext S md root G hG hprod hloud hk source items hw _ _ .new r hy he
  have h1 : streamOf ext items = ts ++ rest := h0
  clear h0
  refine ⟨ts, rest, h1, h2, ⟨e, he1, he2⟩, ⟨ws, h4⟩, ?_⟩
  cases rest with
  | nil =>
    intro hd
    rw [List.append_nil] at h1
    obtain ⟨r2, p2, hy2, hc⟩ := hfind source items hw (by unfold inputWords; rw [h1]; exact hd)
    obtain ⟨rfl, -⟩ := hy.unique hy2
    exact he hc
  | cons a rest =>
    intro hb
    obtain ⟨common, q1, q2, pre, post1, post2, rfl, rfl, g3, g4, g5, g6, g7⟩ := begins_input hspell hsrc hw h1 hb
    obtain ⟨r2, p2, hy2, hc⟩ := hfind _ _ g6 g7
    have hle := C69_produce ext S md root common q1 q2 _ _ hw g6 _ _ _ _ .new .new (streamOf ext pre)
      (streamOf ext post1) (streamOf ext post2) g5 rfl (streamOf_append ext pre post1)
      (streamOf_append ext pre post2) r r2 hy hy2 hc e he1
    rw [he2, g4] at hle
    have hmem : ∀ t ∈ streamOf ext (pre ++ post1), Item.token t ∈ pre ++ post1 := fun t ht => mem_of_streamOf ht
    have ha := hw.1 _ (hmem a (by rw [h1]; simp))
    have ha1 : a.span.lo < a.span.hi := ha.1
    have ha2 : a.span.hi ≤ (common ++ q1).length := ha.2.1
    have hb1 : beginOf (common ++ q1) (a :: rest) = a.span.lo := rfl
    rw [hb1] at hle
    cases rest with
    | nil =>
      have : beginOf (common ++ q1) ([] : List (Token n)) = (common ++ q1).length := rfl
      omega
    | cons b rest =>
      have hb2 : beginOf (common ++ q1) (b :: rest) = b.span.lo := rfl
      have hs : (streamOf ext (pre ++ post1)).Pairwise (fun a b => a.span.hi ≤ b.span.lo) :=
        ((Reached.new (ext := ext)).ready hw).sorted.tokens.2
      rw [h1] at hs
      have := (List.pairwise_cons.1 (List.pairwise_append.1 hs).2.1).1 b (by simp)
      omega

/-- With the repaired tables: if a parse has errors, the first one is exactly at the first token that cannot
continue the tokens before it to a sentence, or at the end of the input if there is no such token and the input is
only the beginning of a sentence. Types: every production derives something, `Loop` only at the end, no separator
of a `Split` derives the empty sequence; what `Split`, `Punct` and `Recover` try out fails with one error
(`Loud`, `KeepsErrors`). -/
theorem C126_exact_tables (ext : Fin n → Bool) (S : Schema m n) (fuel : Nat) (root : Ty m n)
    (md : Metadata (PId m n) n) (G : Grammar (PId m n) n) (hmd : S.exactMetadata fuel root = some (.ok md))
    (hG : S.IsGrammar root G)
    (hsep : ∀ t p, Reach S.tyParts root (.split t p) → ¬ Nullable G p.pid) (hl : LoopTail S root)
    (hprod : ∀ i, Reachable G root.pid i → Productive G i) (hloud : Loud S root) (hk : KeepsErrors S root)
    (hspell : Spellable ext G) (source : Str) (hsrc : Joins source) (items : List (Item n))
    (hw : ItemsWF source items) (r : Res n (Tree n)) (p' : Parser n)
    (hy : Yields ext S md root (Parser.new source items) r p') (he : r.errs ≠ []) :
    FirstErrorExact G root.pid source (streamOf ext items) r.errs := by
  refine first_error_exact ext S root md G hG (fun s i h1 h2 => ?_) hprod hloud hk hspell source hsrc items hw r p'
    hy he
  obtain ⟨x, c, q, h, -⟩ := C112_parse ext S fuel root md G hmd hG hsep hl s i h1 h2
  exact ⟨_, q, h, rfl⟩

/-- `Root::parse` with the present tables. Missing for the full statement: the grammars excluded from
`C35_parse_partial` and from `C70_parse_partial`. -/
theorem C126_parse_partial (ext : Fin n → Bool) (S : Schema m n) (fuel : Nat) (root : Ty m n)
    (G : Grammar (PId m n) n) (hG : S.IsGrammar root G) (hsafe : SkipSafe G)
    (hpunct : ∀ t p, Reach S.tyParts root (.punct t p) → ∀ a tok, Beyond G a tok →
      ¬ EndsWith G a (Ty.punct t p).pid)
    (henum : ∀ k v vs, S k = .enum v vs → Reachable G root.pid (.user k) → Nullable G (.user k) →
      ∀ tok, ¬ FollowOf G root.pid (.user k) (some tok))
    (hsep : ∀ t p, Reach S.tyParts root (.split t p) → ¬ Nullable G p.pid) (hl : LoopTail S root)
    (hprod : ∀ i, Reachable G root.pid i → Productive G i) (hloud : Loud S root) (hk : KeepsErrors S root)
    (hspell : Spellable ext G) (source : Str) (hsrc : Joins source) (items : List (Item n))
    (hw : ItemsWF source items) (x : Option (Tree n)) (p' : Parser n)
    (h : rootParse ext S fuel root source items = .ok (.ok x) p') (he : syntaxErrors p'.info.errors ≠ []) :
    FirstErrorExact G root.pid source (streamOf ext items) (syntaxErrors p'.info.errors) := by
  obtain ⟨md, r, q, chars, hmd, hq, -, -, herr, hch, -⟩ := C48_parse ext S fuel root _ _ _ h
  have hs : syntaxErrors p'.info.errors = r.errs := by
    unfold syntaxErrors
    rw [herr, List.filter_append, List.filter_eq_nil_iff.2, List.nil_append, List.filter_eq_self]
    · intro e he
      simpa using produce_kinds hq e he
    · intro e he
      simpa using hch e (by simpa [Parser.new] using he)
  rw [hs] at he ⊢
  refine first_error_exact ext S root md G hG (fun s i h1 h2 => ?_) hprod hloud hk hspell source hsrc items hw r q
    ⟨_, hq⟩ he
  obtain ⟨y, c, q', N, hp, -, -, -, -, herr', -⟩ :=
    C35_parse_partial ext S fuel root md G hmd hG hsafe hpunct henum hsep hl s i h1 h2
  obtain ⟨md', r', q'', chars', hmd', hq', -, -, herr'', hch', -⟩ :=
    C48_parse ext S (max fuel N) root _ _ _ (hp _ (Nat.le_max_right _ _))
  rw [metadata_more hmd (Nat.le_max_left fuel N)] at hmd'
  cases hmd'
  refine ⟨r', q'', ⟨_, hq'⟩, ?_⟩
  cases hr : r'.errs with
  | nil => rfl
  | cons e l =>
    have h1 : e ∈ r'.errs := by rw [hr]; simp
    have h2 := produce_kinds hq' e h1
    exact absurd (herr' e (by rw [herr'']; exact List.mem_append_right _ h1)) h2

/-- The claim is false in general, for accepted grammars: `C70_false` (the error is late) and here
`S = (a, b?) c? b` of `C35_false` (the input is a sentence, so that there should be no error). -/
theorem C126_false : (accepted exS vtT = true ∧ ∃ x p', rootParse noExt exS 30 vtT vtSource vtItems = .ok (.ok x) p' ∧
      syntaxErrors p'.info.errors ≠ [] ∧
      ¬ FirstErrorExact vtG vtT.pid vtSource (streamOf noExt vtItems) (syntaxErrors p'.info.errors)) ∧
    (accepted exS dxT = true ∧ ∃ x p', rootParse noExt exS 60 dxT [97, 98] dxItems = .ok (.ok x) p' ∧
      syntaxErrors p'.info.errors ≠ [] ∧
      ¬ FirstErrorExact dxG dxT.pid [97, 98] (streamOf noExt dxItems) (syntaxErrors p'.info.errors)) := by
  constructor
  · obtain ⟨h1, -, -, -, -, x, p', h2, h3, h4⟩ := C70_false
    refine ⟨h1, x, p', h2, ?_, ?_⟩
    · intro h; rw [h] at h3; cases h3
    · rintro ⟨ts, rest, g1, g2, g3, ⟨ws, g4⟩, -⟩
      exact h4 ⟨ts, rest, ws, g1, g2, g3, g4⟩
  · obtain ⟨h1, -, -, hd, -⟩ := C35_false
    refine ⟨h1, none, _, by rfl, by simp [syntaxErrors], ?_⟩
    rintro ⟨ts, rest, g1, g2, g3, -, g5⟩
    cases rest with
    | nil =>
      rw [List.append_nil] at g1
      rw [← g1] at g5
      exact g5 hd
    | cons a rest =>
      refine g5 ⟨rest.map (Token.word [97, 98]), ?_⟩
      rw [← List.map_append, List.append_assoc, List.singleton_append, ← g1]
      exact hd

/-! ### Examples -/

/-- `Split<word, "x">` on `a x 1 x b`: the error is at `1`. -/
def vsMd : Metadata (PId 0 3) 3 := okOf ⟨[], [], []⟩ (exS.metadata 40 vsT)
def vsXd : Metadata (PId 0 3) 3 := okOf ⟨[], [], []⟩ (exS.exactMetadata 40 vsT)
theorem vsG_ok : exS.IsGrammar vsT vsG := .of_register (fuel := 30) rfl
theorem vsMd_ok : exS.metadata 40 vsT = some (.ok vsMd) := rfl
theorem vsXd_ok : exS.exactMetadata 40 vsT = some (.ok vsXd) := rfl
theorem vs_prod : ∀ i, Reachable vsG vsT.pid i → Productive vsG i := productive_of_check vsG_ok 6 (by decide +kernel)
theorem vs_sep (t p : Ty 0 3) (h : Reach exS.tyParts vsT (.split t p)) : ¬ Nullable vsG p.pid := by
  have hu := reach_of_check [vsT, exWord, fxX] (by decide) (by decide) h
  simp [vsT, exWord, fxX] at hu
  rw [hu.2]
  intro hn
  have h := (metadata_first vsMd_ok vsG_ok (.term 2 ⟨2, some [120]⟩) none).2 hn
  exact absurd h (by decide +kernel)
theorem vs_tail : LoopTail exS vsT :=
  .free (loopFree_of_check [vsT, exWord, fxX] (by decide) (by decide) (by decide))
theorem vs_spell : Spellable noExt vsG := spellable_of_check (by decide +kernel)

example : ∃ x p', rootParse noExt exS 40 vsT vsSource vsItems = .ok (.ok x) p' ∧
    (syntaxErrors p'.info.errors).map (·.span.lo) = [4] ∧
    FirstErrorExact vsG vsT.pid vsSource (streamOf noExt vsItems) (syntaxErrors p'.info.errors) :=
  ⟨_, _, by rfl, by rfl, C126_parse_partial noExt exS 40 vsT vsG vsG_ok
    (skipSafe_of_check vsMd_ok vsG_ok 6 (by decide +kernel))
    (fun t p h => by
      have hu := reach_of_check [vsT, exWord, fxX] (by decide) (by decide) h
      simp [vsT, exWord, fxX] at hu)
    (fun k => k.elim0) vs_sep vs_tail vs_prod vs_loud vs_keeps vs_spell vsSource
    (.inr ⟨97, _, rfl, .inl (by decide)⟩) vsItems (by unfold ItemsWF vsItems; decide) _ _ rfl (by simp [syntaxErrors])⟩

example : ∃ r p', Yields noExt exS vsXd vsT (Parser.new vsSource vsItems) r p' ∧ r.errs.map (·.span.lo) = [4] ∧
    FirstErrorExact vsG vsT.pid vsSource (streamOf noExt vsItems) r.errs :=
  ⟨_, _, ⟨40, by rfl⟩, by rfl, C126_exact_tables noExt exS 40 vsT vsXd vsG vsXd_ok vsG_ok vs_sep vs_tail vs_prod vs_loud
    vs_keeps vs_spell vsSource (.inr ⟨97, _, rfl, .inl (by decide)⟩) vsItems (by unfold ItemsWF vsItems; decide) _ _
    ⟨40, rfl⟩ (by intro h; cases h)⟩

end Teleparse
