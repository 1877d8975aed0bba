import Verif.Proof.ScanCut
import Verif.Props.Nodes
import Verif.Props.Parts
import Verif.Props.Layout
import Verif.Props.Scanning
import Verif.Props.Prefix
/-
Property C89: parsing the text of a node again.
-/
namespace Teleparse
variable {m n : Nat}

/-! ## C89: the text of a node parses to the node -/

/-- The text of `y`, scanned to `items'`, parses as the root `u` to the tree `y`, with positions counted from the
beginning of `y`; there are no syntax errors and nothing is left. -/
def ParsesAgain (ext : Fin n → Bool) (S : Schema m n) (u : Ty m n) (source : Str) (y : Tree n)
    (items' : List (Item n)) : Prop :=
  ∃ y' q N, y'.up y.span.lo = y ∧
    (∀ f ≥ N, rootParse ext S f u (textOf source y.span) items' = .ok (.ok (some y')) q) ∧
    (q.view ext).rest = [] ∧ syntaxErrors q.info.errors = [] ∧ ((∀ sp, .error sp ∉ items') → q.info.errors = [])

/-- A match of a part of an accepted root somewhere in an input is found in the text of the match alone. -/
theorem C89_match_partial (ext : Fin n → Bool) (S : Schema m n) (fuel : Nat) (root : Ty m n)
    (md : Metadata (PId m n) n) (G : Grammar (PId m n) n) (hmd : S.metadata fuel root = some (.ok md))
    (hG : S.IsGrammar root G) (hsafe : SkipSafe G)
    (hpunct : ∀ t p, Reach S.tyParts root (.punct t p) → ∀ a tok, Beyond G a tok →
      ¬ EndsWith G a (Ty.punct t p).pid)
    (henum : ∀ k v vs, S k = .enum v vs → Reachable G root.pid (.user k) → Nullable G (.user k) →
      ∀ tok, ¬ FollowOf G root.pid (.user k) (some tok))
    (hsep : ∀ t p, Reach S.tyParts root (.split t p) → ¬ Nullable G p.pid) (hl : LoopTail S root)
    (source : Str) (items : List (Item n)) (hw : ItemsWF source items) (pre c post : List (Cell n))
    (hs : streamOf ext items = (pre ++ c ++ post).map (·.token)) (u : Ty m n) (hu : Reach S.tyParts root u) (y : Tree n)
    (h : Parses S source (endOf 0 pre) u c y) (items' : List (Item n)) (hcut : Cut y.span items items') :
    ItemsWF (textOf source y.span) items' ∧ ParsesAgain ext S u source y items' := by
  obtain ⟨h1, c', y', h2, h3, h4, h5⟩ := h.alone hw hs hcut
  have hw' := hcut.wf hw h1
  obtain ⟨md', fuel', hmd'⟩ := C78_accepted S fuel root u md hmd hu
  obtain ⟨G', hG'⟩ := C33_schema_grammar S u
  have hpr := reach_pid hu
  have hsub := (subGrammar_of_reach hG hG' hpr).sub
  have hr : Reachable G root.pid u.pid := (reach_iff_schema hG _).2 hpr
  have E : Found S md' u G' := .of_ll1 (hmd' fuel' (Nat.le_refl _)) hG'
    (metadata_ll1 (hmd' fuel' (Nat.le_refl _)) hG' (hsafe.sub hsub))
    (fun t p ht a tok hb he => hpunct t p (hu.trans ht) a tok (hb.sub hsub) (he.sub hsub))
    (fun k v vs hk hk' hn tok hf => henum k v vs hk
      ((reach_iff_schema hG _).2 (Reach.trans hpr ((reach_iff_schema hG' _).1 hk'))) (hn.congr hsub) tok
      (hf.sub hsub hr))
    (fun t p ht hn => hsep t p (hu.trans ht) (hn.congr hsub))
  obtain ⟨q, N, g1, g2, g3, g4, g5⟩ := parse_match ext S fuel' u md' G' (hmd' fuel' (Nat.le_refl _)) E (hl.reach hu)
    (textOf source y.span) items' hw' c' y' h4 h5
  exact ⟨hw', y', q, N, h3, g1, g3, syntaxErrors_chars g4, g5⟩

/-- The FOLLOW sets computed for the parts of the root, as roots, have the tokens that can follow their `Punct` lists, as
far as the FOLLOW sets of the root have them. (True if there are no `Punct` lists, and if no FOLLOW set misses a token;
see `C89_lists`.) -/
def Schema.ListsAgree (S : Schema m n) (root : Ty m n) (md : Metadata (PId m n) n) : Prop :=
  ∀ u, Reach S.tyParts root u → ∀ fuel md' G, S.metadata fuel u = some (.ok md') → S.IsGrammar u G →
    ∀ t p, Reach S.tyParts u (.punct t p) → ∀ w, (md.follow.get (Ty.punct t p).pid).contains (some w) = true →
      FollowOf G u.pid (Ty.punct t p).pid (some w) → (md'.follow.get (Ty.punct t p).pid).contains (some w) = true

/-- The lists agree if there are none, and if no list ends a part that the FOLLOW computation skips. -/
theorem C89_lists (S : Schema m n) (fuel : Nat) (root : Ty m n) (md : Metadata (PId m n) n)
    (G : Grammar (PId m n) n) (hmd : S.metadata fuel root = some (.ok md)) (hG : S.IsGrammar root G)
    (hpunct : ∀ t p, Reach S.tyParts root (.punct t p) → ∀ a tok, Beyond G a tok →
      ¬ EndsWith G a (Ty.punct t p).pid) : S.ListsAgree root md := by
  intro u hu fuel' md' G' hmd' hG' t p ht w _ hf
  have hsub := (subGrammar_of_reach hG hG' (reach_pid hu)).sub
  refine metadata_follow hmd' hG' hf ?_
  intro a tok _ hb he
  exact hpunct t p (hu.trans ht) a tok (hb.sub hsub) (he.sub hsub)

/-- A predictive match of a part of the root somewhere in an input is found in the text of the match alone. -/
theorem Chosen.again {ext : Fin n → Bool} {S : Schema m n} {fuel : Nat} {root : Ty m n}
    {md : Metadata (PId m n) n} (hmd : S.metadata fuel root = some (.ok md)) (hla : S.ListsAgree root md)
    {source : Str} {items : List (Item n)} (hw : ItemsWF source items) {pre c post : List (Cell n)}
    (hs : streamOf ext items = (pre ++ c ++ post).map (·.token)) {u : Ty m n} (hu : Reach S.tyParts root u) {y : Tree n}
    {next} (h : Chosen S md source (.ty (endOf 0 pre) u c y next)) {items' : List (Item n)}
    (hcut : Cut y.span items items') :
    ItemsWF (textOf source y.span) items' ∧ ParsesAgain ext S u source y items' := by
  have hp : Parses S source (endOf 0 pre) u c y := h.holds
  obtain ⟨h1, -⟩ := hp.alone hw hs hcut
  have hw' := hcut.wf hw h1
  obtain ⟨c', y', h2, h3, h4⟩ := h.alone hw hs hcut
  obtain ⟨md', fuel', hmd'⟩ := C78_accepted S fuel root u md hmd hu
  have hmd' := hmd' fuel' (Nat.le_refl _)
  obtain ⟨G', hG'⟩ := C33_schema_grammar S u
  have h5 : Chosen S md' (textOf source y.span) (.ty 0 u c' y' none) :=
    h4.shift (.of_part hmd (reach_pid hu) hmd' hG') (.of_part hmd (reach_pid hu) hmd' (hla u hu fuel' md' G' hmd' hG'))
      .refl none .end_
  obtain ⟨q, N, g1, -, g3, g4, g5⟩ := h5.accepted (ext := ext) hmd' hw' (rest := []) (by simpa using h3.symm)
  exact ⟨hw', y', q, N, h2, g1, g3, syntaxErrors_chars g4, g5⟩

/-- After a successful parse, every node of the tree is a parse of a type in the root type, and its text alone parses to
the node. (The head of a `Recover` is in an option that is no type of its own: there the claim is about what is in the
option.) Missing for the full statement: roots in which a silent failure is absorbed (if nothing is left after the
parse), and roots with a `Punct` list
whose FOLLOW set, computed for a part of the root, misses a token; see `C89_false`. -/
theorem C89_node_partial (ext : Fin n → Bool) (S : Schema m n) (fuel : Nat) (root : Ty m n)
    (md : Metadata (PId m n) n) (hmd : S.metadata fuel root = some (.ok md)) (hla : S.ListsAgree root md)
    (source : Str) (items : List (Item n)) (hw : ItemsWF source items) (p p' : Parser n)
    (hloud : Loud S root ∨ (p'.view ext).rest ≠ []) (hp : Reached ext source items p) (x : Tree n) (h : Yields ext S md root p (.success x) p') (y : Tree n)
    (hy : x.Node y) :
    ∃ u pos c z, Reach S.tyParts root u ∧ Parses S source pos u c z ∧ Bare x y z ∧
      ∃ items', Cut z.span items items' ∧ ItemsWF (textOf source z.span) items' ∧ ParsesAgain ext S u source z items' := by
  obtain ⟨c, h1, h2, h3⟩ := C90_success_partial ext S md source items hw p p' hp root hloud x h
  obtain ⟨a, c', d, u, z, next, g1, g2, g3, g4⟩ := h3.nodes y hy
  refine ⟨u, _, c', z, g3, g2.holds, g4, ?_⟩
  obtain ⟨items', hcut⟩ := Cut.exists z.span hw
  have hre : Reached ext source items p' := by obtain ⟨f, hf⟩ := h; exact .produce S md f root _ hp hf
  have htot := hre.total
  rw [h2, List.map_append, g1] at htot
  have hst : streamOf ext items = ((p.info.tokens ++ a) ++ c' ++ (d ++ (p'.view ext).rest.map Cell.ofToken)).map (·.token) := by
    rw [← htot]; simp [Function.comp_def, Cell.ofToken]
  refine ⟨items', hcut, Chosen.again hmd hla hw hst g3 (next := next) ?_ hcut⟩
  rw [endOf_append]
  exact g2

/-! ### With the generated lexer -/

section
open Macro

/-- Scanning the text of a node gives the tokens of the node (and the unrecognised pieces between them). This holds for
every match of some tokens of the input, for any type. -/
theorem C89_scan {G : Logos} {E : Engine} (hG : G.Agrees E) {d : Decl} {L : Lexicon} (h : expand E d = .ok L)
    (ht : d.Texts) {source : Str} (hu : Utf8 source) {items : List (Item n)} (hscan : L.Scan G source 0 items)
    (ext : Fin n → Bool) (S : Schema m n) (pre c post : List (Cell n))
    (hs : streamOf ext items = (pre ++ c ++ post).map (·.token)) (u : Ty m n) (y : Tree n)
    (hy : Parses S source (endOf 0 pre) u c y) (items' : List (Item n)) (hcut : Cut y.span items items') :
    L.Scan G (textOf source y.span) 0 items' := by
  have hw := C81_wf hG h ht hu hscan
  obtain ⟨h1, -⟩ := hy.alone hw hs hcut
  have ha : After 0 (pre ++ c ++ post) := by
    refine ⟨?_, fun _ _ => Nat.zero_le _⟩
    have := hw.sorted (ext := ext)
    rw [hs] at this
    exact this
  have hf := hy.fits ha.left.right
  have mem : ∀ d ∈ pre ++ c, Item.token d.token ∈ items := by
    intro d hd
    have : d.token ∈ streamOf ext items := by
      rw [hs]; exact List.mem_map_of_mem (List.mem_append_left _ hd)
    exact tokensOf_mem (List.mem_filter.1 this).1
  have stop : ∀ {q l}, (∀ d ∈ l, d ∈ pre ++ c) → q = endOf 0 l → Stop 0 items q := by
    rintro q l hl rfl
    by_cases hn : l = []
    · subst hn; exact .inl rfl
    · obtain ⟨d, hd, he⟩ := endOf_mem (pos := 0) hn
      exact .inr ⟨_, mem d (hl d hd), .inr he⟩
  refine hscan.cut (fun i hi => (hw.1 i hi).1) hw.2 ?_ ?_ (hf.lo_le ha.left.right) h1 hcut
  · rcases hy.begins with he | ⟨d, hd, he⟩
    · exact stop (fun d hd => List.mem_append_left _ hd) he
    · obtain ⟨e, he', rfl⟩ := List.mem_map.1 hd
      exact .inr ⟨_, mem e (List.mem_append_right _ he'), .inl he⟩
  · refine stop (l := pre ++ c) (fun d hd => hd) ?_
    rw [endOf_append]
    exact hf.hi

/-- From the text: if all of a source is recognised and parsed successfully, the text of every node of the tree, scanned
again, parses to the node, without any error. Missing for the full statement: as for `C89_node_partial`. -/
theorem C89_text_partial {G : Logos} {E : Engine} (hG : G.Agrees E) {d : Decl} {L : Lexicon} (h : expand E d = .ok L)
    (ht : d.Texts) {vs : List Variant} (hvs : d.variants = some vs) (hn : (vs.map Variant.ident).Nodup)
    (hc : L.Clear G) {source : Str} (hsrc : Utf8 source) {items : List (Item n)} (hscan : L.Scan G source 0 items)
    (hno : ∀ sp, .error sp ∉ items) (ext : Fin n → Bool) (S : Schema m n) (fuel : Nat) (root : Ty m n)
    (md : Metadata (PId m n) n) (hmd : S.metadata fuel root = some (.ok md)) (hla : S.ListsAgree root md)
    (p p' : Parser n) (hloud : Loud S root ∨ (p'.view ext).rest ≠ []) (hp : Reached ext source items p) (x : Tree n)
    (hx : Yields ext S md root p (.success x) p') (y : Tree n) (hy : x.Node y) :
    ∃ u pos c z, Reach S.tyParts root u ∧ Parses S source pos u c z ∧ Bare x y z ∧
      ∀ items' : List (Item n), L.Scan G (textOf source z.span) 0 items' →
        ParsesAgain ext S u source z items' ∧ ∀ sp, .error sp ∉ items' := by
  have hw := C81_wf hG h ht hsrc hscan
  obtain ⟨c, h1, h2, h3⟩ := C90_success_partial ext S md source items hw p p' hp root hloud x hx
  obtain ⟨a, c', d', u, z, next, g1, g2, g3, g4⟩ := h3.nodes y hy
  refine ⟨u, _, c', z, g3, g2.holds, g4, fun items' hscan' => ?_⟩
  obtain ⟨items2, hcut⟩ := Cut.exists z.span hw
  have hre : Reached ext source items p' := by obtain ⟨f, hf⟩ := hx; exact .produce S md f root _ hp hf
  have htot := hre.total
  rw [h2, List.map_append, g1] at htot
  have hst : streamOf ext items = ((p.info.tokens ++ a) ++ c' ++ (d' ++ (p'.view ext).rest.map Cell.ofToken)).map (·.token) := by
    rw [← htot]; simp [Function.comp_def, Cell.ofToken]
  have g2' : Chosen S md source (.ty (endOf 0 (p.info.tokens ++ a)) u c' z next) := by rw [endOf_append]; exact g2
  have hs2 := C89_scan hG h ht hsrc hscan ext S _ _ _ hst u z g2'.holds items2 hcut
  have he : ∀ i ∈ items2, ∃ t, i = .token t := by
    intro i hi
    obtain ⟨g1, -⟩ := hcut.mem hi
    cases i with
    | token t => exact ⟨t, rfl⟩
    | error sp => exact absurd g1 (hno _)
  have heq := C81_unique hG h ht hvs hn hc hs2 hscan' he
  subst heq
  refine ⟨(Chosen.again hmd hla hw hst g3 g2' hcut).2, fun sp hsp => ?_⟩
  obtain ⟨t, ht'⟩ := he _ hsp
  cases ht'

end

/-! ### Examples -/

/-- `a 1 2 x 3` with `Loop<E>`, `E = num | L`, `L = word E* "x"`. -/
example : ∃ x p', Yields noExt cxS cxMd cxT (Parser.new cxSource cxItems) (.success x) p' ∧ Loud cxS cxT ∧
    x.Node (.list ⟨2, 5⟩ [.variant 0 (.tok ⟨⟨2, 3⟩, 1⟩), .variant 0 (.tok ⟨⟨4, 5⟩, 1⟩)]) := by
  refine ⟨.list ⟨0, 9⟩ [.variant 1 (.seq ⟨0, 7⟩ [.tok ⟨⟨0, 1⟩, 0⟩,
    .list ⟨2, 5⟩ [.variant 0 (.tok ⟨⟨2, 3⟩, 1⟩), .variant 0 (.tok ⟨⟨4, 5⟩, 1⟩)], .tok ⟨⟨6, 7⟩, 2⟩]),
    .variant 0 (.tok ⟨⟨8, 9⟩, 1⟩)], _, ⟨40, by rfl⟩, ?_, ?_⟩
  · refine (RecoverFree.loud ?_).1
    intro u hu a b e
    have := reach_of_check (cxT :: cxU) (by decide) (by decide +kernel) hu
    subst e
    simp [cxU, cxT] at this
  · exact .part (.head _) (.head _) (.part (.head _) (.head _) (.part (.head _) (.tail _ (.head _)) .refl))

/-- The text of the node is `1 2`. -/
example : Cut ⟨2, 5⟩ cxItems [.token ⟨⟨0, 1⟩, 1⟩, .token ⟨⟨2, 3⟩, 1⟩] ∧ textOf cxSource ⟨2, 5⟩ = [49, 32, 50] ∧
    ParsesAgain noExt cxS (.star (.user 0)) cxSource
      (.list ⟨2, 5⟩ [.variant 0 (.tok ⟨⟨2, 3⟩, 1⟩), .variant 0 (.tok ⟨⟨4, 5⟩, 1⟩)])
      [.token ⟨⟨0, 1⟩, 1⟩, .token ⟨⟨2, 3⟩, 1⟩] := by
  have hcut : Cut ⟨2, 5⟩ cxItems [.token ⟨⟨0, 1⟩, 1⟩, .token ⟨⟨2, 3⟩, 1⟩] := by unfold Cut; rfl
  refine ⟨hcut, by decide, ?_⟩
  have num {lo hi} : Parses cxS cxSource lo (.user 0) [Cell.ofToken ⟨⟨hi, hi + 1⟩, 1⟩]
      (.variant 0 (.tok ⟨⟨hi, hi + 1⟩, 1⟩)) :=
    .enum (sem := none) (i := 0) (f := (.term 1 ⟨1, none⟩, none)) (fs := [(.user 1, none)]) rfl rfl (.term ⟨rfl, by simp⟩)
  exact (C89_match_partial noExt cxS 40 cxT cxMd cxG cxMd_ok cxG_ok cx_safe cx_punct cx_enum cx_sep cx_loop cxSource
    cxItems cx_wf [Cell.ofToken ⟨⟨0, 1⟩, 0⟩] _ [Cell.ofToken ⟨⟨6, 7⟩, 2⟩, Cell.ofToken ⟨⟨8, 9⟩, 1⟩] rfl
    (.star (.user 0)) (.step (i := .user 1) (.step (i := .user 0) (.step .refl (by decide)) (by decide)) (by decide)) _
    (.starSome (k := 1) (cs := [[_], [_]]) (.cons num (.cons num .nil))) _ hcut).2

theorem te_clear : Macro.teL.Clear Macro.altLogos := by
  have h : ∀ e ∈ Macro.teL.rules, ∀ e' ∈ Macro.teL.rules, Macro.altLogos.prio e.1 = Macro.altLogos.prio e'.1 →
      e.2 ≠ e'.2 → ∀ text ∈ Macro.altsOf e.1, text ∉ Macro.altsOf e'.1 := by decide +kernel
  intro r t r' t' text h1 h2 h3 h4 h5
  exact Classical.not_not.1 fun hne => h _ h1 _ h2 h5 hne text (Macro.mat_altsOf.1 h3) (Macro.mat_altsOf.1 h4)

/-- Each node of the tree of a text like `a 1 x`, scanned with the generated lexer. -/
example {source : Str} (hsrc : Macro.Utf8 source) {items : List (Item 3)} (hscan : Macro.teL.Scan Macro.altLogos source 0 items)
    (hno : ∀ sp, .error sp ∉ items) {p' : Parser 3} {x y : Tree 3}
    (hx : Yields Macro.teL.shouldExtract cxS cxMd xxT (Parser.new source items) (.success x) p') (hy : x.Node y) :=
  C89_text_partial Macro.altAgrees Macro.teOk Macro.teTexts (vs := Macro.teVars) rfl (by decide)
    te_clear hsrc hscan hno _ cxS 40 xxT cxMd xxMd_ok (C89_lists cxS 40 xxT cxMd cxG xxMd_ok xxG_ok xx_punct)
    _ _ (.inl xx_loud) .new x hx y hy

/-! ### Counterexample -/

def raY : Ty 0 3 := .term 3 ⟨2, some [121]⟩
def raP : Ty 0 3 := .punct exWord exNum
/-- `(Punct<word, num>, "x"?, "y")` and `(Punct<word, num>, "y")`. -/
def raU : Ty 0 3 := .tup3 raP (.option fxX) raY
def raT : Ty 0 3 := .tup2 raU (.tup2 raP raY)
def raMd : Metadata (PId 0 3) 3 := okOf ⟨[], [], []⟩ (exS.metadata 60 raT)
/-- `a 1 y a y` -/
def raSource : Str := [97, 32, 49, 32, 121, 32, 97, 32, 121]
def raItems : List (Item 3) :=
  [.token ⟨⟨0, 1⟩, 0⟩, .token ⟨⟨2, 3⟩, 1⟩, .token ⟨⟨4, 5⟩, 2⟩, .token ⟨⟨6, 7⟩, 0⟩, .token ⟨⟨8, 9⟩, 2⟩]
def raNode : Tree 3 := .seq ⟨0, 5⟩ [.split ⟨0, 3⟩ [.tok ⟨⟨0, 1⟩, 0⟩] [.tok ⟨⟨2, 3⟩, 1⟩], .optNone ⟨3, 3⟩, .tok ⟨⟨4, 5⟩, 2⟩]

/-- The first part of the tuple is parsed from `a 1 y`, and `a 1 y` alone has errors: that `y` can come after the list is
known only from the second part of the tuple. -/
theorem C89_false : exS.metadata 60 raT = some (.ok raMd) ∧ ItemsWF raSource raItems ∧ Loud exS raT ∧
    Reach exS.tyParts raT raU ∧ ∃ x p', Yields noExt exS raMd raT (Parser.new raSource raItems) (.success x) p' ∧
      x.Node raNode ∧ (∃ pos c, Parses exS raSource pos raU c raNode) ∧
      ∃ items', Cut raNode.span raItems items' ∧ ¬ ParsesAgain noExt exS raU raSource raNode items' := by
  refine ⟨by rfl, by unfold ItemsWF raItems raSource; decide, ?_, .step .refl (by decide),
    .seq ⟨0, 9⟩ [raNode, .seq ⟨6, 9⟩ [.split ⟨6, 7⟩ [.tok ⟨⟨6, 7⟩, 0⟩] [], .tok ⟨⟨8, 9⟩, 2⟩]], _, ⟨60, by rfl⟩,
    .part (.head _) (.head _) .refl, ⟨0,
      [[Cell.ofToken ⟨⟨0, 1⟩, 0⟩, Cell.ofToken ⟨⟨2, 3⟩, 1⟩], [], [Cell.ofToken ⟨⟨4, 5⟩, 2⟩]].flatten, ?_⟩,
    [.token ⟨⟨0, 1⟩, 0⟩, .token ⟨⟨2, 3⟩, 1⟩, .token ⟨⟨4, 5⟩, 2⟩], by unfold Cut; rfl, ?_⟩
  · refine (RecoverFree.loud ?_).1
    intro u hu a b e
    have := reach_of_check [raT, raU, raP, .option fxX, fxX, raY, .tup2 raP raY, exWord, exNum] (by decide) (by decide) hu
    subst e
    simp [raT, raU, raP, fxX, raY, exWord, exNum] at this
  · have hw : Parses exS raSource 0 exWord [Cell.ofToken ⟨⟨0, 1⟩, 0⟩] (.tok ⟨⟨0, 1⟩, 0⟩) := .term ⟨rfl, by simp⟩
    have hn : Parses exS raSource 1 exNum [Cell.ofToken ⟨⟨2, 3⟩, 1⟩] (.tok ⟨⟨2, 3⟩, 1⟩) := .term ⟨rfl, by simp⟩
    have hy : Parses exS raSource 3 raY [Cell.ofToken ⟨⟨4, 5⟩, 2⟩] (.tok ⟨⟨4, 5⟩, 2⟩) :=
      .term ⟨rfl, by simp [raSource, textOf]⟩
    have hp : Parses exS raSource 0 raP [Cell.ofToken ⟨⟨0, 1⟩, 0⟩, Cell.ofToken ⟨⟨2, 3⟩, 1⟩]
        (.split ⟨0, 3⟩ [.tok ⟨⟨0, 1⟩, 0⟩] [.tok ⟨⟨2, 3⟩, 1⟩]) := by
      have e : spanOf (n := 3) (interleave [.tok ⟨⟨0, 1⟩, 0⟩] [.tok ⟨⟨2, 3⟩, 1⟩]) = ⟨0, 3⟩ := by
        simp [interleave, spanOf, Tree.span]
      rw [← e]
      exact .punct (cs := [[Cell.ofToken ⟨⟨0, 1⟩, 0⟩], [Cell.ofToken ⟨⟨2, 3⟩, 1⟩]]) (es := [.tok ⟨⟨0, 1⟩, 0⟩])
        (ps := [.tok ⟨⟨2, 3⟩, 1⟩]) (List.cons_ne_nil _ _) (.inr rfl)
        (by simpa [interleave, alternate] using ParsesSeq.cons hw (.cons hn .nil))
    have ho : Parses exS raSource 3 (.option fxX) [] (.optNone ⟨3, 3⟩) := .optNone
    exact .tuple (.inr (.inl ⟨_, _, _, rfl, rfl⟩)) (.cons hp (.cons ho (.cons hy .nil)))
  · rintro ⟨_, q, N, -, h, -, h2, -⟩
    have h1 := h (60 + N) (by omega)
    have : ∃ e q', rootParse noExt exS 60 raU (textOf raSource raNode.span)
        [.token ⟨⟨0, 1⟩, 0⟩, .token ⟨⟨2, 3⟩, 1⟩, .token ⟨⟨4, 5⟩, 2⟩] = .ok (.ok e) q' ∧
        (syntaxErrors q'.info.errors).length = 2 := ⟨_, _, by rfl, by rfl⟩
    obtain ⟨e, q', g1, g2⟩ := this
    rw [rootParse_more g1 (Nat.le_add_right 60 N)] at h1
    injection h1 with _ h1
    subst h1
    rw [h2] at g2
    cases g2

end Teleparse
