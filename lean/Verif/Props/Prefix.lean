import Verif.Proof.ChosenNode
import Verif.Proof.ScanCut
import Verif.Props.Chosen
import Verif.Props.Layout
import Verif.Props.Parts
import Verif.Props.Scanning
/-
Property C91: an accepted input without what comes after it.
-/
namespace Teleparse
variable {m n : Nat}

theorem Tab.of_part {S : Schema m n} {fuel fuel' : Nat} {root u : Ty m n} {md md' : Metadata (PId m n) n}
    {G : Grammar (PId m n) n} (hmd : S.metadata fuel root = some (.ok md)) (hu : PReach S root u.pid)
    (hmd' : S.metadata fuel' u = some (.ok md')) (hG : S.IsGrammar u G) : Tab S md u G where
  gram := hG
  seen i w hi := by
    rw [metadata_part_first hmd hu hmd' hi, metadata_first hmd' hG]
    exact firstOf_iff
  jump k v vs hk hS w j hj := by
    have hr : S.rule (.user k) = .alt ((v :: vs).map fun f => f.1.pid) := by simp [Schema.rule, hS]
    rw [metadata_part_jump hmd hu hmd' hk hr] at hj
    obtain ⟨c, h1, h2⟩ := (metadata_jump hmd' hG ((reach_iff_schema hG _).2 hk) hr (some w)).1 j hj
    rw [List.getElem?_map, Option.map_eq_some_iff] at h1
    obtain ⟨f, h1, rfl⟩ := h1
    exact ⟨f, h1, firstOf_iff.1 h2⟩

theorem SameTables.of_part {S : Schema m n} {fuel fuel' : Nat} {root u : Ty m n} {md md' : Metadata (PId m n) n}
    {G : Grammar (PId m n) n} (hmd : S.metadata fuel root = some (.ok md)) (hu : PReach S root u.pid)
    (hmd' : S.metadata fuel' u = some (.ok md'))
    (hp : ∀ a b, Reach S.tyParts u (.punct a b) → ∀ w,
      (md.follow.get (Ty.punct a b).pid).contains (some w) = true → FollowOf G u.pid (Ty.punct a b).pid (some w) →
        (md'.follow.get (Ty.punct a b).pid).contains (some w) = true) : SameTables S md md' u G where
  first i hi x h := by rw [← metadata_part_first hmd hu hmd' hi]; exact h
  jump k v vs hk hS x := metadata_part_jump hmd hu hmd' hk (by simp [Schema.rule, hS]; rfl) x
  only i hi x h := by rw [metadata_part_first hmd hu hmd' hi]; exact h
  punct := hp

/-- `Root::parse` finds a predictive match. -/
theorem Chosen.accepted {ext : Fin n → Bool} {S : Schema m n} {fuel : Nat} {root : Ty m n} {md : Metadata (PId m n) n}
    (hmd : S.metadata fuel root = some (.ok md)) {source : Str} {items : List (Item n)} (hw : ItemsWF source items)
    {c : List (Cell n)} {x : Tree n} {rest : List (Token n)} (hs : streamOf ext items = c.map (·.token) ++ rest)
    (h : Chosen S md source (.ty 0 root c x (nextWord source rest))) :
    ∃ p' N, (∀ fuel' ≥ N, rootParse ext S fuel' root source items = .ok (.ok (some x)) p') ∧
      p'.info.tokens = c ∧ (p'.view ext).rest = rest ∧ (∀ e ∈ p'.info.errors, e.kind = .unexpectedCharacters) ∧
      ((∀ sp, .error sp ∉ items) → p'.info.errors = []) := by
  have hnew : Reached ext source items (Parser.new source items) := .new
  obtain ⟨p', ⟨f, h1⟩, h2, h3⟩ := C90_found ext S md source items hw _ hnew root c x rest hs h
  have hre : Reached ext source items p' := .produce S md f root _ hnew h1
  have herr : ∀ e ∈ p'.info.errors, e.kind = .unexpectedCharacters := by
    have hp : (Parser.new source items).parse ext S (max fuel f) root = .ok (.ok (some x)) p' := by
      unfold Parser.parse Parser.parseWithMeta
      rw [metadata_more hmd (Nat.le_max_left _ _)]
      simp only [produce_more h1 (Nat.le_max_right fuel f)]
    obtain ⟨md', r, q, chars, g1, g2, _, _, g5, g6, _⟩ := C48_parse _ _ _ _ _ _ _ hp
    rw [metadata_more hmd (Nat.le_max_left _ _)] at g1
    cases g1
    rw [produce_more h1 (Nat.le_max_right fuel f)] at g2
    cases g2
    intro e he
    rw [g5] at he
    simp only [Parser.new, List.nil_append, Res.errs, List.append_nil] at he
    exact g6 e he
  refine ⟨p', max fuel f, ?_, h2, h3, herr, ?_⟩
  · intro f' hf'
    unfold rootParse Parser.parse Parser.parseWithMeta
    rw [metadata_more hmd (show fuel ≤ f' by omega)]
    simp only [produce_more h1 (show f ≤ f' by omega)]
  · intro hno
    obtain ⟨read, g1, _, g3, g4⟩ := C04_recorded ext source items p' hre
    have : invalidRuns read = [] := invalidRuns_nil fun sp hsp => hno sp (by rw [g1]; simp [hsp])
    rw [g3, this, List.map_nil] at g4
    rw [← g4]
    exact (List.filter_eq_self.2 fun e he => decide_eq_true (herr e he)).symm

mutual
theorem Tree.up_zero (x : Tree n) : x.up 0 = x := by
  cases x <;> simp [Tree.up, Span.up, Token.up, Tree.up_zero, upAll_zero]

theorem upAll_zero (l : List (Tree n)) : upAll 0 l = l := by
  cases l with
  | nil => rfl
  | cons x l => simp [upAll, Tree.up_zero x, upAll_zero l]
end

theorem cells_up_zero (c : List (Cell n)) : c.map (Cell.up 0) = c := by
  have : Cell.up (n := n) 0 = id := by funext d; simp [Cell.up, Token.up, Span.up]
  rw [this, List.map_id]

theorem textOf_take (source : Str) (hi : Nat) : textOf source ⟨0, hi⟩ = source.take hi := by simp [textOf]

/-! ## C91: what was not consumed can be left out -/

/-- `Root::parse` returned a tree without a syntax error. If the source is cut off anywhere after the last consumed token
and what is left of it is scanned to the consumed tokens, `Root::parse` returns the same tree, consumes the same tokens
with the same semantic types, and has no syntax errors. This holds for every accepted root if something was left, and
for roots in which no silent failure is absorbed in any case. -/
theorem C91_prefix (ext : Fin n → Bool) (S : Schema m n) (fuel : Nat) (root : Ty m n) (source : Str)
    (items : List (Item n)) (hw : ItemsWF source items) (x : Tree n) (p' : Parser n)
    (h : rootParse ext S fuel root source items = .ok (.ok (some x)) p') (he : syntaxErrors p'.info.errors = [])
    (hl : (p'.view ext).rest ≠ [] ∨ Loud S root) (hi : Nat) (h1 : p'.emptySpan.lo ≤ hi) (items2 : List (Item n))
    (hw2 : ItemsWF (source.take hi) items2) (hs : streamOf ext items2 = p'.info.tokens.map (·.token)) :
    ∃ q N, (∀ f ≥ N, rootParse ext S f root (source.take hi) items2 = .ok (.ok (some x)) q) ∧
      q.info.tokens = p'.info.tokens ∧ (q.view ext).rest = [] ∧ syntaxErrors q.info.errors = [] ∧
      ((∀ sp, .error sp ∉ items2) → q.info.errors = []) := by
  obtain ⟨md, r, q0, g1, -⟩ := syntaxErrors_parse h
  obtain ⟨h2, h3⟩ := (C90_parse_partial ext S fuel root md g1 source items hw x p'.info.tokens (p'.view ext).rest
    hl.symm).1 ⟨p', fuel, h, he, rfl, rfl⟩
  have hsort : SortedStore (p'.info.tokens) := by
    have := hw.sorted (ext := ext)
    rw [h2] at this
    exact ⟨fun t ht => this.1 t (List.mem_append_left _ ht), (List.pairwise_append.1 this.2).1⟩
  obtain ⟨c', x', g2, g3, g4⟩ := h3.cut (lo := 0) (hi := hi) ⟨hsort, fun _ _ => Nat.zero_le _⟩ h1 0 rfl
  rw [cells_up_zero] at g2
  rw [Tree.up_zero] at g3
  subst g2
  subst g3
  obtain ⟨G, hG⟩ := C33_schema_grammar S root
  have g5 : Chosen S md (textOf source ⟨0, hi⟩) (.ty 0 root p'.info.tokens x' none) :=
    g4.shift (.of_part g1 .refl g1 hG) (.of_part g1 .refl g1 fun _ _ _ _ h _ => h) .refl none .end_
  rw [textOf_take] at g5
  obtain ⟨q, N, k1, k2, k3, k4, k5⟩ := g5.accepted (ext := ext) g1 hw2 (rest := []) (by simpa using hs)
  exact ⟨q, N, k1, k2, k3, syntaxErrors_chars k4, k5⟩

/-- The items that end at `hi` or before. -/
def itemsTo (hi : Nat) (items : List (Item n)) : List (Item n) := items.filter fun i => i.span.hi ≤ hi

theorem cut_itemsTo (hi : Nat) (items : List (Item n)) : Cut ⟨0, hi⟩ items (itemsTo hi items) := by
  unfold Cut itemsTo
  have : Item.up (n := n) 0 = id := by funext i; cases i <;> simp [Item.up, Token.up, Span.up]
  simp only [this, List.map_id, Nat.zero_le, decide_true, Bool.true_and]

theorem stream_itemsTo {ext : Fin n → Bool} {source : Str} {items : List (Item n)} (hw : ItemsWF source items)
    {p : Parser n} (hp : Reached ext source items p) :
    streamOf ext (itemsTo p.emptySpan.lo items) = p.info.tokens.map (·.token) := by
  obtain ⟨-, -, -, -, h3, h4⟩ := C09_positions ext source items hw p hp
  have h := (cut_itemsTo p.emptySpan.lo items).stream ext
  have : Token.up (n := n) 0 = id := by funext i; simp [Token.up, Span.up]
  simp only [this, List.map_id, Nat.zero_le, decide_true, Bool.true_and] at h
  rw [h, ← hp.total, List.filter_append, List.filter_eq_self.2, List.filter_eq_nil_iff.2, List.append_nil]
  · intro t ht
    have g1 := h4 t ht
    have g2 := (hp.ready hw).pos ht
    have g3 : p.emptySpan.hi = p.emptySpan.lo := rfl
    simp only [decide_eq_true_eq]
    omega
  · intro t ht
    obtain ⟨c, hc, rfl⟩ := List.mem_map.1 ht
    simpa using h3 c hc

theorem end_le {ext : Fin n → Bool} {source : Str} {items : List (Item n)} (hw : ItemsWF source items)
    {p : Parser n} (hp : Reached ext source items p) : p.emptySpan.lo ≤ source.length := by
  have h := (hp.inSource hw).good.pos
  exact h.1

/-- Leaving out what was not consumed, with the items of the source that end where the last consumed token ends, or
before. -/
theorem C91_items (ext : Fin n → Bool) (S : Schema m n) (fuel : Nat) (root : Ty m n) (source : Str)
    (items : List (Item n)) (hw : ItemsWF source items) (x : Tree n) (p' : Parser n)
    (h : rootParse ext S fuel root source items = .ok (.ok (some x)) p') (he : syntaxErrors p'.info.errors = [])
    (hl : (p'.view ext).rest ≠ [] ∨ Loud S root) :
    ∃ q N, (∀ f ≥ N, rootParse ext S f root (source.take p'.emptySpan.lo) (itemsTo p'.emptySpan.lo items) =
        .ok (.ok (some x)) q) ∧
      q.info.tokens = p'.info.tokens ∧ (q.view ext).rest = [] ∧ syntaxErrors q.info.errors = [] := by
  have hre : Reached ext source items p' := .parse S fuel root _ .new h
  obtain ⟨q, N, h1, h2, h3, h4, -⟩ := C91_prefix ext S fuel root source items hw x p' h he hl _ (Nat.le_refl _)
    (itemsTo p'.emptySpan.lo items)
    (by rw [← textOf_take]; exact (cut_itemsTo _ items).wf hw (end_le hw hre)) (stream_itemsTo hw hre)
  exact ⟨q, N, h1, h2, h3, h4⟩

section
open Macro

/-- Leaving out the text that was not consumed: scanning the text up to the end of the last consumed token again. -/
theorem C91_text {G : Logos} {E : Engine} (hG : G.Agrees E) {d : Decl} {L : Lexicon} (hL : expand E d = .ok L)
    (ht : d.Texts) {vs : List Variant} (hvs : d.variants = some vs) (hn : (vs.map Variant.ident).Nodup)
    (hc : L.Clear G) {source : Str} (hsrc : Utf8 source) {items : List (Item n)} (hscan : L.Scan G source 0 items)
    (hno : ∀ sp, .error sp ∉ items) (ext : Fin n → Bool) (S : Schema m n) (fuel : Nat) (root : Ty m n) (x : Tree n)
    (p' : Parser n) (h : rootParse ext S fuel root source items = .ok (.ok (some x)) p') (he : p'.info.errors = [])
    (hl : (p'.view ext).rest ≠ [] ∨ Loud S root) (items' : List (Item n))
    (hscan' : L.Scan G (source.take p'.emptySpan.lo) 0 items') :
    ∃ q N, (∀ f ≥ N, rootParse ext S f root (source.take p'.emptySpan.lo) items' = .ok (.ok (some x)) q) ∧
      q.info.tokens = p'.info.tokens ∧ (q.view ext).rest = [] ∧ q.info.errors = [] := by
  have hw := C81_wf hG hL ht hsrc hscan
  have hre : Reached ext source items p' := .parse S fuel root _ .new h
  have hhi := end_le hw hre
  have hcut := cut_itemsTo p'.emptySpan.lo items
  have hs2 : L.Scan G (textOf source ⟨0, p'.emptySpan.lo⟩) 0 (itemsTo p'.emptySpan.lo items) := by
    refine hscan.cut (fun i hi => (hw.1 i hi).1) hw.2 (.inl rfl) ?_ (Nat.zero_le _) hhi hcut
    obtain ⟨-, -, g1, g2, -⟩ := C09_positions ext source items hw p' hre
    cases hlast : p'.info.tokens.getLast? with
    | none => exact .inl (by rw [g1 (List.getLast?_eq_none_iff.1 hlast)])
    | some c =>
      refine .inr ⟨.token c.token, ?_, .inr (by rw [g2 c hlast]; rfl)⟩
      have : c.token ∈ streamOf ext items := by
        rw [← hre.total]
        exact List.mem_append_left _ (List.mem_map_of_mem (List.mem_of_getLast? hlast))
      exact tokensOf_mem (List.mem_filter.1 this).1
  have hno2 : ∀ i ∈ itemsTo p'.emptySpan.lo items, ∃ t, i = .token t := by
    intro i hi
    have hi := (List.mem_filter.1 hi).1
    cases i with
    | token t => exact ⟨t, rfl⟩
    | error sp => exact absurd hi (hno _)
  rw [textOf_take] at hs2
  have heq := C81_unique hG hL ht hvs hn hc hs2 hscan' hno2
  subst heq
  obtain ⟨q, N, h1, h2, h3, h4, h5⟩ := C91_prefix ext S fuel root source items hw x p' h (by rw [he]; rfl) hl _
    (Nat.le_refl _) (itemsTo p'.emptySpan.lo items) (by rw [← textOf_take]; exact hcut.wf hw hhi) (stream_itemsTo hw hre)
  refine ⟨q, N, h1, h2, h3, h5 fun sp hsp => ?_⟩
  obtain ⟨t, e⟩ := hno2 _ hsp
  cases e

end

/-! ### Examples -/

/-- `a b 1 2` with `(Star<word>, number?)`: the last number is left, and `a b 1` alone gives the same tree. -/
example : ∃ p', rootParse exExt exS 40 ycT ycSource ycItems = .ok (.ok (some ycX)) p' ∧
    syntaxErrors p'.info.errors = [] ∧ (p'.view exExt).rest = [yc2] ∧ p'.emptySpan.lo = 5 ∧
    (∃ q N, (∀ f ≥ N, rootParse exExt exS f ycT [97, 32, 98, 32, 49] (itemsTo 5 ycItems) = .ok (.ok (some ycX)) q) ∧
      q.info.tokens = ycCells ∧ (q.view exExt).rest = [] ∧ syntaxErrors q.info.errors = []) := by
  refine ⟨_, by rfl, by rfl, by rfl, by rfl, ?_⟩
  refine C91_items exExt exS 40 ycT ycSource ycItems yc_items ycX _ (by rfl) (by rfl) (.inl ?_)
  exact fun h => absurd (show [] = [yc2] from h.symm.trans (by rfl)) (by simp)

def pzSource : Str := [97, 32, 49, 32, 50]
def pzItems : List (Item 3) := [.token ⟨⟨0, 1⟩, 0⟩, .token ⟨⟨2, 3⟩, 1⟩, .token ⟨⟨4, 5⟩, 1⟩]
def pzX : Tree 3 := .list ⟨0, 3⟩ [.recover ⟨0, 1⟩ (.tok ⟨⟨0, 1⟩, 0⟩) (.tok ⟨⟨2, 3⟩, 1⟩)]

/-- Also if failures can be absorbed silently: `a 1 2` with `Star<Recover<word, number>>`. -/
example : ¬ Loud exS sxT ∧ ∃ p', rootParse exExt exS 40 sxT pzSource pzItems = .ok (.ok (some pzX)) p' ∧
    syntaxErrors p'.info.errors = [] ∧ (p'.view exExt).rest = [⟨⟨4, 5⟩, 1⟩] ∧
    (∃ q N, (∀ f ≥ N, rootParse exExt exS f sxT [97, 32, 49] [.token ⟨⟨0, 1⟩, 0⟩, .token ⟨⟨2, 3⟩, 1⟩] =
        .ok (.ok (some pzX)) q) ∧ q.info.tokens = p'.info.tokens ∧ (q.view exExt).rest = [] ∧
      syntaxErrors q.info.errors = []) := by
  refine ⟨fun hl => ?_, _, by rfl, by rfl, by rfl, ?_⟩
  · obtain ⟨_, h2, x, p', hy, hn⟩ := C90_false
    obtain ⟨c, h3, -, h4⟩ := C90_success_partial exExt exS sxMd _ _ h2 _ p' .new sxT (.inl hl) x hy
    exact hn ⟨c, _, h3, h4⟩
  · refine C91_items exExt exS 40 sxT pzSource pzItems (by unfold ItemsWF pzItems pzSource; decide) pzX _ (by rfl)
      (by rfl) (.inl ?_)
    exact fun h => absurd (show [] = [⟨⟨4, 5⟩, 1⟩] from h.symm.trans (by rfl)) (by simp)

end Teleparse
