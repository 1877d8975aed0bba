import Verif.Proof.RepairAll
import Verif.Props.RepairRecover
import Verif.Props.Cost
/-
Property C118: what `Root::parse` guarantees with the four repairs together (`Model/RepairAll.lean`).
-/
namespace Teleparse
variable {m n : Nat}

/-! ## C118: with all repairs, `Root::parse` is an LL(1) parser -/

/-- It returns a grammar error, for every input, iff the grammar is not LL(1). -/
theorem C118_rejects (S : Schema m n) (root : Ty m n) (G : Grammar (PId m n) n) (hG : S.IsGrammar root G) :
    (∃ e N, ∀ fuel ≥ N, ∀ (ext : Fin n → Bool) (source : Str) (items : List (Item n)),
      rootParseFix ext S fuel root source items = .ok (.error e) (Parser.new source items)) ↔ ¬ LL1 G root.pid := by
  constructor
  · rintro ⟨e, N, h⟩ hll
    obtain ⟨md, N', h'⟩ := (C112_exact S root G hG).2 hll
    have a := h (max N N') (Nat.le_max_left _ _) (fun _ => false) [] []
    unfold rootParseFix Parser.parseFix at a
    rw [h' (max N N') (Nat.le_max_right _ _)] at a
    dsimp only at a
    split at a <;> cases a
  · intro hll
    obtain ⟨G', h⟩ := C32_terminates S.rule (S.universe root) (S.universe_closed root) root.pid (S.root_mem root)
    obtain ⟨f0, h⟩ : ∃ f0, ∀ fuel ≥ f0, registerFrom S.rule fuel root.pid = some G' :=
      ⟨_, fun f hf => h f (Nat.lt_of_lt_of_le (Nat.lt_succ_self _) hf)⟩
    have hreg := h f0 (Nat.le_refl _)
    have hG' : S.IsGrammar root G' := .of_register hreg
    obtain ⟨e, N, hb⟩ := (C110_rejects S.rule f0 root.pid G' hreg).2
      fun h' => hll (h'.congr fun p hp => (hG.same hG' p).1 hp)
    refine ⟨e, max f0 N, fun f hf ext source items => ?_⟩
    unfold rootParseFix Parser.parseFix Schema.exactMetadata Schema.fixedMetadata
    rw [h f (by omega)]
    dsimp only
    rw [hb f (by omega)]

/-- For an LL(1) grammar whose productions all derive something, it returns for every input. What C38 claims. -/
theorem C118_returns (ext : Fin n → Bool) (S : Schema m n) (root : Ty m n) (G : Grammar (PId m n) n)
    (hG : S.IsGrammar root G) (hll : LL1 G root.pid) (hprod : ∀ i, Reachable G root.pid i → Productive G i)
    (source : Str) (items : List (Item n)) (hw : ItemsWF source items) :
    ∃ x p' N, ∀ fuel ≥ N, rootParseFix ext S fuel root source items = .ok (.ok x) p' := by
  obtain ⟨md, N, hmd⟩ := (C112_exact S root G hG).2 hll
  obtain ⟨K, hK⟩ := C112_linear S N root md G (hmd N (Nat.le_refl _)) hG hprod
  obtain ⟨r, q, k, ht, -⟩ := hK ext source items hw (Parser.new source items) .new
  obtain ⟨r', ⟨f, hy⟩, -⟩ := ((C76_defined ext S md root _ _ r).2 ⟨k, ht⟩).twin
  refine ⟨_, _, max N f, fun fuel hf => parseFix_eq (hmd fuel (by omega)) (r := r') (q := q) ?_⟩
  have hm := produceFix_mono (Parser.ops ext) S md (show f ≤ fuel by omega) root (Parser.new source items)
    (by rw [hy]; simp)
  rw [hm, hy]

/-- It finds a tree without a syntax error and uses the whole input iff the input is a sentence. -/
theorem C118_accepts (ext : Fin n → Bool) (S : Schema m n) (fuel : Nat) (root : Ty m n) (G : Grammar (PId m n) n)
    (hG : S.IsGrammar root G) (hsep : ∀ t p, Reach S.tyParts root (.split t p) → ¬ Nullable G p.pid)
    (hl : LoopFree S root) (source : Str) (items : List (Item n)) (hw : ItemsWF source items)
    (x : Option (Tree n)) (p' : Parser n) (h : rootParseFix ext S fuel root source items = .ok (.ok x) p') :
    (x.isSome ∧ syntaxErrors p'.info.errors = [] ∧ (p'.view ext).rest = []) ↔
      Derives G [.nt root.pid] ((inputWords ext source items).map .tok) := by
  obtain ⟨md, r, q, hmd, hp, rfl, rfl⟩ := parseFix_ok h
  have hy : YieldsFix ext S md root (Parser.new source items) r q := ⟨_, hp⟩
  rw [← C117_accepts ext S fuel root md G hmd hG hsep hl source items hw]
  have he := hy.syntaxErrors
  have he : syntaxErrors (q.info.errors ++ r.errs) = r.errs := he
  constructor
  · rintro ⟨-, h2, h3⟩
    have h2 : r.errs = [] := he.symm.trans h2
    cases r with
    | success y => exact ⟨y, q, hy, h3⟩
    | recovered y e => exact absurd h2 (C117_loud ext source items hw S md root _ _ .new _ hy (by simp))
    | panic e => exact absurd h2 (C117_loud ext source items hw S md root _ _ .new _ hy (by simp))
  · rintro ⟨y, q', hy', h3⟩
    obtain ⟨rfl, rfl⟩ := hy.unique hy'
    exact ⟨rfl, he, h3⟩

/-- The tree of a parse without syntax errors matches the tokens consumed, whatever the types. -/
theorem C118_tree (ext : Fin n → Bool) (S : Schema m n) (fuel : Nat) (root : Ty m n)
    (source : Str) (items : List (Item n)) (hw : ItemsWF source items) (x : Option (Tree n)) (p' : Parser n)
    (h : rootParseFix ext S fuel root source items = .ok (.ok x) p') (he : syntaxErrors p'.info.errors = []) :
    ∃ t, x = some t ∧ Parses S source 0 root p'.info.tokens t ∧
      streamOf ext items = p'.info.tokens.map (·.token) ++ (p'.view ext).rest := by
  obtain ⟨md, r, q, hmd, hp, rfl, rfl⟩ := parseFix_ok h
  have hy : YieldsFix ext S md root (Parser.new source items) r q := ⟨_, hp⟩
  have h2 : r.errs = [] := hy.syntaxErrors.symm.trans he
  cases r with
  | success y =>
    obtain ⟨c, h4, h5, h6⟩ := C117_sound ext source items hw S md root _ _ .new y hy
    have h4 : q.info.tokens = c := h4
    subst h4
    exact ⟨y, rfl, h5, h6⟩
  | recovered y e => exact absurd h2 (C117_loud ext source items hw S md root _ _ .new _ hy (by simp))
  | panic e => exact absurd h2 (C117_loud ext source items hw S md root _ _ .new _ hy (by simp))

/-- The whole: an LL(1) grammar, every production of which derives something, has a parser that returns for every
input and decides whether it is a sentence. -/
theorem C118_decides (ext : Fin n → Bool) (S : Schema m n) (root : Ty m n) (G : Grammar (PId m n) n)
    (hG : S.IsGrammar root G) (hll : LL1 G root.pid) (hprod : ∀ i, Reachable G root.pid i → Productive G i)
    (hsep : ∀ t p, Reach S.tyParts root (.split t p) → ¬ Nullable G p.pid) (hl : LoopFree S root)
    (source : Str) (items : List (Item n)) (hw : ItemsWF source items) :
    ∃ x p', (∃ N, ∀ fuel ≥ N, rootParseFix ext S fuel root source items = .ok (.ok x) p') ∧
      ((∃ t, x = some t ∧ Parses S source 0 root p'.info.tokens t ∧ p'.info.tokens.map (·.token) = streamOf ext items ∧
          syntaxErrors p'.info.errors = []) ↔
        Derives G [.nt root.pid] ((inputWords ext source items).map .tok)) := by
  obtain ⟨x, p', N, h⟩ := C118_returns ext S root G hG hll hprod source items hw
  have h0 := h N (Nat.le_refl _)
  refine ⟨x, p', ⟨N, h⟩, ?_⟩
  rw [← C118_accepts ext S N root G hG hsep hl source items hw x p' h0]
  constructor
  · rintro ⟨t, rfl, -, h2, h3⟩
    obtain ⟨_, -, -, h6⟩ := C118_tree ext S N root source items hw _ p' h0 h3
    exact ⟨rfl, h3, by simpa [h2] using h6⟩
  · rintro ⟨-, h2, h3⟩
    obtain ⟨t, rfl, h5, h6⟩ := C118_tree ext S N root source items hw _ p' h0 h2
    exact ⟨t, rfl, h5, by rw [h6, h3, List.append_nil], h2⟩

/-- Also with a `Loop` at the end, which stands for any number of elements (the registered production says: at least
one): the parser returns for every input, and it returns a tree without a syntax error and uses the whole input iff
the type has a match with all tokens, which is that tree. -/
theorem C118_loop (ext : Fin n → Bool) (S : Schema m n) (root : Ty m n) (G : Grammar (PId m n) n)
    (hG : S.IsGrammar root G) (hll : LL1 G root.pid) (hprod : ∀ i, Reachable G root.pid i → Productive G i)
    (hsep : ∀ t p, Reach S.tyParts root (.split t p) → ¬ Nullable G p.pid) (hl : LoopTail S root)
    (source : Str) (items : List (Item n)) (hw : ItemsWF source items) :
    ∃ x p', (∃ N, ∀ fuel ≥ N, rootParseFix ext S fuel root source items = .ok (.ok x) p') ∧
      ∀ t, (x = some t ∧ syntaxErrors p'.info.errors = [] ∧ (p'.view ext).rest = []) ↔
        ∃ c, Parses S source 0 root c t ∧ c.map (·.token) = streamOf ext items := by
  obtain ⟨x, p', N, h⟩ := C118_returns ext S root G hG hll hprod source items hw
  refine ⟨x, p', ⟨N, h⟩, fun t => ?_⟩
  have h0 := h N (Nat.le_refl _)
  obtain ⟨md, r, q, hmd, hp, rfl, rfl⟩ := parseFix_ok h0
  have hy : YieldsFix ext S md root (Parser.new source items) r q := ⟨_, hp⟩
  rw [← C117_matches ext S N root md G hmd hG hsep hl source items hw]
  have he : syntaxErrors (q.info.errors ++ r.errs) = r.errs := hy.syntaxErrors
  constructor
  · rintro ⟨h1, h2, h3⟩
    have h2 : r.errs = [] := he.symm.trans h2
    cases r with
    | success y => cases h1; exact ⟨q, hy, h3⟩
    | recovered y e => exact absurd h2 (C117_loud ext source items hw S md root _ _ .new _ hy (by simp))
    | panic e => exact absurd h2 (C117_loud ext source items hw S md root _ _ .new _ hy (by simp))
  · rintro ⟨q', hy', h3⟩
    obtain ⟨rfl, rfl⟩ := hy.unique hy'
    exact ⟨rfl, he, h3⟩

/-! ### Examples -/

/-- The grammar of `Loop<word>`. -/
def lpG : Grammar (PId 0 3) 3 := (registerFrom exS.rule 40 (Ty.loop exWord : Ty 0 3).pid).getD []

/-- `Star<Recover<word, num>>` meets the hypotheses of `C118_decides`. -/
example : exS.IsGrammar sxT ryG ∧ LL1 ryG sxT.pid ∧ (∀ i, Reachable ryG sxT.pid i → Productive ryG i) ∧
    (∀ t p, Reach exS.tyParts sxT (.split t p) → ¬ Nullable ryG p.pid) ∧ LoopFree exS sxT ∧
    ItemsWF [97, 32, 49, 32, 98] sxItems := by
  have hG : exS.IsGrammar sxT ryG := .of_register (fuel := 40) rfl
  have h1 : exS.fixedMetadata 40 sxT = some (.ok (okOf ⟨[], [], []⟩ (exS.fixedMetadata 40 sxT))) := rfl
  refine ⟨hG, fixedMetadata_ll1 h1 hG, productive_of_check hG 10 (by decide +kernel), ?_,
    loopFree_of_check ryU (by decide) (by decide +kernel) (by decide +kernel), by unfold ItemsWF sxItems; decide⟩
  intro t p h
  have := reach_of_check ryU (by decide) (by decide +kernel) h
  simp [ryU, sxT, exWord, exNum] at this

theorem lp_not_nullable : ¬ Nullable lpG (Ty.loop exWord : Ty 0 3).pid := by
  rw [nullable_iff]
  have key : ∀ i, Null lpG i → i ≠ (Ty.loop exWord : Ty 0 3).pid ∧ i ≠ exWord.pid := by
    intro i h
    have hm : ∀ e ∈ lpG, (e.1 = (Ty.loop exWord : Ty 0 3).pid →
        e.2 = .seq [exWord.pid, .opt (Ty.loop exWord : Ty 0 3).pid]) ∧ (e.1 = exWord.pid → e.2 = .term ⟨0, none⟩) := by
      decide +kernel
    induction h with
    | eps h => exact ⟨fun e => (by cases (hm _ h).1 e), fun e => (by cases (hm _ h).2 e)⟩
    | seq h _ ih =>
      refine ⟨fun e => ?_, fun e => (by cases (hm _ h).2 e)⟩
      cases (hm _ h).1 e
      exact (ih exWord.pid (by simp)).2 rfl
    | alt h => exact ⟨fun e => (by cases (hm _ h).1 e), fun e => (by cases (hm _ h).2 e)⟩
  exact fun h => (key _ h).1 rfl

/-- `Loop<word>` meets the hypotheses of `C118_loop`; it accepts the empty text, which is not a sentence of the
registered grammar. -/
example : (∃ G, exS.IsGrammar (.loop exWord) G ∧ LL1 G (Ty.loop exWord : Ty 0 3).pid ∧
      (∀ i, Reachable G (Ty.loop exWord : Ty 0 3).pid i → Productive G i) ∧
      ¬ Derives G [.nt (Ty.loop exWord : Ty 0 3).pid] []) ∧
    LoopTail exS (.loop exWord) ∧ summary exExt (rootParseFix exExt exS 60 (.loop exWord) [] []) = some (true, 0, 0) := by
  have hG : exS.IsGrammar (.loop exWord) lpG := .of_register (fuel := 40) rfl
  have h1 : exS.fixedMetadata 40 (.loop exWord) =
    some (.ok (okOf ⟨[], [], []⟩ (exS.fixedMetadata 40 (.loop exWord)))) := rfl
  refine ⟨⟨lpG, hG, fixedMetadata_ll1 h1 hG, productive_of_check hG 10 (by decide +kernel), ?_⟩, ?_, rfl⟩
  · exact lp_not_nullable
  · exact .loop (loopFree_of_check [exWord] (by decide) (by decide +kernel) (by decide +kernel))

/-- On `a 1 b` it returns a tree and one syntax error; the code returns the tree and no error (`C37_false`). -/
example : summary exExt (rootParseFix exExt exS 60 sxT [97, 32, 49, 32, 98] sxItems) = some (true, 1, 0) ∧
    summary exExt (rootParse exExt exS 60 sxT [97, 32, 49, 32, 98] sxItems) = some (true, 0, 0) := by
  constructor <;> rfl

/-- On `a 1` it accepts. -/
example : summary exExt (rootParseFix exExt exS 60 sxT [97, 32, 49] (sxItems.take 2)) = some (true, 0, 0) := rfl

/-- `(num?, num)` is rejected. -/
example : ∃ e, rootParseFix exExt exS 60 (.tup2 (.option exNum) exNum) [97] [] = .ok (.error e) (Parser.new [97] []) :=
  ⟨_, rfl⟩

end Teleparse
