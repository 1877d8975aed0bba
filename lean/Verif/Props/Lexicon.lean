import Verif.Proof.LexiconErr
/-
Properties of `derive_lexicon`: C49 (lexer rules), C50 (rejected declarations), C56 (terminals and
extracted tokens), C57 (numbering and representation), C58 (error messages).
-/
namespace Teleparse.Macro

/-! ## C49 -/

/-- Every variant has exactly the declared rules in the generated lexer, provided that no variant without
rules and without terminals is declared before a variant with rules. Missing for the full property: this
condition, see `C49_false`. -/
theorem C49_partial {E : Engine} {d : Decl} {L : Lexicon} {vs : List Variant} (h : expand E d = .ok L)
    (hvs : d.variants = some vs) (hn : (vs.map Variant.ident).Nodup)
    (hb : vs.Pairwise fun a b => ¬ (a.Blank ∧ b.Lexed)) (v : Variant) (hv : v ∈ vs) :
    L.rulesOf v.ident = v.rules := by
  obtain ⟨-, vs', h1, rfl⟩ := expand_ok.1 h
  cases hvs.symm.trans h1
  have : (outSpec d vs).logos = (vs.filter fun v => v.Lexed).map fun v => (v.rules, v.ident) :=
    aligned hb
  unfold Lexicon.rulesOf
  rw [this, rulesOf_of_mem hn hv]
  by_cases hl : v.Lexed
  · simp [hl]
  · have : v.rules = [] := Classical.not_not.1 fun h => hl (.inr h)
    simp [this]

/-- The exact condition: every variant has the declared rules if and only if no variant without rules and
without terminals is declared before a variant that has a rule. -/
theorem C49_exact {E : Engine} {d : Decl} {L : Lexicon} {vs : List Variant} (h : expand E d = .ok L)
    (hvs : d.variants = some vs) (hn : (vs.map Variant.ident).Nodup) :
    (∀ v ∈ vs, L.rulesOf v.ident = v.rules) ↔ vs.Pairwise fun a b => ¬ (a.Blank ∧ b.rules ≠ []) := by
  obtain ⟨-, vs', h1, rfl⟩ := expand_ok.1 h
  cases hvs.symm.trans h1
  exact aligned_iff hn

/-- So a token of a variant is a piece of source that a rule written on this variant matches. -/
theorem C49_scans_partial {E : Engine} {d : Decl} {L : Lexicon} {vs : List Variant} (h : expand E d = .ok L)
    (hvs : d.variants = some vs) (hn : (vs.map Variant.ident).Nodup)
    (hb : vs.Pairwise fun a b => ¬ (a.Blank ∧ b.Lexed)) (v : Variant) (hv : v ∈ vs)
    (mat : LexRule → Str → Prop) (text : Str) :
    L.Scans mat v.ident text ↔ ∃ r ∈ v.rules, mat r text := by
  unfold Lexicon.Scans
  rw [C49_partial h hvs hn hb v hv]

/-- In any order of declaration, a variant declared without `regex` and without literals, or with a terminal
without literal and no `regex`, is not produced by the lexer. -/
theorem C49_unlexed {E : Engine} {d : Decl} {L : Lexicon} {vs : List Variant} (h : expand E d = .ok L)
    (hvs : d.variants = some vs) (hn : (vs.map Variant.ident).Nodup) (v : Variant) (hv : v ∈ vs)
    (h1 : v.regexes = none) (h2 : v.lits = [] ∨ ∃ t ∈ v.terms, t.bare = true)
    (mat : LexRule → Str → Prop) (text : Str) : ¬ L.Scans mat v.ident text := by
  obtain ⟨-, vs', h3, rfl⟩ := expand_ok.1 h
  cases hvs.symm.trans h3
  have hl : ¬ v.Lexed := by
    unfold Variant.Lexed
    rw [rules_none h1]
    rcases h2 with h2 | ⟨t, ht, hb⟩
    · simp [h1, h2]
    · have : v.terms.any TMeta.bare = true := List.any_eq_true.2 ⟨t, ht, hb⟩
      simp [h1, this]
  rintro ⟨r, hr, -⟩
  simp only [Lexicon.rulesOf, List.mem_flatMap, List.mem_filter, decide_eq_true_eq] at hr
  obtain ⟨⟨rs, i⟩, ⟨he, h4⟩, -⟩ := hr
  have := (List.of_mem_zip he).2
  simp only [List.mem_map, List.mem_filter, decide_eq_true_eq] at this
  obtain ⟨w, ⟨hw, hwl⟩, h5⟩ := this
  have := ident_inj hn hv hw (h5.trans h4)
  exact hl (this ▸ hwl)

/-- The conversion to the enum has an arm for every variant of the lexer and no other. -/
theorem C49_arms {E : Engine} {d : Decl} {L : Lexicon} (h : expand E d = .ok L) :
    L.logos.map (·.2) = L.arms := by
  obtain ⟨-, vs, h1, rfl⟩ := expand_ok.1 h
  show List.map Prod.snd (List.zip _ _) = _
  rw [List.map_snd_zip]
  · rfl
  · simpa using lexed_le vs

def exEngine : Engine where
  compiles _ := true
  find r s := if s = r then some (0, s.length) else none

def exVar (name : Str) (metas : List VMeta) : Variant := ⟨name, true, if metas.isEmpty then [] else [some metas]⟩

/-- `enum T { Sem, #[teleparse(regex("a"))] A, #[teleparse(regex("b"))] B }` -/
def exMisaligned : Decl :=
  ⟨false, [], some [exVar [0] [], exVar [1] [.regex (some [[97]])], exVar [2] [.regex (some [[98]])]]⟩

/-- `enum T { #[teleparse(regex("a"))] A, #[teleparse(terminal(P = "+", M = "-"))] Op, Sem }` -/
def exAligned : Decl :=
  ⟨false, [some [.ignore (some [[32]])]], some
    [exVar [1] [.regex (some [[97]]), .terminal (some [⟨some [7], .path⟩])],
     exVar [2] [.terminal (some [⟨some [8], .value (some [43])⟩, ⟨some [9], .value (some [45])⟩])],
     exVar [0] []]⟩

/-- A semantic type declared first takes the rules of the next variant: `A` is never produced and `B` has
the regex written on `A`. -/
theorem C49_false : ∃ E d L vs v, expand E d = .ok L ∧ d.variants = some vs ∧
    (vs.map Variant.ident).Nodup ∧ v ∈ vs ∧ v.rules ≠ [] ∧ L.rulesOf v.ident ≠ v.rules := by
  refine ⟨exEngine, exMisaligned, _, _, exVar [2] [.regex (some [[98]])], rfl, rfl, by decide, ?_, ?_, ?_⟩
  · simp
  · decide
  · decide

example : ∃ L, expand exEngine exMisaligned = .ok L ∧ L.rulesOf [1] = [] ∧
    L.rulesOf [2] = [.regex [97]] := ⟨_, rfl, by decide, by decide⟩

example : ∃ L vs, expand exEngine exAligned = .ok L ∧ exAligned.variants = some vs ∧
    (vs.map Variant.ident).Nodup ∧ (vs.Pairwise fun a b => ¬ (a.Blank ∧ b.Lexed)) ∧
    L.rulesOf [1] = [.regex [97]] ∧ L.rulesOf [2] = [.token [43], .token [45]] ∧ L.rulesOf [0] = [] :=
  ⟨_, _, rfl, rfl, by decide, by decide, by decide, by decide, by decide⟩

/-- With a literal-less variant that has an empty list of regexes after a blank one, all rules are right
(there are none), although the condition of `C49_partial` fails; with a rule on it they are not. -/
def exEmptyRegex : Decl := ⟨false, [], some [exVar [0] [], exVar [1] [.regex (some [])]]⟩

example : ∃ L vs, expand exEngine exEmptyRegex = .ok L ∧ exEmptyRegex.variants = some vs ∧
    (vs.map Variant.ident).Nodup ∧ (vs.Pairwise fun a b => ¬ (a.Blank ∧ b.rules ≠ [])) ∧
    ¬ vs.Pairwise fun a b => ¬ (a.Blank ∧ b.Lexed) :=
  ⟨_, _, rfl, rfl, by decide, by decide, by decide⟩

/-! ## C50 -/

/-- Exactly the declarations satisfying `Decl.OK` are accepted. -/
theorem C50_accepts (E : Engine) (d : Decl) : (∃ L, expand E d = .ok L) ↔ d.OK E := by
  constructor
  · rintro ⟨L, h⟩; exact (expand_ok.1 h).1
  · intro h
    obtain ⟨vs, hv, -⟩ := h.enum
    exact ⟨_, expand_ok.2 ⟨h, vs, hv, rfl⟩⟩

theorem rejected {E : Engine} {d : Decl} (h : ¬ d.OK E) : ∃ e, expand E d = .error e := by
  cases h' : expand E d with
  | error e => exact ⟨e, rfl⟩
  | ok L => exact absurd ((C50_accepts E d).1 ⟨L, h'⟩) h

theorem rejected_variant {E : Engine} {d : Decl} {vs : List Variant} (hvs : d.variants = some vs) {v : Variant}
    (hv : v ∈ vs) (h : ¬ v.OK E) : ∃ e, expand E d = .error e := by
  apply rejected
  intro hok
  obtain ⟨vs', h1, -, -, h2⟩ := hok.enum
  cases hvs.symm.trans h1
  exact h (h2 v hv)

/-- Two terminals with the same literal are rejected, if no terminal without literal is declared before
the second of them. Missing for the full property: this condition, see `C50_false`. -/
theorem C50_partial (E : Engine) {d : Decl} {vs : List Variant} (hvs : d.variants = some vs) {v : Variant}
    (hv : v ∈ vs) {as bs cs : List TMeta} {s t : TMeta} {lit : Str} (h : v.terms = as ++ s :: bs ++ t :: cs)
    (hs : s.lit = some lit) (ht : t.lit = some lit) (hb : ∀ u ∈ as ++ bs, u.bare = false) :
    ∃ e, expand E d = .error e := by
  refine rejected_variant hvs hv fun hok => ?_
  have hd := hok.distinct
  have hs' : s.bare = false := by obtain ⟨_, k⟩ := s; cases k <;> simp_all [TMeta.lit, TMeta.bare]
  have ht' : t.bare = false := by obtain ⟨_, k⟩ := t; cases k <;> simp_all [TMeta.lit, TMeta.bare]
  have h1 : (v.terms.takeWhile fun t => !t.bare) = as ++ s :: bs ++ t :: (cs.takeWhile fun t => !t.bare) := by
    rw [h, List.takeWhile_append_of_pos]
    · simp [ht']
    · intro u hu
      simp only [List.mem_append, List.mem_cons] at hu
      rcases hu with hu | rfl | hu
      · simp [hb u (by simp [hu])]
      · simp [hs']
      · simp [hb u (by simp [hu])]
  rw [h1] at hd
  simp only [List.filterMap_append, List.filterMap_cons, hs, ht, List.nodup_append] at hd
  exact hd.2.2 lit (by simp) lit (by simp) rfl

/-- Two terminals without literal are rejected. -/
theorem C50_bare (E : Engine) {d : Decl} {vs : List Variant} (hvs : d.variants = some vs) {v : Variant}
    (hv : v ∈ vs) {as bs cs : List TMeta} {s t : TMeta} (h : v.terms = as ++ s :: bs ++ t :: cs)
    (hs : s.bare = true) (ht : t.bare = true) : ∃ e, expand E d = .error e := by
  refine rejected_variant hvs hv fun hok => ?_
  have hb := hok.oneBare
  rw [h] at hb
  simp only [List.countP_append, List.countP_cons, hs, ht, if_true] at hb
  omega

/-- Empty literals are rejected. -/
theorem C50_empty_literal (E : Engine) {d : Decl} {vs : List Variant} (hvs : d.variants = some vs) {v : Variant}
    (hv : v ∈ vs) {t : TMeta} (h : t ∈ v.terms) (ht : t.lit = some []) : ∃ e, expand E d = .error e := by
  refine rejected_variant hvs hv fun hok => ?_
  obtain ⟨-, h1 | ⟨lit, hl, h1⟩⟩ := hok.terms t h
  · simp [TMeta.lit, h1] at ht
  · simp only [TMeta.lit, h1, Option.some.injEq] at ht
    exact hl ht

/-- Empty enums and enums with more than 128 variants are rejected. -/
theorem C50_size (E : Engine) {d : Decl} {vs : List Variant} (hvs : d.variants = some vs)
    (h : vs = [] ∨ 128 < vs.length) : ∃ e, expand E d = .error e := by
  apply rejected
  intro hok
  obtain ⟨vs', h1, h2, h3, -⟩ := hok.enum
  cases hvs.symm.trans h1
  rcases h with rfl | h
  · simp at h2
  · omega

/-- `enum T { #[teleparse(regex("a"), terminal(Ident, A = "a", B = "a"))] Word }` -/
def exDuplicate : Decl :=
  ⟨false, [], some [exVar [1] [.regex (some [[97]]),
    .terminal (some [⟨some [7], .path⟩, ⟨some [8], .value (some [97])⟩, ⟨some [9], .value (some [97])⟩])]]⟩

/-- After a terminal without literal, duplicate literals are accepted. -/
theorem C50_false : ∃ E d L vs v as bs cs s t lit, expand E d = .ok L ∧ d.variants = some vs ∧ v ∈ vs ∧
    v.terms = as ++ s :: bs ++ t :: cs ∧ s.lit = some lit ∧ t.lit = some lit := by
  refine ⟨exEngine, exDuplicate, _, _, exVar [1] [.regex (some [[97]]),
    .terminal (some [⟨some [7], .path⟩, ⟨some [8], .value (some [97])⟩, ⟨some [9], .value (some [97])⟩])],
    [⟨some [7], .path⟩], [], [], ⟨some [8], .value (some [97])⟩, ⟨some [9], .value (some [97])⟩, [97],
    rfl, rfl, ?_, rfl, rfl, rfl⟩
  simp

/-- `terminal(A = "a", B = "a", Ident)` -/
example : ∃ d vs v as bs cs s t lit, d.variants = some vs ∧ v ∈ vs ∧
    v.terms = as ++ s :: bs ++ t :: cs ∧ s.lit = some lit ∧ t.lit = some lit ∧
    (∀ u ∈ as ++ bs, u.bare = false) ∧ expand exEngine d = .error (.duplicate [1] [97]) := by
  refine ⟨⟨false, [], some [exVar [1] [.terminal (some [⟨some [8], .value (some [97])⟩,
    ⟨some [9], .value (some [97])⟩, ⟨some [7], .path⟩])]]⟩, _, _,
    [], [], [⟨some [7], .path⟩], ⟨some [8], .value (some [97])⟩, ⟨some [9], .value (some [97])⟩, [97],
    rfl, List.mem_singleton.2 rfl, rfl, rfl, rfl, by simp, rfl⟩

/-! ## C56 -/

/-- The terminal structs are exactly the declared ones, in order; each has the token type of its variant and
its literal. -/
theorem C56_terminals {E : Engine} {d : Decl} {L : Lexicon} {vs : List Variant} (h : expand E d = .ok L)
    (hvs : d.variants = some vs) :
    L.terminals = vs.flatMap fun v => v.terms.map fun t =>
      { name := t.ident.getD [], variant := v.ident, lit := t.lit,
        debug := t.lit.getD (t.ident.getD []), root := d.terminalParse } := by
  obtain ⟨-, vs', h1, rfl⟩ := expand_ok.1 h
  cases hvs.symm.trans h1
  rfl

/-- Every one of them has a name. -/
theorem C56_named {E : Engine} {d : Decl} {L : Lexicon} {vs : List Variant} (h : expand E d = .ok L)
    (hvs : d.variants = some vs) (v : Variant) (hv : v ∈ vs) (t : TMeta) (ht : t ∈ v.terms) :
    ∃ name, t.ident = some name ∧ ((t.bare = true ∧ t.lit = none) ∨
      (t.bare = false ∧ ∃ lit, lit ≠ [] ∧ t.lit = some lit)) := by
  obtain ⟨hok, -⟩ := expand_ok.1 h
  obtain ⟨vs', h1, -, -, h2⟩ := hok.enum
  cases hvs.symm.trans h1
  obtain ⟨h3, h4⟩ := (h2 v hv).terms t ht
  obtain ⟨name, hn⟩ := Option.ne_none_iff_exists'.1 h3
  refine ⟨name, hn, ?_⟩
  rcases h4 with h4 | ⟨lit, hl, h4⟩
  · exact .inl (by simp [TMeta.bare, TMeta.lit, h4])
  · exact .inr (by simp [TMeta.bare, TMeta.lit, h4, hl])

/-- Tokens of a variant are kept out of the syntax iff no terminal is declared on the variant. -/
theorem C56_extract {E : Engine} {d : Decl} {L : Lexicon} {vs : List Variant} (h : expand E d = .ok L)
    (hvs : d.variants = some vs) (hn : (vs.map Variant.ident).Nodup) (v : Variant) (hv : v ∈ vs) :
    v.ident ∈ L.extract ↔ v.terms = [] := by
  obtain ⟨-, vs', h1, rfl⟩ := expand_ok.1 h
  cases hvs.symm.trans h1
  have h2 : (outSpec d vs).extract = (vs.filter fun v => v.terms.isEmpty).map Variant.ident := rfl
  rw [h2]
  constructor
  · intro h
    obtain ⟨w, hw, hi⟩ := List.mem_map.1 h
    obtain ⟨hw, he⟩ := List.mem_filter.1 hw
    have := ident_inj hn hv hw hi
    subst this
    simpa using he
  · intro h
    exact List.mem_map.2 ⟨v, List.mem_filter.2 ⟨hv, by simp [h]⟩, rfl⟩

example : ∃ L, expand exEngine exAligned = .ok L ∧ L.extract = [[0]] ∧
    L.terminals.map (fun t => (t.name, t.variant, t.lit)) =
      [([7], [1], none), ([8], [2], some [43]), ([9], [2], some [45])] := ⟨_, rfl, by decide, by decide⟩

/-! ## C57 -/

/-- Variants are numbered from 0 in the order of declaration, the map has one entry for each, and the bit
type has a bit for each. -/
theorem C57_numbering {E : Engine} {d : Decl} {L : Lexicon} {vs : List Variant} (h : expand E d = .ok L)
    (hvs : d.variants = some vs) :
    (∀ i (hi : i < vs.length), L.variants[i]? = some (vs[i].ident, i)) ∧ L.variants.length = vs.length ∧
    L.mapLen = vs.length ∧ vs.length ≤ L.bits ∧ L.bits ∈ [8, 16, 32, 64, 128] := by
  obtain ⟨hok, vs', h1, rfl⟩ := expand_ok.1 h
  cases hvs.symm.trans h1
  obtain ⟨vs', h2, -, h3, -⟩ := hok.enum
  cases hvs.symm.trans h2
  refine ⟨?_, by simp [outSpec], rfl, ?_, ?_⟩
  · intro i hi
    simp [outSpec, hi]
  · simp only [outSpec]
    repeat' split
    all_goals omega
  · simp only [outSpec]
    repeat' split
    all_goals simp

example : ∃ L, expand exEngine exAligned = .ok L ∧ L.variants = [([1], 0), ([2], 1), ([0], 2)] ∧
    L.bits = 8 ∧ L.skips = [[32]] := ⟨_, rfl, by decide, by decide, by decide⟩

/-! ## C58 -/

/-- If the macro fails, what its message says is true of the declaration. -/
theorem C58_truthful {E : Engine} {d : Decl} {e : Err} (h : expand E d = .error e) : e.Cause E d :=
  expand_err h

/-- And a declaration with nothing wrong in the sense of `Decl.OK` is not rejected. -/
theorem C58_complete {E : Engine} {d : Decl} (h : d.OK E) : ¬ ∃ e, expand E d = .error e := by
  obtain ⟨L, hL⟩ := (C50_accepts E d).2 h
  rintro ⟨e, he⟩
  rw [hL] at he
  cases he

/-- `enum T { #[teleparse(regex("ab"), terminal(Word, A = "a"))] W }` -/
example : ∃ d, expand exEngine d = .error (.regexMismatch [97, 98] [97]) :=
  ⟨⟨false, [], some [exVar [1] [.regex (some [[97, 98]]),
    .terminal (some [⟨some [7], .path⟩, ⟨some [8], .value (some [97])⟩])]]⟩, rfl⟩

end Teleparse.Macro
