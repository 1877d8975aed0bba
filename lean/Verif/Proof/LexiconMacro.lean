import Verif.Spec.Lexicon
/-
What each part of `derive_lexicon` computes, in terms of the reading of the declaration.
-/
namespace Teleparse.Macro

theorem bind_ok {ε α β : Type} {x : Except ε α} {f : α → Except ε β} {b : β} :
    (x >>= f) = .ok b ↔ ∃ a, x = .ok a ∧ f a = .ok b := by
  cases x <;> simp [bind, Except.bind]

theorem map_ok {ε α β : Type} {x : Except ε α} {f : α → β} {b : β} :
    x.map f = .ok b ↔ ∃ a, x = .ok a ∧ f a = b := by
  cases x <;> simp [Except.map]

theorem checkedRegex_ok {E : Engine} {r : Str} {u : Unit} : checkedRegex E r = .ok u ↔ GoodRegex E r := by
  unfold checkedRegex GoodRegex
  cases E.compiles r <;> cases E.find r [] <;> simp

theorem checkIgnores_ok {E : Engine} {rs : List Str} {u : Unit} :
    checkIgnores E rs = .ok u ↔ ∀ r ∈ rs, GoodRegex E r := by
  induction rs with
  | nil => simp [checkIgnores]
  | cons r rs ih => simp [checkIgnores, bind_ok, checkedRegex_ok, ih]

theorem checkUnits_ok {vs : List Variant} {u : Unit} :
    checkUnits vs = .ok u ↔ ∀ v ∈ vs, v.unit = true := by
  induction vs with
  | nil => simp [checkUnits]
  | cons v vs ih =>
    simp only [checkUnits, List.mem_cons, forall_eq_or_imp]
    cases v.unit <;> simp [ih]

theorem reprBits_ok {k b : Nat} : reprBits k = .ok b ↔
    1 ≤ k ∧ k ≤ 128 ∧ b = (if k ≤ 8 then 8 else if k ≤ 16 then 16 else if k ≤ 32 then 32
      else if k ≤ 64 then 64 else 128) := by
  unfold reprBits
  repeat' split
  all_goals first
    | (simp; omega)
    | (simp only [Except.ok.injEq, reduceCtorEq, false_iff]; omega)

theorem rootMetas_ok {ms : List RMeta} : ∀ {ign : Option (List Str)} {tp : Bool}
    {r : Option (List Str) × Bool},
    rootMetas ms ign tp = .ok r ↔
      (∀ m ∈ ms, m.Known) ∧ ign.isSome.toNat + ms.countP RMeta.isIgnore ≤ 1 ∧
      r.1.getD [] = ign.getD [] ++ ms.flatMap RMeta.ignores ∧
      r.1.isSome = (ign.isSome || ms.any RMeta.isIgnore) ∧
      r.2 = (tp || ms.any RMeta.isTerminalParse) := by
  induction ms with
  | nil =>
    rintro ign tp ⟨a, b⟩
    cases ign <;> cases a <;> simp [rootMetas, eq_comm]
  | cons m ms ih =>
    rintro ign tp ⟨a, b⟩
    cases m with
    | terminalParse => simp [rootMetas, ih, RMeta.Known, RMeta.isIgnore, RMeta.ignores, RMeta.isTerminalParse]
    | path => simp [rootMetas, RMeta.Known]
    | list => simp [rootMetas, RMeta.Known]
    | nameValue => simp [rootMetas, RMeta.Known]
    | ignore args =>
      cases args with
      | none => cases ign <;> simp [rootMetas, RMeta.Known]
      | some l =>
        cases ign with
        | none =>
          have h1 : (RMeta.ignore (some l)).Known := .inr ⟨l, rfl⟩
          have h2 : (RMeta.ignore (some l)).isIgnore = true := rfl
          simp only [rootMetas, ih, List.countP_cons, h2, List.flatMap_cons, List.any_cons,
            List.mem_cons, forall_eq_or_imp, h1, true_and, RMeta.ignores, Option.isSome_none,
            Option.isSome_some, Bool.toNat_true, Bool.toNat_false, if_true, Option.getD_some,
            Option.getD_none, List.nil_append, Bool.true_or, Bool.false_or, Bool.or_true,
            Bool.false_eq_true, if_false, RMeta.isTerminalParse]
          rw [Nat.add_comm 1, Nat.zero_add]
        | some l' =>
          simp [rootMetas, RMeta.isIgnore, List.countP_cons]
          omega

theorem rootAttributes_ok {as : List (Option (List RMeta))} {ign : List Str} {tp : Bool} :
    rootAttributes as = .ok (ign, tp) ↔
      as.length ≤ 1 ∧ (∀ a ∈ as, a ≠ none) ∧ (∀ m ∈ (as.filterMap id).flatten, m.Known) ∧
      ((as.filterMap id).flatten).countP RMeta.isIgnore ≤ 1 ∧
      ign = ((as.filterMap id).flatten).flatMap RMeta.ignores ∧
      tp = ((as.filterMap id).flatten).any RMeta.isTerminalParse := by
  match as with
  | [] => simp [rootAttributes, eq_comm]
  | [none] => simp [rootAttributes]
  | [some ms] =>
    simp only [rootAttributes, bind_ok, rootMetas_ok, Prod.exists]
    constructor
    · rintro ⟨a, b, ⟨h1, h2, h3, h4, h5⟩, h⟩
      cases h
      simp only [Option.isSome_none, Bool.toNat_false, Option.getD_none, List.nil_append,
        Bool.false_or, Nat.zero_add] at *
      simpa [h3, ← h5] using ⟨h1, h2⟩
    · rintro ⟨-, -, h1, h2, rfl, rfl⟩
      refine ⟨if ms.any RMeta.isIgnore then some (ms.flatMap RMeta.ignores) else none, _,
        ⟨by simpa using h1, by simpa using h2, ?_, ?_, rfl⟩, ?_⟩
      · split
        · simp
        · rename_i h
          simp only [Option.getD_none, List.nil_append]
          rw [eq_comm, List.flatMap_eq_nil_iff]
          intro m hm
          simp only [List.any_eq_true, not_exists, not_and, Bool.not_eq_true] at h
          have := h m hm
          cases m <;> simp_all [RMeta.isIgnore, RMeta.ignores]
      · split <;> simp_all
      · have : (if ms.any RMeta.isIgnore = true then some (ms.flatMap RMeta.ignores) else none).getD []
            = ms.flatMap RMeta.ignores := by
          split
          · simp
          · rename_i h
            simp only [Option.getD_none]
            rw [eq_comm, List.flatMap_eq_nil_iff]
            intro m hm
            simp only [List.any_eq_true, not_exists, not_and, Bool.not_eq_true] at h
            have := h m hm
            cases m <;> simp_all [RMeta.isIgnore, RMeta.ignores]
        simp only [this, pure, Except.pure]
        simp
  | a :: b :: l =>
    have : rootAttributes (a :: b :: l) = .error .multipleRoot := by
      cases a <;> rfl
    simp [this]

theorem variantMetas_ok {v : Str} {ms : List VMeta} : ∀ {ter : Option (List TMeta)} {reg : Option (List Str)}
    {r : Option (List TMeta) × Option (List Str)},
    variantMetas v ms ter reg = .ok r ↔
      (∀ m ∈ ms, m.Known) ∧ reg.isSome.toNat + ms.countP VMeta.isRegex ≤ 1 ∧
      ter.isSome.toNat + ms.countP VMeta.isTerminal ≤ 1 ∧
      r = (ter.or (ms.findSome? VMeta.terminals?), reg.or (ms.findSome? VMeta.regexes?)) := by
  induction ms with
  | nil =>
    rintro ter reg ⟨a, b⟩
    cases ter <;> cases reg <;> simp [variantMetas, eq_comm]
  | cons m ms ih =>
    rintro ter reg r
    have hl : VMeta.list.Known := .inl rfl
    have hr : ∀ l, (VMeta.regex (some l)).Known := fun l => .inr (.inl ⟨l, rfl⟩)
    have ht : ∀ l, (VMeta.terminal (some l)).Known := fun l => .inr (.inr ⟨l, rfl⟩)
    simp only [List.countP_cons, List.mem_cons, forall_eq_or_imp, List.findSome?_cons]
    cases m with
    | list => simp [variantMetas, ih, hl, VMeta.isRegex, VMeta.isTerminal, VMeta.regexes?, VMeta.terminals?]
    | other => simp [variantMetas, VMeta.Known]
    | regex args =>
      cases args with
      | none => cases reg <;> simp [variantMetas, VMeta.Known]
      | some l =>
        cases reg with
        | some _ => simp [variantMetas, VMeta.isRegex]; omega
        | none =>
          simp only [variantMetas, ih, hr, true_and, Option.isSome_none, Option.isSome_some,
            Bool.toNat_true, Bool.toNat_false, VMeta.isRegex, VMeta.isTerminal, if_true,
            Bool.false_eq_true, if_false, VMeta.regexes?, VMeta.terminals?, Option.or_some,
            Option.some_or, Option.getD_none]
          simp only [Nat.add_comm 1, Nat.zero_add, Nat.add_zero]
    | terminal args =>
      cases args with
      | none => cases ter <;> simp [variantMetas, VMeta.Known]
      | some l =>
        cases ter with
        | some _ => simp [variantMetas, VMeta.isTerminal]; omega
        | none =>
          simp only [variantMetas, ih, ht, true_and, Option.isSome_none, Option.isSome_some,
            Bool.toNat_true, Bool.toNat_false, VMeta.isRegex, VMeta.isTerminal, if_true,
            Bool.false_eq_true, if_false, VMeta.regexes?, VMeta.terminals?, Option.or_some,
            Option.some_or, Option.getD_none]
          simp only [Nat.add_comm 1, Nat.zero_add, Nat.add_zero]

theorem variantMetas_append {v : Str} {ms ms' : List VMeta} : ∀ {ter : Option (List TMeta)}
    {reg : Option (List Str)}, variantMetas v (ms ++ ms') ter reg =
      variantMetas v ms ter reg >>= fun r => variantMetas v ms' r.1 r.2 := by
  induction ms with
  | nil => intros; rfl
  | cons m ms ih =>
    intro ter reg
    cases m with
    | list => simp [variantMetas, ih]
    | other => rfl
    | regex args =>
      cases reg with
      | some _ => rfl
      | none => cases args <;> simp [variantMetas, ih] <;> rfl
    | terminal args =>
      cases ter with
      | some _ => rfl
      | none => cases args <;> simp [variantMetas, ih] <;> rfl

theorem variantAttrs_ok {v : Str} {as : List (Option (List VMeta))} : ∀ {ter : Option (List TMeta)}
    {reg : Option (List Str)} {r : Option (List TMeta) × Option (List Str)},
    variantAttrs v as ter reg = .ok r ↔
      (∀ a ∈ as, a ≠ none) ∧ variantMetas v (as.filterMap id).flatten ter reg = .ok r := by
  induction as with
  | nil => simp [variantAttrs, variantMetas]
  | cons a as ih =>
    intro ter reg r
    cases a with
    | none => simp [variantAttrs]
    | some ms =>
      simp only [variantAttrs, bind_ok, ih, List.filterMap_cons, id, List.flatten_cons,
        variantMetas_append, List.mem_cons, forall_eq_or_imp, ne_eq, reduceCtorEq, not_false_eq_true,
        true_and]
      constructor
      · rintro ⟨a, h1, h2, h3⟩; exact ⟨h2, a, h1, h3⟩
      · rintro ⟨h2, a, h1, h3⟩; exact ⟨a, h1, h2, h3⟩

/-- `BTreeSet::insert` of several literals. -/
def insertAll (set : List Str) : List Str → List Str
  | [] => set
  | x :: l => insertAll (if x ∈ set then set else set ++ [x]) l

theorem mem_insertAll {l : List Str} : ∀ {set : List Str} {x : Str},
    x ∈ insertAll set l ↔ x ∈ set ∨ x ∈ l := by
  induction l with
  | nil => simp [insertAll]
  | cons a l ih =>
    intro set x
    simp only [insertAll, ih, List.mem_cons]
    split
    · rename_i h
      constructor
      · rintro (h | h) <;> simp [h]
      · rintro (h' | rfl | h') <;> simp [*]
    · simp only [List.mem_append, List.mem_singleton, or_assoc]

theorem terminals_none {tp : Bool} {v : Str} {ms : List TMeta} : ∀ {set : List Str}
    {out : List TermStruct} {s' : TState},
    terminals tp v ms ⟨none, set, out⟩ = .ok s' ↔
      (∀ t ∈ ms, t.Good) ∧ ms.countP TMeta.bare = 0 ∧
      s' = ⟨none, insertAll set (ms.filterMap TMeta.lit), out ++ ms.map (TMeta.struct tp v)⟩ := by
  induction ms with
  | nil => intros; simp [terminals, insertAll, eq_comm]
  | cons m ms ih =>
    intro set out s'
    obtain ⟨ident, kind⟩ := m
    cases ident with
    | none => simp [terminals, TMeta.Good]
    | some ident =>
      cases kind with
      | path => simp [terminals, TMeta.bare, List.countP_cons]
      | list => simp [terminals, TMeta.Good]
      | value lit =>
        cases lit with
        | none => simp [terminals, TMeta.Good]
        | some lit =>
          cases lit with
          | nil => simp [terminals, TMeta.Good]
          | cons c lit =>
            have hg : TMeta.Good ⟨some ident, .value (some (c :: lit))⟩ :=
              ⟨by simp, .inr ⟨_, by simp, rfl⟩⟩
            simp only [terminals, List.isEmpty_cons, Bool.false_eq_true, if_false, ih,
              List.mem_cons, forall_eq_or_imp, hg, true_and, List.countP_cons, TMeta.bare,
              List.filterMap_cons, TMeta.lit, insertAll, List.map_cons, Nat.add_zero]
            simp [TMeta.struct, TMeta.lit]

theorem terminals_some {tp : Bool} {v : Str} {ms : List TMeta} : ∀ {l set : List Str}
    {out : List TermStruct} {s' : TState},
    terminals tp v ms ⟨some l, set, out⟩ = .ok s' ↔
      (∀ t ∈ ms, t.Good) ∧ ms.countP TMeta.bare ≤ 1 ∧
      ((ms.takeWhile fun t => !t.bare).filterMap TMeta.lit).Nodup ∧
      (∀ x ∈ (ms.takeWhile fun t => !t.bare).filterMap TMeta.lit, x ∉ set) ∧
      s' = ⟨if ms.any TMeta.bare then none else some (l ++ ms.filterMap TMeta.lit),
        insertAll set (ms.filterMap TMeta.lit), out ++ ms.map (TMeta.struct tp v)⟩ := by
  induction ms with
  | nil => intros; simp [terminals, insertAll, eq_comm]
  | cons m ms ih =>
    intro l set out s'
    obtain ⟨ident, kind⟩ := m
    cases ident with
    | none => simp [terminals, TMeta.Good]
    | some ident =>
      cases kind with
      | path =>
        have hg : TMeta.Good ⟨some ident, .path⟩ := ⟨by simp, .inl rfl⟩
        simp only [terminals, Option.isNone_some, Bool.false_eq_true, if_false, terminals_none,
          List.mem_cons, forall_eq_or_imp, hg, true_and, List.countP_cons, TMeta.bare, if_true,
          List.takeWhile_cons, Bool.not_true, List.filterMap_nil, List.nodup_nil, List.any_cons,
          Bool.true_or, List.filterMap_cons, TMeta.lit, List.map_cons]
        simp [TMeta.struct, TMeta.lit]
      | list => simp [terminals, TMeta.Good]
      | value lit =>
        cases lit with
        | none => simp [terminals, TMeta.Good]
        | some lit =>
          cases lit with
          | nil => simp [terminals, TMeta.Good]
          | cons c lit =>
            have hg : TMeta.Good ⟨some ident, .value (some (c :: lit))⟩ :=
              ⟨by simp, .inr ⟨_, by simp, rfl⟩⟩
            simp only [terminals, List.isEmpty_cons, Bool.false_eq_true, if_false,
              List.mem_cons, forall_eq_or_imp, hg, true_and, List.countP_cons, TMeta.bare,
              List.filterMap_cons, TMeta.lit, insertAll, List.map_cons, Nat.add_zero,
              List.takeWhile_cons, Bool.not_false, if_true, List.any_cons, Bool.false_or,
              List.nodup_cons]
            by_cases hm : (c :: lit) ∈ set
            · simp [hm]
            · simp only [hm, if_false, ih, List.mem_append, List.mem_singleton, not_or,
                not_false_eq_true, true_and]
              constructor
              · rintro ⟨h1, h2, h3, h4, h5⟩
                refine ⟨h1, h2, ⟨fun h => (h4 _ h).2 rfl, h3⟩, fun x hx => (h4 x hx).1, ?_⟩
                rw [h5]
                simp [TMeta.struct, TMeta.lit]
              · rintro ⟨h1, h2, ⟨h3, h4⟩, h5, h6⟩
                refine ⟨h1, h2, h4, fun x hx => ⟨h5 x hx, ?_⟩, ?_⟩
                · rintro rfl; exact h3 hx
                · rw [h6]
                  simp [TMeta.struct, TMeta.lit]

theorem checkLits_ok {E : Engine} {r : Str} {lits : List Str} {u : Unit} :
    checkLits E r lits = .ok u ↔ ∀ lit ∈ lits, E.find r lit = some (0, lit.length) := by
  induction lits with
  | nil => simp [checkLits]
  | cons x l ih =>
    simp only [checkLits, List.mem_cons, forall_eq_or_imp]
    cases h : E.find r x with
    | none => simp
    | some p =>
      obtain ⟨a, b⟩ := p
      dsimp only
      by_cases ha : a = 0
      · by_cases hb : b = x.length
        · simp [ha, hb, ih]
        · simp [ha, hb]
      · simp [ha]

theorem regexAttrs_ok {E : Engine} {lits : List Str} {rs : List Str} : ∀ {out : List LexRule},
    regexAttrs E lits rs = .ok out ↔
      (∀ r ∈ rs, GoodRegex E r ∧ ∀ lit ∈ lits, E.find r lit = some (0, lit.length)) ∧
      out = rs.map .regex := by
  induction rs with
  | nil => simp [regexAttrs, eq_comm]
  | cons r rs ih =>
    intro out
    simp only [regexAttrs, bind_ok, checkedRegex_ok, checkLits_ok, ih, List.mem_cons,
      forall_eq_or_imp, List.map_cons, exists_const, pure, Except.pure, Except.ok.injEq]
    constructor
    · rintro ⟨h1, h2, _, ⟨h3, rfl⟩, rfl⟩; exact ⟨⟨⟨h1, h2⟩, h3⟩, rfl⟩
    · rintro ⟨⟨⟨h1, h2⟩, h3⟩, rfl⟩; exact ⟨h1, h2, _, ⟨h3, rfl⟩, rfl⟩

/-- What the macro checks on a variant, apart from `unit`. -/
structure Variant.Fine (E : Engine) (v : Variant) : Prop where
  parses : ∀ a ∈ v.attrs, a ≠ none
  known : ∀ m ∈ v.metas, m.Known
  oneRegex : v.metas.countP VMeta.isRegex ≤ 1
  oneTerminal : v.metas.countP VMeta.isTerminal ≤ 1
  terms : ∀ t ∈ v.terms, t.Good
  oneBare : v.terms.countP TMeta.bare ≤ 1
  distinct : ((v.terms.takeWhile fun t => !t.bare).filterMap TMeta.lit).Nodup
  regexes : ∀ rs, v.regexes = some rs →
    (v.terms = [] ∨ ∃ t ∈ v.terms, t.bare = true) ∧
    ∀ r ∈ rs, GoodRegex E r ∧ ∀ lit ∈ v.lits, E.find r lit = some (0, lit.length)

theorem ok_iff_fine {E : Engine} {v : Variant} : v.OK E ↔ v.unit = true ∧ v.Fine E :=
  ⟨fun ⟨a, b, c, d, e, f, g, h, i⟩ => ⟨a, ⟨b, c, d, e, f, g, h, i⟩⟩,
   fun ⟨a, ⟨b, c, d, e, f, g, h, i⟩⟩ => ⟨a, b, c, d, e, f, g, h, i⟩⟩

/-- The effect of a variant on the vectors. -/
def stepSpec (tp : Bool) (i : Nat) (v : Variant) (s : VState) : VState :=
  ⟨s.variants ++ [(v.ident, i)],
   s.lexIdents ++ (if v.Lexed then [v.ident] else []),
   s.lexAttrs ++ (if v.Lexed ∨ v.Blank then [v.rules] else []),
   s.extract ++ (if v.terms.isEmpty then [v.ident] else []),
   s.terminals ++ v.terms.map (TMeta.struct tp v.ident)⟩

theorem lits_ne {v : Variant} (hg : ∀ t ∈ v.terms, t.Good) (hb : v.terms.any TMeta.bare = false) :
    v.lits = [] ↔ v.terms = [] := by
  unfold Variant.lits
  cases h : v.terms with
  | nil => simp
  | cons t l =>
    have h1 := hg t (by simp [h])
    have h2 : t.bare = false := by
      simp only [h, List.any_cons, Bool.or_eq_false_iff] at hb; exact hb.1
    obtain ⟨id, k⟩ := t
    obtain ⟨_, h3⟩ := h1
    rcases h3 with h3 | ⟨lit, -, h3⟩
    · simp only at h3; simp [h3, TMeta.bare] at h2
    · simp only at h3; simp [h3, TMeta.lit]

theorem ter_cases (v : Variant) : (∃ l, v.metas.findSome? VMeta.terminals? = some l ∧ v.terms = l) ∨
    (v.metas.findSome? VMeta.terminals? = none ∧ v.terms = []) := by
  unfold Variant.terms
  cases v.metas.findSome? VMeta.terminals? <;> simp

theorem variantTerminals_ok (tp : Bool) (v : Variant) (ts : TState) :
    variantTerminals tp v.ident (v.metas.findSome? VMeta.terminals?) = .ok ts ↔
      (∀ t ∈ v.terms, t.Good) ∧ v.terms.countP TMeta.bare ≤ 1 ∧
      ((v.terms.takeWhile fun t => !t.bare).filterMap TMeta.lit).Nodup ∧
      ts = ⟨if v.terms.any TMeta.bare then none else some v.lits, insertAll [] v.lits,
        v.terms.map (TMeta.struct tp v.ident)⟩ := by
  rcases ter_cases v with ⟨l, h, rfl⟩ | ⟨h, h'⟩
  · rw [h]
    show terminals tp v.ident v.terms ⟨some [], [], []⟩ = .ok ts ↔ _
    rw [terminals_some]
    simp [Variant.lits]
  · simp [h, h', variantTerminals, Variant.lits, insertAll, eq_comm]

theorem blank_not_lexed {v : Variant} (h : v.Blank) : ¬ v.Lexed := by
  obtain ⟨h1, h2⟩ := h
  simp [Variant.Lexed, Variant.rules, Variant.lits, h1, h2]

theorem rules_some {v : Variant} {rs : List Str} (h : v.regexes = some rs) : v.rules = rs.map .regex := by
  simp [Variant.rules, h]

theorem rules_none {v : Variant} (h : v.regexes = none) :
    v.rules = if v.terms.any TMeta.bare then [] else v.lits.map .token := by
  simp only [Variant.rules, h]

theorem lexed_some {v : Variant} {rs : List Str} (h : v.regexes = some rs) : v.Lexed :=
  .inl (by simp [h])

theorem lexed_none {v : Variant} (hg : ∀ t ∈ v.terms, t.Good) (h : v.regexes = none) :
    v.Lexed ↔ v.terms.any TMeta.bare = false ∧ v.terms ≠ [] := by
  unfold Variant.Lexed
  rw [rules_none h]
  cases hb : v.terms.any TMeta.bare with
  | true => simp [h]
  | false =>
    have := lits_ne hg hb
    simp [h, this]

theorem variantRules_ok {E : Engine} {v : Variant} (hg : ∀ t ∈ v.terms, t.Good) (out : List TermStruct)
    (la la' : List (List LexRule)) :
    variantRules E v.ident ⟨if v.terms.any TMeta.bare then none else some v.lits, insertAll [] v.lits, out⟩
      v.regexes la = .ok la' ↔
      (∀ rs, v.regexes = some rs → (v.terms = [] ∨ ∃ t ∈ v.terms, t.bare = true) ∧
        ∀ r ∈ rs, GoodRegex E r ∧ ∀ lit ∈ v.lits, E.find r lit = some (0, lit.length)) ∧
      la' = la ++ (if v.Lexed ∨ v.Blank then [v.rules] else []) := by
  cases hr : v.regexes with
  | some rs =>
    rw [if_pos (show v.Lexed ∨ v.Blank from .inl (lexed_some hr)), rules_some hr]
    simp only [variantRules, Option.some.injEq, forall_eq']
    cases hb : v.terms.any TMeta.bare with
    | true =>
      have hb' : ∃ t ∈ v.terms, t.bare = true := by simpa using hb
      simp only [if_true, Option.any_none, Bool.false_eq_true, if_false, map_ok, regexAttrs_ok,
        mem_insertAll, List.not_mem_nil, false_or]
      constructor
      · rintro ⟨_, ⟨h, rfl⟩, rfl⟩; exact ⟨⟨.inr hb', h⟩, rfl⟩
      · rintro ⟨⟨-, h⟩, rfl⟩; exact ⟨_, ⟨h, rfl⟩, rfl⟩
    | false =>
      have hl := lits_ne hg hb
      have hb' : ¬ ∃ t ∈ v.terms, t.bare = true := by
        simp only [List.any_eq_false] at hb
        rintro ⟨t, h1, h2⟩
        exact hb t h1 h2
      by_cases ht : v.terms = []
      · have hl := hl.2 ht
        simp only [hl, Bool.false_eq_true, if_false, Option.any_some, List.isEmpty_nil, Bool.not_true,
          map_ok, regexAttrs_ok, insertAll, ht]
        constructor
        · rintro ⟨_, ⟨h, rfl⟩, rfl⟩; exact ⟨⟨.inl trivial, h⟩, rfl⟩
        · rintro ⟨⟨-, h⟩, rfl⟩; exact ⟨_, ⟨h, rfl⟩, rfl⟩
      · have hl : v.lits.isEmpty = false := by
          rw [Bool.eq_false_iff]
          intro h
          exact ht (hl.1 (List.isEmpty_iff.1 h))
        simp only [Bool.false_eq_true, if_false, Option.any_some, hl, Bool.not_false, if_true,
          reduceCtorEq, ht, hb', or_self, false_and]
  | none =>
    simp only [variantRules, reduceCtorEq, false_implies, implies_true, true_and]
    cases hb : v.terms.any TMeta.bare with
    | true =>
      have h1 : ¬ (v.Lexed ∨ v.Blank) := by
        rw [lexed_none hg hr]
        rintro (h | h)
        · simp [hb] at h
        · rw [h.2] at hb; simp at hb
      rw [if_neg h1]
      simp [eq_comm]
    | false =>
      have h1 : v.Lexed ∨ v.Blank := by
        by_cases ht : v.terms = []
        · exact .inr ⟨hr, ht⟩
        · exact .inl ((lexed_none hg hr).2 ⟨hb, ht⟩)
      rw [if_pos h1, rules_none hr, hb]
      simp [eq_comm]

theorem final {v : Variant} (hg : ∀ t ∈ v.terms, t.Good) {l : List Str} :
    (if (((if v.terms.any TMeta.bare then none else some v.lits : Option (List Str)).getD []).isEmpty
      && v.regexes.isNone) then l else l ++ [v.ident]) = l ++ (if v.Lexed then [v.ident] else []) := by
  cases hr : v.regexes with
  | some rs => simp [lexed_some hr]
  | none =>
    cases hb : v.terms.any TMeta.bare with
    | true =>
      have : ¬ v.Lexed := by rw [lexed_none hg hr]; simp [hb]
      simp [this]
    | false =>
      by_cases ht : v.terms = []
      · have : ¬ v.Lexed := by rw [lexed_none hg hr]; simp [ht]
        simp [this, (lits_ne hg hb).2 ht]
      · have h1 : v.Lexed := (lexed_none hg hr).2 ⟨hb, ht⟩
        have h2 : v.lits.isEmpty = false := by
          rw [Bool.eq_false_iff]
          intro h
          exact ht ((lits_ne hg hb).1 (List.isEmpty_iff.1 h))
        simp [h1, h2]

theorem variantStep_ok {E : Engine} {tp : Bool} {i : Nat} {v : Variant} {s s' : VState} :
    variantStep E tp i v s = .ok s' ↔ v.Fine E ∧ s' = stepSpec tp i v s := by
  have hm : (v.attrs.filterMap id).flatten = v.metas := rfl
  have he : ∀ l : List Str, (if ((v.metas.findSome? VMeta.terminals?).getD []).isEmpty then l ++ [v.ident] else l) =
      l ++ (if v.terms.isEmpty then [v.ident] else []) := by
    intro l
    change (if v.terms.isEmpty then _ else _) = _
    split <;> simp
  unfold variantStep
  simp only [bind_ok, Prod.exists]
  constructor
  · rintro ⟨ter, reg, h1, ts, h2, la, h3, h4⟩
    rw [variantAttrs_ok, variantMetas_ok, hm] at h1
    obtain ⟨hp, hk, hr, ht, h1⟩ := h1
    simp only [Option.none_or, Prod.mk.injEq] at h1
    obtain ⟨rfl, h1⟩ := h1
    change reg = v.regexes at h1
    subst h1
    rw [variantTerminals_ok] at h2
    obtain ⟨hg, hb, hd, rfl⟩ := h2
    rw [variantRules_ok hg] at h3
    obtain ⟨h3, rfl⟩ := h3
    refine ⟨⟨hp, hk, by simpa using hr, by simpa using ht, hg, hb, hd, h3⟩, ?_⟩
    cases h4
    simp only [final hg, he, stepSpec]
  · rintro ⟨⟨hp, hk, hr, ht, hg, hb, hd, h3⟩, rfl⟩
    refine ⟨v.metas.findSome? VMeta.terminals?, v.regexes, ?_, _, (variantTerminals_ok ..).2 ⟨hg, hb, hd, rfl⟩,
      _, (variantRules_ok hg ..).2 ⟨h3, rfl⟩, ?_⟩
    · rw [variantAttrs_ok, variantMetas_ok, hm]
      refine ⟨hp, hk, by simpa using hr, by simpa using ht, ?_⟩
      simp only [Option.none_or]
      rfl
    · simp only [final hg, he, stepSpec, pure, Except.pure]

/-- The effect of all variants on the vectors. -/
def loopSpec (tp : Bool) (i : Nat) (vs : List Variant) (s : VState) : VState :=
  ⟨s.variants ++ (vs.zipIdx i).map (fun p => (p.1.ident, p.2)),
   s.lexIdents ++ (vs.filter fun v => v.Lexed).map Variant.ident,
   s.lexAttrs ++ (vs.filter fun v => v.Lexed ∨ v.Blank).map Variant.rules,
   s.extract ++ (vs.filter fun v => v.terms.isEmpty).map Variant.ident,
   s.terminals ++ vs.flatMap fun v => v.terms.map (TMeta.struct tp v.ident)⟩

theorem loopSpec_cons (tp : Bool) (i : Nat) (v : Variant) (vs : List Variant) (s : VState) :
    loopSpec tp i (v :: vs) s = loopSpec tp (i + 1) vs (stepSpec tp i v s) := by
  simp only [loopSpec, stepSpec, List.filter_cons, List.zipIdx_cons, List.map_cons, List.flatMap_cons,
    List.append_assoc, List.cons_append, List.nil_append, decide_eq_true_eq]
  congr 1
  · split <;> simp
  · by_cases h : v.Lexed ∨ v.Blank
    · simp [h]
    · simp [h]
  · split <;> simp

theorem variantLoop_ok {E : Engine} {tp : Bool} {vs : List Variant} : ∀ {i : Nat} {s s' : VState},
    variantLoop E tp i vs s = .ok s' ↔ (∀ v ∈ vs, v.Fine E) ∧ s' = loopSpec tp i vs s := by
  induction vs with
  | nil =>
    intro i s s'
    obtain ⟨a, b, c, d, e⟩ := s
    simp [variantLoop, loopSpec, eq_comm]
  | cons v vs ih =>
    intro i s s'
    simp only [variantLoop, bind_ok, variantStep_ok, ih, List.mem_cons, forall_eq_or_imp, loopSpec_cons]
    constructor
    · rintro ⟨_, ⟨h1, rfl⟩, h2, rfl⟩; exact ⟨⟨h1, h2⟩, rfl⟩
    · rintro ⟨⟨h1, h2⟩, rfl⟩; exact ⟨_, ⟨h1, rfl⟩, h2, rfl⟩

/-- The code generated for an accepted declaration. -/
def outSpec (d : Decl) (vs : List Variant) : Lexicon where
  variants := vs.zipIdx.map fun p => (p.1.ident, p.2)
  terminals := vs.flatMap fun v => v.terms.map (TMeta.struct d.terminalParse v.ident)
  skips := d.ignores
  logos := ((vs.filter fun v => v.Lexed ∨ v.Blank).map Variant.rules).zip
    ((vs.filter fun v => v.Lexed).map Variant.ident)
  arms := (vs.filter fun v => v.Lexed).map Variant.ident
  bits := if vs.length ≤ 8 then 8 else if vs.length ≤ 16 then 16 else if vs.length ≤ 32 then 32
      else if vs.length ≤ 64 then 64 else 128
  extract := (vs.filter fun v => v.terms.isEmpty).map Variant.ident
  mapLen := vs.length

theorem expand_ok {E : Engine} {d : Decl} {L : Lexicon} :
    expand E d = .ok L ↔ d.OK E ∧ ∃ vs, d.variants = some vs ∧ L = outSpec d vs := by
  have hm : (d.attrs.filterMap id).flatten = d.metas := rfl
  unfold expand
  cases hg : d.generics with
  | true =>
    simp only [if_true, reduceCtorEq, false_iff]
    rintro ⟨h, -⟩
    simp [h.generics] at hg
  | false =>
    simp only [Bool.false_eq_true, if_false, bind_ok, Prod.exists, rootAttributes_ok, checkIgnores_ok,
      checkUnits_ok, reprBits_ok, variantLoop_ok, hm]
    constructor
    · rintro ⟨_, _, ⟨h1, h2, h3, h4, rfl, rfl⟩, vs, h5, -, h6, -, h7, _, ⟨h8, h9, rfl⟩, _, ⟨h10, rfl⟩, h11⟩
      cases hv : d.variants with
      | none => simp [hv] at h5
      | some vs' =>
        simp only [hv, Option.elim_some, Except.ok.injEq] at h5
        subst h5
        refine ⟨⟨hg, h1, h2, h3, h4, h6, vs', hv, h8, h9, fun v h => ok_iff_fine.2 ⟨h7 v h, h10 v h⟩⟩,
          vs', rfl, ?_⟩
        cases h11
        simp [loopSpec, outSpec, Decl.terminalParse, Decl.ignores]
    · rintro ⟨⟨-, h1, h2, h3, h4, h6, vs, hv, h8, h9, h10⟩, vs', h, rfl⟩
      cases hv.symm.trans h
      refine ⟨_, _, ⟨h1, h2, h3, h4, rfl, rfl⟩, vs, by simp [hv], (), h6, (),
        fun v h => (ok_iff_fine.1 (h10 v h)).1, _, ⟨h8, h9, rfl⟩, _,
        ⟨fun v h => (ok_iff_fine.1 (h10 v h)).2, rfl⟩, ?_⟩
      simp [loopSpec, outSpec, Decl.terminalParse, Decl.ignores, pure, Except.pure]

/-- The rules line up with the variants if no blank variant precedes one with rules. -/
theorem aligned {vs : List Variant} (h : vs.Pairwise fun a b => ¬ (a.Blank ∧ b.Lexed)) :
    ((vs.filter fun v => v.Lexed ∨ v.Blank).map Variant.rules).zip
      ((vs.filter fun v => v.Lexed).map Variant.ident) =
    (vs.filter fun v => v.Lexed).map fun v => (v.rules, v.ident) := by
  induction vs with
  | nil => rfl
  | cons v vs ih =>
    rw [List.pairwise_cons] at h
    have ih := ih h.2
    by_cases hl : v.Lexed
    · simp only [List.filter_cons, hl, true_or, decide_true, if_true, List.map_cons, List.zip_cons_cons, ih]
    · by_cases hb : v.Blank
      · have : vs.filter (fun v => v.Lexed) = [] := by
          rw [List.filter_eq_nil_iff]
          intro w hw hw'
          exact h.1 w hw ⟨hb, by simpa using hw'⟩
        simp [List.filter_cons, hl, this]
      · simp only [List.filter_cons, hl, hb, or_self, decide_false, Bool.false_eq_true, if_false, ih]

/-- There are at least as many rule sets as variants of the lexer. -/
theorem lexed_le (vs : List Variant) :
    (vs.filter fun v => v.Lexed).length ≤ (vs.filter fun v => v.Lexed ∨ v.Blank).length := by
  induction vs with
  | nil => simp
  | cons v vs ih =>
    by_cases hl : v.Lexed
    · simpa [List.filter_cons, hl] using ih
    · by_cases hb : v.Blank <;> simp only [List.filter_cons, hl, hb, or_self, or_true, decide_true,
        decide_false, Bool.false_eq_true, if_false, if_true, List.length_cons] <;> omega

theorem rulesOf_of_mem {vs : List Variant} {f : Variant → List LexRule} {p : Variant → Bool}
    (hn : (vs.map Variant.ident).Nodup) {v : Variant} (hv : v ∈ vs) :
    (((vs.filter p).map fun v => (f v, v.ident)).filter fun e => e.2 = v.ident).flatMap (·.1) =
      if p v then f v else [] := by
  induction vs with
  | nil => simp at hv
  | cons w vs ih =>
    rw [List.map_cons, List.nodup_cons] at hn
    have key : ∀ {x}, x ∉ vs.map Variant.ident →
        ((vs.filter p).map fun v => (f v, v.ident)).filter (fun e => e.2 = x) = [] := by
      intro x hx
      rw [List.filter_eq_nil_iff]
      intro e he h
      simp only [List.mem_map, List.mem_filter] at he
      obtain ⟨u, ⟨hu, -⟩, rfl⟩ := he
      simp only [decide_eq_true_eq] at h
      exact hx (List.mem_map.2 ⟨u, hu, h⟩)
    rcases List.mem_cons.1 hv with rfl | hv
    · cases hp : p v <;> simp [hp, key hn.1]
    · have hne : w.ident ≠ v.ident := by
        intro h
        exact hn.1 (List.mem_map.2 ⟨v, hv, h.symm⟩)
      cases hp : p w <;> simp only [List.filter_cons, hp, Bool.false_eq_true, if_false, if_true,
        List.map_cons, hne, decide_false] <;> exact ih hn.2 hv

theorem ident_inj {vs : List Variant} (hn : (vs.map Variant.ident).Nodup) {v w : Variant} (hv : v ∈ vs)
    (hw : w ∈ vs) (h : w.ident = v.ident) : w = v := by
  induction vs with
  | nil => simp at hv
  | cons u vs ih =>
    rw [List.map_cons, List.nodup_cons] at hn
    rcases List.mem_cons.1 hv with h1 | h1 <;> rcases List.mem_cons.1 hw with h2 | h2
    · rw [h1, h2]
    · exact absurd (List.mem_map.2 ⟨w, h2, by rw [h, h1]⟩) hn.1
    · exact absurd (List.mem_map.2 ⟨v, h1, by rw [← h, h2]⟩) hn.1
    · exact ih hn.2 h1 h2

/-- The rules that a list of rule sets and names attaches to a name. -/
def attached (l : List (List LexRule × Str)) (i : Str) : List LexRule :=
  (l.filter fun e => e.2 = i).flatMap (·.1)

theorem attached_cons (rs : List LexRule) (i j : Str) (l : List (List LexRule × Str)) :
    attached ((rs, i) :: l) j = if i = j then rs ++ attached l j else attached l j := by
  unfold attached
  by_cases h : i = j <;> simp [h]

theorem attached_nil {l : List (List LexRule × Str)} {i : Str} (h : ∀ e ∈ l, e.2 = i → e.1 = []) :
    attached l i = [] := by
  unfold attached
  rw [List.flatMap_eq_nil_iff]
  intro e he
  rw [List.mem_filter] at he
  exact h e he.1 (by simpa using he.2)

theorem attached_absent {a : List (List LexRule)} {vs : List Variant} {i : Str}
    (h : i ∉ vs.map Variant.ident) :
    attached (a.zip ((vs.filter fun v => v.Lexed).map Variant.ident)) i = [] := by
  refine attached_nil ?_
  rintro ⟨rs, j⟩ he rfl
  have := (List.of_mem_zip he).2
  rw [List.mem_map] at this
  obtain ⟨w, hw, h1⟩ := this
  exact absurd (List.mem_map.2 ⟨w, (List.mem_filter.1 hw).1, h1⟩) h

theorem unlexed_rules {v : Variant} (h : ¬ v.Lexed) : v.rules = [] :=
  Classical.not_not.1 fun h' => h (.inr h')

/-- Once a blank rule set is waiting, the rules are right only if there are none. -/
theorem late {vs : List Variant} : ∀ {q : List (List LexRule)}, (∀ x ∈ q, x = []) → q ≠ [] →
    (vs.map Variant.ident).Nodup →
    (∀ v ∈ vs, attached ((q ++ (vs.filter fun v => v.Lexed ∨ v.Blank).map Variant.rules).zip
      ((vs.filter fun v => v.Lexed).map Variant.ident)) v.ident = v.rules) →
    ∀ v ∈ vs, v.rules = [] := by
  induction vs with
  | nil => intro q _ _ _ _ v hv; cases hv
  | cons v vs ih =>
    intro q hq hq' hn h
    rw [List.map_cons, List.nodup_cons] at hn
    by_cases hl : v.Lexed
    · cases q with
      | nil => exact absurd rfl hq'
      | cons x q =>
        have hx : x = [] := hq x (List.mem_cons_self ..)
        subst hx
        simp only [List.filter_cons, hl, true_or, decide_true, if_true, List.map_cons, List.cons_append,
          List.zip_cons_cons, attached_cons, List.nil_append, ite_self] at h
        have h0 : v.rules = [] := by
          rw [← h v (List.mem_cons_self ..)]
          exact attached_absent hn.1
        intro w hw
        rcases List.mem_cons.1 hw with rfl | hw
        · exact h0
        · refine ih (q := q ++ [v.rules]) ?_ (by simp) hn.2 (fun u hu => ?_) w hw
          · intro y hy
            rcases List.mem_append.1 hy with hy | hy
            · exact hq y (List.mem_cons_of_mem _ hy)
            · rw [List.mem_singleton.1 hy, h0]
          · rw [List.append_assoc]
            exact h u (List.mem_cons_of_mem _ hu)
    · have h0 := unlexed_rules hl
      intro w hw
      rcases List.mem_cons.1 hw with rfl | hw
      · exact h0
      · by_cases hb : v.Blank
        · simp only [List.filter_cons, hl, hb, or_true, decide_true, decide_false, Bool.false_eq_true, if_false,
            if_true, List.map_cons] at h
          refine ih (q := q ++ [v.rules]) ?_ (by simp) hn.2 (fun u hu => ?_) w hw
          · intro y hy
            rcases List.mem_append.1 hy with hy | hy
            · exact hq y hy
            · rw [List.mem_singleton.1 hy, h0]
          · rw [List.append_assoc]
            exact h u (List.mem_cons_of_mem _ hu)
        · simp only [List.filter_cons, hl, hb, or_self, decide_false, Bool.false_eq_true, if_false] at h
          exact ih hq hq' hn.2 (fun u hu => h u (List.mem_cons_of_mem _ hu)) w hw

theorem zip_first {α β : Type} {a : List α} {b : List β} {p : α → Prop} (h : ∀ x ∈ a, p x) :
    ∀ e ∈ a.zip b, p e.1 := by
  rintro ⟨x, y⟩ he
  exact h x (List.of_mem_zip he).1

/-- The rules line up exactly if no blank variant precedes one that has a rule. -/
theorem aligned_iff {vs : List Variant} (hn : (vs.map Variant.ident).Nodup) :
    (∀ v ∈ vs, attached (((vs.filter fun v => v.Lexed ∨ v.Blank).map Variant.rules).zip
      ((vs.filter fun v => v.Lexed).map Variant.ident)) v.ident = v.rules) ↔
    vs.Pairwise fun a b => ¬ (a.Blank ∧ b.rules ≠ []) := by
  induction vs with
  | nil => simp
  | cons v vs ih =>
    rw [List.map_cons, List.nodup_cons] at hn
    have ih := ih hn.2
    rw [List.pairwise_cons, ← ih]
    have hne : ∀ u ∈ vs, v.ident ≠ u.ident := fun u hu h => hn.1 (List.mem_map.2 ⟨u, hu, h.symm⟩)
    by_cases hl : v.Lexed
    · have hb : ¬ v.Blank := fun h => blank_not_lexed h hl
      simp only [List.filter_cons, hl, true_or, decide_true, if_true, List.map_cons, List.zip_cons_cons,
        List.forall_mem_cons, attached_cons, attached_absent hn.1, List.append_nil, true_and, hb, false_and,
        not_false_eq_true, implies_true]
      constructor
      · intro h u hu
        have := h u hu
        rwa [if_neg (hne u hu)] at this
      · intro h u hu
        rw [if_neg (hne u hu)]
        exact h u hu
    · have h0 := unlexed_rules hl
      by_cases hb : v.Blank
      · simp only [List.filter_cons, hl, hb, or_true, decide_true, decide_false, Bool.false_eq_true, if_false,
          if_true, List.map_cons, List.forall_mem_cons, attached_absent hn.1, h0, true_and]
        constructor
        · intro h
          have h1 := late (q := [[]]) (by simp) (by simp) hn.2 h
          refine ⟨fun u hu => not_not_intro (h1 u hu), fun u hu => ?_⟩
          rw [h1 u hu]
          refine attached_nil fun e he _ => zip_first (p := (· = [])) ?_ e he
          intro x hx
          rw [List.mem_map] at hx
          obtain ⟨w, hw, rfl⟩ := hx
          exact h1 w (List.mem_filter.1 hw).1
        · rintro ⟨h, -⟩ u hu
          rw [Classical.not_not.1 (h u hu)]
          refine attached_nil fun e he _ => zip_first (p := (· = [])) ?_ e he
          intro x hx
          rcases List.mem_cons.1 hx with rfl | hx
          · rfl
          · rw [List.mem_map] at hx
            obtain ⟨w, hw, rfl⟩ := hx
            exact Classical.not_not.1 (h w (List.mem_filter.1 hw).1)
      · simp only [List.filter_cons, hl, hb, or_self, decide_false, Bool.false_eq_true, if_false,
          List.forall_mem_cons, attached_absent hn.1, h0, true_and, false_and, not_false_eq_true, implies_true]

end Teleparse.Macro
