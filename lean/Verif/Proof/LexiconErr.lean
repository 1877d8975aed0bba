import Verif.Proof.LexiconMacro
/-
The errors of the parts of `derive_lexicon`.
-/
namespace Teleparse.Macro

theorem bind_err {ε α β : Type} {x : Except ε α} {f : α → Except ε β} {e : ε} :
    (x >>= f) = .error e ↔ x = .error e ∨ ∃ a, x = .ok a ∧ f a = .error e := by
  cases x <;> simp [bind, Except.bind]

theorem map_err {ε α β : Type} {x : Except ε α} {f : α → β} {e : ε} :
    x.map f = .error e ↔ x = .error e := by
  cases x <;> simp [Except.map]

theorem checkedRegex_err {E : Engine} {r : Str} {e : Err} (h : checkedRegex E r = .error e) :
    (e = .regexSyntax r ∧ E.compiles r = false) ∨ (e = .regexEmpty r ∧ E.find r [] ≠ none) := by
  unfold checkedRegex at h
  cases h1 : E.compiles r <;> cases h2 : E.find r [] <;> simp_all

theorem checkIgnores_err {E : Engine} {rs : List Str} {e : Err} (h : checkIgnores E rs = .error e) :
    ∃ r ∈ rs, checkedRegex E r = .error e := by
  induction rs with
  | nil => simp [checkIgnores] at h
  | cons r rs ih =>
    simp only [checkIgnores, bind_err] at h
    rcases h with h | ⟨-, -, h⟩
    · exact ⟨r, by simp, h⟩
    · obtain ⟨r', h1, h2⟩ := ih h
      exact ⟨r', by simp [h1], h2⟩

theorem checkUnits_err {vs : List Variant} {e : Err} (h : checkUnits vs = .error e) :
    ∃ v ∈ vs, e = .notUnit v.ident ∧ v.unit = false := by
  induction vs with
  | nil => simp [checkUnits] at h
  | cons v vs ih =>
    simp only [checkUnits] at h
    cases hu : v.unit with
    | false => exact ⟨v, by simp, by simpa [hu, eq_comm] using h, hu⟩
    | true =>
      simp only [hu, if_true] at h
      obtain ⟨w, h1, h2⟩ := ih h
      exact ⟨w, by simp [h1], h2⟩

theorem reprBits_err {k : Nat} {e : Err} (h : reprBits k = .error e) :
    (e = .empty ∧ k = 0) ∨ (e = .tooMany ∧ 128 < k) := by
  unfold reprBits at h
  repeat' split at h
  all_goals first
    | (simp at h; done)
    | (simp only [Except.error.injEq] at h; subst h; first | exact .inl ⟨rfl, by assumption⟩ | exact .inr ⟨rfl, by omega⟩)

theorem rootMetas_err {ms : List RMeta} : ∀ {ign : Option (List Str)} {tp : Bool} {e : Err},
    rootMetas ms ign tp = .error e →
      (e = .rootAttr ∧ (.path ∈ ms ∨ .list ∈ ms ∨ .nameValue ∈ ms)) ∨ (e = .parse ∧ .ignore none ∈ ms) ∨
      (e = .multipleIgnore ∧ 2 ≤ ign.isSome.toNat + ms.countP RMeta.isIgnore) := by
  induction ms with
  | nil => simp [rootMetas]
  | cons m ms ih =>
    intro ign tp e h
    cases m with
    | terminalParse =>
      replace h := ih (h : rootMetas ms _ _ = _)
      rcases h with ⟨rfl, h⟩ | ⟨rfl, h⟩ | ⟨rfl, h⟩
      · left; simp [h]
      · right; left; simp [h]
      · right; right; simpa [RMeta.isIgnore] using h
    | path => left; simp only [rootMetas, Except.error.injEq] at h; simp [← h]
    | list => left; simp only [rootMetas, Except.error.injEq] at h; simp [← h]
    | nameValue => left; simp only [rootMetas, Except.error.injEq] at h; simp [← h]
    | ignore args =>
      cases ign with
      | some l =>
        simp only [rootMetas, Option.isSome_some, if_true, Except.error.injEq] at h
        subst h
        right; right
        simp [RMeta.isIgnore, List.countP_cons]
        omega
      | none =>
        cases args with
        | none =>
          simp only [rootMetas, Option.isSome_none, Bool.false_eq_true, if_false, Except.error.injEq] at h
          right; left; simp [← h]
        | some l =>
          replace h := ih (h : rootMetas ms (some l) _ = _)
          rcases h with ⟨rfl, h⟩ | ⟨rfl, h⟩ | ⟨rfl, h⟩
          · left; simp [h]
          · right; left; simp [h]
          · right; right
            refine ⟨rfl, ?_⟩
            have h2 : (RMeta.ignore (some l)).isIgnore = true := rfl
            simp only [Option.isSome_some, Bool.toNat_true, Option.isSome_none, Bool.toNat_false,
              List.countP_cons, h2, if_true] at *
            omega

theorem rootAttributes_err {as : List (Option (List RMeta))} {e : Err} (h : rootAttributes as = .error e) :
    (e = .multipleRoot ∧ 2 ≤ as.length) ∨ (e = .parse ∧ none ∈ as) ∨
    ∃ ms, as = [some ms] ∧ rootMetas ms none false = .error e := by
  match as, h with
  | [none], h => right; left; simp only [rootAttributes, Except.error.injEq] at h; simp [← h]
  | [some ms], h =>
    simp only [rootAttributes, bind_err] at h
    rcases h with h | ⟨a, -, h⟩
    · exact .inr (.inr ⟨ms, rfl, h⟩)
    · simp [pure, Except.pure] at h
  | a :: b :: l, h =>
    have : rootAttributes (a :: b :: l) = .error .multipleRoot := by cases a <;> rfl
    left
    simp only [this, Except.error.injEq] at h
    simp [← h]

theorem variantMetas_err {v : Str} {ms : List VMeta} : ∀ {ter : Option (List TMeta)} {reg : Option (List Str)}
    {e : Err}, variantMetas v ms ter reg = .error e →
      (e = .parse ∧ (.regex none ∈ ms ∨ .terminal none ∈ ms)) ∨ (e = .variantAttr v ∧ .other ∈ ms) ∨
      (e = .multipleRegex v ∧ 2 ≤ reg.isSome.toNat + ms.countP VMeta.isRegex) ∨
      (e = .multipleTerminal v ∧ 2 ≤ ter.isSome.toNat + ms.countP VMeta.isTerminal) := by
  induction ms with
  | nil => simp [variantMetas]
  | cons m ms ih =>
    intro ter reg e h
    cases m with
    | list =>
      replace h := ih (h : variantMetas v ms _ _ = _)
      rcases h with ⟨rfl, h⟩ | ⟨rfl, h⟩ | ⟨rfl, h⟩ | ⟨rfl, h⟩
      · left; simp [h]
      · right; left; simp [h]
      · right; right; left; simpa [VMeta.isRegex] using h
      · right; right; right; simpa [VMeta.isTerminal] using h
    | other => right; left; simp only [variantMetas, Except.error.injEq] at h; simp [← h]
    | regex args =>
      have h2 : ∀ x, (VMeta.regex x).isRegex = true := fun _ => rfl
      have h3 : ∀ x, (VMeta.regex x).isTerminal = false := fun _ => rfl
      cases reg with
      | some l =>
        simp only [variantMetas, Option.isSome_some, if_true, Except.error.injEq] at h
        subst h
        right; right; left
        refine ⟨rfl, ?_⟩
        simp only [Option.isSome_some, Bool.toNat_true, List.countP_cons, h2, if_true]
        omega
      | none =>
        cases args with
        | none =>
          simp only [variantMetas, Option.isSome_none, Bool.false_eq_true, if_false, Except.error.injEq] at h
          left; simp [← h]
        | some l =>
          replace h := ih (h : variantMetas v ms ter (some l) = _)
          rcases h with ⟨rfl, h⟩ | ⟨rfl, h⟩ | ⟨rfl, h⟩ | ⟨rfl, h⟩
          · left; simp only [List.mem_cons]; rcases h with h | h <;> simp [h]
          · right; left; simp [h]
          · right; right; left
            refine ⟨rfl, ?_⟩
            simp only [Option.isSome_some, Bool.toNat_true, Option.isSome_none, Bool.toNat_false,
              List.countP_cons, h2, if_true] at *
            omega
          · right; right; right
            refine ⟨rfl, ?_⟩
            simp only [List.countP_cons, h3, Bool.false_eq_true, if_false, Nat.add_zero] at *
            omega
    | terminal args =>
      have h2 : ∀ x, (VMeta.terminal x).isTerminal = true := fun _ => rfl
      have h3 : ∀ x, (VMeta.terminal x).isRegex = false := fun _ => rfl
      cases ter with
      | some l =>
        simp only [variantMetas, Option.isSome_some, if_true, Except.error.injEq] at h
        subst h
        right; right; right
        refine ⟨rfl, ?_⟩
        simp only [Option.isSome_some, Bool.toNat_true, List.countP_cons, h2, if_true]
        omega
      | none =>
        cases args with
        | none =>
          simp only [variantMetas, Option.isSome_none, Bool.false_eq_true, if_false, Except.error.injEq] at h
          left; simp [← h]
        | some l =>
          replace h := ih (h : variantMetas v ms (some l) reg = _)
          rcases h with ⟨rfl, h⟩ | ⟨rfl, h⟩ | ⟨rfl, h⟩ | ⟨rfl, h⟩
          · left; simp only [List.mem_cons]; rcases h with h | h <;> simp [h]
          · right; left; simp [h]
          · right; right; left
            refine ⟨rfl, ?_⟩
            simp only [List.countP_cons, h3, Bool.false_eq_true, if_false, Nat.add_zero] at *
            omega
          · right; right; right
            refine ⟨rfl, ?_⟩
            simp only [Option.isSome_some, Bool.toNat_true, Option.isSome_none, Bool.toNat_false,
              List.countP_cons, h2, if_true] at *
            omega

theorem variantAttrs_err {v : Str} {as : List (Option (List VMeta))} : ∀ {ter : Option (List TMeta)}
    {reg : Option (List Str)} {e : Err}, variantAttrs v as ter reg = .error e →
      (e = .parse ∧ none ∈ as) ∨ variantMetas v (as.filterMap id).flatten ter reg = .error e := by
  induction as with
  | nil => simp [variantAttrs]
  | cons a as ih =>
    intro ter reg e h
    cases a with
    | none => left; simp only [variantAttrs, Except.error.injEq] at h; simp [← h]
    | some ms =>
      simp only [variantAttrs, bind_err] at h
      simp only [List.filterMap_cons, id, List.flatten_cons, variantMetas_append, bind_err]
      rcases h with h | ⟨⟨t, r⟩, h1, h⟩
      · exact .inr (.inl h)
      · replace h := ih h
        rcases h with ⟨rfl, h⟩ | h
        · left; simp [h]
        · exact .inr (.inr ⟨_, h1, h⟩)

theorem terminals_err {tp : Bool} {v : Str} {ms : List TMeta} : ∀ {s : TState} {e : Err},
    terminals tp v ms s = .error e →
      (e = .terminalIdent v ∧ ∃ t ∈ ms, t.ident = none) ∨
      (e = .multipleBare v ∧ 2 ≤ s.infer.isNone.toNat + ms.countP TMeta.bare) ∨
      (e = .notString v ∧ ∃ t ∈ ms, t.kind = .value none) ∨
      (e = .emptyLiteral v ∧ [] ∈ ms.filterMap TMeta.lit) ∨
      (∃ lit, e = .duplicate v lit ∧
        2 ≤ (decide (lit ∈ s.set)).toNat + (ms.filterMap TMeta.lit).count lit) ∨
      (e = .terminalForm v ∧ ∃ t ∈ ms, t.kind = .list) := by
  induction ms with
  | nil => simp [terminals]
  | cons m ms ih =>
    intro s e h
    obtain ⟨ident, kind⟩ := m
    cases ident with
    | none => left; simp only [terminals, Except.error.injEq] at h; exact ⟨h.symm, _, List.mem_cons_self, rfl⟩
    | some ident =>
      cases kind with
      | path =>
        simp only [terminals] at h
        have hb : TMeta.bare ⟨some ident, .path⟩ = true := rfl
        have hl : TMeta.lit ⟨some ident, .path⟩ = none := rfl
        simp only [List.countP_cons, hb, if_true, List.filterMap_cons, hl, List.mem_cons]
        split at h
        · rename_i hn
          simp only [Except.error.injEq] at h
          right; left
          refine ⟨h.symm, ?_⟩
          rw [hn, Bool.toNat_true]
          omega
        · rename_i hn
          have hn : s.infer.isNone = false := Bool.eq_false_iff.2 hn
          replace h := ih h
          rcases h with ⟨h, t, h1, h2⟩ | ⟨h, h1⟩ | ⟨h, t, h1, h2⟩ | h | h | ⟨h, t, h1, h2⟩
          · exact .inl ⟨h, t, .inr h1, h2⟩
          · refine .inr (.inl ⟨h, ?_⟩)
            simp only [Option.isNone_none, Bool.toNat_true] at h1
            rw [hn, Bool.toNat_false]
            omega
          · exact .inr (.inr (.inl ⟨h, t, .inr h1, h2⟩))
          · exact .inr (.inr (.inr (.inl h)))
          · exact .inr (.inr (.inr (.inr (.inl h))))
          · exact .inr (.inr (.inr (.inr (.inr ⟨h, t, .inr h1, h2⟩))))
      | list =>
        simp only [terminals, Except.error.injEq] at h
        exact .inr (.inr (.inr (.inr (.inr ⟨h.symm, _, List.mem_cons_self, rfl⟩))))
      | value lit =>
        cases lit with
        | none =>
          simp only [terminals, Except.error.injEq] at h
          exact .inr (.inr (.inl ⟨h.symm, _, List.mem_cons_self, rfl⟩))
        | some lit =>
          cases lit with
          | nil =>
            simp only [terminals, List.isEmpty_nil, if_true, Except.error.injEq] at h
            exact .inr (.inr (.inr (.inl ⟨h.symm, by simp [TMeta.lit]⟩)))
          | cons c lit =>
            have hb : TMeta.bare ⟨some ident, .value (some (c :: lit))⟩ = false := rfl
            have hl : TMeta.lit ⟨some ident, .value (some (c :: lit))⟩ = some (c :: lit) := rfl
            simp only [terminals, List.isEmpty_cons, Bool.false_eq_true, if_false] at h
            simp only [List.countP_cons, hb, Bool.false_eq_true, if_false, List.filterMap_cons, hl,
              List.mem_cons, Nat.add_zero, List.count_cons]
            generalize hw : c :: lit = w at *
            -- the state after the literal
            have fin : ∀ (inf : Option (List Str)) out, inf.isNone = s.infer.isNone →
                terminals tp v ms ⟨inf, if w ∈ s.set then s.set else s.set ++ [w], out⟩ = .error e →
                (e = .terminalIdent v ∧ ∃ t, (t = (⟨some ident, .value (some w)⟩ : TMeta) ∨ t ∈ ms) ∧ t.ident = none) ∨
                (e = .multipleBare v ∧ 2 ≤ s.infer.isNone.toNat + ms.countP TMeta.bare) ∨
                (e = .notString v ∧ ∃ t, (t = (⟨some ident, .value (some w)⟩ : TMeta) ∨ t ∈ ms) ∧ t.kind = .value none) ∨
                (e = .emptyLiteral v ∧ ([] = w ∨ [] ∈ ms.filterMap TMeta.lit)) ∨
                (∃ x, e = .duplicate v x ∧ 2 ≤ (decide (x ∈ s.set)).toNat +
                  ((ms.filterMap TMeta.lit).count x + if (w == x) = true then 1 else 0)) ∨
                (e = .terminalForm v ∧ ∃ t, (t = (⟨some ident, .value (some w)⟩ : TMeta) ∨ t ∈ ms) ∧ t.kind = .list) := by
              intro inf out hi h
              replace h := ih h
              rcases h with ⟨h, t, h1, h2⟩ | ⟨h, h1⟩ | ⟨h, t, h1, h2⟩ | h | ⟨x, h, h1⟩ | ⟨h, t, h1, h2⟩
              · exact .inl ⟨h, t, .inr h1, h2⟩
              · exact .inr (.inl ⟨h, by rw [← hi]; exact h1⟩)
              · exact .inr (.inr (.inl ⟨h, t, .inr h1, h2⟩))
              · exact .inr (.inr (.inr (.inl ⟨h.1, .inr h.2⟩)))
              · refine .inr (.inr (.inr (.inr (.inl ⟨x, h, ?_⟩))))
                dsimp only at h1
                by_cases hx : x ∈ s.set
                · have : x ∈ (if w ∈ s.set then s.set else s.set ++ [w]) := by split <;> simp [hx]
                  rw [decide_eq_true this, Bool.toNat_true] at h1
                  rw [decide_eq_true hx, Bool.toNat_true]
                  omega
                · by_cases hwx : w = x
                  · subst hwx
                    have := Bool.toNat_le (decide (w ∈ if w ∈ s.set then s.set else s.set ++ [w]))
                    simp only [beq_self_eq_true, if_true]
                    omega
                  · have : x ∉ (if w ∈ s.set then s.set else s.set ++ [w]) := by
                      split <;> simp [hx, Ne.symm hwx]
                    rw [decide_eq_false this, Bool.toNat_false] at h1
                    omega
              · exact .inr (.inr (.inr (.inr (.inr ⟨h, t, .inr h1, h2⟩))))
            cases hi : s.infer with
            | none =>
              simp only [hi] at h
              simpa only [hi] using fin _ _ (by simp [hi]) h
            | some l =>
              simp only [hi] at h
              by_cases hm : w ∈ s.set
              · simp only [hm, if_true, Except.error.injEq] at h
                refine .inr (.inr (.inr (.inr (.inl ⟨w, h.symm, ?_⟩))))
                simp only [decide_eq_true hm, Bool.toNat_true, beq_self_eq_true, if_true]
                omega
              · rw [if_neg hm] at h
                simpa only [hi] using fin (some (l ++ [w])) _ (by simp [hi]) h

theorem checkLits_err {E : Engine} {r : Str} {lits : List Str} {e : Err} (h : checkLits E r lits = .error e) :
    ∃ lit ∈ lits, (e = .regexMismatch r lit ∧ E.find r lit = none) ∨
      (e = .regexStart r lit ∧ ∃ a b, E.find r lit = some (a, b) ∧ a ≠ 0) ∨
      (e = .regexPrefix r lit ∧ ∃ b, E.find r lit = some (0, b) ∧ b ≠ lit.length) := by
  induction lits with
  | nil => simp [checkLits] at h
  | cons x l ih =>
    simp only [checkLits] at h
    cases hf : E.find r x with
    | none =>
      simp only [hf, Except.error.injEq] at h
      exact ⟨x, by simp, .inl ⟨h.symm, hf⟩⟩
    | some p =>
      obtain ⟨a, b⟩ := p
      simp only [hf] at h
      by_cases ha : a = 0
      · by_cases hb : b = x.length
        · simp only [ha, hb, ne_eq, not_true_eq_false, if_false] at h
          obtain ⟨lit, h1, h2⟩ := ih h
          exact ⟨lit, by simp [h1], h2⟩
        · simp only [ha, hb, ne_eq, not_true_eq_false, if_false, not_false_eq_true, if_true,
            Except.error.injEq] at h
          exact ⟨x, by simp, .inr (.inr ⟨h.symm, b, by rw [hf, ha], hb⟩)⟩
      · simp only [ne_eq, ha, not_false_eq_true, if_true, Except.error.injEq] at h
        exact ⟨x, by simp, .inr (.inl ⟨h.symm, a, b, hf, ha⟩)⟩

theorem regexAttrs_err {E : Engine} {lits : List Str} {rs : List Str} {e : Err}
    (h : regexAttrs E lits rs = .error e) :
    ∃ r ∈ rs, checkedRegex E r = .error e ∨ checkLits E r lits = .error e := by
  induction rs with
  | nil => simp [regexAttrs] at h
  | cons r rs ih =>
    simp only [regexAttrs, bind_err, pure, Except.pure, reduceCtorEq, and_false, exists_false, or_false] at h
    rcases h with h | ⟨-, -, h | ⟨-, -, h⟩⟩
    · exact ⟨r, by simp, .inl h⟩
    · exact ⟨r, by simp, .inr h⟩
    · obtain ⟨r', h1, h2⟩ := ih h
      exact ⟨r', by simp [h1], h2⟩

/-- An error of a variant has its cause on this variant. -/
theorem variantStep_err {E : Engine} {tp : Bool} {i : Nat} {v : Variant} {s : VState} {e : Err} {d : Decl}
    {vs : List Variant} (hd : d.variants = some vs) (hv : v ∈ vs) (h : variantStep E tp i v s = .error e) :
    e.Cause E d := by
  have hm : (v.attrs.filterMap id).flatten = v.metas := rfl
  unfold variantStep at h
  simp only [bind_err, Prod.exists] at h
  rcases h with h | ⟨ter, reg, h1, h⟩
  · replace h := variantAttrs_err h
    rcases h with ⟨rfl, h⟩ | h
    · exact .inr (.inr ⟨vs, hd, v, hv, .inl h⟩)
    · rw [hm] at h
      replace h := variantMetas_err h
      rcases h with ⟨rfl, h⟩ | ⟨rfl, h⟩ | ⟨rfl, h⟩ | ⟨rfl, h⟩
      · exact .inr (.inr ⟨vs, hd, v, hv, .inr h⟩)
      · exact ⟨vs, hd, v, hv, rfl, h⟩
      · exact ⟨vs, hd, v, hv, rfl, by simpa using h⟩
      · exact ⟨vs, hd, v, hv, rfl, by simpa using h⟩
  · rw [variantAttrs_ok, variantMetas_ok, hm] at h1
    obtain ⟨hp, hk, hr, ht, h1⟩ := h1
    simp only [Option.none_or, Prod.mk.injEq] at h1
    obtain ⟨rfl, h1⟩ := h1
    change reg = v.regexes at h1
    subst h1
    rcases h with h | ⟨ts, h1, h⟩
    · rcases ter_cases v with ⟨l, h1, rfl⟩ | ⟨h1, -⟩
      · rw [h1] at h
        replace h := terminals_err (h : terminals tp v.ident v.terms _ = _)
        rcases h with
          ⟨rfl, h⟩ | ⟨rfl, h⟩ | ⟨rfl, h⟩ | ⟨rfl, h⟩ | ⟨lit, rfl, h⟩ | ⟨rfl, h⟩
        · exact ⟨vs, hd, v, hv, rfl, h⟩
        · exact ⟨vs, hd, v, hv, rfl, by simpa using h⟩
        · exact ⟨vs, hd, v, hv, rfl, h⟩
        · exact ⟨vs, hd, v, hv, rfl, h⟩
        · exact ⟨vs, hd, v, hv, rfl, by simpa [Variant.lits] using h⟩
        · exact ⟨vs, hd, v, hv, rfl, h⟩
      · rw [h1] at h; simp [variantTerminals] at h
    · rw [variantTerminals_ok] at h1
      obtain ⟨hg, hb, hdi, rfl⟩ := h1
      rcases h with h | ⟨_, -, h⟩
      · unfold variantRules at h
        cases hr : v.regexes with
        | none =>
          simp only [hr] at h
          split at h <;> simp at h
        | some rs =>
          simp only [hr] at h
          generalize hi : (if v.terms.any TMeta.bare = true then none else some v.lits) = inf at h
          split at h
          · rename_i hn
            subst hi
            simp only [Except.error.injEq] at h
            subst h
            refine ⟨vs, hd, v, hv, rfl, by simp [hr], ?_⟩
            cases hb' : v.terms.any TMeta.bare with
            | true => simp [hb'] at hn
            | false =>
              simp only [hb', Bool.false_eq_true, if_false, Option.any_some, Bool.not_eq_eq_eq_not,
                Bool.not_true] at hn
              refine ⟨?_, ?_⟩
              · rintro h; simp [h] at hn
              · simpa using hb'
          · rw [map_err] at h
            replace h := regexAttrs_err h
            obtain ⟨r, hr1, h | h⟩ := h
            · replace h := checkedRegex_err h
              rcases h with ⟨rfl, h⟩ | ⟨rfl, h⟩
              · exact ⟨.inr ⟨vs, hd, v, hv, rs, hr, hr1⟩, h⟩
              · exact ⟨.inr ⟨vs, hd, v, hv, rs, hr, hr1⟩, h⟩
            · replace h := checkLits_err h
              obtain ⟨lit, hl, h⟩ := h
              have hl : lit ∈ v.lits := by simpa [mem_insertAll] using hl
              rcases h with ⟨rfl, h⟩ | ⟨rfl, h⟩ | ⟨rfl, h⟩
              · exact ⟨⟨vs, hd, v, hv, ⟨rs, hr, hr1⟩, hl⟩, h⟩
              · exact ⟨⟨vs, hd, v, hv, ⟨rs, hr, hr1⟩, hl⟩, h⟩
              · exact ⟨⟨vs, hd, v, hv, ⟨rs, hr, hr1⟩, hl⟩, h⟩
      · simp [pure, Except.pure] at h

theorem variantLoop_err {E : Engine} {tp : Bool} {vs : List Variant} : ∀ {i : Nat} {s : VState} {e : Err},
    variantLoop E tp i vs s = .error e → ∃ v ∈ vs, ∃ i s, variantStep E tp i v s = .error e := by
  induction vs with
  | nil => simp [variantLoop]
  | cons v vs ih =>
    intro i s e h
    simp only [variantLoop, bind_err] at h
    rcases h with h | ⟨s', -, h⟩
    · exact ⟨v, by simp, i, s, h⟩
    · obtain ⟨w, h1, h2⟩ := ih h
      exact ⟨w, by simp [h1], h2⟩

theorem expand_err {E : Engine} {d : Decl} {e : Err} (h : expand E d = .error e) : e.Cause E d := by
  have hm : (d.attrs.filterMap id).flatten = d.metas := rfl
  unfold expand at h
  cases hg : d.generics with
  | true =>
    simp only [hg, if_true, Except.error.injEq] at h
    subst h
    exact hg
  | false =>
    simp only [hg, Bool.false_eq_true, if_false, bind_err, Prod.exists] at h
    rcases h with h | ⟨ign, tp, h1, h⟩
    · replace h := rootAttributes_err h
      rcases h with ⟨rfl, h⟩ | ⟨rfl, h⟩ | ⟨ms, h1, h⟩
      · exact h
      · exact .inl h
      · have : d.metas = ms := by simp [Decl.metas, h1]
        rw [← this] at h
        replace h := rootMetas_err h
        rcases h with ⟨rfl, h⟩ | ⟨rfl, h⟩ | ⟨rfl, h⟩
        · exact h
        · exact .inr (.inl h)
        · simpa [Err.Cause] using h
    · rw [rootAttributes_ok, hm] at h1
      obtain ⟨-, -, -, -, rfl, -⟩ := h1
      rcases h with h | ⟨vs, h1, h⟩
      · cases hv : d.variants with
        | none => simp only [hv, Option.elim_none, Except.error.injEq] at h; subst h; exact hv
        | some _ => simp [hv] at h
      · have hv : d.variants = some vs := by
          cases hv : d.variants <;> simp_all
        rcases h with h | ⟨-, -, h⟩
        · obtain ⟨r, h1, h2⟩ := checkIgnores_err h
          rcases checkedRegex_err h2 with ⟨rfl, h3⟩ | ⟨rfl, h3⟩
          · exact ⟨.inl h1, h3⟩
          · exact ⟨.inl h1, h3⟩
        rcases h with h | ⟨-, -, h⟩
        · obtain ⟨v, h1, rfl, h2⟩ := checkUnits_err h
          exact ⟨vs, hv, v, h1, rfl, h2⟩
        rcases h with h | ⟨_, -, h⟩
        · replace h := reprBits_err h
          rcases h with ⟨rfl, h⟩ | ⟨rfl, h⟩
          · rw [List.length_eq_zero_iff.1 h] at hv; exact hv
          · exact ⟨vs, hv, h⟩
        rcases h with h | ⟨_, -, h⟩
        · obtain ⟨v, h1, i, s, h2⟩ := variantLoop_err h
          exact variantStep_err hv h1 h2
        · simp [pure, Except.pure] at h

end Teleparse.Macro
