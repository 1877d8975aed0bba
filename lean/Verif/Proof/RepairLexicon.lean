import Verif.Spec.RepairLexicon
import Verif.Proof.Faithful
/-
What the repaired `derive_lexicon` computes.
-/
namespace Teleparse.Macro

theorem mapError_ok {ε ε' α : Type} {f : ε → ε'} {x : Except ε α} {a : α} : x.mapError f = .ok a ↔ x = .ok a := by
  cases x <;> simp [Except.mapError]

theorem terminalsFix_ok {tp : Bool} {v : Str} {ms : List TMeta} : ∀ {l : Option (List Str)} {set : List Str}
    {out : List TermStruct} {s' : TState},
    terminalsFix tp v ms ⟨l, set, out⟩ = .ok s' ↔
      (∀ t ∈ ms, t.Good) ∧ l.isNone.toNat + ms.countP TMeta.bare ≤ 1 ∧ (ms.filterMap TMeta.lit).Nodup ∧
      (∀ x ∈ ms.filterMap TMeta.lit, x ∉ set) ∧
      s' = ⟨if ms.any TMeta.bare then none else l.map (· ++ ms.filterMap TMeta.lit),
        set ++ ms.filterMap TMeta.lit, out ++ ms.map (TMeta.struct tp v)⟩ := by
  induction ms with
  | nil =>
    rintro (_ | l) set out s'
    · simp [terminalsFix, eq_comm]
    · simp [terminalsFix, eq_comm]
  | cons m ms ih =>
    intro l set out s'
    obtain ⟨ident, kind⟩ := m
    cases ident with
    | none => simp [terminalsFix, TMeta.Good]
    | some ident =>
      cases kind with
      | path =>
        have hg : TMeta.Good ⟨some ident, .path⟩ := ⟨by simp, .inl rfl⟩
        cases l with
        | none =>
          simp [terminalsFix, TMeta.bare, List.countP_cons]
          omega
        | some l =>
          simp only [terminalsFix, Option.isNone_some, Bool.false_eq_true, if_false, ih, List.mem_cons,
            forall_eq_or_imp, hg, true_and, List.countP_cons, TMeta.bare, if_true, List.any_cons, Bool.true_or,
            List.filterMap_cons, TMeta.lit, List.map_cons, Option.isNone_none, Bool.toNat_true, Bool.toNat_false,
            Nat.zero_add, Option.map_none, ite_self]
          rw [Nat.add_comm 1]
          simp [TMeta.struct, TMeta.lit]
      | list => simp [terminalsFix, TMeta.Good]
      | value lit =>
        cases lit with
        | none => simp [terminalsFix, TMeta.Good]
        | some lit =>
          cases lit with
          | nil => simp [terminalsFix, TMeta.Good]
          | cons c lit =>
            have hg : TMeta.Good ⟨some ident, .value (some (c :: lit))⟩ :=
              ⟨by simp, .inr ⟨_, by simp, rfl⟩⟩
            simp only [terminalsFix, List.isEmpty_cons, Bool.false_eq_true, if_false,
              List.mem_cons, forall_eq_or_imp, hg, true_and, List.countP_cons, TMeta.bare,
              List.filterMap_cons, TMeta.lit, List.map_cons, Nat.add_zero, List.any_cons, Bool.false_or,
              List.nodup_cons]
            by_cases hm : (c :: lit) ∈ set
            · simp [hm]
            · have e1 : (l.map (· ++ [c :: lit])).isNone = l.isNone := by cases l <;> rfl
              have e2 : (l.map (· ++ [c :: lit])).map (· ++ ms.filterMap TMeta.lit) =
                  l.map (· ++ (c :: lit) :: ms.filterMap TMeta.lit) := by cases l <;> simp
              simp only [hm, if_false, ih, List.mem_append, List.mem_singleton, not_or, not_false_eq_true, true_and, e1, e2]
              constructor
              · rintro ⟨h1, h2, h3, h4, h5⟩
                refine ⟨h1, h2, ⟨fun h => (h4 _ h).2 rfl, h3⟩, fun x hx => (h4 x hx).1, ?_⟩
                rw [h5]
                simp [TMeta.struct, TMeta.lit]
              · rintro ⟨h1, h2, ⟨h3, h4⟩, h5, h6⟩
                refine ⟨h1, h2, h4, fun x hx => ⟨h5 x hx, ?_⟩, ?_⟩
                · rintro rfl; exact h3 hx
                · rw [h6]
                  simp [TMeta.struct, TMeta.lit]

theorem variantTerminalsFix_ok (tp : Bool) (v : Variant) (ts : TState) :
    variantTerminalsFix tp v.ident (v.metas.findSome? VMeta.terminals?) = .ok ts ↔
      (∀ t ∈ v.terms, t.Good) ∧ v.terms.countP TMeta.bare ≤ 1 ∧ v.lits.Nodup ∧
      ts = ⟨if v.terms.any TMeta.bare then none else some v.lits, v.lits,
        v.terms.map (TMeta.struct tp v.ident)⟩ := by
  rcases ter_cases v with ⟨l, h, rfl⟩ | ⟨h, h'⟩
  · rw [h]
    show terminalsFix tp v.ident v.terms ⟨some [], [], []⟩ = .ok ts ↔ _
    rw [terminalsFix_ok]
    simp [Variant.lits]
  · simp [h, h', variantTerminalsFix, Variant.lits, eq_comm]

theorem insertAll_nodup {l : List Str} : ∀ {set : List Str}, l.Nodup → (∀ x ∈ l, x ∉ set) → insertAll set l = set ++ l := by
  induction l with
  | nil => intros; simp [insertAll]
  | cons a l ih =>
    intro set hn hd
    rw [List.nodup_cons] at hn
    rw [insertAll, if_neg (hd a (by simp)), ih hn.2]
    · simp
    · intro x hx h
      rcases List.mem_append.1 h with h | h
      · exact hd x (by simp [hx]) h
      · rw [List.mem_singleton.1 h] at hx
        exact hn.1 hx

theorem variantRulesFix_ok {E : Engine} {v : Variant} (hg : ∀ t ∈ v.terms, t.Good) (hn : v.lits.Nodup)
    (out : List TermStruct) (la la' : List (List LexRule)) :
    variantRulesFix E v.ident ⟨if v.terms.any TMeta.bare then none else some v.lits, v.lits, out⟩
      v.regexes la = .ok la' ↔
      (∀ rs, v.regexes = some rs → (v.terms = [] ∨ ∃ t ∈ v.terms, t.bare = true) ∧
        ∀ r ∈ rs, GoodRegex E r ∧ ∀ lit ∈ v.lits, E.find r lit = some (0, lit.length)) ∧
      (v.lits ≠ [] → v.rules ≠ []) ∧
      la' = la ++ (if v.Lexed then [v.rules] else []) := by
  cases hr : v.regexes with
  | some rs =>
    have h0 := variantRules_ok (E := E) hg out la la'
    rw [hr, insertAll_nodup hn (by simp), List.nil_append] at h0
    have hrules : v.rules ≠ [] ↔ rs ≠ [] := by rw [rules_some hr]; simp
    by_cases hbad : v.lits ≠ [] ∧ rs = []
    · obtain ⟨hl, rfl⟩ := hbad
      have hl' : v.lits.isEmpty = false := by simpa using hl
      constructor
      · intro h
        unfold variantRulesFix at h
        simp only [List.isEmpty_nil, hl', Bool.not_false, Bool.and_self, if_true] at h
        generalize (if v.terms.any TMeta.bare then none else some v.lits) = o at h
        cases ho : Option.any (fun l => !l.isEmpty) o <;> rw [ho] at h <;> cases h
      · rintro ⟨-, h, -⟩
        exact (hrules.1 (h hl) rfl).elim
    · have h1 : variantRulesFix E v.ident ⟨if v.terms.any TMeta.bare then none else some v.lits, v.lits, out⟩ (some rs) la
          = (variantRules E v.ident ⟨if v.terms.any TMeta.bare then none else some v.lits, v.lits, out⟩ (some rs)
            la).mapError ErrFix.old := by
        have hc : (rs.isEmpty && !v.lits.isEmpty) = false := by
          cases hx : rs with
          | cons => rfl
          | nil =>
            cases hy : v.lits with
            | nil => rfl
            | cons => exact (hbad ⟨by simp [hy], hx⟩).elim
        unfold variantRulesFix variantRules
        generalize (if v.terms.any TMeta.bare then none else some v.lits) = o
        simp only [hc, Bool.false_eq_true, if_false]
        cases ho : Option.any (fun l => !l.isEmpty) o <;> rfl
      have h2 : v.lits ≠ [] → v.rules ≠ [] := fun hl => hrules.2 fun hx => hbad ⟨hl, hx⟩
      rw [h1, mapError_ok, h0, if_pos (.inl (lexed_some hr)), if_pos (lexed_some hr)]
      exact ⟨fun h => ⟨h.1, h2, h.2⟩, fun h => ⟨h.1, h.2.2⟩⟩
  | none =>
    simp only [variantRulesFix, reduceCtorEq, false_implies, implies_true, true_and]
    cases hb : v.terms.any TMeta.bare with
    | true =>
      have h1 : ¬ v.Lexed := by rw [lexed_none hg hr]; simp [hb]
      have h2 : v.rules = [] := by rw [rules_none hr, hb]; rfl
      rw [if_neg h1]
      cases hl : v.lits with
      | nil => simp [eq_comm (a := la)]
      | cons a l => simp [h2]
    | false =>
      have h2 : v.lits ≠ [] → v.rules ≠ [] := by
        intro h
        rw [rules_none hr, hb]
        simpa using h
      have h3 := lits_ne hg hb
      simp only [Bool.false_eq_true, if_false]
      by_cases ht : v.terms = []
      · have h1 : ¬ v.Lexed := by rw [lexed_none hg hr]; simp [ht]
        simp [h1, h3.2 ht, eq_comm (a := la)]
      · have h1 : v.Lexed := (lexed_none hg hr).2 ⟨hb, ht⟩
        have h4 : v.lits.isEmpty = false := by
          rw [Bool.eq_false_iff]
          intro h
          exact ht (h3.1 (List.isEmpty_iff.1 h))
        have h5 : v.rules = v.lits.map .token := by rw [rules_none hr, hb]; rfl
        rw [h4, if_pos h1]
        simp only [Bool.false_eq_true, if_false, Except.ok.injEq, eq_comm (a := la')]
        constructor
        · exact fun h => ⟨h2, by rw [h5]; exact h⟩
        · exact fun h => by rw [← h5]; exact h.2

/-- The effect of a variant on the vectors. -/
def stepSpecFix (tp : Bool) (i : Nat) (v : Variant) (s : VState) : VState :=
  { stepSpec tp i v s with lexAttrs := s.lexAttrs ++ (if v.Lexed then [v.rules] else []) }

theorem Variant.Sane.takeWhile {v : Variant} (h : v.Sane) :
    ((v.terms.takeWhile fun t => !t.bare).filterMap TMeta.lit).Nodup := by
  refine List.Nodup.sublist ?_ h.distinct
  unfold Variant.lits
  exact (List.takeWhile_sublist _).filterMap _

theorem variantStepFix_ok {E : Engine} {tp : Bool} {i : Nat} {v : Variant} {s s' : VState} :
    variantStepFix E tp i v s = .ok s' ↔ (v.Fine E ∧ v.Sane) ∧ s' = stepSpecFix tp i v s := by
  have hm : (v.attrs.filterMap id).flatten = v.metas := rfl
  have he : ∀ l : List Str, (if ((v.metas.findSome? VMeta.terminals?).getD []).isEmpty then l ++ [v.ident] else l) =
      l ++ (if v.terms.isEmpty then [v.ident] else []) := by
    intro l
    change (if v.terms.isEmpty then _ else _) = _
    split <;> simp
  unfold variantStepFix
  simp only [bind_ok, Prod.exists, mapError_ok]
  constructor
  · rintro ⟨ter, reg, h1, ts, h2, la, h3, h4⟩
    rw [variantAttrs_ok, variantMetas_ok, hm] at h1
    obtain ⟨hp, hk, hr, ht, h1⟩ := h1
    simp only [Option.none_or, Prod.mk.injEq] at h1
    obtain ⟨rfl, h1⟩ := h1
    change reg = v.regexes at h1
    subst h1
    rw [variantTerminalsFix_ok] at h2
    obtain ⟨hg, hb, hd, rfl⟩ := h2
    rw [variantRulesFix_ok hg hd] at h3
    obtain ⟨h3, hc, rfl⟩ := h3
    have hs : v.Sane := ⟨hd, hc⟩
    refine ⟨⟨⟨hp, hk, by simpa using hr, by simpa using ht, hg, hb, hs.takeWhile, h3⟩, hs⟩, ?_⟩
    cases h4
    simp only [final hg, he, stepSpecFix, stepSpec]
  · rintro ⟨⟨⟨hp, hk, hr, ht, hg, hb, -, h3⟩, ⟨hd, hc⟩⟩, rfl⟩
    refine ⟨v.metas.findSome? VMeta.terminals?, v.regexes, ?_, _, (variantTerminalsFix_ok ..).2 ⟨hg, hb, hd, rfl⟩,
      _, (variantRulesFix_ok hg hd ..).2 ⟨h3, hc, rfl⟩, ?_⟩
    · rw [variantAttrs_ok, variantMetas_ok, hm]
      refine ⟨hp, hk, by simpa using hr, by simpa using ht, ?_⟩
      simp only [Option.none_or]
      rfl
    · simp only [final hg, he, stepSpecFix, stepSpec, pure, Except.pure]

/-- The effect of all variants on the vectors. -/
def loopSpecFix (tp : Bool) (i : Nat) (vs : List Variant) (s : VState) : VState :=
  { loopSpec tp i vs s with lexAttrs := s.lexAttrs ++ (vs.filter fun v => v.Lexed).map Variant.rules }

theorem loopSpecFix_cons (tp : Bool) (i : Nat) (v : Variant) (vs : List Variant) (s : VState) :
    loopSpecFix tp i (v :: vs) s = loopSpecFix tp (i + 1) vs (stepSpecFix tp i v s) := by
  have h := loopSpec_cons tp i v vs s
  have h' : loopSpec tp (i + 1) vs (stepSpecFix tp i v s) =
      { loopSpec tp (i + 1) vs (stepSpec tp i v s) with
        lexAttrs := (loopSpec tp (i + 1) vs (stepSpecFix tp i v s)).lexAttrs } := rfl
  unfold loopSpecFix
  rw [h, h']
  simp only [stepSpecFix, List.filter_cons, List.append_assoc, VState.mk.injEq, true_and]
  refine ⟨?_, trivial⟩
  by_cases hl : v.Lexed <;> simp [hl]

theorem variantLoopFix_ok {E : Engine} {tp : Bool} {vs : List Variant} : ∀ {i : Nat} {s s' : VState},
    variantLoopFix E tp i vs s = .ok s' ↔ (∀ v ∈ vs, v.Fine E ∧ v.Sane) ∧ s' = loopSpecFix tp i vs s := by
  induction vs with
  | nil =>
    intro i s s'
    obtain ⟨a, b, c, d, e⟩ := s
    simp [variantLoopFix, loopSpecFix, loopSpec, eq_comm]
  | cons v vs ih =>
    intro i s s'
    simp only [variantLoopFix, bind_ok, variantStepFix_ok, ih, List.mem_cons, forall_eq_or_imp, loopSpecFix_cons]
    constructor
    · rintro ⟨_, ⟨h1, rfl⟩, h2, rfl⟩; exact ⟨⟨h1, h2⟩, rfl⟩
    · rintro ⟨⟨h1, h2⟩, rfl⟩; exact ⟨_, ⟨h1, rfl⟩, h2, rfl⟩

theorem expandFix_ok {E : Engine} {d : Decl} {L : Lexicon} :
    expandFix E d = .ok L ↔
      d.OK E ∧ ∃ vs, d.variants = some vs ∧ (∀ v ∈ vs, v.Sane) ∧ L = outSpecFix d vs := by
  have hm : (d.attrs.filterMap id).flatten = d.metas := rfl
  have hz : ∀ vs : List Variant, List.zip ((vs.filter fun v => v.Lexed).map Variant.rules)
      ((vs.filter fun v => v.Lexed).map Variant.ident) = (vs.filter fun v => v.Lexed).map fun v => (v.rules, v.ident) := by
    intro vs
    rw [List.zip_map']
  unfold expandFix
  cases hg : d.generics with
  | true =>
    simp only [if_true, reduceCtorEq, false_iff]
    rintro ⟨h, -⟩
    simp [h.generics] at hg
  | false =>
    simp only [Bool.false_eq_true, if_false, bind_ok, Prod.exists, mapError_ok, rootAttributes_ok, checkIgnores_ok,
      checkUnits_ok, reprBits_ok, variantLoopFix_ok, hm]
    constructor
    · rintro ⟨_, _, ⟨h1, h2, h3, h4, rfl, rfl⟩, vs, h5, -, h6, -, h7, _, ⟨h8, h9, rfl⟩, _, ⟨h10, rfl⟩, h11⟩
      cases hv : d.variants with
      | none => simp [hv] at h5
      | some vs' =>
        simp only [hv, Option.elim_some, Except.ok.injEq] at h5
        subst h5
        refine ⟨⟨hg, h1, h2, h3, h4, h6, vs', hv, h8, h9, fun v h => ok_iff_fine.2 ⟨h7 v h, (h10 v h).1⟩⟩,
          vs', rfl, fun v h => (h10 v h).2, ?_⟩
        cases h11
        simp [loopSpecFix, loopSpec, outSpecFix, outSpec, Decl.terminalParse, Decl.ignores, hz]
    · rintro ⟨⟨-, h1, h2, h3, h4, h6, vs, hv, h8, h9, h10⟩, vs', h, hsane, rfl⟩
      cases hv.symm.trans h
      refine ⟨_, _, ⟨h1, h2, h3, h4, rfl, rfl⟩, vs, by simp [hv], (), h6, (),
        fun v h => (ok_iff_fine.1 (h10 v h)).1, _, ⟨h8, h9, rfl⟩, _,
        ⟨fun v h => ⟨(ok_iff_fine.1 (h10 v h)).2, hsane v h⟩, rfl⟩, ?_⟩
      simp [loopSpecFix, loopSpec, outSpecFix, outSpec, Decl.terminalParse, Decl.ignores, pure, Except.pure, hz]

end Teleparse.Macro
