import Verif.Proof.Measure
/-
The FIRST loop terminates.
-/
set_option linter.unusedSectionVars false
namespace Teleparse
variable {I : Type} {n : Nat} [DecidableEq I]

/-- The entry a relation writes to. -/
def FirstRel.target : FirstRel I n → I
  | .insert t _ => t
  | .unionMinusEpsilon a _ => a
  | .ifEpsilonInAll _ r => r.target

/-- The literals a relation can insert come from `Ls`. -/
def FirstRel.LitsIn (Ls : List Str) : FirstRel I n → Prop
  | .insert _ (.token _ lit) => ∀ l, lit = some l → l ∈ Ls
  | .insert _ .epsilon => True
  | .unionMinusEpsilon _ _ => True
  | .ifEpsilonInAll _ r => r.LitsIn Ls

theorem FirstRel.process_term (Ls : List Str) (r : FirstRel I n) : ∀ (tbl : Tbl I n),
    r.LitsIn Ls → tbl.Within Ls →
    (r.process tbl).tbl.Within Ls ∧ (r.process tbl).rel.LitsIn Ls ∧
    (r.process tbl).rel.target = r.target ∧
    ((r.process tbl).changed = true →
      ∃ x, (r.process tbl).tbl.den r.target x ∧ ¬ tbl.den r.target x) := by
  induction r with
  | insert t ins =>
    intro tbl hl hw
    simp only [FirstRel.process]
    refine ⟨Tbl.within_aset hw t ?_, hl, trivial, ?_⟩
    · cases ins with
      | epsilon => exact hw t
      | token ty lit => exact TSet.within_insert (hw t) ty lit hl
    · intro hc
      cases ins with
      | epsilon =>
        refine ⟨none, ?_, ?_⟩
        · unfold Tbl.den; rw [Tbl.get_aset]
          simp [FirstRel.target, FirstInsert.apply, TSet.insertE, TSet.contains]
        · simpa [FirstInsert.apply, TSet.insertE, Tbl.den, TSet.contains, FirstRel.target] using hc
      | token ty lit =>
        obtain ⟨tok, h1, h2⟩ := (TSet.insert_changed _ _ _).1 hc
        refine ⟨some tok, ?_, h2⟩
        unfold Tbl.den; rw [Tbl.get_aset]
        simp only [FirstRel.target, if_true]
        exact (TSet.mem_insert _ _ _ _).2 (.inr h1)
  | unionMinusEpsilon a b =>
    intro tbl hl hw
    simp only [FirstRel.process]
    refine ⟨Tbl.within_aset hw a (Tbl.within_unionInto hw a b false), hl, trivial, ?_⟩
    intro hc
    simp only [FirstRel.target]
    have : ∃ tok, TSet.Mem tok (tbl.unionInto a b false).1 ∧ ¬ TSet.Mem tok (tbl.get a) := by
      unfold Tbl.unionInto at hc ⊢
      split at hc
      · rename_i s hs
        rcases (TSet.union_changed _ _ _).1 hc with ⟨tok, h1, h2⟩ | ⟨h1, _⟩
        · exact ⟨tok, (TSet.mem_union _ _ _ _).2 (.inr h1), h2⟩
        · cases h1
      · cases hc
    obtain ⟨tok, h1, h2⟩ := this
    refine ⟨some tok, ?_, h2⟩
    unfold Tbl.den; rw [Tbl.get_aset]; simp only [if_true]; exact h1
  | ifEpsilonInAll set inner ih =>
    intro tbl hl hw
    simp only [FirstRel.process]
    split
    · exact ih tbl hl hw
    · exact ⟨hw, hl, rfl, by intro h; cases h⟩

theorem firstPass_term (Ls : List Str) (Is : List I) (rs : List (FirstRel I n)) : ∀ (tbl : Tbl I n),
    (∀ r ∈ rs, r.LitsIn Ls ∧ r.target ∈ Is) → tbl.Within Ls →
    (firstPass rs tbl).2.1.Within Ls ∧
    (∀ r ∈ (firstPass rs tbl).1, r.LitsIn Ls ∧ r.target ∈ Is) ∧
    ((firstPass rs tbl).2.2 = true → (firstPass rs tbl).2.1.room Ls Is < tbl.room Ls Is) := by
  induction rs with
  | nil => intro tbl _ hw; simp [firstPass, hw]
  | cons r rs ih =>
    intro tbl hr hw
    obtain ⟨t1, t2, t3, t4⟩ := r.process_term Ls tbl (hr r (by simp)).1 hw
    have hm := (r.process_good tbl).mono
    simp only [firstPass]
    generalize r.process tbl = s at t1 t2 t3 t4 hm ⊢
    obtain ⟨p1, p2, p3⟩ := ih s.tbl (fun r' h => hr r' (by simp [h])) t1
    have pm := (firstPass_good rs s.tbl).mono
    generalize firstPass rs s.tbl = p at p1 p2 p3 pm ⊢
    refine ⟨p1, ?_, ?_⟩
    · intro r' hr'
      split at hr'
      · rcases List.mem_cons.1 hr' with rfl | hr'
        · exact ⟨t2, by rw [t3]; exact (hr r (by simp)).2⟩
        · exact p2 r' hr'
      · exact p2 r' hr'
    · intro hc
      have l1 := Tbl.room_le (Ls := Ls) (Is := Is) hm
      have l2 := Tbl.room_le (Ls := Ls) (Is := Is) pm
      simp only [Bool.or_eq_true] at hc
      rcases hc with hc | hc
      · obtain ⟨x, h1, h2⟩ := t4 hc
        have := Tbl.room_lt (Is := Is) t1 hm (hr r (by simp)).2 h1 h2
        omega
      · have := p3 hc
        omega

/-- The loop returns as soon as the fuel exceeds the room left in the table. -/
theorem firstLoop_total (Ls : List Str) (Is : List I) (fuel : Nat) :
    ∀ (rs : List (FirstRel I n)) (tbl : Tbl I n),
    (∀ r ∈ rs, r.LitsIn Ls ∧ r.target ∈ Is) → tbl.Within Ls → tbl.room Ls Is < fuel →
    ∃ res, firstLoop fuel rs tbl = some res := by
  induction fuel with
  | zero => intro rs tbl _ _ h; omega
  | succ fuel ih =>
    intro rs tbl hr hw hlt
    obtain ⟨h1, h2, h3⟩ := firstPass_term Ls Is rs tbl hr hw
    simp only [firstLoop]
    split
    · rename_i hc
      exact ih _ _ h2 h1 (by have := h3 hc; omega)
    · exact ⟨_, rfl⟩

theorem firstLoop_mono (fuel : Nat) : ∀ (rs : List (FirstRel I n)) (tbl res : Tbl I n),
    firstLoop fuel rs tbl = some res → ∀ fuel', fuel ≤ fuel' → firstLoop fuel' rs tbl = some res := by
  induction fuel with
  | zero => intro rs tbl res h; cases h
  | succ fuel ih =>
    intro rs tbl res h fuel' hle
    obtain ⟨f, rfl⟩ : ∃ f, fuel' = f + 1 := ⟨fuel' - 1, by omega⟩
    simp only [firstLoop] at h ⊢
    split
    · rename_i hc; rw [if_pos hc] at h; exact ih _ _ _ h f (by omega)
    · rename_i hc; rw [if_neg hc] at h; exact h

/-- The literals written in a grammar. -/
def Grammar.lits (G : Grammar I n) : List Str :=
  G.flatMap fun p => match p.2 with
    | .term ⟨_, some l⟩ => [l]
    | _ => []

theorem FirstRel.target_mkIf (set : List I) (r : FirstRel I n) : (FirstRel.mkIf set r).target = r.target := by
  unfold FirstRel.mkIf; split <;> rfl
theorem FirstRel.litsIn_mkIf (Ls : List Str) (set : List I) (r : FirstRel I n) (h : r.LitsIn Ls) :
    (FirstRel.mkIf set r).LitsIn Ls := by
  unfold FirstRel.mkIf; split <;> exact h

theorem firstSequenceFrom_targets (Ls : List Str) (x : I) (l : List I) : ∀ set,
    ∀ r ∈ firstSequenceFrom (n := n) x set l, r.LitsIn Ls ∧ r.target = x := by
  induction l with
  | nil =>
    intro set r hr
    simp [firstSequenceFrom] at hr
    subst hr
    exact ⟨FirstRel.litsIn_mkIf _ _ _ trivial, FirstRel.target_mkIf _ _⟩
  | cons y l ih =>
    intro set r hr
    simp only [firstSequenceFrom, List.mem_cons] at hr
    rcases hr with rfl | hr
    · exact ⟨FirstRel.litsIn_mkIf _ _ _ trivial, FirstRel.target_mkIf _ _⟩
    · exact ih _ r hr

theorem firstRels_targets (G : Grammar I n) : ∀ r ∈ G.flatMap (fun p => firstRels p.1 p.2),
    r.LitsIn G.lits ∧ r.target ∈ G.map Prod.fst := by
  intro r hr
  obtain ⟨⟨x, rule⟩, hp, hr⟩ := List.mem_flatMap.1 hr
  have hx : x ∈ G.map Prod.fst := List.mem_map.2 ⟨_, hp, rfl⟩
  cases rule with
  | eps => simp [firstRels] at hr; subst hr; exact ⟨trivial, hx⟩
  | term t =>
    simp [firstRels] at hr; subst hr
    refine ⟨?_, hx⟩
    intro l hl
    refine List.mem_flatMap.2 ⟨_, hp, ?_⟩
    obtain ⟨ty, lit⟩ := t
    simp only at hl
    subst hl; simp
  | seq l =>
    have := firstSequenceFrom_targets G.lits x l [] r hr
    exact ⟨this.1, by rw [this.2]; exact hx⟩
  | alt l =>
    simp only [firstRels, firstUnion, List.mem_flatMap] at hr
    obtain ⟨y, hy, hr⟩ := hr
    simp only [List.mem_cons, List.not_mem_nil, or_false] at hr
    rcases hr with rfl | rfl
    · exact ⟨trivial, hx⟩
    · exact ⟨FirstRel.litsIn_mkIf _ _ _ trivial, by rw [FirstRel.target_mkIf]; exact hx⟩

theorem Tbl.within_nil (Ls : List Str) : Tbl.Within Ls ([] : Tbl I n) := by
  intro i; exact TSet.within_empty Ls

theorem buildFirst_total (G : Grammar I n) :
    ∃ fuel, ∀ fuel' ≥ fuel, ∃ first, buildFirst fuel' G = some first := by
  refine ⟨Tbl.room G.lits (G.map Prod.fst) ([] : Tbl I n) + 1, fun fuel' h => ?_⟩
  exact firstLoop_total G.lits (G.map Prod.fst) fuel' _ _ (firstRels_targets G) (Tbl.within_nil _)
    (by omega)

theorem buildFirst_mono {G : Grammar I n} {fuel : Nat} {first : Tbl I n}
    (h : buildFirst fuel G = some first) {fuel' : Nat} (hle : fuel ≤ fuel') :
    buildFirst fuel' G = some first := firstLoop_mono fuel _ _ _ h fuel' hle

theorem firstLoop_within (Ls : List Str) (Is : List I) (fuel : Nat) :
    ∀ (rs : List (FirstRel I n)) (tbl res : Tbl I n),
    (∀ r ∈ rs, r.LitsIn Ls ∧ r.target ∈ Is) → tbl.Within Ls → firstLoop fuel rs tbl = some res →
    res.Within Ls := by
  induction fuel with
  | zero => intro rs tbl res _ _ h; cases h
  | succ fuel ih =>
    intro rs tbl res hr hw h
    obtain ⟨h1, h2, h3⟩ := firstPass_term Ls Is rs tbl hr hw
    simp only [firstLoop] at h
    split at h
    · exact ih _ _ _ h2 h1 h
    · cases h; exact h1

theorem buildFirst_within {G : Grammar I n} {fuel : Nat} {first : Tbl I n}
    (h : buildFirst fuel G = some first) : first.Within G.lits :=
  firstLoop_within G.lits (G.map Prod.fst) fuel _ _ _ (firstRels_targets G) (Tbl.within_nil _) h

end Teleparse
