import Verif.Model.First
import Verif.Proof.Sets
import Verif.Proof.Grammar
/-
The FIRST builder computes the least solution of its relations; its loop terminates.
-/
namespace Teleparse
variable {I : Type} {n : Nat} [DecidableEq I]

/-! ### Association lists -/

theorem aget?_aset {V : Type} (m : List (I × V)) (i j : I) (v : V) :
    aget? (aset m i v) j = if j = i then some v else aget? m j := by
  induction m with
  | nil =>
    simp only [aset, aget?]
    by_cases h : i = j
    · simp [h]
    · simp [h, Ne.symm h]
  | cons p m ih =>
    obtain ⟨k, w⟩ := p
    by_cases h : k = i
    · subst h
      by_cases h2 : k = j
      · subst h2; simp [aset, aget?]
      · simp [aset, aget?, h2, Ne.symm h2]
    · by_cases h2 : k = j
      · subst h2; simp [aset, aget?, h]
      · simp [aset, aget?, h, h2, ih]

theorem mem_of_aget? {V : Type} {m : List (I × V)} {i : I} {v : V} (h : aget? m i = some v) :
    (i, v) ∈ m := by
  induction m with
  | nil => cases h
  | cons p m ih =>
    obtain ⟨k, w⟩ := p
    simp only [aget?] at h
    split at h
    · rename_i hk; cases h; subst hk; simp
    · simp [ih h]

theorem aget?_of_mem {V : Type} {m : List (I × V)} (hn : (m.map Prod.fst).Nodup) {i : I} {v : V}
    (h : (i, v) ∈ m) : aget? m i = some v := by
  induction m with
  | nil => cases h
  | cons p m ih =>
    obtain ⟨k, w⟩ := p
    simp only [List.map_cons, List.nodup_cons] at hn
    rcases List.mem_cons.1 h with h | h
    · cases h; simp [aget?]
    · have : k ≠ i := by
        intro hk; subst hk
        exact hn.1 (List.mem_map.2 ⟨(k, v), h, rfl⟩)
      simp [aget?, this, ih hn.2 h]

theorem aget?_eq_none {V : Type} {m : List (I × V)} {i : I} :
    aget? m i = none ↔ i ∉ m.map Prod.fst := by
  induction m with
  | nil => simp [aget?]
  | cons p m ih =>
    obtain ⟨k, w⟩ := p
    simp only [aget?, List.map_cons, List.mem_cons]
    by_cases h : k = i
    · simp [h]
    · simp [h, Ne.symm h, ih]

theorem Tbl.get_aset (t : Tbl I n) (i j : I) (s : TSet n) :
    Tbl.get (aset t i s) j = if j = i then s else t.get j := by
  unfold Tbl.get; rw [aget?_aset]; split <;> rfl

theorem Tbl.get_none {t : Tbl I n} {i : I} (h : aget? t i = none) : t.get i = TSet.empty := by
  simp [Tbl.get, h]

theorem Tbl.get_some {t : Tbl I n} {i : I} {s : TSet n} (h : aget? t i = some s) : t.get i = s := by
  simp [Tbl.get, h]

/-! ### Relations and their solutions -/

/-- The members of the sets of a table; `none` is epsilon (or end of input). -/
def Tbl.den (t : Tbl I n) (i : I) (x : Option (TokenSrc n)) : Prop := (t.get i).contains x = true

theorem Tbl.den_some (t : Tbl I n) (i : I) (tok : TokenSrc n) :
    t.den i (some tok) ↔ TSet.Mem tok (t.get i) := Iff.rfl
theorem Tbl.den_none (t : Tbl I n) (i : I) : t.den i none ↔ (t.get i).e = true := Iff.rfl

/-- A family of sets. -/
abbrev Fam (I : Type) (n : Nat) := I → Option (TokenSrc n) → Prop

/-- Pointwise inclusion. -/
def Fam.le (P Q : Fam I n) : Prop := ∀ i x, P i x → Q i x

def FirstInsert.In : FirstInsert n → Option (TokenSrc n) → Prop
  | .token ty lit, some tok => (Terminal.mk ty lit).Matches tok
  | .epsilon, none => True
  | _, _ => False

/-- `P` satisfies the relation. -/
def FirstRel.Sat (P : Fam I n) : FirstRel I n → Prop
  | .insert t ins => ∀ x, ins.In x → P t x
  | .unionMinusEpsilon a b => ∀ tok, P b (some tok) → P a (some tok)
  | .ifEpsilonInAll set inner => (∀ i ∈ set, P i none) → inner.Sat P

theorem Tbl.den_empty (i : I) (x : Option (TokenSrc n)) : ¬ Tbl.den ([] : Tbl I n) i x := by
  cases x with
  | none => simp [Tbl.den, Tbl.get, aget?, TSet.contains]
  | some tok => exact TSet.mem_empty tok

omit [DecidableEq I] in
theorem FirstRel.sat_mkIf (P : Fam I n) (set : List I) (r : FirstRel I n) :
    (FirstRel.mkIf set r).Sat P ↔ ((∀ i ∈ set, P i none) → r.Sat P) := by
  unfold FirstRel.mkIf
  cases set with
  | nil => simp
  | cons a l => simp [FirstRel.Sat]

/-- What an insertion does to the set. -/
theorem insert_den (s : TSet n) (ins : FirstInsert n) (x : Option (TokenSrc n)) :
    ((ins.apply s).1.contains x = true) ↔
      (s.contains x = true ∨ ins.In x) := by
  cases ins with
  | epsilon => cases x <;> simp [FirstInsert.apply, FirstInsert.In, TSet.contains, TSet.insertE]
  | token ty lit =>
    cases x with
    | none =>
      have : ((FirstInsert.token ty lit).apply s).1.contains none = s.contains none :=
        TSet.insert_e s ty lit
      rw [this]; simp [FirstInsert.In]
    | some tok => exact TSet.mem_insert s ty lit tok

theorem insert_unchanged_eq (s : TSet n) (ty : Fin n) (lit : Option Str)
    (h : (s.insert ty lit).2 = false) : (s.insert ty lit).1 = s := by
  have hset : ∀ (m : Map n LitSet) (t : Fin n) (v : LitSet), m.get t = v → m.set t v = m := by
    intro m t v hv
    apply Map.ext_get
    intro t'
    rw [Map.get_set]
    split
    · rename_i h; subst h; exact hv.symm
    · rfl
  obtain ⟨m, e⟩ := s
  cases lit with
  | some l =>
    simp only [TSet.insert] at h ⊢
    congr 1
    apply hset
    cases hm : m.get ty with
    | any => rfl
    | mat a =>
      rw [hm] at h
      simp only [LitSet.insert] at h ⊢
      unfold bsetInsert at h ⊢
      split
      · rfl
      · rename_i hn; simp [hn] at h
  | none =>
    simp only [TSet.insert] at h ⊢
    congr 1
    apply hset
    cases hm : m.get ty with
    | any => rfl
    | mat a => rw [hm] at h; simp [LitSet.unionUniverse] at h

theorem insertIns_unchanged_eq (s : TSet n) (ins : FirstInsert n)
    (h : (ins.apply s).2 = false) :
    (ins.apply s).1 = s := by
  cases ins with
  | epsilon =>
    obtain ⟨m, e⟩ := s
    simp only [FirstInsert.apply, TSet.insertE] at h ⊢
    cases e <;> simp_all
  | token ty lit => exact insert_unchanged_eq s ty lit h

theorem unionInto_spec (tbl : Tbl I n) (a b : I) (incl : Bool) :
    (∀ tok, TSet.Mem tok (tbl.unionInto a b incl).1 ↔
      TSet.Mem tok (tbl.get a) ∨ TSet.Mem tok (tbl.get b)) ∧
    (tbl.unionInto a b incl).1.e = ((tbl.get a).e || (incl && (tbl.get b).e)) ∧
    ((tbl.unionInto a b incl).2 = false → (tbl.unionInto a b incl).1 = tbl.get a) := by
  unfold Tbl.unionInto
  by_cases hab : b = a
  · subst hab
    refine ⟨by simp, ?_, by simp⟩
    simp only [if_true]
    cases incl <;> cases (tbl.get b).e <;> rfl
  · simp only [hab, if_false]
    cases hb : aget? tbl b with
    | none => rw [Tbl.get_none hb]; simp [TSet.mem_empty]
    | some s =>
      rw [Tbl.get_some hb]
      exact ⟨TSet.mem_union _ _ _, TSet.union_e _ _ _, TSet.union_unchanged_eq _ _ _⟩

theorem lacksEpsilon_iff (tbl : Tbl I n) (t : I) : tbl.lacksEpsilon t = true ↔ ¬ tbl.den t none := by
  unfold Tbl.lacksEpsilon
  cases h : aget? tbl t with
  | none => simp [Tbl.den, Tbl.get_none h, TSet.contains]
  | some s => simp [Tbl.den, Tbl.get_some h, TSet.contains, TSet.containsE]

/-- One relation processed. -/
structure FirstStep.Good (r : FirstRel I n) (tbl : Tbl I n) (s : FirstStep I n) : Prop where
  mono : Fam.le tbl.den s.tbl.den
  sound : ∀ P : Fam I n, Fam.le tbl.den P → r.Sat P → Fam.le s.tbl.den P ∧ s.rel.Sat P
  complete : ∀ P : Fam I n, Fam.le s.tbl.den P → (s.retain = true → s.rel.Sat P) → r.Sat P
  stable : s.changed = false → (∀ i, s.tbl.get i = tbl.get i) ∧ s.rel.Sat s.tbl.den

theorem FirstRel.process_good (r : FirstRel I n) : ∀ tbl, FirstStep.Good r tbl (r.process tbl) := by
  induction r with
  | insert t ins =>
    intro tbl
    have hins := insert_den (tbl.get t) ins
    have hun := insertIns_unchanged_eq (tbl.get t) ins
    revert hins hun
    simp only [FirstRel.process]
    generalize ins.apply (tbl.get t) = r
    intro hins hun
    have hden : ∀ i x, Tbl.den (aset tbl t r.1) i x ↔ (tbl.den i x ∨ (i = t ∧ ins.In x)) := by
      intro i x
      unfold Tbl.den
      rw [Tbl.get_aset]
      by_cases h : i = t
      · subst h; simp [hins]
      · simp [h]
    constructor
    · intro i x h; exact (hden i x).2 (.inl h)
    · intro P h1 h2
      refine ⟨?_, h2⟩
      intro i x h
      rcases (hden i x).1 h with h | ⟨rfl, h'⟩
      · exact h1 i x h
      · exact h2 x h'
    · intro P h1 _ x hx
      exact h1 t x ((hden t x).2 (.inr ⟨rfl, hx⟩))
    · intro h
      refine ⟨fun i => ?_, ?_⟩
      · rw [Tbl.get_aset]
        split
        · rename_i hi; subst hi; exact hun h
        · rfl
      · intro x hx; exact (hden t x).2 (.inr ⟨rfl, hx⟩)
  | unionMinusEpsilon a b =>
    intro tbl
    simp only [FirstRel.process]
    obtain ⟨hmem, he, hun⟩ := unionInto_spec tbl a b false
    simp only [Bool.false_and, Bool.or_false] at he
    generalize tbl.unionInto a b false = r at hmem he hun ⊢
    have hden : ∀ i x, Tbl.den (aset tbl a r.1) i x ↔
        (tbl.den i x ∨ (i = a ∧ ∃ tok, x = some tok ∧ tbl.den b (some tok))) := by
      intro i x
      by_cases h : i = a
      · subst h
        cases x with
        | none => unfold Tbl.den; rw [Tbl.get_aset]; simp [TSet.contains, he]
        | some tok =>
          have := hmem tok
          simp only [Tbl.den, Tbl.get_aset, if_true]
          simpa [TSet.Mem] using this
      · unfold Tbl.den; rw [Tbl.get_aset]; simp [h]
    constructor
    · intro i x h; exact (hden i x).2 (.inl h)
    · intro P h1 h2
      refine ⟨?_, h2⟩
      intro i x h
      rcases (hden i x).1 h with h | ⟨rfl, tok, rfl, h'⟩
      · exact h1 i x h
      · exact h2 tok (h1 _ _ h')
    · intro P h1 h2; exact h2 rfl
    · intro h
      have hget : ∀ i, Tbl.get (aset tbl a r.1) i = tbl.get i := by
        intro i
        rw [Tbl.get_aset]
        split
        · rename_i hi; subst hi; exact hun h
        · rfl
      refine ⟨hget, ?_⟩
      intro tok hb
      refine (hden a (some tok)).2 (.inr ⟨rfl, tok, rfl, ?_⟩)
      simpa [Tbl.den, hget] using hb
  | ifEpsilonInAll set inner ih =>
    intro tbl
    simp only [FirstRel.process]
    have hmem : ∀ t, t ∈ set.filter tbl.lacksEpsilon ↔ (t ∈ set ∧ ¬ tbl.den t none) := by
      intro t; rw [List.mem_filter, lacksEpsilon_iff]
    revert hmem
    generalize set.filter tbl.lacksEpsilon = set'
    intro hmem
    by_cases he : set'.isEmpty = true
    · rw [if_pos he]
      have hall : ∀ t ∈ set, tbl.den t none := by
        intro t ht
        apply Classical.byContradiction
        intro hn
        have := (hmem t).2 ⟨ht, hn⟩
        rw [List.isEmpty_iff.1 he] at this
        cases this
      have g := ih tbl
      constructor
      · exact g.mono
      · intro P h1 h2
        exact g.sound P h1 (h2 (fun i hi => h1 _ _ (hall i hi)))
      · intro P h1 h2 _
        exact g.complete P h1 h2
      · exact g.stable
    · rw [if_neg he]
      constructor
      · intro i x h; exact h
      · intro P h1 h2
        refine ⟨h1, ?_⟩
        intro h3
        apply h2
        intro i hi
        by_cases hd : tbl.den i none
        · exact h1 _ _ hd
        · exact h3 i ((hmem i).2 ⟨hi, hd⟩)
      · intro P h1 h2 h3
        exact h2 rfl (fun i hi => h3 i ((hmem i).1 hi).1)
      · intro _
        refine ⟨fun _ => rfl, ?_⟩
        intro h
        exfalso
        obtain ⟨t, ht⟩ : ∃ t, t ∈ set' := by
          cases set' with
          | nil => simp at he
          | cons a l => exact ⟨a, by simp⟩
        exact ((hmem t).1 ht).2 (h t ht)

/-- One pass over the relations. -/
structure FirstPassGood (rs : List (FirstRel I n)) (tbl : Tbl I n)
    (p : List (FirstRel I n) × Tbl I n × Bool) : Prop where
  mono : Fam.le tbl.den p.2.1.den
  sound : ∀ P : Fam I n, Fam.le tbl.den P → (∀ r ∈ rs, r.Sat P) →
    Fam.le p.2.1.den P ∧ ∀ r ∈ p.1, r.Sat P
  complete : ∀ P : Fam I n, Fam.le p.2.1.den P → (∀ r ∈ p.1, r.Sat P) → ∀ r ∈ rs, r.Sat P
  stable : p.2.2 = false → (∀ i, p.2.1.get i = tbl.get i) ∧ ∀ r ∈ p.1, r.Sat p.2.1.den

theorem firstPass_good (rs : List (FirstRel I n)) :
    ∀ tbl, FirstPassGood rs tbl (firstPass rs tbl) := by
  induction rs with
  | nil =>
    intro tbl
    constructor
    · intro i x h; exact h
    · intro P h _; exact ⟨h, by intro r hr; cases hr⟩
    · intro P _ _ r hr; cases hr
    · intro _; exact ⟨fun _ => rfl, by intro r hr; cases hr⟩
  | cons r rs ih =>
    intro tbl
    have g := r.process_good tbl
    simp only [firstPass]
    generalize r.process tbl = s at g ⊢
    have gp := ih s.tbl
    generalize firstPass rs s.tbl = p at gp ⊢
    constructor
    · intro i x h; exact gp.mono _ _ (g.mono _ _ h)
    · intro P h1 h2
      have h3 := g.sound P h1 (h2 r (by simp))
      have h4 := gp.sound P h3.1 (fun r hr => h2 r (by simp [hr]))
      refine ⟨h4.1, ?_⟩
      intro r' hr'
      simp only at hr'
      split at hr'
      · rcases List.mem_cons.1 hr' with rfl | hr'
        · exact h3.2
        · exact h4.2 r' hr'
      · exact h4.2 r' hr'
    · intro P h1 h2 r' hr'
      simp only at h1 h2
      have h3 : ∀ r ∈ p.1, r.Sat P := by
        intro r hr
        apply h2
        split
        · simp [hr]
        · exact hr
      rcases List.mem_cons.1 hr' with rfl | hr'
      · refine g.complete P (fun i x h => h1 i x (gp.mono _ _ h)) ?_
        intro hre
        apply h2
        simp [hre]
      · exact gp.complete P h1 h3 r' hr'
    · intro h
      simp only [Bool.or_eq_false_iff] at h
      have h1 := g.stable h.1
      have h2 := gp.stable h.2
      refine ⟨fun i => by rw [h2.1, h1.1], ?_⟩
      intro r' hr'
      simp only at hr'
      have hden : p.2.1.den = s.tbl.den := by
        funext i x; simp only [Tbl.den, h2.1]
      split at hr'
      · rcases List.mem_cons.1 hr' with rfl | hr'
        · simp only; rw [hden]; exact h1.2
        · exact h2.2 r' hr'
      · exact h2.2 r' hr'

/-- The loop returns the least family above the starting table that satisfies all relations. -/
theorem firstLoop_least (fuel : Nat) : ∀ (rs : List (FirstRel I n)) (tbl res : Tbl I n),
    firstLoop fuel rs tbl = some res →
    Fam.le tbl.den res.den ∧ (∀ r ∈ rs, r.Sat res.den) ∧
    ∀ P : Fam I n, Fam.le tbl.den P → (∀ r ∈ rs, r.Sat P) → Fam.le res.den P := by
  induction fuel with
  | zero => intro rs tbl res h; cases h
  | succ fuel ih =>
    intro rs tbl res h
    have g := firstPass_good rs tbl
    simp only [firstLoop] at h
    generalize firstPass rs tbl = p at g h
    split at h
    · obtain ⟨h1, h2, h3⟩ := ih _ _ _ h
      refine ⟨fun i x hx => h1 _ _ (g.mono _ _ hx), ?_, ?_⟩
      · exact g.complete _ h1 h2
      · intro P hP hS
        have := g.sound P hP hS
        exact h3 P this.1 this.2
    · rename_i hc
      cases h
      have hst := g.stable (by simpa using hc)
      refine ⟨g.mono, g.complete _ (fun _ _ h => h) hst.2, ?_⟩
      intro P hP hS
      exact (g.sound P hP hS).1

end Teleparse
