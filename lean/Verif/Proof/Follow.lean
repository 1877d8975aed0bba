import Verif.Model.Follow
import Verif.Proof.FirstExact
import Verif.Proof.FirstTerm
/-
The FOLLOW builder computes the least solution of its relations, its loop terminates, and the least
solution is compared with the textbook FOLLOW.
-/
set_option linter.unusedSectionVars false
namespace Teleparse
variable {I : Type} {n : Nat} [DecidableEq I]

/-- `P` satisfies the relation, `F` being FIRST. -/
def FollowRel.Sat (F P : Fam I n) : FollowRel I → Prop
  | .unionFirstMinusEpsilon a b => ∀ tok, F b (some tok) → P a (some tok)
  | .unionFollow a b => ∀ o, P b o → P a o
  | .ifEpsilonInAllFirst set inner => (∀ i ∈ set, F i none) → inner.Sat F P

theorem FollowRel.sat_mkIf (F P : Fam I n) (set : List I) (r : FollowRel I) :
    (FollowRel.mkIf set r).Sat F P ↔ ((∀ i ∈ set, F i none) → r.Sat F P) := by
  unfold FollowRel.mkIf
  cases set with
  | nil => simp
  | cons a l => simp [FollowRel.Sat]

/-- One relation processed. -/
structure FollowStepGood (first : Tbl I n) (r : FollowRel I) (tbl : Tbl I n)
    (s : FollowRel I × Tbl I n × Bool) : Prop where
  mono : Fam.le tbl.den s.2.1.den
  sound : ∀ P : Fam I n, Fam.le tbl.den P → r.Sat first.den P → Fam.le s.2.1.den P
  same : ∀ P : Fam I n, s.1.Sat first.den P ↔ r.Sat first.den P
  stable : s.2.2 = false → (∀ i, s.2.1.get i = tbl.get i) ∧ s.1.Sat first.den s.2.1.den

theorem FollowRel.process_good (first : Tbl I n) (r : FollowRel I) :
    ∀ tbl, FollowStepGood first r tbl (r.process first tbl) := by
  induction r with
  | unionFirstMinusEpsilon a b =>
    intro tbl
    simp only [FollowRel.process]
    have hmem := TSet.mem_union (tbl.get a) (first.get b) false
    have he := TSet.union_e (tbl.get a) (first.get b) false
    have hun := TSet.union_unchanged_eq (tbl.get a) (first.get b) false
    simp only [Bool.false_and, Bool.or_false] at he
    generalize (tbl.get a).union (first.get b) false = r at hmem he hun ⊢
    have hden : ∀ i x, Tbl.den (aset tbl a r.1) i x ↔
        (tbl.den i x ∨ (i = a ∧ ∃ tok, x = some tok ∧ first.den b (some tok))) := by
      intro i x
      by_cases h : i = a
      · subst h
        cases x with
        | none => unfold Tbl.den; rw [Tbl.get_aset]; simp [TSet.contains, he]
        | some tok =>
          have := hmem tok
          simp only [Tbl.den, Tbl.get_aset, if_true]
          simpa [TSet.Mem] using this
      · unfold Tbl.den; rw [Tbl.get_aset]; simp [h]
    constructor
    · intro i x h; exact (hden i x).2 (.inl h)
    · intro P h1 h2 i x h
      rcases (hden i x).1 h with h' | ⟨rfl, tok, rfl, h'⟩
      · exact h1 i x h'
      · exact h2 tok h'
    · intro P; rfl
    · intro h
      refine ⟨fun i => ?_, ?_⟩
      · rw [Tbl.get_aset]
        split
        · rename_i hi; subst hi; exact hun h
        · rfl
      · intro tok hb
        exact (hden a (some tok)).2 (.inr ⟨rfl, tok, rfl, hb⟩)
  | unionFollow a b =>
    intro tbl
    simp only [FollowRel.process]
    obtain ⟨hmem, he, hun⟩ := unionInto_spec tbl a b true
    simp only [Bool.true_and] at he
    generalize tbl.unionInto a b true = r at hmem he hun ⊢
    have hden : ∀ i x, Tbl.den (aset tbl a r.1) i x ↔ (tbl.den i x ∨ (i = a ∧ tbl.den b x)) := by
      intro i x
      by_cases h : i = a
      · subst h
        cases x with
        | none => unfold Tbl.den; rw [Tbl.get_aset]; simp [TSet.contains, he]
        | some tok =>
          have := hmem tok
          simp only [Tbl.den, Tbl.get_aset, if_true]
          simpa [TSet.Mem] using this
      · unfold Tbl.den; rw [Tbl.get_aset]; simp [h]
    constructor
    · intro i x h; exact (hden i x).2 (.inl h)
    · intro P h1 h2 i x h
      rcases (hden i x).1 h with h' | ⟨rfl, h'⟩
      · exact h1 i x h'
      · exact h2 x (h1 _ _ h')
    · intro P; rfl
    · intro h
      have hget : ∀ i, Tbl.get (aset tbl a r.1) i = tbl.get i := by
        intro i
        rw [Tbl.get_aset]
        split
        · rename_i hi; subst hi; exact hun h
        · rfl
      refine ⟨hget, ?_⟩
      intro o hb
      refine (hden a o).2 (.inr ⟨rfl, ?_⟩)
      simpa [Tbl.den, hget] using hb
  | ifEpsilonInAllFirst set inner ih =>
    intro tbl
    simp only [FollowRel.process]
    have hmem : ∀ t, t ∈ (set.filter fun t => !(first.get t).containsE) ↔
        (t ∈ set ∧ ¬ first.den t none) := by
      intro t; rw [List.mem_filter]
      simp [Tbl.den, TSet.contains, TSet.containsE]
    generalize (set.filter fun t => !(first.get t).containsE) = set' at hmem ⊢
    have hiff : (∀ i ∈ set', first.den i none) ↔ (∀ i ∈ set, first.den i none) := by
      constructor
      · intro h i hi
        apply Classical.byContradiction
        intro hn
        exact hn (h i ((hmem i).2 ⟨hi, hn⟩))
      · intro h i hi; exact h i ((hmem i).1 hi).1
    by_cases he : set'.isEmpty = true
    · rw [if_pos he]
      have hall : ∀ t ∈ set, first.den t none := by
        rw [← hiff, List.isEmpty_iff.1 he]; simp
      have g := ih tbl
      constructor
      · exact g.mono
      · intro P h1 h2
        exact g.sound P h1 (h2 hall)
      · intro P
        rw [g.same P]
        exact ⟨fun h _ => h, fun h => h hall⟩
      · exact g.stable
    · rw [if_neg he]
      constructor
      · intro i x h; exact h
      · intro P h1 h2; exact h1
      · intro P
        simp only [FollowRel.Sat]
        rw [hiff]
      · intro _
        refine ⟨fun _ => rfl, ?_⟩
        intro h
        exfalso
        obtain ⟨t, ht⟩ : ∃ t, t ∈ set' := by
          cases set' with
          | nil => simp at he
          | cons a l => exact ⟨a, by simp⟩
        exact ((hmem t).1 ht).2 (h t ht)

structure FollowPassGood (first : Tbl I n) (rs : List (FollowRel I)) (tbl : Tbl I n)
    (p : List (FollowRel I) × Tbl I n × Bool) : Prop where
  mono : Fam.le tbl.den p.2.1.den
  sound : ∀ P : Fam I n, Fam.le tbl.den P → (∀ r ∈ rs, r.Sat first.den P) → Fam.le p.2.1.den P
  same : ∀ P : Fam I n, (∀ r ∈ p.1, r.Sat first.den P) ↔ ∀ r ∈ rs, r.Sat first.den P
  stable : p.2.2 = false →
    (∀ i, p.2.1.get i = tbl.get i) ∧ ∀ r ∈ p.1, r.Sat first.den p.2.1.den

theorem followPass_good (first : Tbl I n) (rs : List (FollowRel I)) :
    ∀ tbl, FollowPassGood first rs tbl (followPass first rs tbl) := by
  induction rs with
  | nil =>
    intro tbl
    constructor
    · intro i x h; exact h
    · intro P h _; exact h
    · intro P; simp [followPass]
    · intro _; exact ⟨fun _ => rfl, by intro r hr; cases hr⟩
  | cons r rs ih =>
    intro tbl
    have g := r.process_good first tbl
    simp only [followPass]
    generalize r.process first tbl = s at g ⊢
    have gp := ih s.2.1
    generalize followPass first rs s.2.1 = p at gp ⊢
    constructor
    · intro i x h; exact gp.mono _ _ (g.mono _ _ h)
    · intro P h1 h2
      exact gp.sound P (g.sound P h1 (h2 r (by simp))) (fun r hr => h2 r (by simp [hr]))
    · intro P
      simp only [List.mem_cons, forall_eq_or_imp]
      rw [g.same P, gp.same P]
    · intro h
      simp only [Bool.or_eq_false_iff] at h
      have h1 := g.stable h.1
      have h2 := gp.stable h.2
      refine ⟨fun i => by rw [h2.1, h1.1], ?_⟩
      have hden : p.2.1.den = s.2.1.den := by
        funext i x; simp only [Tbl.den, h2.1]
      intro r' hr'
      rcases List.mem_cons.1 hr' with rfl | hr'
      · simp only; rw [hden]; exact h1.2
      · exact h2.2 r' hr'

theorem followLoop_least (first : Tbl I n) (fuel : Nat) :
    ∀ (rs : List (FollowRel I)) (tbl res : Tbl I n), followLoop first fuel rs tbl = some res →
    Fam.le tbl.den res.den ∧ (∀ r ∈ rs, r.Sat first.den res.den) ∧
    ∀ P : Fam I n, Fam.le tbl.den P → (∀ r ∈ rs, r.Sat first.den P) → Fam.le res.den P := by
  induction fuel with
  | zero => intro rs tbl res h; cases h
  | succ fuel ih =>
    intro rs tbl res h
    have g := followPass_good first rs tbl
    simp only [followLoop] at h
    generalize followPass first rs tbl = p at g h
    split at h
    · obtain ⟨h1, h2, h3⟩ := ih _ _ _ h
      refine ⟨fun i x hx => h1 _ _ (g.mono _ _ hx), (g.same _).1 h2, ?_⟩
      intro P hP hS
      exact h3 P (g.sound P hP hS) ((g.same P).2 hS)
    · rename_i hc
      cases h
      have hst := g.stable (by simpa using hc)
      exact ⟨g.mono, (g.same _).1 hst.2, g.sound⟩

/-! ### Termination -/

def FollowRel.target : FollowRel I → I
  | .unionFirstMinusEpsilon a _ => a
  | .unionFollow a _ => a
  | .ifEpsilonInAllFirst _ r => r.target

theorem FollowRel.process_term (Ls : List Str) {first : Tbl I n} (hf : first.Within Ls)
    (r : FollowRel I) : ∀ (tbl : Tbl I n), tbl.Within Ls →
    (r.process first tbl).2.1.Within Ls ∧
    (r.process first tbl).1.target = r.target ∧
    ((r.process first tbl).2.2 = true →
      ∃ x, (r.process first tbl).2.1.den r.target x ∧ ¬ tbl.den r.target x) := by
  induction r with
  | unionFirstMinusEpsilon a b =>
    intro tbl hw
    simp only [FollowRel.process]
    refine ⟨Tbl.within_aset hw a (TSet.within_union (hw a) (hf b) _), trivial, ?_⟩
    intro hc
    simp only [FollowRel.target]
    rcases (TSet.union_changed _ _ _).1 hc with ⟨tok, h1, h2⟩ | ⟨h1, _⟩
    · refine ⟨some tok, ?_, h2⟩
      unfold Tbl.den; rw [Tbl.get_aset]; simp only [if_true]
      exact (TSet.mem_union _ _ _ _).2 (.inr h1)
    · cases h1
  | unionFollow a b =>
    intro tbl hw
    simp only [FollowRel.process]
    refine ⟨Tbl.within_aset hw a (Tbl.within_unionInto hw a b true), trivial, ?_⟩
    intro hc
    simp only [FollowRel.target]
    have : ∃ x, (tbl.unionInto a b true).1.contains x = true ∧ ¬ (tbl.get a).contains x = true := by
      unfold Tbl.unionInto at hc ⊢
      split at hc
      · rename_i s hs
        rcases (TSet.union_changed _ _ _).1 hc with ⟨tok, h1, h2⟩ | ⟨_, h1, h2⟩
        · exact ⟨some tok, (TSet.mem_union _ _ _ _).2 (.inr h1), h2⟩
        · refine ⟨none, ?_, by simp [TSet.contains, h2]⟩
          rw [TSet.contains_none, TSet.union_e, h1]; simp
      · cases hc
    obtain ⟨x, h1, h2⟩ := this
    refine ⟨x, ?_, h2⟩
    unfold Tbl.den; rw [Tbl.get_aset]; simp only [if_true]; exact h1
  | ifEpsilonInAllFirst set inner ih =>
    intro tbl hw
    simp only [FollowRel.process]
    split
    · exact ih tbl hw
    · exact ⟨hw, rfl, by intro h; cases h⟩

theorem followPass_term (Ls : List Str) (Is : List I) {first : Tbl I n} (hf : first.Within Ls)
    (rs : List (FollowRel I)) : ∀ (tbl : Tbl I n), (∀ r ∈ rs, r.target ∈ Is) → tbl.Within Ls →
    (followPass first rs tbl).2.1.Within Ls ∧
    (∀ r ∈ (followPass first rs tbl).1, r.target ∈ Is) ∧
    ((followPass first rs tbl).2.2 = true →
      (followPass first rs tbl).2.1.room Ls Is < tbl.room Ls Is) := by
  induction rs with
  | nil => intro tbl _ hw; simp [followPass, hw]
  | cons r rs ih =>
    intro tbl hr hw
    obtain ⟨t1, t3, t4⟩ := r.process_term Ls hf tbl hw
    have hm := (r.process_good first tbl).mono
    simp only [followPass]
    generalize r.process first tbl = s at t1 t3 t4 hm ⊢
    obtain ⟨p1, p2, p3⟩ := ih s.2.1 (fun r' h => hr r' (by simp [h])) t1
    have pm := (followPass_good first rs s.2.1).mono
    generalize followPass first rs s.2.1 = p at p1 p2 p3 pm ⊢
    refine ⟨p1, ?_, ?_⟩
    · intro r' hr'
      rcases List.mem_cons.1 hr' with rfl | hr'
      · rw [t3]; exact hr r (by simp)
      · exact p2 r' hr'
    · intro hc
      have l1 := Tbl.room_le (Ls := Ls) (Is := Is) hm
      have l2 := Tbl.room_le (Ls := Ls) (Is := Is) pm
      simp only [Bool.or_eq_true] at hc
      rcases hc with hc | hc
      · obtain ⟨x, h1, h2⟩ := t4 hc
        have := Tbl.room_lt (Is := Is) t1 hm (hr r (by simp)) h1 h2
        omega
      · have := p3 hc
        omega

theorem followLoop_total (Ls : List Str) (Is : List I) {first : Tbl I n} (hf : first.Within Ls)
    (fuel : Nat) : ∀ (rs : List (FollowRel I)) (tbl : Tbl I n),
    (∀ r ∈ rs, r.target ∈ Is) → tbl.Within Ls → tbl.room Ls Is < fuel →
    ∃ res, followLoop first fuel rs tbl = some res := by
  induction fuel with
  | zero => intro rs tbl _ _ h; omega
  | succ fuel ih =>
    intro rs tbl hr hw hlt
    obtain ⟨h1, h2, h3⟩ := followPass_term Ls Is hf rs tbl hr hw
    simp only [followLoop]
    split
    · rename_i hc
      exact ih _ _ h2 h1 (by have := h3 hc; omega)
    · exact ⟨_, rfl⟩

theorem followLoop_mono (first : Tbl I n) (fuel : Nat) :
    ∀ (rs : List (FollowRel I)) (tbl res : Tbl I n), followLoop first fuel rs tbl = some res →
    ∀ fuel', fuel ≤ fuel' → followLoop first fuel' rs tbl = some res := by
  induction fuel with
  | zero => intro rs tbl res h; cases h
  | succ fuel ih =>
    intro rs tbl res h fuel' hle
    obtain ⟨f, rfl⟩ : ∃ f, fuel' = f + 1 := ⟨fuel' - 1, by omega⟩
    simp only [followLoop] at h ⊢
    split
    · rename_i hc; rw [if_pos hc] at h; exact ih _ _ _ h f (by omega)
    · rename_i hc; rw [if_neg hc] at h; exact h

theorem buildFollow_mono {G : Grammar I n} {first : Tbl I n} {root : I} {fuel : Nat} {follow : Tbl I n}
    (h : buildFollow fuel first G root = some follow) {fuel' : Nat} (hle : fuel ≤ fuel') :
    buildFollow fuel' first G root = some follow := followLoop_mono first fuel _ _ _ h fuel' hle

theorem buildFollow_total {G : Grammar I n} {first : Tbl I n} (hf : first.Within G.lits) (root : I) :
    ∃ fuel, ∀ fuel' ≥ fuel, ∃ follow, buildFollow fuel' first G root = some follow := by
  let rs := G.flatMap fun p => followRels (n := n) p.1 p.2
  let tbl : Tbl I n := [(root, (TSet.empty.insertE).1)]
  refine ⟨Tbl.room G.lits (rs.map FollowRel.target) tbl + 1, fun fuel' h => ?_⟩
  refine followLoop_total G.lits (rs.map FollowRel.target) hf fuel' rs tbl ?_ ?_ (by omega)
  · intro r hr; exact List.mem_map.2 ⟨r, hr, rfl⟩
  · intro i
    have : Tbl.get tbl i = TSet.empty ∨ Tbl.get tbl i = (TSet.empty.insertE).1 := by
      simp only [tbl, Tbl.get, aget?]
      split
      · right; rfl
      · left; rfl
    rcases this with h | h <;> rw [h]
    · exact TSet.within_empty _
    · exact TSet.within_insertE (TSet.within_empty _)

/-! ### The solution, rule by rule -/

/-- FOLLOW as the builder's relations define it. -/
inductive FollowC (G : Grammar I n) (root : I) : I → Option (TokenSrc n) → Prop
  | root : FollowC G root root none
  | alt {x l y o} : (x, Rule.alt l) ∈ G → y ∈ l → FollowC G root x o → FollowC G root y o
  | tail {x pre y post o} : (x, Rule.seq (pre ++ y :: post)) ∈ G → (∀ k ∈ post, Null G k) →
      FollowC G root x o → FollowC G root y o
  | adj {x pre y z post tok} : (x, Rule.seq (pre ++ y :: z :: post)) ∈ G → FirstI G z tok →
      FollowC G root y (some tok)

theorem followTails_sat (F P : Fam I n) (x : I) (l : List I) : ∀ (set : List I),
    (∀ r ∈ followTails x set l, r.Sat F P) ↔
    (∀ a y b, l = a ++ y :: b → (∀ i ∈ set, F i none) → (∀ i ∈ a, F i none) →
      ∀ o, P x o → P y o) := by
  induction l with
  | nil =>
    intro set
    simp [followTails]
  | cons y l ih =>
    intro set
    simp only [followTails, List.mem_cons, forall_eq_or_imp, FollowRel.sat_mkIf, ih, mem_bsetInsert]
    constructor
    · rintro ⟨h1, h2⟩ a j b he hs hp o ho
      cases a with
      | nil =>
        simp at he
        obtain ⟨rfl, rfl⟩ := he
        exact h1 hs o ho
      | cons c a =>
        simp at he
        obtain ⟨rfl, rfl⟩ := he
        refine h2 a j b rfl ?_ (fun i hi => hp i (by simp [hi])) o ho
        rintro i (hi | rfl)
        · exact hs i hi
        · exact hp i (by simp)
    · intro h1
      refine ⟨?_, ?_⟩
      · intro hs o ho
        exact h1 [] y l rfl hs (by simp) o ho
      · intro a j b he hs hp o ho
        subst he
        refine h1 (y :: a) j b rfl (fun i hi => hs i (.inl hi)) ?_ o ho
        intro i hi
        rcases List.mem_cons.1 hi with rfl | hi
        · exact hs i (.inr rfl)
        · exact hp i hi

theorem mem_windows2 (l : List I) (a b : I) :
    (a, b) ∈ windows2 l ↔ ∃ pre post, l = pre ++ a :: b :: post := by
  induction l with
  | nil => simp [windows2]
  | cons x l ih =>
    cases l with
    | nil =>
      simp only [windows2, List.not_mem_nil, false_iff, not_exists]
      intro pre post h
      have := congrArg List.length h
      simp at this
      omega
    | cons y l =>
      simp only [windows2, List.mem_cons, ih]
      constructor
      · rintro (h | ⟨pre, post, h⟩)
        · simp at h; obtain ⟨rfl, rfl⟩ := h; exact ⟨[], l, rfl⟩
        · exact ⟨x :: pre, post, by rw [h]; rfl⟩
      · rintro ⟨pre, post, h⟩
        cases pre with
        | nil => simp at h; obtain ⟨rfl, rfl, rfl⟩ := h; left; rfl
        | cons c pre =>
          simp at h
          right; exact ⟨pre, post, h.2⟩

theorem followSequence_sat (F P : Fam I n) (x : I) (l : List I) :
    (∀ r ∈ followSequence x l, r.Sat F P) ↔
    ((∀ pre y post, l = pre ++ y :: post → (∀ i ∈ post, F i none) → ∀ o, P x o → P y o) ∧
     (∀ pre y z post, l = pre ++ y :: z :: post → ∀ tok, F z (some tok) → P y (some tok))) := by
  simp only [followSequence, List.mem_append, List.mem_map, List.mem_reverse]
  have h1 := followTails_sat F P x l.reverse []
  have hrev : (∀ a y b, l.reverse = a ++ y :: b → (∀ i ∈ ([] : List I), F i none) →
      (∀ i ∈ a, F i none) → ∀ o, P x o → P y o) ↔
      (∀ pre y post, l = pre ++ y :: post → (∀ i ∈ post, F i none) → ∀ o, P x o → P y o) := by
    constructor
    · intro h pre y post he hp
      refine h post.reverse y pre.reverse (by simp [he]) (by simp) ?_
      intro i hi; exact hp i (by simpa using hi)
    · intro h a y b he _ hp
      refine h b.reverse y a.reverse ?_ ?_
      · have := congrArg List.reverse he
        simpa using this
      · intro i hi; exact hp i (by simpa using hi)
  rw [hrev] at h1
  constructor
  · intro h
    refine ⟨h1.1 (fun r hr => h r (.inl hr)), ?_⟩
    intro pre y z post he tok ht
    exact h (.unionFirstMinusEpsilon y z)
      (.inr ⟨(y, z), (mem_windows2 l y z).2 ⟨pre, post, he⟩, rfl⟩) tok ht
  · rintro ⟨h2, h3⟩ r (hr | ⟨⟨y, z⟩, hw, rfl⟩)
    · exact h1.2 h2 r hr
    · obtain ⟨pre, post, he⟩ := (mem_windows2 l y z).1 hw
      intro tok ht
      exact h3 pre y z post he tok ht

theorem followUnion_sat (F P : Fam I n) (x : I) (l : List I) :
    (∀ r ∈ followUnion x l, r.Sat F P) ↔ ∀ y ∈ l, ∀ o, P x o → P y o := by
  simp only [followUnion, List.mem_map]
  constructor
  · intro h y hy; exact h _ ⟨y, hy, rfl⟩
  · rintro h r ⟨y, hy, rfl⟩; exact h y hy

/-- The FOLLOW table has exactly the members the relations define. -/
theorem buildFollow_den {fuel : Nat} {G : Grammar I n} {first follow : Tbl I n} {root : I}
    (hf : ∀ i x, first.den i x ↔ firstFam G i x)
    (h : buildFollow fuel first G root = some follow) (i : I) (x : Option (TokenSrc n)) :
    follow.den i x ↔ FollowC G root i x := by
  have hfd : first.den = firstFam G := by
    funext i x; exact propext (hf i x)
  obtain ⟨h1, h2, h3⟩ := followLoop_least first fuel _ _ _ h
  rw [hfd] at h2 h3
  have hsat : ∀ P : Fam I n,
      (∀ r ∈ G.flatMap (fun p => followRels p.1 p.2), r.Sat (firstFam G) P) →
      ∀ p ∈ G, ∀ r ∈ followRels p.1 p.2, r.Sat (firstFam G) P := by
    intro P hP p hp r hr
    exact hP r (List.mem_flatMap.2 ⟨p, hp, hr⟩)
  constructor
  · refine h3 (FollowC G root) ?_ ?_ i x
    · intro i x hx
      unfold Tbl.den Tbl.get at hx
      simp only [aget?] at hx
      split at hx
      · rename_i he; subst he
        cases x with
        | none => exact .root
        | some tok =>
          have : TSet.Mem tok (TSet.empty : TSet n) := hx
          exact absurd this (TSet.mem_empty tok)
      · cases x with
        | none => simp [TSet.contains] at hx
        | some tok => exact absurd hx (TSet.mem_empty tok)
    · intro r hr
      obtain ⟨⟨y, rule⟩, hp, hr'⟩ := List.mem_flatMap.1 hr
      clear hr
      cases rule with
      | eps => cases hr'
      | term t => cases hr'
      | seq l =>
        revert r
        simp only [followRels]
        rw [followSequence_sat]
        refine ⟨?_, ?_⟩
        · intro pre z post he hn o ho; subst he; exact .tail hp hn ho
        · intro pre y z post he tok ht; subst he; exact .adj hp ht
      | alt l =>
        revert r
        simp only [followRels]
        rw [followUnion_sat]
        intro z hz o ho; exact .alt hp hz ho
  · intro hx
    have h2' := hsat _ h2
    induction hx with
    | root =>
      apply h1
      unfold Tbl.den Tbl.get
      simp [aget?, TSet.contains, TSet.insertE]
    | alt hp hy _ ih =>
      have := h2' _ hp
      simp only [followRels] at this
      rw [followUnion_sat] at this
      exact this _ hy _ ih
    | tail hp hn _ ih =>
      have := h2' _ hp
      simp only [followRels] at this
      rw [followSequence_sat] at this
      exact this.1 _ _ _ rfl hn _ ih
    | adj hp ht =>
      have := h2' _ hp
      simp only [followRels] at this
      rw [followSequence_sat] at this
      exact this.2 _ _ _ _ rfl _ ht

/-! ### Comparison with the textbook FOLLOW -/

theorem FollowC.sound {G : Grammar I n} {root i : I} {o : Option (TokenSrc n)}
    (hc : G.Connected root) (h : FollowC G root i o) : FollowOf G root i o := by
  -- both cases of `FollowOf` at once
  suffices hs : ∀ i o, FollowC G root i o → ∃ α β : List (Sym I n),
      Derives G [.nt root] (α ++ .nt i :: β) ∧
      (match o with | none => β = [] | some tok => ∃ β', β = .tok tok :: β') by
    obtain ⟨α, β, h1, h2⟩ := hs i o h
    cases o with
    | none => subst h2; exact ⟨α, h1⟩
    | some tok => obtain ⟨β', rfl⟩ := h2; exact ⟨α, β', h1⟩
  intro i o h
  induction h with
  | root => exact ⟨[], [], .refl _, rfl⟩
  | @alt x l y o hp hy _ ih =>
    obtain ⟨α, β, h1, h2⟩ := ih
    refine ⟨α, β, h1.trans ?_, h2⟩
    have := (Derives.one (Expands.alt hp hy)).ctx α β
    simpa using this
  | @tail x pre y post o hp hn _ ih =>
    obtain ⟨α, β, h1, h2⟩ := ih
    refine ⟨α ++ pre.map .nt, β, h1.trans ?_, h2⟩
    have e1 := (Derives.one (Expands.seq hp)).ctx α β
    have e2 := derives_nil_of_all post (fun k hk => (hn k hk).nullable)
    have e3 := e2.ctx (α ++ pre.map .nt ++ [.nt y]) β
    refine Derives.trans (by simpa using e1) ?_
    simpa using e3
  | @adj x pre y z post tok hp ht =>
    obtain ⟨α, β, h1⟩ := hc x _ hp
    obtain ⟨δ, h2⟩ := ht.firstOf
    refine ⟨α ++ pre.map .nt, .tok tok :: (δ ++ post.map .nt ++ β), h1.trans ?_, ⟨_, rfl⟩⟩
    have e1 := (Derives.one (Expands.seq hp)).ctx α β
    have e3 := h2.ctx (α ++ pre.map .nt ++ [.nt y]) (post.map .nt ++ β)
    refine Derives.trans (by simpa using e1) ?_
    simpa using e3

/-- No symbol strictly inside a sequence is nullable. -/
def NoInterior (G : Grammar I n) : Prop :=
  ∀ x pre y post, (x, Rule.seq (pre ++ y :: post)) ∈ G → pre ≠ [] → post ≠ [] → ¬ Null G y

/-- FOLLOW by the textbook rules: also over parts that derive the empty sequence. -/
inductive FollowX (G : Grammar I n) (root : I) : I → Option (TokenSrc n) → Prop
  | root : FollowX G root root none
  | alt {x l y o} : (x, Rule.alt l) ∈ G → y ∈ l → FollowX G root x o → FollowX G root y o
  | tail {x pre y post o} : (x, Rule.seq (pre ++ y :: post)) ∈ G → (∀ k ∈ post, Null G k) →
      FollowX G root x o → FollowX G root y o
  | over {x pre y mid z post tok} : (x, Rule.seq (pre ++ y :: (mid ++ z :: post))) ∈ G →
      (∀ k ∈ mid, Null G k) → FirstI G z tok → FollowX G root y (some tok)

/-- What follows each production of a sentential form is in FOLLOW. -/
def FollowGood (G : Grammar I n) (root : I) (σ : List (Sym I n)) : Prop :=
  ∀ α i β, σ = α ++ .nt i :: β →
    (∀ tok, FirstL G β tok → FollowX G root i (some tok)) ∧ (AllNull G β → FollowX G root i none)

theorem AllNull.step {G : Grammar I n} {i : I} {α γ β : List (Sym I n)} (e : Expands G i γ)
    (h : AllNull G (α ++ γ ++ β)) : AllNull G (α ++ .nt i :: β) := by
  intro s hs
  simp only [List.mem_append, List.mem_cons] at hs
  rcases hs with hs | rfl | hs
  · exact h s (by simp [hs])
  · exact ⟨i, rfl, Null.of_expands e (fun s hs => h s (by simp [hs]))⟩
  · exact h s (by simp [hs])

theorem AllNull.split {G : Grammar I n} {α β : List (Sym I n)} (h : AllNull G (α ++ β)) :
    AllNull G α ∧ AllNull G β :=
  ⟨fun s hs => h s (by simp [hs]), fun s hs => h s (by simp [hs])⟩

theorem FollowGood.step {G : Grammar I n} {root x : I}
    {l γ r : List (Sym I n)} (e : Expands G x γ) (h : FollowGood G root (l ++ .nt x :: r)) :
    FollowGood G root (l ++ γ ++ r) := by
  intro α i β he
  -- the position of `nt i`: in `l`, in `γ` or in `r`
  rw [List.append_assoc, List.append_eq_append_iff] at he
  rcases he with ⟨a', h1, h2⟩ | ⟨c', h1, h2⟩
  · -- α = l ++ a'
    rw [List.append_eq_append_iff] at h2
    rcases h2 with ⟨b', h3, h4⟩ | ⟨d', h3, h4⟩
    · -- in r
      subst h3
      exact h (l ++ .nt x :: b') i β (by rw [h4]; simp)
    · -- γ = a' ++ d', nt i :: β = d' ++ r
      cases d' with
      | nil =>
        simp at h4
        simp at h3
        subst h3
        exact h (l ++ [.nt x]) i β (by rw [← h4]; simp)
      | cons s d =>
        simp only [List.cons_append, List.cons.injEq] at h4
        obtain ⟨rfl, rfl⟩ := h4
        have hx := h l x r rfl
        subst h3
        -- tail case
        have htail : AllNull G d → ∀ o, FollowX G root x o → FollowX G root i o := by
          intro hd o ho
          generalize hg : a' ++ Sym.nt i :: d = γ at e
          cases e with
          | eps hp => simp at hg
          | term hp hm =>
            have : Sym.nt i ∈ a' ++ Sym.nt i :: d := by simp
            rw [hg] at this; simp at this
          | @seq q hp =>
            obtain ⟨q1, q2, rfl, h5, h6⟩ := List.map_eq_append_iff.1 hg.symm
            cases q2 with
            | nil => simp at h6
            | cons c q2 =>
              simp at h6
              obtain ⟨rfl, h6⟩ := h6
              refine .tail hp ?_ ho
              intro k hk
              obtain ⟨j, h7, h8⟩ := hd (.nt k) (by rw [← h6]; simp [hk])
              cases h7; exact h8
          | alt hp hj =>
            cases a' with
            | nil => simp at hg; obtain ⟨rfl, rfl⟩ := hg; exact .alt hp hj ho
            | cons s a' => simp at hg
        refine ⟨?_, ?_⟩
        · intro tok ht
          rcases ht.append with ht | ⟨hd, ht⟩
          · -- the token comes from the rest of `γ`
            generalize hg : a' ++ Sym.nt i :: d = γ at e
            cases e with
            | eps hp => simp at hg
            | term hp hm =>
              have : Sym.nt i ∈ a' ++ Sym.nt i :: d := by simp
              rw [hg] at this; simp at this
            | @seq q hp =>
              obtain ⟨q1, q2, rfl, h5, h6⟩ := List.map_eq_append_iff.1 hg.symm
              cases q2 with
              | nil => simp at h6
              | cons c q2 =>
                simp at h6
                obtain ⟨rfl, rfl⟩ := h6
                obtain ⟨pre, j, post, rfl, h7, h8⟩ := ht.of_map_nt
                exact .over (pre := q1) hp h7 h8
            | alt hp hj =>
              cases a' with
              | nil => simp at hg; obtain ⟨rfl, rfl⟩ := hg; cases ht
              | cons s a' => simp at hg
          · exact htail hd _ (hx.1 tok ht)
        · intro hn
          have := hn.split
          exact htail this.1 _ (hx.2 this.2)
  · -- l = α ++ c'
    cases c' with
    | nil =>
      simp at h1 h2
      subst h1
      -- nt i :: β = γ ++ r with nothing of l after it: same as the case a' = []
      cases γ with
      | nil =>
        simp at h2
        exact h (l ++ [.nt x]) i β (by rw [← h2]; simp)
      | cons s d =>
        simp only [List.cons_append, List.cons.injEq] at h2
        obtain ⟨rfl, rfl⟩ := h2
        have hx := h l x r rfl
        have htail : AllNull G d → ∀ o, FollowX G root x o → FollowX G root i o := by
          intro hd o ho
          generalize hg : Sym.nt i :: d = γ at e
          cases e with
          | eps hp => simp at hg
          | term hp hm => simp at hg
          | @seq q hp =>
            cases q with
            | nil => simp at hg
            | cons c q =>
              simp at hg
              obtain ⟨rfl, rfl⟩ := hg
              refine .tail (pre := []) hp ?_ ho
              intro k hk
              obtain ⟨j, h7, h8⟩ := hd (.nt k) (by simp [hk])
              cases h7; exact h8
          | alt hp hj => simp at hg; obtain ⟨rfl, rfl⟩ := hg; exact .alt hp hj ho
        refine ⟨?_, ?_⟩
        · intro tok ht
          rcases ht.append with ht | ⟨hd, ht⟩
          · generalize hg : Sym.nt i :: d = γ at e
            cases e with
            | eps hp => simp at hg
            | term hp hm => simp at hg
            | @seq q hp =>
              cases q with
              | nil => simp at hg
              | cons c q =>
                simp at hg
                obtain ⟨rfl, rfl⟩ := hg
                obtain ⟨pre, j, post, rfl, h7, h8⟩ := ht.of_map_nt
                exact .over (pre := []) hp h7 h8
            | alt hp hj => simp at hg; obtain ⟨rfl, rfl⟩ := hg; cases ht
          · exact htail hd _ (hx.1 tok ht)
        · intro hn
          have := hn.split
          exact htail this.1 _ (hx.2 this.2)
    | cons s c =>
      simp only [List.cons_append, List.cons.injEq] at h2
      obtain ⟨rfl, rfl⟩ := h2
      have hx := h α i (c ++ .nt x :: r) (by rw [h1]; simp)
      refine ⟨?_, ?_⟩
      · intro tok ht
        apply hx.1
        exact FirstL.step e (by simpa using ht)
      · intro hn
        apply hx.2
        exact AllNull.step e (by simpa using hn)

theorem FollowGood.derives {G : Grammar I n} {root : I} {σ δ : List (Sym I n)}
    (d : Derives G σ δ) : FollowGood G root σ → FollowGood G root δ := by
  induction d with
  | refl => exact id
  | step e _ ih => intro h; exact ih (FollowGood.step e h)

theorem FollowX.complete {G : Grammar I n} {root i : I}
    {o : Option (TokenSrc n)} (h : FollowOf G root i o) : FollowX G root i o := by
  have h0 : FollowGood G root [.nt root] := by
    intro α i β he
    cases α with
    | nil =>
      simp at he
      obtain ⟨rfl, rfl⟩ := he
      exact ⟨fun tok ht => (by cases ht), fun _ => .root⟩
    | cons s α => simp at he
  cases o with
  | none =>
    obtain ⟨α, h1⟩ := h
    exact (FollowGood.derives h1 h0 α i [] rfl).2 (fun s hs => by cases hs)
  | some tok =>
    obtain ⟨α, β, h1⟩ := h
    exact (FollowGood.derives h1 h0 α i _ rfl).1 tok .tok

/-- `i` is the last part of `a`, or of its last part, and so on. -/
inductive TailOf (G : Grammar I n) (a : I) : I → Prop
  | refl : TailOf G a a
  | alt {x l y} : TailOf G a x → (x, Rule.alt l) ∈ G → y ∈ l → TailOf G a y
  | tail {x pre y post} : TailOf G a x → (x, Rule.seq (pre ++ y :: post)) ∈ G → (∀ k ∈ post, Null G k) → TailOf G a y

theorem TailOf.endsWith {G : Grammar I n} {a i : I} (h : TailOf G a i) : EndsWith G a i := by
  induction h with
  | refl => exact ⟨[], .refl _⟩
  | alt _ hm hy ih =>
    obtain ⟨α, h⟩ := ih
    exact ⟨α, h.trans (by simpa using (Derives.one (Expands.alt hm hy)).ctx α [])⟩
  | @tail x pre y post _ hm hn ih =>
    obtain ⟨α, h⟩ := ih
    refine ⟨α ++ pre.map .nt, h.trans ?_⟩
    have e1 := (Derives.one (Expands.seq hm)).ctx α []
    have e2 := (derives_nil_of_all post (fun k hk => (hn k hk).nullable)).ctx (α ++ pre.map .nt ++ [.nt y]) []
    refine Derives.trans (by simpa using e1) ?_
    simpa using e2

theorem EndsWith.tailOf {G : Grammar I n} {a i : I} (h : EndsWith G a i) : TailOf G a i := by
  have hx : FollowX G a i none := .complete (o := none) h
  clear h
  generalize ho : (none : Option (TokenSrc n)) = o at hx
  induction hx with
  | root => exact .refl
  | alt hm hy _ ih => exact (ih ho).alt hm hy
  | tail hm hn _ ih => exact (ih ho).tail hm hn
  | over => cases ho

/-- What can follow is in the computed FOLLOW or comes from beyond an empty part. -/
theorem FollowX.computed {G : Grammar I n} {root i : I} {o : Option (TokenSrc n)} (h : FollowX G root i o) :
    FollowC G root i o ∨ ∃ a tok, o = some tok ∧ Beyond G a tok ∧ EndsWith G a i := by
  suffices hs : FollowC G root i o ∨ ∃ a tok, o = some tok ∧ Beyond G a tok ∧ TailOf G a i by
    rcases hs with h | ⟨a, tok, h1, h2, h3⟩
    · exact .inl h
    · exact .inr ⟨a, tok, h1, h2, h3.endsWith⟩
  induction h with
  | root => exact .inl .root
  | alt hm hy _ ih =>
    rcases ih with ih | ⟨a, tok, h1, h2, h3⟩
    · exact .inl (.alt hm hy ih)
    · exact .inr ⟨a, tok, h1, h2, h3.alt hm hy⟩
  | tail hm hn _ ih =>
    rcases ih with ih | ⟨a, tok, h1, h2, h3⟩
    · exact .inl (.tail hm hn ih)
    · exact .inr ⟨a, tok, h1, h2, h3.tail hm hn⟩
  | @over x pre y mid z post tok hm hn ht =>
    cases mid with
    | nil => exact .inl (.adj hm ht)
    | cons k mid =>
      exact .inr ⟨y, tok, rfl, ⟨x, pre, k :: mid, z, post, hm, by simp, fun k hk => (hn k hk).nullable, ht.firstOf⟩,
        .refl⟩

theorem FollowOf.computed {G : Grammar I n} {root i : I} {o : Option (TokenSrc n)} (h : FollowOf G root i o) :
    FollowC G root i o ∨ ∃ a tok, o = some tok ∧ Beyond G a tok ∧ EndsWith G a i := (FollowX.complete h).computed

theorem Beyond.absurd {G : Grammar I n} (hni : NoInterior G) {a : I} {tok : TokenSrc n} (h : Beyond G a tok) : False := by
  obtain ⟨x, pre, mid, b, post, hm, hne, hn, _⟩ := h
  cases mid with
  | nil => exact hne rfl
  | cons k mid =>
    exact hni x (pre ++ [a]) k (mid ++ b :: post) (by simpa using hm) (by simp) (by simp)
      (nullable_iff.1 (hn k (by simp)))

theorem FollowC.complete {G : Grammar I n} (hni : NoInterior G) {root i : I}
    {o : Option (TokenSrc n)} (h : FollowOf G root i o) : FollowC G root i o := by
  rcases h.computed with h | ⟨_, _, _, h, _⟩
  · exact h
  · exact (h.absurd hni).elim

end Teleparse
