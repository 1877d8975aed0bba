import Verif.Proof.LL1
/-
An accepted grammar whose productions are productive has no left recursion.
-/
set_option linter.unusedSectionVars false
namespace Teleparse
variable {I : Type} {n : Nat} [DecidableEq I] {G : Grammar I n} {root : I}

/-- One step to a symbol that can be leftmost. -/
inductive LStep (G : Grammar I n) : I → I → Prop
  | alt {i l j} : (i, Rule.alt l) ∈ G → j ∈ l → LStep G i j
  | seq {i pre j post} : (i, Rule.seq (pre ++ j :: post)) ∈ G → (∀ k ∈ pre, Null G k) → LStep G i j

/-- Any number of steps. -/
inductive LSteps (G : Grammar I n) : I → I → Prop
  | refl (i) : LSteps G i i
  | head {i j k} : LStep G i j → LSteps G j k → LSteps G i k

theorem LSteps.trans {i j k : I} (h : LSteps G i j) (h2 : LSteps G j k) : LSteps G i k := by
  induction h with
  | refl => exact h2
  | head s _ ih => exact .head s (ih h2)

theorem LStep.of_expands {i j : I} {γ1 γ2 : List (Sym I n)} (e : Expands G i (γ1 ++ .nt j :: γ2))
    (h : AllNull G γ1) : LStep G i j := by
  generalize hg : γ1 ++ .nt j :: γ2 = γ at e
  cases e with
  | eps hm => simp at hg
  | @term t tok hm hx =>
    have : Sym.nt j ∈ γ1 ++ Sym.nt j :: γ2 := by simp
    rw [hg] at this; simp at this
  | @seq q hm =>
    obtain ⟨q1, q2, rfl, h5, h6⟩ := List.map_eq_append_iff.1 hg.symm
    cases q2 with
    | nil => simp at h6
    | cons c q2 =>
      simp at h6
      obtain ⟨rfl, h6⟩ := h6
      refine .seq hm ?_
      intro k hk
      obtain ⟨i, h7, h8⟩ := h (.nt k) (by rw [← h5]; simp [hk])
      cases h7; exact h8
  | alt hm hj =>
    cases γ1 with
    | nil => simp at hg; obtain ⟨rfl, rfl⟩ := hg; exact .alt hm hj
    | cons s γ1 => simp at hg

/-- A leftmost production of a derived sentential form comes from one after a nullable prefix. -/
theorem leftmost_origin {σ δ : List (Sym I n)} (d : Derives G σ δ) : ∀ j β, δ = .nt j :: β →
    ∃ pre k post, σ = pre ++ .nt k :: post ∧ AllNull G pre ∧ LSteps G k j := by
  induction d with
  | refl =>
    intro j β h
    exact ⟨[], j, β, h, (by intro s hs; cases hs), .refl j⟩
  | @step α β γ δ i e _ ih =>
    intro j β' hδ
    obtain ⟨pre, k, post, h1, h2, h3⟩ := ih j β' hδ
    rw [List.append_assoc, List.append_eq_append_iff] at h1
    rcases h1 with ⟨a', ha, hb⟩ | ⟨c', ha, hb⟩
    · -- pre = α ++ a', γ ++ β = a' ++ nt k :: post
      subst ha
      rw [List.append_eq_append_iff] at hb
      rcases hb with ⟨b', hc, hd⟩ | ⟨d', hc, hd⟩
      · subst hc
        refine ⟨α ++ .nt i :: b', k, post, by rw [hd]; simp, ?_, h3⟩
        exact AllNull.step e (by simpa using h2)
      · cases d' with
        | nil =>
          simp at hc hd
          subst hc
          refine ⟨α ++ [.nt i], k, post, by rw [← hd]; simp, ?_, h3⟩
          exact AllNull.step e (by simpa using h2)
        | cons s d' =>
          simp only [List.cons_append, List.cons.injEq] at hd
          obtain ⟨rfl, rfl⟩ := hd
          subst hc
          exact ⟨α, i, β, rfl, h2.split.1, .head (LStep.of_expands e h2.split.2) h3⟩
    · -- α = pre ++ c'
      cases c' with
      | nil =>
        simp at ha hb
        subst ha
        cases γ with
        | nil =>
          simp at hb
          refine ⟨α ++ [.nt i], k, post, by rw [← hb]; simp, ?_, h3⟩
          exact AllNull.step (β := []) e (by simpa using h2)
        | cons s γ =>
          simp only [List.cons_append, List.cons.injEq] at hb
          obtain ⟨rfl, rfl⟩ := hb
          exact ⟨α, i, β, rfl, h2,
            .head (LStep.of_expands (γ1 := []) e (by intro s hs; cases hs)) h3⟩
      | cons s c' =>
        simp only [List.cons_append, List.cons.injEq] at hb
        obtain ⟨rfl, rfl⟩ := hb
        exact ⟨pre, k, c' ++ .nt i :: β, by rw [ha]; simp, h2, h3⟩

theorem LeftDerives.lsteps {i j : I} (h : LeftDerives G i j) : ∃ k, LStep G i k ∧ LSteps G k j := by
  obtain ⟨γ, β, e, d⟩ := h
  obtain ⟨pre, k, post, rfl, h2, h3⟩ := leftmost_origin d j β rfl
  exact ⟨k, LStep.of_expands e h2, h3⟩

theorem LStep.first {i j : I} (h : LStep G i j) {tok : TokenSrc n} (ht : FirstI G j tok) :
    FirstI G i tok := by
  cases h with
  | alt hm hj => exact .alt hm hj ht
  | seq hm hn => exact .seq hm hn ht

theorem LSteps.first {i j : I} (h : LSteps G i j) {tok : TokenSrc n} (ht : FirstI G j tok) :
    FirstI G i tok := by
  induction h with
  | refl => exact ht
  | head s _ ih => exact s.first (ih ht)

/-- Induction along a list from the left. -/
theorem all_of_prefix {α : Type} {P : α → Prop} {l : List α}
    (h : ∀ p c q, l = p ++ c :: q → (∀ k ∈ p, P k) → P c) : ∀ k ∈ l, P k := by
  have : ∀ q p, l = p ++ q → (∀ k ∈ p, P k) → ∀ k ∈ l, P k := by
    intro q
    induction q with
    | nil => intro p he hp; simp at he; subst he; exact hp
    | cons c q ih =>
      intro p he hp
      refine ih (p ++ [c]) (by simpa using he) ?_
      intro k hk
      rcases List.mem_append.1 hk with hk | hk
      · exact hp k hk
      · simp at hk; subst hk; exact h p k q he hp
  exact this l [] rfl (by simp)

/-- Productive productions by rules. -/
inductive Prd (G : Grammar I n) : I → Prop
  | eps {i} : (i, Rule.eps) ∈ G → Prd G i
  | term {i t} : (i, Rule.term t) ∈ G → Prd G i
  | seq {i l} : (i, Rule.seq l) ∈ G → (∀ j ∈ l, Prd G j) → Prd G i
  | alt {i l j} : (i, Rule.alt l) ∈ G → j ∈ l → Prd G j → Prd G i

theorem Prd.of_derives {σ δ : List (Sym I n)} (d : Derives G σ δ) :
    (∀ s ∈ δ, ∀ i, s ≠ .nt i) → ∀ i, Sym.nt i ∈ σ → Prd G i := by
  induction d with
  | refl => intro h i hi; exact absurd rfl (h _ hi i)
  | @step α β γ δ x e _ ih =>
    intro h i hi
    have ih := ih h
    simp only [List.mem_append, List.mem_cons] at hi
    rcases hi with hi | hi | hi
    · exact ih i (by simp [hi])
    · cases hi
      have hγ : ∀ j, Sym.nt j ∈ γ → Prd G j := fun j hj => ih j (by simp [hj])
      cases e with
      | eps hm => exact .eps hm
      | term hm _ => exact .term hm
      | seq hm => exact .seq hm (fun j hj => hγ j (by simp [hj]))
      | alt hm hj => exact .alt hm hj (hγ _ (by simp))
    · exact ih i (by simp [hi])

theorem Productive.prd {i : I} (h : Productive G i) : Prd G i := by
  obtain ⟨w, d⟩ := h
  refine Prd.of_derives d ?_ i (by simp)
  intro s hs j
  obtain ⟨t, _, rfl⟩ := List.mem_map.1 hs
  simp

theorem Prd.null {i : I} (h : Prd G i) : (∀ tok, ¬ FirstI G i tok) → Null G i := by
  induction h with
  | eps hm => intro _; exact .eps hm
  | @term i t hm =>
    intro hf
    exfalso
    cases hl : t.lit with
    | none => exact hf ⟨t.ty, []⟩ (.term hm ⟨rfl, by simp [hl]⟩)
    | some l => exact hf ⟨t.ty, l⟩ (.term hm ⟨rfl, by simp [hl]⟩)
  | @seq i l hm hall ih =>
    intro hf
    refine .seq hm (all_of_prefix ?_)
    intro p c q he hp
    refine ih c (by simp [he]) (fun tok ht => hf tok ?_)
    exact .seq (pre := p) (j := c) (post := q) (by rw [← he]; exact hm) hp ht
  | alt hm hj _ ih =>
    intro hf
    exact .alt hm hj (ih (fun tok ht => hf tok (.alt hm hj ht)))

theorem LStep.reach {i j : I} (s : LStep G i j) (hi : Reachable G root i) : Reachable G root j := by
  cases s with
  | alt hm hj => exact .step hi ⟨_, hm, hj⟩
  | seq hm _ => exact .step hi ⟨_, hm, by simp [Rule.parts]⟩

theorem LSteps.reach {i j : I} (s : LSteps G i j) (hi : Reachable G root i) : Reachable G root j := by
  induction s with
  | refl => exact hi
  | head s _ ih => exact ih (s.reach hi)

/-- There is no cycle if alternatives do not overlap, and parts of sequences that can be empty do not begin like
later parts. -/
theorem no_left_cycle_of (hfun : G.Functional) (hprod : ∀ i, Reachable G root i → Productive G i)
    (halt : ∀ t l, Reachable G root t → (t, Rule.alt l) ∈ G → ∀ (p q : Nat) a b, p < q → l[p]? = some a →
      l[q]? = some b → ¬ Overlap G a b)
    (hseq : ∀ t pre a mid b post, Reachable G root t → (t, Rule.seq (pre ++ a :: (mid ++ b :: post))) ∈ G →
      Null G a → (∀ k ∈ mid, Null G k) → ∀ tok, FirstI G a tok → ¬ FirstI G b tok)
    {t t1 : I} (hr : Reachable G root t) (hs1 : LStep G t t1) (hs2 : LSteps G t1 t) : False := by
  -- the strongly connected component of `t`
  let C : I → Prop := fun x => LSteps G t x ∧ LSteps G x t
  have hCr : ∀ x, C x → Reachable G root x := fun x hx => hx.1.reach hr
  -- all FIRST sets of the component agree
  have hFirst : ∀ x y tok, C x → C y → FirstI G x tok → FirstI G y tok := by
    intro x y tok hx hy hxt
    exact (hy.2.trans hx.1).first hxt
  have hsucc : ∀ x, C x → ∃ y, LStep G x y ∧ C y := by
    rintro x ⟨h1, h2⟩
    cases h2 with
    | refl => exact ⟨t1, hs1, .head hs1 (.refl _), hs2⟩
    | head s h3 => exact ⟨_, s, h1.trans (.head s (.refl _)), h3⟩
  have htC : C t := ⟨.refl _, .refl _⟩
  -- a union of the component with a productive alternative outside
  have hexit : ∀ x, Prd G x → C x → ∃ x' l j, C x' ∧ (x', Rule.alt l) ∈ G ∧ j ∈ l ∧ Prd G j ∧ ¬ C j := by
    intro x hx
    induction hx with
    | @eps i hm =>
      intro hC
      obtain ⟨y, hy, _⟩ := hsucc _ hC
      cases hy with
      | alt hm' _ => cases functional_unique hfun hm hm'
      | seq hm' _ => cases functional_unique hfun hm hm'
    | @term i t hm =>
      intro hC
      obtain ⟨y, hy, _⟩ := hsucc _ hC
      cases hy with
      | alt hm' _ => cases functional_unique hfun hm hm'
      | seq hm' _ => cases functional_unique hfun hm hm'
    | @seq i l hm hall ih =>
      intro hC
      obtain ⟨y, hy, hyC⟩ := hsucc _ hC
      cases hy with
      | alt hm' _ => cases functional_unique hfun hm hm'
      | seq hm' _ =>
        have := functional_unique hfun hm hm'
        simp at this; subst this
        exact ih y (by simp) hyC
    | @alt i l j hm hj hp ih =>
      intro hC
      by_cases hjC : C j
      · exact ih hjC
      · exact ⟨i, l, j, hC, hm, hj, hp, hjC⟩
  obtain ⟨x, l, j, hxC, hm, hj, hjp, hjC⟩ := hexit t (hprod t hr).prd htC
  obtain ⟨y, hxy, hyC⟩ := hsucc x hxC
  have hyl : y ∈ l := by
    cases hxy with
    | alt hm' hy => have := functional_unique hfun hm hm'; simp at this; subst this; exact hy
    | seq hm' _ => cases functional_unique hfun hm hm'
  have hno : ¬ Overlap G j y := by
    obtain ⟨p, hp⟩ := List.mem_iff_getElem?.1 hj
    obtain ⟨q, hq⟩ := List.mem_iff_getElem?.1 hyl
    have hpq : p ≠ q := by
      rintro rfl
      rw [hp] at hq; simp at hq; subst hq; exact hjC hyC
    rcases Nat.lt_or_gt_of_ne hpq with hlt | hlt
    · exact halt x l (hCr x hxC) hm p q j y hlt hp hq
    · intro ho
      refine halt x l (hCr x hxC) hm q p y j hlt hq hp ?_
      obtain ⟨z, h1, h2⟩ := (overlap_iff _ _ _).1 ho
      exact (overlap_iff _ _ _).2 ⟨z, h2, h1⟩
  have hjf : ∀ tok, ¬ FirstI G j tok := by
    intro tok ht
    refine hno (.inl ⟨tok, ht.firstOf, ?_⟩)
    exact (hFirst x y tok hxC hyC (.alt hm hj ht)).firstOf
  have hjn : Null G j := hjp.null hjf
  have hxn : Null G x := .alt hm hj hjn
  have hyn : ¬ Null G y := fun hy => hno (.inr ⟨hjn.nullable, hy.nullable⟩)
  -- from `y` back to `x` there is a step from a non-nullable to a nullable production
  have hcross : ∀ {u v}, LSteps G u v → C u → C v → ¬ Null G u → Null G v →
      ∃ a b, C a ∧ C b ∧ LStep G a b ∧ ¬ Null G a ∧ Null G b := by
    intro u v s
    induction s with
    | refl => intro _ _ h1 h2; exact absurd h2 h1
    | @head i k w s s2 ih =>
      intro hi hw h1 h2
      have hk : C k := ⟨hi.1.trans (.head s (.refl _)), s2.trans hw.2⟩
      by_cases hkn : Null G k
      · exact ⟨i, k, hi, hk, s, h1, hkn⟩
      · exact ih hk hw hkn h2
  obtain ⟨a, b, haC, hbC, hab, han, hbn⟩ := hcross (hyC.2.trans hxC.1) hyC hxC hyn hxn
  cases hab with
  | alt hm' hb => exact han (.alt hm' hb hbn)
  | @seq pre _ post hm' hpre =>
    -- the first later part that is not nullable
    have hex : ∃ mid s post', post = mid ++ s :: post' ∧ (∀ k ∈ mid, Null G k) ∧ ¬ Null G s := by
      apply Classical.byContradiction
      intro hnone
      apply han
      have hall : ∀ k ∈ post, Null G k := by
        refine all_of_prefix ?_
        intro p c q he hp
        apply Classical.byContradiction
        intro hcn
        exact hnone ⟨p, c, q, he, hp, hcn⟩
      refine .seq hm' ?_
      intro k hk
      rcases List.mem_append.1 hk with hk | hk
      · exact hpre k hk
      · rcases List.mem_cons.1 hk with rfl | hk
        · exact hbn
        · exact hall k hk
    obtain ⟨mid, s, post', rfl, hmid, hsn⟩ := hex
    have hsr : Reachable G root s := .step (hCr a haC) ⟨_, hm', by simp [Rule.parts]⟩
    apply hsn
    refine (hprod s hsr).prd.null ?_
    intro tok ht
    have h1 : FirstI G a tok := by
      refine .seq (pre := pre ++ b :: mid) (j := s) (post := post') (by simpa using hm') ?_ ht
      intro k hk
      rcases List.mem_append.1 hk with hk | hk
      · exact hpre k hk
      · rcases List.mem_cons.1 hk with rfl | hk
        · exact hbn
        · exact hmid k hk
    have h2 : FirstI G b tok := hFirst a b tok haC hbC h1
    exact hseq a pre b mid s post' (hCr a haC) hm' hbn hmid tok h2 ht

theorem no_left_cycle {fuel : Nat} {m : Metadata I n} (hfun : G.Functional)
    (hprod : ∀ i, Reachable G root i → Productive G i) (h : build fuel G root = some (.ok m))
    {t t1 : I} (hr : Reachable G root t) (hs1 : LStep G t t1) (hs2 : LSteps G t1 t) : False :=
  no_left_cycle_of hfun hprod (fun _ _ hr hm _ _ _ _ => accepted_alt hfun h hr hm)
    (fun _ _ _ _ _ _ hr hm ha hmid tok h1 h2 =>
      accepted_seq hfun h hr hm ha.nullable (fun k hk => (hmid k hk).nullable) tok h1.firstOf h2.firstOf) hr hs1 hs2

/-- LL(1) grammars without useless productions are not left recursive. -/
theorem ll1_no_left (hfun : G.Functional) (hprod : ∀ i, Reachable G root i → Productive G i) (hll : LL1 G root)
    {t : I} (hr : Reachable G root t) : ¬ LeftDerives G t t := by
  intro hl
  obtain ⟨t1, hs1, hs2⟩ := hl.lsteps
  refine no_left_cycle_of hfun hprod (fun t l hr hm => (hll t l hr hm).1) ?_ hr hs1 hs2
  intro t pre a mid b post hr hm ha hmid tok h1 h2
  exact ll1_disjoint hfun hll h1 (.step hr ⟨_, hm, by simp [Rule.parts]⟩) ha (.between hr hm hmid h2)

theorem no_left_recursion {fuel : Nat} {m : Metadata I n} (hfun : G.Functional)
    (hprod : ∀ i, Reachable G root i → Productive G i) (h : build fuel G root = some (.ok m))
    {t : I} (hr : Reachable G root t) : ¬ LeftDerives G t t := by
  intro hl
  obtain ⟨t1, hs1, hs2⟩ := hl.lsteps
  exact no_left_cycle hfun hprod h hr hs1 hs2

end Teleparse
