import Verif.Proof.Metadata
import Verif.Spec.Accepted
/-
LL(1) grammars are accepted unless `clear` gets in the way; accepted grammars are LL(1) when FOLLOW is
complete.
-/
set_option linter.unusedSectionVars false
namespace Teleparse
variable {I : Type} {n : Nat} [DecidableEq I] {G : Grammar I n} {root : I}

theorem functional_unique (hfun : G.Functional) {i : I} {r r' : Rule I n} (h : (i, r) ∈ G)
    (h' : (i, r') ∈ G) : r = r' := by
  have h1 := aget?_of_mem hfun h
  have h2 := aget?_of_mem hfun h'
  rw [h1] at h2; exact Option.some.inj h2

/-- Following `t` implies following its alternatives. -/
theorem FollowOf.alt {t j : I} {l : List I} {o : Option (TokenSrc n)} (hm : (t, Rule.alt l) ∈ G)
    (hj : j ∈ l) (h : FollowOf G root t o) : FollowOf G root j o := by
  cases o with
  | none =>
    obtain ⟨α, h⟩ := h
    exact ⟨α, h.trans (by simpa using (Derives.one (Expands.alt hm hj)).ctx α [])⟩
  | some tok =>
    obtain ⟨α, β, h⟩ := h
    exact ⟨α, β, h.trans (by simpa using (Derives.one (Expands.alt hm hj)).ctx α (.tok tok :: β))⟩

theorem FollowOf.seq {t j : I} {pre post : List I} {o : Option (TokenSrc n)}
    (hm : (t, Rule.seq (pre ++ j :: post)) ∈ G) (hn : ∀ k ∈ post, Null G k)
    (h : FollowOf G root t o) : FollowOf G root j o := by
  have e2 := derives_nil_of_all post (fun k hk => (hn k hk).nullable)
  cases o with
  | none =>
    obtain ⟨α, h⟩ := h
    refine ⟨α ++ pre.map .nt, h.trans ?_⟩
    have e1 := (Derives.one (Expands.seq hm)).ctx α []
    have e3 := e2.ctx (α ++ pre.map .nt ++ [.nt j]) []
    refine Derives.trans (by simpa using e1) ?_
    simpa using e3
  | some tok =>
    obtain ⟨α, β, h⟩ := h
    refine ⟨α ++ pre.map .nt, β, h.trans ?_⟩
    have e1 := (Derives.one (Expands.seq hm)).ctx α (.tok tok :: β)
    have e3 := e2.ctx (α ++ pre.map .nt ++ [.nt j]) (.tok tok :: β)
    refine Derives.trans (by simpa using e1) ?_
    simpa using e3

/-- A later part's FIRST follows an earlier part if what is between is nullable. -/
theorem FollowOf.between {t a b : I} {pre mid post : List I} {tok : TokenSrc n}
    (hr : Reachable G root t) (hm : (t, Rule.seq (pre ++ a :: (mid ++ b :: post))) ∈ G)
    (hn : ∀ k ∈ mid, Null G k) (hb : FirstI G b tok) : FollowOf G root a (some tok) := by
  obtain ⟨α, β, hd⟩ := hr.connected
  obtain ⟨δ, h2⟩ := hb.firstOf
  have e1 := (Derives.one (Expands.seq hm)).ctx α β
  have e2 := (derives_nil_of_all mid (fun k hk => (hn k hk).nullable)).ctx
    (α ++ pre.map .nt ++ [.nt a]) (.nt b :: (post.map .nt ++ β))
  have e3 := h2.ctx (α ++ pre.map .nt ++ [.nt a]) (post.map .nt ++ β)
  refine ⟨α ++ pre.map .nt, δ ++ (post.map .nt ++ β), hd.trans (Derives.trans (by simpa using e1) ?_)⟩
  refine Derives.trans (by simpa using e2) ?_
  simpa using e3

theorem ll1_disjoint (hfun : G.Functional) (hll : LL1 G root) {t : I} {tok : TokenSrc n}
    (h1 : FirstI G t tok) : Reachable G root t → Null G t → ¬ FollowOf G root t (some tok) := by
  induction h1 with
  | term hm _ =>
    intro _ hn _
    cases hn with
    | eps hm' => cases functional_unique hfun hm hm'
    | seq hm' _ => cases functional_unique hfun hm hm'
    | alt hm' _ _ => cases functional_unique hfun hm hm'
  | @seq i pre j post tok hm hpre hj ih =>
    intro hr hn hf
    cases hn with
    | eps hm' => cases functional_unique hfun hm hm'
    | alt hm' _ _ => cases functional_unique hfun hm hm'
    | seq hm' hall =>
      cases functional_unique hfun hm hm'
      refine ih (.step hr ⟨_, hm, by simp [Rule.parts]⟩) (hall j (by simp)) ?_
      exact hf.seq hm (fun k hk => hall k (by simp [hk]))
  | @alt i l j tok hm hj hjt ih =>
    intro hr hn hf
    cases hn with
    | eps hm' => cases functional_unique hfun hm hm'
    | seq hm' _ => cases functional_unique hfun hm hm'
    | @alt _ l' k hm' hk hkn =>
      have := functional_unique hfun hm hm'
      simp at this; subst this
      obtain ⟨p, hp⟩ := List.mem_iff_getElem?.1 hj
      obtain ⟨q, hq⟩ := List.mem_iff_getElem?.1 hk
      by_cases hpq : q = p
      · subst hpq
        rw [hp] at hq; simp at hq; subst hq
        exact ih (.step hr ⟨_, hm, hj⟩) hkn (hf.alt hm hj)
      · exact (hll i l hr hm).2 q p k j hpq hq hp hkn.nullable tok hjt.firstOf hf

/-! ### What the test accepts -/

theorem nextTo_iff (G : Grammar I n) (root i : I) (x : Option (TokenSrc n)) :
    NextTo G root i x ↔ FollowC G root i x := by
  constructor
  · intro h
    induction h with
    | root => exact .root
    | variant hm hy _ ih => exact .alt hm hy ih
    | tail hm hp _ ih => exact .tail hm (fun k hk => nullable_iff.1 (hp k hk)) ih
    | next hm hf => exact .adj hm (firstOf_iff.1 hf)
  · intro h
    induction h with
    | root => exact .root
    | alt hm hy _ ih => exact .variant hm hy ih
    | tail hm hp _ ih => exact .tail hm (fun k hk => nullable_iff.2 (hp k hk)) ih
    | adj hm hf => exact .next hm (firstOf_iff.2 hf)

theorem tested_accepted (hfun : G.Functional) (hT : Tested G root) (hnb : NoBareRepeat G root) :
    ∃ m fuel, ∀ fuel' ≥ fuel, build fuel' G root = some (.ok m) := by
  obtain ⟨fuel, r, hb⟩ := build_total G root
  cases r with
  | ok m => exact ⟨m, fuel, hb⟩
  | error e =>
    exfalso
    obtain ⟨first, follow, hf, hfo, hc⟩ := build_error (hb fuel (Nat.le_refl _))
    obtain ⟨t, hr, hnode⟩ := checkConflicts_error hc
    have hr := (reach_iff hfun _ _).1 hr
    have hden := buildFirst_den hf
    have hself : selfConflict first follow t ≠ none → False := by
      intro hne
      apply hne
      rw [selfConflict_none]
      rintro h0 tok ⟨h1, h2⟩
      exact hT.ends t hr (nullable_iff.2 ((hden _ _).1 h0)) tok (firstOf_iff.2 ((hden _ _).1 h1))
        ((nextTo_iff _ _ _ _).2 ((buildFollow_den hden hfo _ _).1 h2))
    unfold nodeConflict at hnode
    split at hnode
    · cases hnode
    · cases hnode
    · cases hnode
    · rename_i l hg
      have hm := mem_of_aget? hg
      split at hnode
      · rename_i e' he
        have hs := altConflict_spec first t l l [] TSet.empty rfl (by
          intro x; cases x with
          | none => simp [TSet.contains]
          | some tok => simpa [TSet.Mem] using TSet.mem_empty tok)
        rw [he] at hs
        obtain ⟨pre, b, post, a, x, h1, h2, h3, h4, _⟩ := hs
        simp at h2
        obtain ⟨p, hp⟩ := List.mem_iff_getElem?.1 h2
        have hlt : p < pre.length := (List.getElem?_eq_some_iff.1 hp).1
        refine hT.variants t l hr hm p pre.length a b hlt ?_ ?_ ?_
        · rw [h1, List.getElem?_append_left hlt]; exact hp
        · rw [h1, List.getElem?_append_right (Nat.le_refl _)]; simp
        · exact (overlap_iff _ _ _).2 ⟨x, (hden _ _).1 h3, (hden _ _).1 h4⟩
      · exact hself (by rw [hnode]; simp)
    · cases hnode
    · rename_i c cs hg
      have hm := mem_of_aget? hg
      simp only at hnode
      split at hnode
      · rename_i e' he
        obtain ⟨pre, b, post, tok, h1, h2, h3⟩ := seqConflict_some _ _ _ _ _ _ he
        have key : ∀ pre1 a mid, c :: cs = pre1 ++ a :: (mid ++ b :: post) → first.den a none →
            first.den a (some tok) →
            ((∀ k ∈ mid, first.den k none) ∨ ∀ x, first.den a (some ⟨tok.ty, x⟩)) → False := by
          intro pre1 a mid hl ha hat hw
          rw [hl] at hm
          rcases hw with hw | hw
          · exact hT.parts t pre1 a mid b post hr hm (nullable_iff.2 ((hden _ _).1 ha))
              (fun k hk => nullable_iff.2 ((hden _ _).1 (hw k hk))) tok (firstOf_iff.2 ((hden _ _).1 hat))
              (firstOf_iff.2 ((hden _ _).1 h2))
          · refine hnb t pre1 a mid b post tok.ty hr hm (nullable_iff.2 ((hden _ _).1 ha)) ?_ tok.src ?_
            · intro x; exact firstOf_iff.2 ((hden _ _).1 (hw x))
            · exact firstOf_iff.2 ((hden _ _).1 h2)
        rcases h3 with ⟨hm', hw⟩ | ⟨pre1, a, mid, hp, ha, hat, hw⟩
        · by_cases hce : (first.get c).containsE = true
          · rw [if_pos hce] at hm' hw
            exact key [] c pre (by rw [h1]; rfl) hce hm' hw
          · rw [if_neg hce] at hm'
            exact TSet.mem_empty _ hm'
        · exact key (c :: pre1) a mid (by rw [h1, hp]; simp) ha hat hw
      · exact hself (by rw [hnode]; simp)

theorem LL1.tested (hfun : G.Functional) (hcon : G.Connected root) (hll : LL1 G root) : Tested G root where
  variants t l hr hm p q a b hpq hp hq := (hll t l hr hm).1 p q a b hpq hp hq
  parts t pre a mid b post hr hm ha hmid tok h1 h2 :=
    ll1_disjoint hfun hll (firstOf_iff.1 h1) (.step hr ⟨_, hm, by simp [Rule.parts]⟩) (nullable_iff.1 ha)
      (FollowOf.between hr hm (fun k hk => nullable_iff.1 (hmid k hk)) (firstOf_iff.1 h2))
  ends t hr hn tok h1 h2 := ll1_disjoint hfun hll (firstOf_iff.1 h1) hr (nullable_iff.1 hn)
    (((nextTo_iff _ _ _ _).1 h2).sound hcon)

theorem ll1_accepted (hfun : G.Functional) (hcon : G.Connected root) (hll : LL1 G root)
    (hnb : NoBareRepeat G root) : ∃ m fuel, ∀ fuel' ≥ fuel, build fuel' G root = some (.ok m) :=
  tested_accepted hfun (hll.tested hfun hcon) hnb

theorem accepted_alt {fuel : Nat} {m : Metadata I n} (hfun : G.Functional)
    (h : build fuel G root = some (.ok m)) {t : I} {l : List I} (hr : Reachable G root t)
    (hm : (t, Rule.alt l) ∈ G) {p q : Nat} {a b : I} (hpq : p < q) (hp : l[p]? = some a)
    (hq : l[q]? = some b) : ¬ Overlap G a b := by
  obtain ⟨r, hc⟩ := (build_ok h).2.2.1
  have hnode := checkConflicts_ok hc t ((reach_iff hfun _ _).2 hr)
  intro ho
  obtain ⟨x, h1, h2⟩ := (overlap_iff _ _ _).1 ho
  exact (nodeConflict_alt_none (aget?_of_mem hfun hm) hnode).1 p q a b hpq hp hq x
    ⟨(build_first_den h _ _).2 h1, (build_first_den h _ _).2 h2⟩

theorem accepted_seq {fuel : Nat} {m : Metadata I n} (hfun : G.Functional)
    (h : build fuel G root = some (.ok m)) {t a b : I} {pre mid post : List I}
    (hr : Reachable G root t) (hm : (t, Rule.seq (pre ++ a :: (mid ++ b :: post))) ∈ G)
    (ha : Nullable G a) (hmid : ∀ k ∈ mid, Nullable G k) (tok : TokenSrc n) (h1 : FirstOf G a tok) :
    ¬ FirstOf G b tok := by
  obtain ⟨r, hc⟩ := (build_ok h).2.2.1
  have hnode := checkConflicts_ok hc t ((reach_iff hfun _ _).2 hr)
  intro h2
  exact (nodeConflict_seq_none (aget?_of_mem hfun hm) hnode).1 pre a mid b post rfl
    ((build_first_den h _ _).2 (nullable_iff.1 ha))
    (fun k hk => (build_first_den h _ _).2 (nullable_iff.1 (hmid k hk))) tok
    ⟨(build_first_den h _ _).2 (firstOf_iff.1 h1), (build_first_den h _ _).2 (firstOf_iff.1 h2)⟩

theorem accepted_ll1 {fuel : Nat} {m : Metadata I n} (hfun : G.Functional)
    (hsk : SkipSafe G) (h : build fuel G root = some (.ok m)) : LL1 G root := by
  intro t l hr hm
  refine ⟨fun p q a b hpq hp hq => accepted_alt hfun h hr hm hpq hp hq, ?_⟩
  intro p q a b hpq hp hq ha tok hb hf
  rcases hf.computed with hf | ⟨e, tok', ho, h1, h2⟩
  · exact firstI_disjoint_followC hfun h hr
      (.alt hm (List.mem_iff_getElem?.2 ⟨p, hp⟩) (nullable_iff.1 ha)) tok
      ⟨.alt hm (List.mem_iff_getElem?.2 ⟨q, hq⟩) (firstOf_iff.1 hb), hf⟩
  · cases ho
    exact hsk e t l p q a b tok h2 hm hpq hp hq ha hb h1

/-- What comes beyond an empty part follows. -/
theorem Beyond.followOf (hr : ∀ x r, (x, r) ∈ G → Reachable G root x) {a i : I} {tok : TokenSrc n}
    (h : Beyond G a tok) (he : EndsWith G a i) : FollowOf G root i (some tok) := by
  obtain ⟨x, pre, mid, b, post, hm, _, hn, hb⟩ := h
  have hf : FollowOf G root a (some tok) :=
    FollowOf.between (hr _ _ hm) hm (fun k hk => nullable_iff.1 (hn k hk)) (firstOf_iff.1 hb)
  obtain ⟨α, β, h1⟩ := hf
  obtain ⟨γ, h2⟩ := he
  refine ⟨α ++ γ, β, h1.trans ?_⟩
  have := h2.ctx α (.tok tok :: β)
  simpa using this

theorem ll1_skipSafe (hr : ∀ x r, (x, r) ∈ G → Reachable G root x) (hll : LL1 G root) : SkipSafe G := by
  intro a i l p q s t tok he hm hpq hp hq hn hf hs
  exact (hll i l (hr _ _ hm) hm).2 p q s t hpq hp hq hn tok hf (hs.followOf hr he)

theorem NoInterior.skipSafe (hni : NoInterior G) : SkipSafe G :=
  fun _ _ _ _ _ _ _ _ _ _ _ _ _ _ _ hs => hs.absurd hni

end Teleparse
