import Verif.Proof.LL1
/-
The analysis does not depend on the order of the productions.
-/
set_option linter.unusedSectionVars false
namespace Teleparse
variable {I : Type} {n : Nat} [DecidableEq I] {G G' : Grammar I n} {root : I}

theorem Null.mono (hs : ∀ p ∈ G, p ∈ G') {i : I} (h : Null G i) : Null G' i := by
  induction h with
  | eps hm => exact .eps (hs _ hm)
  | seq hm _ ih => exact .seq (hs _ hm) ih
  | alt hm hj _ ih => exact .alt (hs _ hm) hj ih

theorem FirstI.mono (hs : ∀ p ∈ G, p ∈ G') {i : I} {tok : TokenSrc n} (h : FirstI G i tok) :
    FirstI G' i tok := by
  induction h with
  | term hm hx => exact .term (hs _ hm) hx
  | seq hm hn _ ih => exact .seq (hs _ hm) (fun k hk => (hn k hk).mono hs) ih
  | alt hm hj _ ih => exact .alt (hs _ hm) hj ih

theorem FollowC.mono (hs : ∀ p ∈ G, p ∈ G') {i : I} {o : Option (TokenSrc n)}
    (h : FollowC G root i o) : FollowC G' root i o := by
  induction h with
  | root => exact .root
  | alt hm hy _ ih => exact .alt (hs _ hm) hy ih
  | tail hm hn _ ih => exact .tail (hs _ hm) (fun k hk => (hn k hk).mono hs) ih
  | adj hm hf => exact .adj (hs _ hm) (hf.mono hs)

theorem firstFam_congr (h : ∀ p, p ∈ G ↔ p ∈ G') (i : I) (x : Option (TokenSrc n)) :
    firstFam G i x ↔ firstFam G' i x := by
  cases x with
  | none => exact ⟨Null.mono fun p => (h p).1, Null.mono fun p => (h p).2⟩
  | some tok => exact ⟨FirstI.mono fun p => (h p).1, FirstI.mono fun p => (h p).2⟩

theorem followC_congr (h : ∀ p, p ∈ G ↔ p ∈ G') (i : I) (x : Option (TokenSrc n)) :
    FollowC G root i x ↔ FollowC G' root i x :=
  ⟨FollowC.mono fun p => (h p).1, FollowC.mono fun p => (h p).2⟩

theorem aget?_congr {V : Type} {m m' : List (I × V)} (hn : (m.map Prod.fst).Nodup)
    (hn' : (m'.map Prod.fst).Nodup) (h : ∀ p, p ∈ m ↔ p ∈ m') (i : I) : aget? m i = aget? m' i := by
  cases hg : aget? m i with
  | some v => exact (aget?_of_mem hn' ((h _).1 (mem_of_aget? hg))).symm
  | none =>
    cases hg' : aget? m' i with
    | none => rfl
    | some v =>
      have := aget?_of_mem hn ((h _).2 (mem_of_aget? hg'))
      rw [hg] at this; cases this

/-- Same members. -/
def TSet.SemEq (s s' : TSet n) : Prop := ∀ x, s.contains x = s'.contains x

theorem TSet.SemEq.mem {s s' : TSet n} (h : s.SemEq s') (tok : TokenSrc n) :
    TSet.Mem tok s ↔ TSet.Mem tok s' := by
  unfold TSet.Mem; rw [h]

theorem TSet.SemEq.intersects {s s' o o' : TSet n} (h : s.SemEq s') (h2 : o.SemEq o') (b : Bool) :
    s.intersects o b = s'.intersects o' b := by
  rw [Bool.eq_iff_iff, TSet.intersects_iff, TSet.intersects_iff]
  have e1 : s.e = s'.e := h none
  have e2 : o.e = o'.e := h2 none
  rw [e1, e2]
  simp only [h.mem, h2.mem]

theorem TSet.SemEq.union {s s' o o' : TSet n} (h : s.SemEq s') (h2 : o.SemEq o') (b : Bool) :
    (s.union o b).1.SemEq (s'.union o' b).1 := by
  intro x
  cases x with
  | none =>
    have e1 : s.e = s'.e := h none
    have e2 : o.e = o'.e := h2 none
    rw [TSet.contains_none, TSet.contains_none, TSet.union_e, TSet.union_e, e1, e2]
  | some tok =>
    rw [Bool.eq_iff_iff]
    have h1 := TSet.mem_union s o b tok
    have h3 := TSet.mem_union s' o' b tok
    unfold TSet.Mem at h1 h3
    rw [h1, h3, h, h2]

theorem TSet.SemEq.clear {s s' : TSet n} (h : s.SemEq s') : s.clear.SemEq s'.clear := by
  intro x
  cases x with
  | none => rfl
  | some tok =>
    rw [Bool.eq_iff_iff]
    have h1 := TSet.mem_clear s tok
    have h3 := TSet.mem_clear s' tok
    simp only [h.mem] at h1
    rw [← h3] at h1
    exact h1

theorem find?_congr {α : Type} {p q : α → Bool} : ∀ {l : List α}, (∀ a ∈ l, p a = q a) → l.find? p = l.find? q
  | [], _ => rfl
  | a :: l, h => by
    simp only [List.find?_cons]
    rw [h a (List.mem_cons_self ..), find?_congr fun b hb => h b (List.mem_cons_of_mem _ hb)]

theorem altConflict_congr {first first' : Tbl I n} (t : I) (all l : List I)
    (hf : ∀ i ∈ all, (first.get i).SemEq (first'.get i)) (hl : ∀ i ∈ l, i ∈ all) :
    ∀ (c c' : TSet n), c.SemEq c' → altConflict first t all l c = altConflict first' t all l c' := by
  induction l with
  | nil => intro c c' _; rfl
  | cons x l ih =>
    intro c c' hc
    have hx := hf x (hl x (List.mem_cons_self ..))
    simp only [altConflict]
    rw [hc.intersects hx true]
    have hfind : (all.find? fun before => (first.get x).intersects (first.get before) true) =
        all.find? fun before => (first'.get x).intersects (first'.get before) true :=
      find?_congr fun before hb => hx.intersects (hf before hb) true
    rw [hfind, ih (fun i hi => hl i (List.mem_cons_of_mem _ hi)) _ _ (hc.union hx true)]

theorem seqConflict_congr {first first' : Tbl I n} (t : I) (l : List I)
    (hf : ∀ i ∈ l, (first.get i).SemEq (first'.get i)) : ∀ (cur : I) (c c' : TSet n), c.SemEq c' →
    seqConflict first t cur c l = seqConflict first' t cur c' l := by
  induction l with
  | nil => intro cur c c' _; rfl
  | cons x l ih =>
    intro cur c c' hc
    have hx := hf x (List.mem_cons_self ..)
    have ih := ih fun i hi => hf i (List.mem_cons_of_mem _ hi)
    simp only [seqConflict]
    rw [hc.intersects hx false, ih _ _ _ (hc.union hx false), ih _ _ _ hc.clear]
    have : (first.get x).containsE = (first'.get x).containsE := hx none
    rw [this]

theorem nodeConflict_congr {first first' follow follow' : Tbl I n}
    (hg : ∀ t, aget? G t = aget? G' t) (hf : ∀ i, (first.get i).SemEq (first'.get i))
    (hfo : ∀ i, (follow.get i).SemEq (follow'.get i)) (t : I) :
    nodeConflict G first follow t = nodeConflict G' first' follow' t := by
  have hself : selfConflict first follow t = selfConflict first' follow' t := by
    simp only [selfConflict]
    rw [(hfo t).intersects (hf t) false]
    have : (first.get t).containsE = (first'.get t).containsE := hf t none
    rw [this]
  unfold nodeConflict
  rw [hg t, hself]
  cases aget? G' t with
  | none => rfl
  | some r =>
    cases r with
    | eps => rfl
    | term t => rfl
    | alt l => simp only; rw [altConflict_congr t l l (fun i _ => hf i) (fun _ h => h) _ _ (fun _ => rfl)]
    | seq l =>
      cases l with
      | nil => rfl
      | cons c cs =>
        simp only
        rw [seqConflict_congr t cs (fun i _ => hf i) c _ (if (first'.get c).containsE = true then first'.get c
          else TSet.empty)]
        have : (first.get c).containsE = (first'.get c).containsE := hf c none
        rw [this]
        split
        · exact hf c
        · intro _; rfl

theorem buildFirst_semEq (h : ∀ p, p ∈ G ↔ p ∈ G') {fuel fuel' : Nat} {first first' : Tbl I n}
    (h1 : buildFirst fuel G = some first) (h2 : buildFirst fuel' G' = some first') (i : I) :
    (first.get i).SemEq (first'.get i) := by
  intro x
  rw [Bool.eq_iff_iff]
  have e1 := buildFirst_den h1 i x
  have e2 := buildFirst_den h2 i x
  rw [← firstFam_congr h, ← e1] at e2
  exact e2.symm

theorem buildFollow_semEq (h : ∀ p, p ∈ G ↔ p ∈ G') {fuel fuel' : Nat} {first first' : Tbl I n}
    (h1 : buildFirst fuel G = some first) (h2 : buildFirst fuel' G' = some first')
    {fu fu' : Nat} {follow follow' : Tbl I n} (h3 : buildFollow fu first G root = some follow)
    (h4 : buildFollow fu' first' G' root = some follow') (i : I) :
    (follow.get i).SemEq (follow'.get i) := by
  intro x
  rw [Bool.eq_iff_iff]
  have e1 := buildFollow_den (buildFirst_den h1) h3 i x
  have e2 := buildFollow_den (buildFirst_den h2) h4 i x
  rw [← followC_congr h, ← e1] at e2
  exact e2.symm

theorem checkConflicts_congr {first first' follow follow' : Tbl I n}
    (hg : ∀ t, aget? G t = aget? G' t) (hf : ∀ i, (first.get i).SemEq (first'.get i))
    (hfo : ∀ i, (follow.get i).SemEq (follow'.get i)) (fuel : Nat) :
    checkConflicts G first follow fuel root = checkConflicts G' first' follow' fuel root := by
  have hp : G.partsOf = G'.partsOf := by
    funext t; unfold Grammar.partsOf; rw [hg]
  unfold checkConflicts
  rw [hp]
  congr 1
  funext t u
  rw [nodeConflict_congr hg hf hfo]

/-- The same error, or acceptance in both orders. -/
theorem build_error_congr (hn : G.Functional) (hn' : G'.Functional) (h : ∀ p, p ∈ G ↔ p ∈ G')
    {fuel fuel' : Nat} {r r' : Except (GErr I) (Metadata I n)}
    (h1 : build fuel G root = some r) (h2 : build fuel' G' root = some r') {e : GErr I}
    (he : r = .error e) : r' = .error e := by
  subst he
  have hg := aget?_congr hn hn' h
  obtain ⟨first, follow, a1, a2, a3⟩ := build_error h1
  have hconf : ∀ f f' first' follow', buildFirst f G' = some first' →
      buildFollow f' first' G' root = some follow' →
      ∀ F, fuel ≤ F → checkConflicts G' first' follow' F root = some (.error e) := by
    intro f f' first' follow' b1 b2 F hF
    rw [← checkConflicts_congr hg (buildFirst_semEq h a1 b1) (buildFollow_semEq h a1 b1 a2 b2)]
    exact dfs_mono _ _ hF _ _ _ a3
  cases r' with
  | ok m =>
    obtain ⟨b1, b2, ⟨r, b3⟩, _⟩ := build_ok h2
    have c1 := hconf _ _ _ _ b1 b2 (max fuel fuel') (Nat.le_max_left _ _)
    have c2 : checkConflicts G' m.first m.follow (max fuel fuel') root = some (.ok r) :=
      dfs_mono _ _ (Nat.le_max_right _ _) _ _ _ b3
    rw [c1] at c2; cases c2
  | error e' =>
    obtain ⟨first', follow', b1, b2, b3⟩ := build_error h2
    have c1 := hconf _ _ _ _ b1 b2 (max fuel fuel') (Nat.le_max_left _ _)
    have c2 : checkConflicts G' first' follow' (max fuel fuel') root = some (.error e') :=
      dfs_mono _ _ (Nat.le_max_right _ _) _ _ _ b3
    rw [c1] at c2
    simp at c2
    rw [c2]

end Teleparse
