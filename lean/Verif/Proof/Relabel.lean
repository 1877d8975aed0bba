import Verif.Proof.RelabelLoop
import Verif.Proof.RelabelProgram
import Verif.Proof.Whole
/-
Every type produces the same tree in a program with other names.
-/
set_option linter.unusedSectionVars false
namespace Teleparse
variable {m n m' n' : Nat} {S : Schema m n} {S' : Schema m' n'} {r : Relabel m n m' n'} {root : Ty m n}

mutual
theorem Tree.span_retok (ρ : Fin n → Fin n') : ∀ (x : Tree n), (x.retok ρ).span = x.span
  | .tok _ => rfl
  | .seq _ _ => rfl
  | .variant i x => Tree.span_retok ρ x
  | .optSome _ _ => rfl
  | .optNone _ => rfl
  | .exist _ _ => rfl
  | .text _ _ => rfl
  | .list _ _ => rfl
  | .split _ _ _ => rfl
  | .recover hs x y => by
    simp only [Tree.retok, Tree.span]
    rw [Tree.span_retok ρ y]
  | .recoverNone hs y => by
    simp only [Tree.retok, Tree.span]
    rw [Tree.span_retok ρ y]
end

theorem Tree.span_relabel (S : Schema m n) (r : Relabel m n m' n') (t : Ty m n) (x : Tree n) :
    (x.relabel S r t).span = x.span := by
  rw [Tree.relabel, Tree.span_retok, Tree.span_renumber]

namespace Relab

/-- The tree of the type in the other program. -/
def treeAs (S : Schema m n) (r : Relabel m n m' n') (t : Ty m n) : TRel n n' where
  rel x y := y = x.relabel S r t
  span := by
    rintro x _ rfl
    exact Tree.span_relabel S r t x

theorem trees_relabel {t : Ty m n} {l : List (Tree n)} {l' : List (Tree n')} (h : TreesRel (treeAs S r t) l l') :
    l' = retokAll r.tok (renumberAll S r.variant l (List.replicate l.length t)) := by
  induction h with
  | nil => rfl
  | cons h _ ih =>
    rw [ih, show _ = _ from h]
    rfl

theorem each_relabel {ts : List (Ty m n)} {l : List (Tree n)} {l' : List (Tree n')} (h : Each (ts.map (treeAs S r)) l l') :
    l' = retokAll r.tok (renumberAll S r.variant l ts) := by
  induction ts generalizing l l' with
  | nil => cases h; rfl
  | cons t ts ih =>
    cases h with
    | cons h1 h2 =>
      rw [ih h2, show _ = _ from h1]
      rfl

theorem list_relabel {t u : Ty m n} (hu : u.core.elem = t) {x : Tree n} {y : Tree n'} (h : ListRel (treeAs S r t) x y) :
    y = x.relabel S r u := by
  obtain ⟨sp, l, l', rfl, rfl, h⟩ := h
  rw [trees_relabel h]
  simp only [Tree.relabel, Tree.renumber, Tree.retok]
  rw [hu]

theorem split_relabel {t p u : Ty m n} (hu : u.core.elem = t) (hu' : u.core.elem' = p) {x : Tree n} {y : Tree n'}
    (h : SplitRel (treeAs S r t) (treeAs S r p) x y) : y = x.relabel S r u := by
  obtain ⟨sp, l, l', q, q', rfl, rfl, h1, h2⟩ := h
  rw [trees_relabel h1, trees_relabel h2]
  simp only [Tree.relabel, Tree.renumber, Tree.retok]
  rw [hu, hu']

theorem recover_relabel {t p u : Ty m n} (hu : u.core.elem = t) (hu' : u.core.elem' = p) {x : Tree n} {y : Tree n'}
    (h : RecRel (treeAs S r t) (treeAs S r p) x y) : y = x.relabel S r u := by
  rcases h with ⟨sp, a, a', b, b', rfl, rfl, h1, h2⟩ | ⟨sp, b, b', rfl, rfl, h2⟩
  · rw [show _ = _ from h1, show _ = _ from h2]
    simp only [Tree.relabel, Tree.renumber, Tree.retok]
    rw [hu, hu']
  · rw [show _ = _ from h2]
    simp only [Tree.relabel, Tree.renumber, Tree.retok]
    rw [hu']

theorem seq_relabel {u : Ty m n} {ts : List (Ty m n)} (hu : S.partTys u.core = ts) {x : Tree n} {y : Tree n'}
    (h : SeqRel (ts.map (treeAs S r)) x y) : y = x.relabel S r u := by
  obtain ⟨sp, l, l', rfl, rfl, h⟩ := h
  rw [each_relabel h]
  simp only [Tree.relabel, Tree.renumber, Tree.retok]
  rw [hu]

theorem variant_relabel {k : Fin m} {i : Nat} {x : Tree n} {y : Tree n'}
    (h : VarRel (treeAs S r (S.variantTy k i)) i (r.variant k i) x y) : y = x.relabel S r (.user k) := by
  obtain ⟨t, t', rfl, rfl, h⟩ := h
  rw [show _ = _ from h]
  rfl

section
variable {σ τ : Type} {o : Ops σ n} {o' : Ops τ n'} {SR : σ → τ → Prop}
variable {fuel₁ fuel₂ : Nat} {md : Metadata (PId m n) n} {md' : Metadata (PId m' n') n'}

theorem fields_rel {rec : Ty m n → P σ n} {rec' : Ty m' n' → P τ n'} {l : List (Field m n)} {l' : List (Field m' n')}
    (h : Pointwise (FieldAs r) l l')
    (hm : ∀ u ∈ l, PRel r.tok SR (treeAs S r u.1) (rec u.1) (rec' (u.1.relabel r))) :
    Parsers r.tok SR (l.map fun u => treeAs S r u.1) ((l.map fun u => (rec u.1, u.2)).map (·.1))
      ((l'.map fun u => (rec' u.1, u.2)).map (·.1)) ∧
    Pointwise (BothOr (SemAs r.tok)) ((l.map fun u => (rec u.1, u.2)).map (·.2)) ((l'.map fun u => (rec' u.1, u.2)).map (·.2)) := by
  induction h with
  | nil => exact ⟨.nil, .nil⟩
  | cons h _ ih =>
    obtain ⟨g1, g2⟩ := ih fun u hu => hm u (List.mem_cons_of_mem _ hu)
    refine ⟨.cons ?_ g1, .cons h.sem g2⟩
    dsimp only
    rw [h.ty]
    exact hm _ List.mem_cons_self

/-- All types do the same. -/
theorem step_relabel (hP : Prims r.tok o o' SR) (h : Relabelled S S' r) (h1 : S.metadata fuel₁ root = some (.ok md))
    (h2 : S'.metadata fuel₂ (root.relabel r) = some (.ok md')) (fuel : Nat) {rec : Ty m n → P σ n} {rec' : Ty m' n' → P τ n'}
    (hrec : ∀ t, Reach S.tyParts root t → PRel r.tok SR (treeAs S r t) (rec t) (rec' (t.relabel r)))
    (t : Ty m n) (ht : Reach S.tyParts root t) :
    PRel r.tok SR (treeAs S r t) (produceStep o S md fuel rec t) (produceStep o' S' md' fuel rec' (t.relabel r)) := by
  have hf : ∀ t : Ty m n, SetAs r.tok (md.first.get t.pid) (md'.first.get (t.relabel r).pid) := by
    intro t
    rw [Ty.pid_relabel]
    exact h.first h1 h2 _
  have hfo : ∀ t : Ty m n, SetAs r.tok (md.follow.get t.pid) (md'.follow.get (t.relabel r).pid) := by
    intro t
    rw [Ty.pid_relabel]
    exact h.follow h1 h2 _
  have up : ∀ u, u ∈ S.tyParts t → PRel r.tok SR (treeAs S r u) (rec u) (rec' (u.relabel r)) :=
    fun u hu => hrec u (.step ht hu)
  cases t with
  | term k t =>
    refine (term_rel hP t (hfo (.term k t))).mono ?_
    rintro _ _ ⟨t, rfl, rfl⟩
    rfl
  | user k =>
    cases hk : S k with
    | struct f fs =>
      obtain ⟨f', fs', k1, k2⟩ := h.structs k f fs hk
      have hm : ∀ u ∈ (f :: fs), PRel r.tok SR (treeAs S r u.1) (rec u.1) (rec' (u.1.relabel r)) := by
        intro u hu
        refine up u.1 ?_
        simp only [Schema.tyParts, hk]
        exact List.mem_map_of_mem hu
      simp only [produceStep, Ty.relabel, hk, k1]
      obtain ⟨g1, g2⟩ := fields_rel k2 hm
      refine (struct_rel hP g1 g2).mono fun a b h => seq_relabel (ts := (f :: fs).map (·.1)) ?_ ?_
      · simp [Schema.partTys, Ty.core, Schema.fields?, hk]
      · rw [List.map_map]; exact h
    | enum v vs =>
      obtain ⟨v', vs', k1, k2, k3, k4⟩ := h.enums k v vs hk
      have hm : ∀ u ∈ (v :: vs), PRel r.tok SR (treeAs S r u.1) (rec u.1) (rec' (u.1.relabel r)) := by
        intro u hu
        refine up u.1 ?_
        simp only [Schema.tyParts, hk]
        exact List.mem_map_of_mem hu
      simp only [produceStep, Ty.relabel, hk, k1]
      refine (enum_rel hP (fun i => treeAs S r (S.variantTy k i)) (r.variant k) (hf (.user k)) ?_).mono ?_
      · intro x
        obtain ⟨j1, j2⟩ := h.jump h1 h2 hk (reach_pid ht) x
        rw [j1]
        cases hl : md.jump.lookUp (.user k) x with
        | none => exact .none
        | some i =>
          have hi := j2 i hl
          have hg := List.getElem?_eq_getElem hi
          obtain ⟨w, g1, g2⟩ := k2 i _ hg
          have hv : S.variantTy k i = (v :: vs)[i].1 := by
            simp only [Schema.variantTy, hk, hg]
            rfl
          have hr := hm _ (List.getElem_mem hi)
          refine .some (p := rec (v :: vs)[i].1) (s := (v :: vs)[i].2) (p' := rec' w.1) (s' := w.2)
            (by rw [List.getElem?_map, hg]; rfl) (by rw [List.getElem?_map, g1]; rfl) ?_ g2.sem
          rw [hv, g2.ty]
          exact hr
      · rintro a b ⟨i, h⟩
        exact variant_relabel h
  | box t =>
    refine (up t (by simp [Schema.tyParts])).mono fun a b h => ?_
    rw [show _ = _ from h]
    show _ = _
    rw [Tree.relabel, Tree.relabel, renumber_box]
  | option t =>
    refine option_rel hP (hf t) (up t (by simp [Schema.tyParts])) ?_
    intro s a b hab
    cases hab with
    | none => rfl
    | some h => rw [show _ = _ from h]; rfl
  | exist t =>
    refine option_rel hP (hf t) (up t (by simp [Schema.tyParts])) ?_
    intro s a b hab
    cases hab with
    | none => rfl
    | some h => rfl
  | quote t =>
    refine (text_rel hP (up t (by simp [Schema.tyParts]))).mono ?_
    rintro _ _ ⟨sp, s, rfl, rfl⟩
    rfl
  | parse t =>
    refine (text_rel hP (up t (by simp [Schema.tyParts]))).mono ?_
    rintro _ _ ⟨sp, s, rfl, rfl⟩
    rfl
  | plus t =>
    exact (plus_rel hP (hf (.plus t)) (up t (by simp [Schema.tyParts])) _).mono fun a b h => list_relabel rfl h
  | star t =>
    have hp : Reach S.tyParts root (.plus t) := .step ht (by simp [Schema.tyParts])
    refine option_rel (T := treeAs S r (.plus t)) hP (hf (.plus t)) ((plus_rel hP (hf (.plus t))
      (hrec t (.step hp (by simp [Schema.tyParts]))) _).mono fun a b h => list_relabel rfl h) ?_
    intro s a b hab
    cases hab with
    | none => rfl
    | @some x y h =>
      rw [show _ = _ from h]
      cases x <;> rfl
  | loop t =>
    exact (loop_rel hP (hf (.loop t)) (up t (by simp [Schema.tyParts])) _).mono fun a b h => list_relabel rfl h
  | split t p =>
    exact (split_rel hP (hf t) (hf p) (hfo (.split t p)) (up t (by simp [Schema.tyParts])) (up p (by simp [Schema.tyParts])) _).mono
      fun a b h => split_relabel rfl rfl h
  | punct t p =>
    exact (punct_rel hP (hf t) (hf p) (hfo (.punct t p)) (up t (by simp [Schema.tyParts])) (up p (by simp [Schema.tyParts])) _).mono
      fun a b h => split_relabel rfl rfl h
  | recover t q =>
    exact (recover_rel hP (hf t) (hf q) (up t (by simp [Schema.tyParts])) (up q (by simp [Schema.tyParts])) _).mono
      fun a b h => recover_relabel rfl rfl h
  | tup2 a b =>
    exact (tuple_rel (.cons (up a (by simp [Schema.tyParts])) (.cons (up b (by simp [Schema.tyParts])) .nil))).mono
      fun x y h => seq_relabel (ts := [a, b]) rfl h
  | tup3 a b c =>
    exact (tuple_rel (.cons (up a (by simp [Schema.tyParts])) (.cons (up b (by simp [Schema.tyParts]))
      (.cons (up c (by simp [Schema.tyParts])) .nil)))).mono fun x y h => seq_relabel (ts := [a, b, c]) rfl h
  | tup4 a b c d =>
    exact (tuple_rel (.cons (up a (by simp [Schema.tyParts])) (.cons (up b (by simp [Schema.tyParts]))
      (.cons (up c (by simp [Schema.tyParts])) (.cons (up d (by simp [Schema.tyParts])) .nil))))).mono
      fun x y h => seq_relabel (ts := [a, b, c, d]) rfl h
  | tup5 a b c d e =>
    exact (tuple_rel (.cons (up a (by simp [Schema.tyParts])) (.cons (up b (by simp [Schema.tyParts]))
      (.cons (up c (by simp [Schema.tyParts])) (.cons (up d (by simp [Schema.tyParts]))
      (.cons (up e (by simp [Schema.tyParts])) .nil)))))).mono fun x y h => seq_relabel (ts := [a, b, c, d, e]) rfl h

theorem produce_relabel (hP : Prims r.tok o o' SR) (h : Relabelled S S' r) (h1 : S.metadata fuel₁ root = some (.ok md))
    (h2 : S'.metadata fuel₂ (root.relabel r) = some (.ok md')) : ∀ (fuel : Nat) (t : Ty m n), Reach S.tyParts root t →
    PRel r.tok SR (treeAs S r t) (produce o S md fuel t) (produce o' S' md' fuel (t.relabel r)) := by
  intro fuel
  induction fuel with
  | zero => intro t _; exact .fuel
  | succ fuel ih => intro t ht; exact step_relabel hP h h1 h2 fuel ih t ht

end

end Relab
end Teleparse
