import Verif.Spec.Growth
import Verif.Proof.Interchange
import Verif.Proof.Sentence
import Verif.Proof.Fits
/-
Growing grammars: the sets of the analysis grow with the grammar.
-/
set_option linter.unusedSectionVars false
namespace Teleparse

section
variable {I I' : Type} {n : Nat} [DecidableEq I] [DecidableEq I']

/-- The right-hand side `r'` is `r` with the parts renamed, and with more alternatives. -/
inductive RuleGrows (g : I → I') : Rule I n → Rule I' n → Prop
  | eps : RuleGrows g .eps .eps
  | term (t) : RuleGrows g (.term t) (.term t)
  | seq (l) : RuleGrows g (.seq l) (.seq (l.map g))
  | alt {l l'} (q : Nat → Nat) (h : ∀ (i : Nat) a, l[i]? = some a → l'[q i]? = some (g a))
      (hinj : ∀ i j, i < l.length → j < l.length → q i = q j → i = j) : RuleGrows g (.alt l) (.alt l')

theorem RuleGrows.parts {g : I → I'} {r : Rule I n} {r' : Rule I' n} (h : RuleGrows g r r') {j : I}
    (hj : j ∈ r.parts) : g j ∈ r'.parts := by
  cases h with
  | eps => cases hj
  | term t => cases hj
  | seq l => exact List.mem_map_of_mem hj
  | alt q h _ =>
    obtain ⟨i, hi⟩ := List.mem_iff_getElem?.1 hj
    exact List.mem_iff_getElem?.2 ⟨_, h i j hi⟩

/-- `G'` has the productions of `G`, maybe with more alternatives, and maybe others. -/
structure Sim (G : Grammar I n) (G' : Grammar I' n) (g : I → I') (root : I) (root' : I') : Prop where
  rule : ∀ {i r}, (i, r) ∈ G → ∃ r', (g i, r') ∈ G' ∧ RuleGrows g r r'
  root : g root = root'

namespace Sim
variable {G : Grammar I n} {G' : Grammar I' n} {g : I → I'} {root : I} {root' : I'}

theorem seqRule (h : Sim G G' g root root') {i : I} {l : List I} (hm : (i, Rule.seq l) ∈ G) :
    (g i, Rule.seq (l.map g)) ∈ G' := by
  obtain ⟨r', h1, h2⟩ := h.rule hm
  cases h2
  exact h1

theorem altRule (h : Sim G G' g root root') {i : I} {l : List I} (hm : (i, Rule.alt l) ∈ G) :
    ∃ l', (g i, Rule.alt l') ∈ G' ∧ ∀ j ∈ l, g j ∈ l' := by
  obtain ⟨r', h1, h2⟩ := h.rule hm
  have hp := @RuleGrows.parts _ _ _ _ _ _ _ _ h2
  cases h2
  exact ⟨_, h1, fun j hj => hp hj⟩

theorem epsRule (h : Sim G G' g root root') {i : I} (hm : (i, Rule.eps) ∈ G) : (g i, Rule.eps) ∈ G' := by
  obtain ⟨r', h1, h2⟩ := h.rule hm
  cases h2
  exact h1

theorem termRule (h : Sim G G' g root root') {i : I} {t : Terminal n} (hm : (i, Rule.term t) ∈ G) :
    (g i, Rule.term t) ∈ G' := by
  obtain ⟨r', h1, h2⟩ := h.rule hm
  cases h2
  exact h1

theorem null (h : Sim G G' g root root') {i : I} (hn : Null G i) : Null G' (g i) := by
  induction hn with
  | eps hm => exact .eps (h.epsRule hm)
  | seq hm _ ih =>
    refine .seq (h.seqRule hm) fun j' hj' => ?_
    obtain ⟨j, hj, rfl⟩ := List.mem_map.1 hj'
    exact ih j hj
  | alt hm hj _ ih =>
    obtain ⟨l', h1, h2⟩ := h.altRule hm
    exact .alt h1 (h2 _ hj) ih

theorem firstI (h : Sim G G' g root root') {i : I} {tok : TokenSrc n} (hf : FirstI G i tok) : FirstI G' (g i) tok := by
  induction hf with
  | term hm hx => exact .term (h.termRule hm) hx
  | seq hm hn _ ih =>
    have := h.seqRule hm
    rw [List.map_append, List.map_cons] at this
    refine .seq this (fun k' hk' => ?_) ih
    obtain ⟨k, hk, rfl⟩ := List.mem_map.1 hk'
    exact h.null (hn k hk)
  | alt hm hj _ ih =>
    obtain ⟨l', h1, h2⟩ := h.altRule hm
    exact .alt h1 (h2 _ hj) ih

theorem firstFam (h : Sim G G' g root root') {i : I} (x : Option (TokenSrc n)) (hf : firstFam G i x) :
    Teleparse.firstFam G' (g i) x := by
  cases x with
  | none => exact h.null hf
  | some tok => exact h.firstI hf

theorem followC (h : Sim G G' g root root') {i : I} {o : Option (TokenSrc n)} (hf : FollowC G root i o) :
    FollowC G' root' (g i) o := by
  induction hf with
  | root => rw [h.root]; exact .root
  | alt hm hy _ ih =>
    obtain ⟨l', h1, h2⟩ := h.altRule hm
    exact .alt h1 (h2 _ hy) ih
  | tail hm hn _ ih =>
    have := h.seqRule hm
    rw [List.map_append, List.map_cons] at this
    refine .tail this (fun k' hk' => ?_) ih
    obtain ⟨k, hk, rfl⟩ := List.mem_map.1 hk'
    exact h.null (hn k hk)
  | adj hm hf =>
    have := h.seqRule hm
    rw [List.map_append, List.map_cons, List.map_cons] at this
    exact .adj this (h.firstI hf)

theorem reachable (h : Sim G G' g root root') {i : I} (hi : Reachable G root i) : Reachable G' root' (g i) := by
  induction hi with
  | refl => rw [h.root]; exact .refl
  | step _ hp ih =>
    obtain ⟨r, hm, hj⟩ := hp
    obtain ⟨r', hm', h2⟩ := h.rule hm
    exact .step ih ⟨r', hm', h2.parts hj⟩

/-- A symbol renamed. -/
def sym (g : I → I') : Sym I n → Sym I' n
  | .nt i => .nt (g i)
  | .tok t => .tok t

theorem expands (h : Sim G G' g root root') {i : I} {γ : List (Sym I n)} (he : Expands G i γ) :
    Expands G' (g i) (γ.map (sym g)) := by
  cases he with
  | eps hm => exact .eps (h.epsRule hm)
  | term hm ht => exact .term (h.termRule hm) ht
  | seq hm =>
    have := Expands.seq (h.seqRule hm)
    rw [List.map_map] at this ⊢
    exact this
  | alt hm hj =>
    obtain ⟨l', h1, h2⟩ := h.altRule hm
    exact .alt h1 (h2 _ hj)

theorem derives (h : Sim G G' g root root') {α β : List (Sym I n)} (hd : Derives G α β) :
    Derives G' (α.map (sym g)) (β.map (sym g)) := by
  induction hd with
  | refl => exact .refl _
  | step he _ ih =>
    rw [List.map_append, List.map_append] at ih
    rw [List.map_append, List.map_cons]
    exact .step (h.expands he) ih

theorem sentence (h : Sim G G' g root root') {i : I} {w : List (TokenSrc n)} (hd : Derives G [.nt i] (w.map .tok)) :
    Derives G' [.nt (g i)] (w.map .tok) := by
  have := h.derives hd
  rw [List.map_map] at this
  exact this

end Sim

/-! ### Conflicts -/

variable {first follow : Tbl I n} {first' follow' : Tbl I' n}

/-- Without a conflict two alternatives have nothing in common. -/
theorem altConflict_apart {t : I} {l : List I} (h : altConflict first t l l TSet.empty = none) {i j : Nat} {a b : I}
    (hi : l[i]? = some a) (hj : l[j]? = some b) (hij : i ≠ j) (x : Option (TokenSrc n)) :
    ¬ (first.den a x ∧ first.den b x) := by
  have hs := altConflict_spec first t l l [] TSet.empty rfl (by
    intro x; cases x with
    | none => simp [TSet.contains]
    | some tok => simpa [TSet.Mem] using TSet.mem_empty tok)
  rw [h] at hs
  have key : ∀ {i j : Nat} {a b : I}, l[i]? = some a → l[j]? = some b → i < j → ¬ (first.den a x ∧ first.den b x) := by
    intro i j a b hi hj hij
    obtain ⟨hj', rfl⟩ := List.getElem?_eq_some_iff.1 hj
    refine hs (l.take j) _ (l.drop (j + 1)) ?_ a ?_ x
    · rw [← List.drop_eq_getElem_cons hj', List.take_append_drop]
    · rw [List.nil_append]
      exact List.mem_iff_getElem?.2 ⟨i, by rw [List.getElem?_take_of_lt hij, hi]⟩
  rcases Nat.lt_or_gt_of_ne hij with h | h
  · exact key hi hj h
  · exact fun hx => key hj hi h ⟨hx.2, hx.1⟩

theorem altConflict_of_apart {t : I} {l : List I} (h : ∀ (i j : Nat) a b, l[i]? = some a → l[j]? = some b → i ≠ j →
    ∀ x, ¬ (first.den a x ∧ first.den b x)) : altConflict first t l l TSet.empty = none := by
  have hs := altConflict_spec first t l l [] TSet.empty rfl (by
    intro x; cases x with
    | none => simp [TSet.contains]
    | some tok => simpa [TSet.Mem] using TSet.mem_empty tok)
  cases hc : altConflict first t l l TSet.empty with
  | none => rfl
  | some e =>
    rw [hc] at hs
    obtain ⟨pre, b, post, a, x, he, ha, h1, h2, _⟩ := hs
    exfalso
    rw [List.nil_append] at ha
    obtain ⟨i, hi⟩ := List.mem_iff_getElem?.1 ha
    have hlt : i < pre.length := (List.getElem?_eq_some_iff.1 hi).1
    refine h i pre.length a b ?_ ?_ (by omega) x ⟨h1, h2⟩
    · rw [he, List.getElem?_append_left hlt, hi]
    · rw [he]; simp

/-- Smaller sets have fewer conflicts. -/
theorem seqConflict_grows {g : I → I'} {t : I} {t' : I'} (hf : ∀ i x, first.den i x → first'.den (g i) x) (l : List I) :
    ∀ {cur : I} {cur' : I'} {c c' : TSet n}, (∀ tok, TSet.Mem tok c → TSet.Mem tok c') →
    seqConflict first' t' cur' c' (l.map g) = none → seqConflict first t cur c l = none := by
  induction l with
  | nil => intros; rfl
  | cons x l ih =>
    intro cur cur' c c' hc h
    simp only [List.map_cons, seqConflict] at h ⊢
    split at h
    · cases h
    · rename_i hi
      rw [if_neg (by
        intro hi'
        refine hi ((TSet.intersects_iff _ _ _).2 ?_)
        rcases (TSet.intersects_iff _ _ _).1 hi' with ⟨tok, h1, h2⟩ | ⟨h1, _⟩
        · exact .inl ⟨tok, hc tok h1, hf x (some tok) h2⟩
        · cases h1)]
      split
      · rename_i he
        have he' : (first'.get (g x)).containsE = true := hf x none he
        rw [if_pos he'] at h
        refine ih (fun tok ht => ?_) h
        rcases (TSet.mem_union _ _ _ _).1 ht with ht | ht
        · exact (TSet.mem_union _ _ _ _).2 (.inl (hc tok ht))
        · exact (TSet.mem_union _ _ _ _).2 (.inr (hf x (some tok) ht))
      · split at h
        · refine ih (fun tok ht => (TSet.mem_union _ _ _ _).2 (.inl (hc tok ?_))) h
          exact (TSet.mem_clear _ _).1 ht tok.src
        · refine ih (fun tok ht => ?_) h
          rw [TSet.mem_clear] at ht ⊢
          exact fun s => hc _ (ht s)

/-- No conflict in the grown production, no conflict. -/
theorem nodeConflict_grows {G : Grammar I n} {G' : Grammar I' n} {g : I → I'} {root : I} {root' : I'}
    (h : Sim G G' g root root') (hfun' : G'.Functional)
    (hf : ∀ i x, first.den i x → first'.den (g i) x)
    (hfo : ∀ i x, follow.den i x → follow'.den (g i) x)
    {t : I} (hn : nodeConflict G' first' follow' (g t) = none) : nodeConflict G first follow t = none := by
  have hself : selfConflict first' follow' (g t) = none → selfConflict first follow t = none := by
    rw [selfConflict_none, selfConflict_none]
    intro hs he tok hx
    exact hs (hf t none he) tok ⟨hf t _ hx.1, hfo t _ hx.2⟩
  unfold nodeConflict
  cases hg : aget? G t with
  | none => rfl
  | some r =>
    obtain ⟨r', hm, ha⟩ := h.rule (mem_of_aget? hg)
    have hg' := aget?_of_mem hfun' hm
    unfold nodeConflict at hn
    rw [hg'] at hn
    cases ha with
    | eps => rfl
    | term t => rfl
    | alt q hq hinj =>
      simp only at hn ⊢
      split at hn
      · cases hn
      · rename_i hc
        rw [altConflict_of_apart]
        · exact hself hn
        · intro i j a b hi hj hij x hx
          refine altConflict_apart hc (hq i a hi) (hq j b hj) (fun e => hij (hinj i j ?_ ?_ e)) x
            ⟨hf a x hx.1, hf b x hx.2⟩
          · exact (List.getElem?_eq_some_iff.1 hi).1
          · exact (List.getElem?_eq_some_iff.1 hj).1
    | seq l =>
      cases l with
      | nil => rfl
      | cons c l =>
        simp only [List.map_cons] at hn ⊢
        split at hn
        · cases hn
        · rename_i hc
          rw [seqConflict_grows hf l ?_ hc]
          · exact hself hn
          · intro tok ht
            split at ht
            · rename_i he
              have he' : (first'.get (g c)).containsE = true := hf c none he
              rw [if_pos he']
              exact hf c (some tok) ht
            · exact absurd ht (TSet.mem_empty tok)

/-- If the grown grammar is accepted so was the grammar. -/
theorem build_grows {G : Grammar I n} {G' : Grammar I' n} {g : I → I'} {root : I} {root' : I'}
    (h : Sim G G' g root root') (hfun : G.Functional) (hfun' : G'.Functional) {fuel fuel' : Nat}
    {md' : Metadata I' n} (h1 : build fuel' G' root' = some (.ok md')) {r : Except (GErr I) (Metadata I n)}
    (h2 : build fuel G root = some r) : ∃ md, r = .ok md := by
  cases r with
  | ok md => exact ⟨md, rfl⟩
  | error e =>
    exfalso
    obtain ⟨a1, a2, ⟨_, a3⟩, _⟩ := build_ok h1
    obtain ⟨first, follow, b1, b2, b3⟩ := build_error h2
    obtain ⟨t, ht, hc⟩ := checkConflicts_error b3
    have hn := nodeConflict_grows h hfun' (first := first) (follow := follow) (first' := md'.first)
      (follow' := md'.follow) (t := t) ?_ ?_ ?_
    · rw [hn] at hc; cases hc
    · intro i x hx
      exact (buildFirst_den a1 _ x).2 (h.firstFam x ((buildFirst_den b1 i x).1 hx))
    · intro i x hx
      exact (buildFollow_den (buildFirst_den a1) a2 _ x).2
        (h.followC ((buildFollow_den (buildFirst_den b1) b2 i x).1 hx))
    · exact checkConflicts_ok a3 _ ((reach_iff hfun' _ _).2 (h.reachable ((reach_iff hfun _ _).1 ht)))

end

/-! ### Programs -/

section
variable {m m' n : Nat} {S : Schema m n} {S' : Schema m' n} {emb : Fin m → Fin m'} {pos : Fin m → Nat → Nat}

/-- The production in the program with the user-defined types renamed. -/
def PId.lift (emb : Fin m → Fin m') : PId m n → PId m' n
  | .term k t => .term k t
  | .eps => .eps
  | .user k => .user (emb k)
  | .opt p => .opt (p.lift emb)
  | .plus p => .plus (p.lift emb)
  | .punct t p => .punct (t.lift emb) (p.lift emb)
  | .box p => .box (p.lift emb)
  | .tup2 a b => .tup2 (a.lift emb) (b.lift emb)
  | .tup3 a b c => .tup3 (a.lift emb) (b.lift emb) (c.lift emb)
  | .tup4 a b c d => .tup4 (a.lift emb) (b.lift emb) (c.lift emb) (d.lift emb)
  | .tup5 a b c d e => .tup5 (a.lift emb) (b.lift emb) (c.lift emb) (d.lift emb) (e.lift emb)

theorem Ty.prod_lift (t : Ty m n) : (t.lift emb).prod = t.prod.lift emb := by
  induction t <;> simp [Ty.lift, Ty.prod, PId.lift, *]

theorem PId.id_lift (p : PId m n) : (p.lift emb).id = p.id.lift emb := by
  induction p <;> simp [PId.lift, PId.id, *]

theorem Ty.pid_lift (t : Ty m n) : (t.lift emb).pid = t.pid.lift emb := by
  rw [Ty.pid, Ty.pid, Ty.prod_lift, PId.id_lift]

theorem Grown.rule (h : Grown S S' emb pos) (p : PId m n) :
    RuleGrows (PId.lift emb) (S.rule p) (S'.rule (p.lift emb)) := by
  have idq : ∀ {l : List (PId m n)}, RuleGrows (n := n) (PId.lift emb) (.alt l) (.alt (l.map (PId.lift emb))) := by
    intro l
    exact .alt id (fun i a hi => by simp [hi]) (fun i j _ _ e => e)
  induction p with
  | term k t => exact .term t
  | eps => exact .eps
  | user k =>
    simp only [PId.lift, Schema.rule]
    cases hk : S k with
    | struct f fs =>
      rw [h.structs k f fs hk]
      have := RuleGrows.seq (n := n) (g := PId.lift emb) ((f :: fs).map fun f => f.1.pid)
      simpa [Ty.pid_lift, Function.comp_def] using this
    | enum v vs =>
      obtain ⟨v', vs', h1, h2, h3⟩ := h.enums k v vs hk
      rw [h1]
      refine .alt (pos k) (fun i a hi => ?_) (fun i j hi hj => h3 i j (by simpa using hi) (by simpa using hj))
      rw [List.getElem?_map] at hi ⊢
      cases hv : (v :: vs)[i]? with
      | none => rw [hv] at hi; cases hi
      | some f =>
        rw [hv] at hi
        cases hi
        rw [h2 i f.1 f.2 hv]
        simp [Ty.pid_lift]
  | opt p =>
    have := idq (l := [p.id, .eps])
    simpa [PId.lift, Schema.rule, PId.id_lift] using this
  | plus p =>
    have := RuleGrows.seq (n := n) (g := PId.lift emb) [p.id, .opt (.plus p)]
    simpa [PId.lift, Schema.rule, PId.id_lift] using this
  | punct t p =>
    have := RuleGrows.seq (n := n) (g := PId.lift emb) [t.id, .opt (.tup2 p (.opt (.punct t p)))]
    simpa [PId.lift, Schema.rule, PId.id_lift] using this
  | box p ih => simpa [PId.lift, Schema.rule] using ih
  | tup2 a b =>
    have := RuleGrows.seq (n := n) (g := PId.lift emb) [a.id, b.id]
    simpa [PId.lift, Schema.rule, PId.id_lift] using this
  | tup3 a b c =>
    have := RuleGrows.seq (n := n) (g := PId.lift emb) [a.id, b.id, c.id]
    simpa [PId.lift, Schema.rule, PId.id_lift] using this
  | tup4 a b c d =>
    have := RuleGrows.seq (n := n) (g := PId.lift emb) [a.id, b.id, c.id, d.id]
    simpa [PId.lift, Schema.rule, PId.id_lift] using this
  | tup5 a b c d e =>
    have := RuleGrows.seq (n := n) (g := PId.lift emb) [a.id, b.id, c.id, d.id, e.id]
    simpa [PId.lift, Schema.rule, PId.id_lift] using this

variable {root : Ty m n}

theorem Grown.preach (h : Grown S S' emb pos) {i : PId m n} (hi : PReach S root i) :
    PReach S' (root.lift emb) (i.lift emb) := by
  induction hi with
  | refl => rw [← Ty.pid_lift]; exact .refl
  | step _ hj ih => exact .step ih ((h.rule _).parts hj)

theorem Grown.sim (h : Grown S S' emb pos) {G : Grammar (PId m n) n} {G' : Grammar (PId m' n) n}
    (hG : S.IsGrammar root G) (hG' : S'.IsGrammar (root.lift emb) G') :
    Sim G G' (PId.lift emb) root.pid (root.lift emb).pid where
  rule := by
    intro i r hm
    obtain ⟨h1, rfl⟩ := (hG.2 _ _).1 hm
    exact ⟨_, (hG'.2 _ _).2 ⟨h.preach h1, rfl⟩, h.rule i⟩
  root := (Ty.pid_lift root).symm

theorem Grown.metadata (h : Grown S S' emb pos) {fuel fuel' : Nat} {md' : Metadata (PId m' n) n}
    (h' : S'.metadata fuel' (root.lift emb) = some (.ok md')) {r : Except (GErr (PId m n)) (Metadata (PId m n) n)}
    (hr : S.metadata fuel root = some r) : ∃ md, r = .ok md := by
  obtain ⟨G', hG', _, hb'⟩ := metadata_build h'
  unfold Schema.metadata buildFor at hr
  cases hreg : registerFrom S.rule fuel root.pid with
  | none => rw [hreg] at hr; cases hr
  | some G =>
    rw [hreg] at hr
    have hG : S.IsGrammar root G := registerFrom_spec hreg
    exact build_grows (h.sim hG hG') hG.1 hG'.1 hb' hr

/-! ### Matches -/

mutual
theorem Tree.span_renumber (S : Schema m n) (pos : Fin m → Nat → Nat) : ∀ (x : Tree n) (t : Ty m n),
    (x.renumber S pos t).span = x.span
  | .tok _, _ => rfl
  | .seq _ _, _ => rfl
  | .variant i x, t => by
    simp only [Tree.renumber]
    split
    · exact Tree.span_renumber S pos x _
    · rfl
  | .optSome _ _, _ => rfl
  | .optNone _, _ => rfl
  | .exist _ _, _ => rfl
  | .text _ _, _ => rfl
  | .list _ _, _ => rfl
  | .split _ _ _, _ => rfl
  | .recover hs x y, t => by
    simp only [Tree.renumber, Tree.span]
    rw [Tree.span_renumber S pos y]
  | .recoverNone hs y, t => by
    simp only [Tree.renumber, Tree.span]
    rw [Tree.span_renumber S pos y]
end

theorem renumberAll_length (S : Schema m n) (pos : Fin m → Nat → Nat) : ∀ (l : List (Tree n)) (ts : List (Ty m n)),
    l.length = ts.length → (renumberAll S pos l ts).length = l.length
  | [], [], _ => rfl
  | x :: l, t :: ts, h => by
    simp only [renumberAll, List.length_cons]
    rw [renumberAll_length S pos l ts (by simpa using h)]

theorem renumberAll_spans (S : Schema m n) (pos : Fin m → Nat → Nat) : ∀ (l : List (Tree n)) (ts : List (Ty m n)),
    l.length = ts.length → (renumberAll S pos l ts).map Tree.span = l.map Tree.span
  | [], [], _ => rfl
  | x :: l, t :: ts, h => by
    simp only [renumberAll, List.map_cons]
    rw [renumberAll_spans S pos l ts (by simpa using h), Tree.span_renumber]

theorem spanOf_congr {l l' : List (Tree n)} (h : l.map Tree.span = l'.map Tree.span) : spanOf l = spanOf l' := by
  have key : ∀ l : List (Tree n), spanOf l = ⟨((l.map Tree.span).head?.map (·.lo)).getD 0,
      ((l.map Tree.span).getLast?.map (·.hi)).getD 0⟩ := by
    intro l
    simp [spanOf, List.head?_map, List.getLast?_map, Option.map_map, Function.comp_def]
  rw [key, key, h]

theorem spanOf_renumber (S : Schema m n) (pos : Fin m → Nat → Nat) {l : List (Tree n)} {ts : List (Ty m n)}
    (h : l.length = ts.length) : spanOf (renumberAll S pos l ts) = spanOf l :=
  spanOf_congr (renumberAll_spans S pos l ts h)

theorem renumberAll_interleave (S : Schema m n) (pos : Fin m → Nat → Nat) : ∀ (es ps : List (Tree n)) (t p : Ty m n),
    es.length = ps.length + 1 ∨ es.length = ps.length →
    renumberAll S pos (interleave es ps) (alternate t p (es.length + ps.length)) =
      interleave (renumberAll S pos es (List.replicate es.length t)) (renumberAll S pos ps (List.replicate ps.length p)) := by
  intro es ps
  induction es, ps using interleave.induct with
  | case1 b =>
    intro t p h
    have hb : b = [] := by
      cases b with
      | nil => rfl
      | cons _ _ => simp at h
    subst hb
    simp [interleave, alternate, renumberAll]
  | case2 y xs ys ih =>
    intro t p h
    rw [interleave_cons]
    have : (y :: xs).length + ys.length = (ys.length + xs.length) + 1 := by simp; omega
    rw [this]
    simp only [alternate, List.length_cons, List.replicate_succ, renumberAll]
    rw [interleave_cons, ih p t (by simp at h; omega)]

theorem isTuple_fields {t : Ty m n} {ts : List (Ty m n)} (h : t.isTuple ts) : S.partTys t.core = ts := by
  rcases h with ⟨a, b, rfl, rfl⟩ | ⟨a, b, c, rfl, rfl⟩ | ⟨a, b, c, d, rfl, rfl⟩ | ⟨a, b, c, d, e, rfl, rfl⟩ <;> rfl

theorem isTuple_lift {t : Ty m n} {ts : List (Ty m n)} (h : t.isTuple ts) :
    (t.lift emb).isTuple (ts.map (Ty.lift emb)) := by
  rcases h with ⟨a, b, rfl, rfl⟩ | ⟨a, b, c, rfl, rfl⟩ | ⟨a, b, c, d, rfl, rfl⟩ | ⟨a, b, c, d, e, rfl, rfl⟩
  · exact .inl ⟨_, _, rfl, rfl⟩
  · exact .inr (.inl ⟨_, _, _, rfl, rfl⟩)
  · exact .inr (.inr (.inl ⟨_, _, _, _, rfl, rfl⟩))
  · exact .inr (.inr (.inr ⟨_, _, _, _, _, rfl, rfl⟩))

theorem renumber_box (x : Tree n) (t : Ty m n) : x.renumber S pos (.box t) = x.renumber S pos t := by
  cases x <;> rfl

theorem ParsesSeq.length {source : Str} {at_ : Nat} {ts : List (Ty m n)} {cs : List (List (Cell n))}
    {xs : List (Tree n)} (h : ParsesSeq S source at_ ts cs xs) : xs.length = ts.length := by
  induction ts generalizing at_ cs xs with
  | nil => cases h; rfl
  | cons t ts ih =>
    cases h with
    | cons _ h => simp [ih h]

theorem fields_lift (l : List (Field m n)) :
    (l.map fun f => ((f.1.lift emb, f.2) : Field m' n)).map (·.1) = (l.map (·.1)).map (Ty.lift emb) := by
  simp [Function.comp_def]

theorem fields_sems (l : List (Field m n)) :
    (l.map fun f => ((f.1.lift emb, f.2) : Field m' n)).map (·.2) = l.map (·.2) := by
  simp [Function.comp_def]

theorem parses_list {source : Str} {at_ : Nat} {t : Ty m n} {k : Nat} {cs : List (List (Cell n))} {l : List (Tree n)}
    (hl : l.length = k + 1)
    (h : ParsesSeq S' source at_ ((List.replicate (k + 1) t).map (Ty.lift emb)) cs
      (renumberAll S pos l (List.replicate (k + 1) t))) :
    ParsesSeq S' source at_ (List.replicate (k + 1) (t.lift emb)) cs
      (renumberAll S pos l (List.replicate l.length t)) := by
  rw [List.map_replicate] at h
  rw [hl]
  exact h

mutual
/-- A match stays a match when the grammar grows. -/
theorem Parses.grow (hS : Grown S S' emb pos) {source : Str} {at_ : Nat} {t : Ty m n} {c : List (Cell n)} {x : Tree n} :
    Parses S source at_ t c x → Parses S' source at_ (t.lift emb) c (x.renumber S pos t)
  | .term h => .term h
  | .struct (k := k) (f := f) (fs := fs) (l := l) hk h => by
    have hlen := h.length
    have hp : S.partTys (Ty.core (.user k)) = (f :: fs).map (·.1) := by simp [Schema.partTys, Ty.core, Schema.fields?, hk]
    have ih := ParsesSeq.grow hS h
    rw [← fields_lift] at ih
    have := Parses.struct (hS.structs _ f fs hk) (cs := _) ih
    simp only [Tree.renumber]
    rw [hp]
    rw [spanOf_renumber S pos hlen] at this
    have e := fields_sems (emb := emb) (f :: fs)
    rw [List.map_cons] at e
    rw [e] at this
    exact this
  | .enum (k := k) (i := i) (t := t) (sem := sem) hk hi h => by
    obtain ⟨v', vs', h1, h2, _⟩ := hS.enums _ _ _ hk
    have hv : S.variantTy k i = t := by simp only [Schema.variantTy, hk, hi]; rfl
    simp only [Tree.renumber, Ty.core]
    rw [hv]
    exact .enum h1 (h2 _ _ _ hi) (Parses.grow hS h)
  | .tuple (l := l) ht h => by
    have hlen := h.length
    have := Parses.tuple (isTuple_lift (emb := emb) ht) (ParsesSeq.grow hS h)
    rw [spanOf_renumber S pos hlen] at this
    simp only [Tree.renumber]
    rw [isTuple_fields ht]
    exact this
  | .box h => by
    rw [renumber_box]
    exact .box (Parses.grow hS h)
  | .optNone => .optNone
  | .optSome (x := x) h => by
    have := Parses.optSome (Parses.grow hS h)
    rw [Tree.span_renumber] at this
    exact this
  | .existNone => .existNone
  | .existSome h => by
    have := Parses.existSome (Parses.grow hS h)
    rw [Tree.span_renumber] at this
    exact this
  | .quote h => by
    have := Parses.quote (Parses.grow hS h)
    rw [Tree.span_renumber] at this
    exact this
  | .parse h => by
    have := Parses.parse (Parses.grow hS h)
    rw [Tree.span_renumber] at this
    exact this
  | .plus (l := l) h => by
    have hlen := h.length
    rw [List.length_replicate] at hlen
    have := Parses.plus (parses_list hlen (ParsesSeq.grow hS h))
    rw [spanOf_renumber S pos (by simp)] at this
    exact this
  | .starNone => .starNone
  | .starSome h => by
    have hlen := h.length
    rw [List.length_replicate] at hlen
    have := Parses.starSome (parses_list hlen (ParsesSeq.grow hS h))
    rw [spanOf_renumber S pos (by simp)] at this
    exact this
  | .loopNone => .loopNone
  | .loopSome h => by
    have hlen := h.length
    rw [List.length_replicate] at hlen
    have := Parses.loopSome (parses_list hlen (ParsesSeq.grow hS h))
    rw [spanOf_renumber S pos (by simp)] at this
    exact this
  | .split (t := t) (p := p) (es := es) (ps := ps) hl h => by
    have hlen := h.length
    have ih := ParsesSeq.grow hS h
    have hs := spanOf_renumber S pos hlen
    rw [renumberAll_interleave S pos es ps t p (.inl hl)] at ih hs
    rw [alternate_map] at ih
    have l1 := renumberAll_length S pos es (List.replicate es.length t) (by simp)
    have l2 := renumberAll_length S pos ps (List.replicate ps.length p) (by simp)
    have := Parses.split (es := renumberAll S pos es (List.replicate es.length t))
      (ps := renumberAll S pos ps (List.replicate ps.length p)) (by rw [l1, l2]; exact hl) (by rw [l1, l2]; exact ih)
    rw [hs] at this
    exact this
  | .punct (t := t) (p := p) (es := es) (ps := ps) hne hl h => by
    have hlen := h.length
    have ih := ParsesSeq.grow hS h
    have hs := spanOf_renumber S pos hlen
    rw [renumberAll_interleave S pos es ps t p hl] at ih hs
    rw [alternate_map] at ih
    have l1 := renumberAll_length S pos es (List.replicate es.length t) (by simp)
    have l2 := renumberAll_length S pos ps (List.replicate ps.length p) (by simp)
    have := Parses.punct (es := renumberAll S pos es (List.replicate es.length t))
      (ps := renumberAll S pos ps (List.replicate ps.length p)) (by intro e; rw [e] at l1; cases es with | nil => exact hne rfl | cons _ _ => simp at l1)
      (by rw [l1, l2]; exact hl) (by rw [l1, l2]; exact ih)
    rw [hs] at this
    exact this
  | .recover (t := t) (r := r) (x := x) (y := y) h => by
    have := Parses.recover (ParsesSeq.grow hS h)
    rw [Tree.span_renumber] at this
    exact this

theorem ParsesSeq.grow (hS : Grown S S' emb pos) {source : Str} {at_ : Nat} {ts : List (Ty m n)}
    {cs : List (List (Cell n))} {xs : List (Tree n)} :
    ParsesSeq S source at_ ts cs xs → ParsesSeq S' source at_ (ts.map (Ty.lift emb)) cs (renumberAll S pos xs ts)
  | .nil => .nil
  | .cons h h' => .cons (Parses.grow hS h) (ParsesSeq.grow hS h')
end

end

end Teleparse
