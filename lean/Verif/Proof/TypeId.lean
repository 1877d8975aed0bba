import Verif.Model.TypeId
import Verif.Spec.TypeId
import Verif.Proof.RelabelParser
import Verif.Proof.Order
import Verif.Proof.Message
/-
The order of type ids does not matter.
-/
set_option linter.unusedSectionVars false
namespace Teleparse
variable {I : Type} {n m : Nat} [DecidableEq I]

theorem insertById_perm (ids : I → Nat) (p : I × Rule I n) (G : Grammar I n) : (insertById ids p G).Perm (p :: G) := by
  induction G with
  | nil => exact .refl _
  | cons q G ih =>
    simp only [insertById]
    split
    · exact .refl _
    · exact (ih.cons q).trans (.swap p q G)

theorem byId_perm (ids : I → Nat) (G : Grammar I n) : (G.byId ids).Perm G := by
  induction G with
  | nil => exact .refl _
  | cons p G ih => exact (insertById_perm ids p _).trans (ih.cons p)

/-- In the order of type ids. -/
theorem byId_sorted (ids : I → Nat) (G : Grammar I n) : (G.byId ids).Pairwise fun p q => ids p.1 ≤ ids q.1 := by
  have ins : ∀ (p : I × Rule I n) (G : Grammar I n), G.Pairwise (fun p q => ids p.1 ≤ ids q.1) →
      (insertById ids p G).Pairwise fun p q => ids p.1 ≤ ids q.1 := by
    intro p G
    induction G with
    | nil => intro _; exact List.pairwise_singleton _ _
    | cons q G ih =>
      intro h
      obtain ⟨h1, h2⟩ := List.pairwise_cons.1 h
      simp only [insertById]
      split
      · rename_i hpq
        refine List.pairwise_cons.2 ⟨fun x hx => ?_, h⟩
        rcases List.mem_cons.1 hx with rfl | hx
        · exact hpq
        · exact Nat.le_trans hpq (h1 x hx)
      · rename_i hpq
        refine List.pairwise_cons.2 ⟨fun x hx => ?_, ih h2⟩
        rcases List.mem_cons.1 ((insertById_perm ids p G).mem_iff.1 hx) with rfl | hx
        · omega
        · exact h1 x hx
  induction G with
  | nil => exact .nil
  | cons p G ih => exact ins p _ ih

theorem byId_mem (ids : I → Nat) (G : Grammar I n) (p : I × Rule I n) : p ∈ G ↔ p ∈ G.byId ids := (byId_perm ids G).mem_iff.symm

theorem byId_aget (ids : I → Nat) {G : Grammar I n} (hf : G.Functional) : aget? (G.byId ids) = aget? G := by
  funext i
  refine (aget?_congr hf ?_ (byId_mem ids G) i).symm
  exact ((byId_perm ids G).map Prod.fst).nodup_iff.2 hf

theorem lrAlts_congr {rec rec' : I → LR I → Option (Except (GErr I) (LR I))} (h : rec = rec') :
    lrAlts rec = lrAlts rec' := by rw [h]

theorem checkLeftRecursive_congr {G G' : Grammar I n} (hg : aget? G = aget? G') (first : Tbl I n) (fuel : Nat) :
    checkLeftRecursive G first fuel = checkLeftRecursive G' first fuel := by
  induction fuel with
  | zero => rfl
  | succ fuel ih =>
    funext t s
    simp only [checkLeftRecursive, ih, hg]

theorem buildJump_congr {G G' : Grammar I n} (hg : aget? G = aget? G') (first : Tbl I n) (fuel : Nat) (root : I) :
    buildJump G first fuel root = buildJump G' first fuel root := by
  have h1 : G.partsOf = G'.partsOf := by funext t; simp only [Grammar.partsOf, hg]
  have h2 : G.isAlt = G'.isAlt := by funext t; simp only [Grammar.isAlt, hg]
  simp only [buildJump, h1, h2]

/-- With enough steps for both, the results are the same. -/
theorem buildById_same (ids : I → Nat) {G : Grammar I n} (hf : G.Functional) {root : I} {fuel : Nat} {first follow : Tbl I n}
    (h1 : buildFirst fuel G = some first) (h2 : buildFollow fuel first (G.byId ids) root = some follow)
    {v : Except (GErr I) (Metadata I n)} (h : build fuel G root = some v) :
    buildById ids fuel G root = some (v.map fun md => ⟨md.first, follow, md.jump⟩) ∧
      SameVerdict v (v.map fun md => ⟨md.first, follow, md.jump⟩) := by
  have hg := byId_aget ids hf
  unfold build at h
  unfold buildById
  rw [h1] at h ⊢
  dsimp only at h ⊢
  rw [checkLeftRecursive_congr hg]
  cases hl : checkLeftRecursive G first fuel root ⟨[], [], []⟩ with
  | none => rw [hl] at h; cases h
  | some l =>
    rw [hl] at h
    cases l with
    | error e => cases h; exact ⟨rfl, .error⟩
    | ok l =>
      dsimp only at h ⊢
      rw [h2]
      cases hfo : buildFollow fuel first G root with
      | none => rw [hfo] at h; cases h
      | some fo =>
        rw [hfo] at h
        dsimp only at h ⊢
        have hd : ∀ i, (fo.get i).SemEq (follow.get i) := by
          intro i x
          rw [Bool.eq_iff_iff]
          have e1 := buildFollow_den (buildFirst_den h1) hfo i x
          have hfd : ∀ i x, first.den i x ↔ firstFam (G.byId ids) i x := fun i x =>
            (buildFirst_den h1 i x).trans (firstFam_congr (byId_mem ids G) i x)
          have e2 := buildFollow_den hfd h2 i x
          exact e1.trans ((followC_congr (byId_mem ids G) i x).trans e2.symm)
        rw [← checkConflicts_congr (G := G) (first := first) (follow := fo) (fun t => (congrFun hg t).symm) (fun i x => rfl) hd]
        cases hc : checkConflicts G first fo fuel root with
        | none => rw [hc] at h; cases h
        | some c =>
          rw [hc] at h
          cases c with
          | error e => cases h; exact ⟨rfl, .error⟩
          | ok c =>
            dsimp only at h ⊢
            rw [buildJump_congr hg]
            split at h
            · rename_i j hj
              rw [hj]
              cases h
              exact ⟨rfl, .ok ⟨fun _ _ => rfl, fun i x => (hd i x).symm, fun _ _ => rfl⟩⟩
            · cases h

theorem lits_mem {G : Grammar I n} {l : Str} : l ∈ G.lits ↔ ∃ i ty, (i, Rule.term ⟨ty, some l⟩) ∈ G := by
  unfold Grammar.lits
  rw [List.mem_flatMap]
  constructor
  · rintro ⟨⟨i, r⟩, h1, h2⟩
    dsimp only at h2
    split at h2
    · rename_i ty l' 
      cases List.mem_singleton.1 h2
      exact ⟨_, _, h1⟩
    · cases h2
  · rintro ⟨i, ty, h⟩
    exact ⟨_, h, List.mem_singleton.2 rfl⟩

theorem byId_lits (ids : I → Nat) (G : Grammar I n) (l : Str) : l ∈ G.lits ↔ l ∈ (G.byId ids).lits := by
  rw [lits_mem, lits_mem]
  simp only [← byId_mem ids G]

theorem LitSet.within_of {Ls Ls' : List Str} (h : ∀ l, l ∈ Ls ↔ l ∈ Ls') {s : LitSet} (hs : s.Within Ls) : s.Within Ls' := by
  cases s with
  | any => trivial
  | mat l => exact fun x hx => (h x).1 (hs x hx)

/-! ### Parsing -/

namespace Relab

/-- The same tree. -/
def eqT : TRel n n where
  rel x y := y = x
  span := by rintro x _ rfl; rfl

theorem trees_eq {l l' : List (Tree n)} (h : TreesRel (eqT (n := n)) l l') : l' = l := by
  induction h with
  | nil => rfl
  | cons h _ ih => rw [ih, show _ = _ from h]

theorem each_eq {ι : Type} {ts : List ι} {l l' : List (Tree n)} (h : Each (ts.map fun _ => eqT) l l') : l' = l := by
  induction ts generalizing l l' with
  | nil => cases h; rfl
  | cons t ts ih =>
    cases h with
    | cons h1 h2 => rw [ih h2, show _ = _ from h1]

theorem list_eq {x y : Tree n} (h : ListRel (eqT (n := n)) x y) : y = x := by
  obtain ⟨sp, l, l', rfl, rfl, h⟩ := h
  rw [trees_eq h]

theorem split_eq {x y : Tree n} (h : SplitRel (eqT (n := n)) eqT x y) : y = x := by
  obtain ⟨sp, l, l', q, q', rfl, rfl, h1, h2⟩ := h
  rw [trees_eq h1, trees_eq h2]

theorem recover_eq {x y : Tree n} (h : RecRel (eqT (n := n)) eqT x y) : y = x := by
  rcases h with ⟨sp, a, a', b, b', rfl, rfl, h1, h2⟩ | ⟨sp, b, b', rfl, rfl, h2⟩
  · rw [show _ = _ from h1, show _ = _ from h2]
  · rw [show _ = _ from h2]

theorem seq_eq {ι : Type} (ts : List ι) {x y : Tree n} (h : SeqRel (ts.map fun _ => eqT) x y) : y = x := by
  obtain ⟨sp, l, l', rfl, rfl, h⟩ := h
  rw [each_eq h]

theorem semAs_refl (a : LSet n) : SemAs id a a := ⟨fun _ => rfl, fun t _ => ⟨t, rfl⟩⟩

theorem sem_refl : ∀ a : Option (LSet n), BothOr (SemAs id) a a
  | none => .none
  | some a => .some (semAs_refl a)

section
variable {S : Schema m n} {σ τ : Type} {o : Ops σ n} {o' : Ops τ n} {SR : σ → τ → Prop}
variable {md md' : Metadata (PId m n) n}

theorem fields_same {rec : Ty m n → P σ n} {rec' : Ty m n → P τ n} (hm : ∀ t, PRel id SR eqT (rec t) (rec' t))
    (l : List (Field m n)) :
    Parsers id SR (l.map fun _ => eqT) ((l.map fun u => (rec u.1, u.2)).map (·.1)) ((l.map fun u => (rec' u.1, u.2)).map (·.1)) ∧
    Pointwise (BothOr (SemAs id)) ((l.map fun u => (rec u.1, u.2)).map (·.2)) ((l.map fun u => (rec' u.1, u.2)).map (·.2)) := by
  induction l with
  | nil => exact ⟨.nil, .nil⟩
  | cons u l ih => exact ⟨.cons (hm _) ih.1, .cons (sem_refl _) ih.2⟩

theorem same_set {s s' : TSet n} (h : ∀ x, s'.contains x = s.contains x) : SetAs id s s' :=
  ⟨h none, fun t => h (some t), fun t _ => ⟨t, rfl⟩⟩

theorem enum_same (hP : Prims id o o' SR) {rec : Ty m n → P σ n} {rec' : Ty m n → P τ n}
    (up : ∀ t, PRel id SR eqT (rec t) (rec' t)) {look look' : Option (TokenSrc n) → Option Nat} (hl : ∀ x, look' x = look x)
    {first first' : TSet n} (hs : SetAs id first first') (l : List (Field m n)) :
    PRel id SR eqT (produceEnum o look first (l.map fun u => (rec u.1, u.2)))
      (produceEnum o' look' first' (l.map fun u => (rec' u.1, u.2))) := by
  unfold produceEnum
  refine (peekSrc_rel hP).bind ?_
  rintro tok _ rfl
  have hx : tok.map (TokenSrc.retok id) = tok := by cases tok <;> rfl
  rw [hx, hl]
  cases look tok with
  | none => exact fail_rel hP hs
  | some i =>
    dsimp only
    rw [List.getElem?_map, List.getElem?_map]
    cases l[i]? with
    | none => exact fail_rel hP hs
    | some u =>
      refine MRel.bind (up u.1) ?_
      intro r r' hr
      refine (mapVariant_rel hP i i (sem_refl u.2) hr).mono ?_
      rintro _ _ ⟨t, t', rfl, rfl, h⟩
      rw [show _ = _ from h]
      rfl

theorem step_same (hP : Prims id o o' SR) (h : SameMeta md md') (fuel : Nat) {rec : Ty m n → P σ n} {rec' : Ty m n → P τ n}
    (up : ∀ t, PRel id SR eqT (rec t) (rec' t)) (t : Ty m n) :
    PRel id SR eqT (produceStep o S md fuel rec t) (produceStep o' S md' fuel rec' t) := by
  have hf : ∀ i, SetAs id (md.first.get i) (md'.first.get i) := fun i => same_set (h.first i)
  have hfo : ∀ i, SetAs id (md.follow.get i) (md'.follow.get i) := fun i => same_set (h.follow i)
  cases t with
  | term k t =>
    refine (term_rel hP t (hfo (.term k t))).mono ?_
    rintro _ _ ⟨t, rfl, rfl⟩
    rfl
  | user k =>
    simp only [produceStep]
    cases hk : S k with
    | struct f fs =>
      obtain ⟨g1, g2⟩ := fields_same up (f :: fs)
      exact (struct_rel hP g1 g2).mono fun a b h => seq_eq (f :: fs) h
    | enum v vs =>
      exact enum_same hP up (fun x => h.jump _ x) (hf (.user k)) (v :: vs)
  | box t => exact up t
  | option t =>
    refine option_rel hP (hf t.pid) (up t) ?_
    intro s a b hab
    cases hab with
    | none => rfl
    | some h => rw [show _ = _ from h]; rfl
  | exist t =>
    refine option_rel hP (hf t.pid) (up t) ?_
    intro s a b hab
    cases hab with
    | none => rfl
    | some h => rfl
  | quote t =>
    refine (text_rel hP (up t)).mono ?_
    rintro _ _ ⟨sp, s, rfl, rfl⟩
    rfl
  | parse t =>
    refine (text_rel hP (up t)).mono ?_
    rintro _ _ ⟨sp, s, rfl, rfl⟩
    rfl
  | plus t => exact (plus_rel hP (hf (Ty.plus t).pid) (up t) _).mono fun a b h => list_eq h
  | star t =>
    refine option_rel (T := eqT) hP (hf (Ty.plus t).pid) ((plus_rel hP (hf (Ty.plus t).pid) (up t) _).mono fun a b h => list_eq h) ?_
    intro s a b hab
    cases hab with
    | none => rfl
    | @some x y h => rw [show _ = _ from h]; rfl
  | loop t => exact (loop_rel hP (hf (Ty.loop t).pid) (up t) _).mono fun a b h => list_eq h
  | split t p =>
    exact (split_rel hP (hf t.pid) (hf p.pid) (hfo (Ty.split t p).pid) (up t) (up p) _).mono fun a b h => split_eq h
  | punct t p =>
    exact (punct_rel hP (hf t.pid) (hf p.pid) (hfo (Ty.punct t p).pid) (up t) (up p) _).mono fun a b h => split_eq h
  | recover t q => exact (recover_rel hP (hf t.pid) (hf q.pid) (up t) (up q) _).mono fun a b h => recover_eq h
  | tup2 a b => exact (tuple_rel (.cons (up a) (.cons (up b) .nil))).mono fun x y h => seq_eq [a, b] h
  | tup3 a b c => exact (tuple_rel (.cons (up a) (.cons (up b) (.cons (up c) .nil)))).mono fun x y h => seq_eq [a, b, c] h
  | tup4 a b c d =>
    exact (tuple_rel (.cons (up a) (.cons (up b) (.cons (up c) (.cons (up d) .nil))))).mono fun x y h => seq_eq [a, b, c, d] h
  | tup5 a b c d e =>
    exact (tuple_rel (.cons (up a) (.cons (up b) (.cons (up c) (.cons (up d) (.cons (up e) .nil)))))).mono
      fun x y h => seq_eq [a, b, c, d, e] h

theorem produce_same (hP : Prims id o o' SR) (h : SameMeta md md') : ∀ (fuel : Nat) (t : Ty m n),
    PRel id SR eqT (produce o S md fuel t) (produce o' S md' fuel t) := by
  intro fuel
  induction fuel with
  | zero => intro t; exact .fuel
  | succ fuel ih => intro t; exact step_same hP h fuel ih t

end

end Relab

theorem pw_refl {α : Type} {R : α → α → Prop} (h : ∀ a, R a a) : ∀ l : List α, Pointwise R l l
  | [] => .nil
  | a :: l => .cons (h a) (pw_refl h l)

theorem errAs_refl : ∀ e : Err n, ErrAs id e e
  | ⟨_, .expecting _⟩ => .expecting (Relab.same_set fun _ => rfl)
  | ⟨_, .unexpectedCharacters⟩ => .unexpectedCharacters
  | ⟨_, .unexpectedTokens⟩ => .unexpectedTokens
  | ⟨_, .unexpectedEof⟩ => .unexpectedEof
  | ⟨_, .noAdvance⟩ => .noAdvance

theorem map_same {α : Type} {f : α → α} (h : ∀ a, f a = a) (l : List α) : l.map f = l := by
  induction l with
  | nil => rfl
  | cons a l ih => rw [List.map_cons, h, ih]

theorem parserAs_refl (p : Parser n) : ParserAs id p p where
  source := rfl
  invalidSource := rfl
  invalidTokens := (map_same (fun _ => rfl) _).symm
  tokens := pw_refl (fun c => ⟨rfl, Relab.semAs_refl _⟩) _
  extracted := (map_same (fun _ => rfl) _).symm
  errors := pw_refl errAs_refl _
  items := (map_same (fun x => by cases x <;> rfl) _).symm
  last := rfl
  peeked := by cases p.peeked <;> rfl

/-- Metadata with the same members parse alike. -/
theorem parseWithMeta_same {S : Schema m n} {ext : Fin n → Bool} {md md' : Metadata (PId m n) n} (h : SameMeta md md')
    (root : Ty m n) (fuel : Nat) {p p' : Parser n} (hp : ParserAs id p p') :
    Relab.OutRel (ParserAs id) (fun x y => y = x) (p.parseWithMeta ext S md fuel root) (p'.parseWithMeta ext S md' fuel root) := by
  have := Relab.produce_same (S := S) (parser_prims (ρ := id) (fun _ _ h => h) (ext := ext) (ext' := ext) fun _ => rfl) h fuel root p p' hp
  unfold Parser.parseWithMeta
  generalize produce (Parser.ops ext) S md fuel root p = a at this
  generalize produce (Parser.ops ext) S md' fuel root p' = b at this
  cases this with
  | fuel => exact .fuel
  | crash => exact .crash
  | ok hr hs =>
    cases hr with
    | success ht => exact .ok (by rw [show _ = _ from ht]) hs
    | recovered ht he => exact .ok (by rw [show _ = _ from ht]) (hs.errs he)
    | panic he => exact .ok rfl (hs.errs he)

/-- With enough steps, the metadata are the same. -/
theorem metadataById_same (ids : PId m n → Nat) {S : Schema m n} {root : Ty m n} {N : Nat} {G : Grammar (PId m n) n}
    {v : Except (GErr (PId m n)) (Metadata (PId m n) n)} (hr : ∀ f ≥ N, registerFrom S.rule f root.pid = some G)
    (hm : ∀ f ≥ N, S.metadata f root = some v) : ∃ N v', SameVerdict v v' ∧
    ∀ f ≥ N, S.metadata f root = some v ∧ S.metadataById ids f root = some v' := by
  have hG : S.IsGrammar root G := registerFrom_spec (hr N (Nat.le_refl _))
  have hb : ∀ f ≥ N, build f G root.pid = some v := by
    intro f hf
    have := hm f hf
    unfold Schema.metadata buildFor at this
    rw [hr f hf] at this
    exact this
  obtain ⟨f1, h1⟩ := buildFirst_total G
  obtain ⟨first, h1'⟩ := h1 f1 (Nat.le_refl _)
  obtain ⟨f2, h2⟩ := buildFollow_total (G := G.byId ids) (first := first)
    (fun i t => LitSet.within_of (byId_lits ids G) (buildFirst_within h1' i t)) root.pid
  obtain ⟨follow, h2'⟩ := h2 f2 (Nat.le_refl _)
  have hall : ∀ f ≥ N + f1 + f2, S.metadata f root = some v ∧
      S.metadataById ids f root = some (v.map fun md => ⟨md.first, follow, md.jump⟩) ∧
      SameVerdict v (v.map fun md => ⟨md.first, follow, md.jump⟩) := by
    intro f hf
    obtain ⟨g1, g2⟩ := buildById_same ids hG.1 (buildFirst_mono h1' (by omega : f1 ≤ f)) (buildFollow_mono h2' (by omega : f2 ≤ f))
      (hb f (by omega))
    refine ⟨hm f (by omega), ?_, g2⟩
    unfold Schema.metadataById
    rw [hr f (by omega)]
    exact g1
  exact ⟨N + f1 + f2, _, (hall _ (Nat.le_refl _)).2.2, fun f hf => ⟨(hall f hf).1, (hall f hf).2.1⟩⟩

/-- The text of a grammar error is the same. -/
theorem errorText_same {G G' : Grammar I n} (hg : aget? G' = aget? G) {first follow follow' : Tbl I n}
    (h : ∀ i x, (follow'.get i).contains x = (follow.get i).contains x) (pname : I → Str) (name : Fin n → Str) (e : GErr I) :
    e.message pname name G' first follow' = e.message pname name G first follow := by
  have : e.terms name G' first follow' = e.terms name G first follow := by
    cases e with
    | leftRecursion => rfl
    | firstFirst => simp only [GErr.terms, hg]
    | firstFollowSeq => simp only [GErr.terms, hg]
    | firstFollow t =>
      simp only [GErr.terms, selfTerms]
      have h1 := TSet.intersectionRepr_lists name (follow'.get t) (first.get t) false
      simp only [h] at h1
      exact h1.unique (TSet.intersectionRepr_lists name _ _ _)
  unfold GErr.message
  rw [this]

/-- The text of an error depends on members only. -/
theorem message_same (name : Fin n → Str) (source : Str) {e e' : Err n} (h : ErrAs id e e') :
    e'.message? name source = e.message? name source := by
  cases h with
  | @expecting sp s s' h =>
    simp only [Err.message?]
    have : (fun x => s'.contains x = true) = fun x => s.contains x = true := by
      funext x
      cases x with
      | none => rw [h.eof]
      | some t => rw [show s'.contains (some t) = s.contains (some t) from h.tok t]
    have h1 := s'.toRepr_lists name
    rw [this] at h1
    rw [h1.unique (s.toRepr_lists name)]
  | unexpectedCharacters => rfl
  | unexpectedTokens => rfl
  | unexpectedEof => rfl
  | noAdvance => rfl

end Teleparse
