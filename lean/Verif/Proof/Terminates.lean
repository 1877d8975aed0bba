import Verif.Proof.Halts
import Verif.Proof.LeftCycle
import Verif.Proof.Sentence
/-
Parsing with an accepted grammar ends, if no production is left recursive or needs itself, and no production begins
with an enum that derives the empty sequence, followed by a token.

The proof is an induction on the number of remaining tokens. For a fixed number of tokens, types whose
lookahead fits (`MN`) are handled by induction along leftmost parts, which cannot be cyclic; the others are
handled by induction along the parts of sequences, which cannot be cyclic because nothing needs itself.
-/
set_option linter.unusedSectionVars false
namespace Teleparse
variable {m n : Nat}

/-! ### Rank along leftmost parts -/

section
variable {I : Type} [DecidableEq I] {G : Grammar I n} {root : I}

/-- At least one step to a leftmost part. -/
def LPlus (G : Grammar I n) (i j : I) : Prop := ∃ k, LStep G i k ∧ LSteps G k j

theorem LPlus.trans {i j k : I} (h : LPlus G i j) (h2 : LPlus G j k) : LPlus G i k := by
  obtain ⟨a, h3, h4⟩ := h
  obtain ⟨b, h5, h6⟩ := h2
  exact ⟨a, h3, h4.trans (.head h5 h6)⟩

theorem derives_of_nulls {l : List I} (h : ∀ k ∈ l, Null G k) : Derives G (l.map .nt) [] :=
  derives_nil_of_all l fun j hj => (h j hj).nullable

theorem LStep.expands {i j : I} (h : LStep G i j) : ∃ γ β, Expands G i γ ∧ Derives G γ (.nt j :: β) := by
  cases h with
  | alt hm hj => exact ⟨_, [], .alt hm hj, .refl _⟩
  | @seq pre _ post hm hn =>
    refine ⟨_, post.map .nt, .seq hm, ?_⟩
    simpa using (derives_of_nulls hn).append (.refl (.nt j :: post.map .nt))

theorem LSteps.derives {i j : I} (h : LSteps G i j) : ∃ β, Derives G [.nt i] (.nt j :: β) := by
  induction h with
  | refl => exact ⟨[], .refl _⟩
  | head s _ ih =>
    obtain ⟨γ, β, h1, h2⟩ := s.expands
    obtain ⟨β', h3⟩ := ih
    refine ⟨β' ++ β, (Derives.one h1).trans (h2.trans ?_)⟩
    simpa using h3.append (.refl β)

theorem LPlus.leftDerives {i j : I} (h : LPlus G i j) : LeftDerives G i j := by
  obtain ⟨k, h1, h2⟩ := h
  obtain ⟨γ, β, h3, h4⟩ := h1.expands
  obtain ⟨β', h5⟩ := h2.derives
  refine ⟨γ, β' ++ β, h3, h4.trans ?_⟩
  simpa using h5.append (.refl β)

theorem LStep.plus {i j : I} (h : LStep G i j) : LPlus G i j := ⟨j, h, .refl _⟩

theorem countP_lt {α : Type} {p q : α → Bool} {l : List α} (hpq : ∀ x, p x = true → q x = true) {a : α}
    (ha : a ∈ l) (hp : p a = false) (hq : q a = true) : l.countP p < l.countP q := by
  induction l with
  | nil => cases ha
  | cons b l ih =>
    have hle : l.countP p ≤ l.countP q := List.countP_mono_left fun x _ => hpq x
    rw [List.countP_cons, List.countP_cons]
    rcases List.mem_cons.1 ha with rfl | ha
    · simp only [hp, hq, if_true]; simp; omega
    · have := ih ha
      by_cases hb : p b = true
      · simp only [hb, hpq b hb, if_true]; omega
      · simp only [hb]
        have h2 : (if false = true then 1 else 0) = 0 := rfl
        have h3 : 0 ≤ (if q b = true then 1 else 0) := Nat.zero_le _
        simp only [Bool.false_eq_true, if_false]
        omega

open Classical in
/-- The number of productions reachable along leftmost parts. -/
noncomputable def lrank (G : Grammar I n) (i : I) : Nat := (G.map Prod.fst).countP fun j => decide (LPlus G i j)

theorem lrank_lt (hno : ∀ {t t1}, Reachable G root t → LStep G t t1 → LSteps G t1 t → False)
    {i j : I} (hi : Reachable G root i) (hj : ∃ r, (j, r) ∈ G) (hij : LPlus G i j) : lrank G j < lrank G i := by
  classical
  obtain ⟨r, hj⟩ := hj
  have hjr : Reachable G root j := by
    obtain ⟨k, h1, h2⟩ := hij
    exact h2.reach (h1.reach hi)
  refine countP_lt (a := j) ?_ (List.mem_map.2 ⟨_, hj, rfl⟩) ?_ (by simpa using hij)
  · intro x hx
    simp only [decide_eq_true_eq] at hx ⊢
    exact hij.trans hx
  · simp only [decide_eq_false_iff_not]
    rintro ⟨k, h1, h2⟩
    exact hno hjr h1 h2

theorem LStep.congr {G' : Grammar I n} (h : ∀ p ∈ G, p ∈ G') {i j : I} (s : LStep G i j) : LStep G' i j := by
  cases s with
  | alt hm hj => exact .alt (h _ hm) hj
  | seq hm hn => exact .seq (h _ hm) fun k hk => nullable_iff.1 ((hn k hk).nullable.congr h)

theorem LSteps.congr {G' : Grammar I n} (h : ∀ p ∈ G, p ∈ G') {i j : I} (s : LSteps G i j) : LSteps G' i j := by
  induction s with
  | refl => exact .refl _
  | head s _ ih => exact .head (s.congr h) ih

theorem Reachable.congr {G' : Grammar I n} (h : ∀ p ∈ G, p ∈ G') {i : I} (s : Reachable G root i) :
    Reachable G' root i := by
  induction s with
  | refl => exact .refl
  | step _ hp ih =>
    obtain ⟨r, hr, hj⟩ := hp
    exact .step ih ⟨r, h _ hr, hj⟩

/-- A step to a part of a sequence. -/
def AndEdge (G : Grammar I n) (j i : I) : Prop := ∃ l, (i, Rule.seq l) ∈ G ∧ j ∈ l

theorem Prd.acc (hfun : G.Functional) {i : I} (h : Prd G i) : _root_.Acc (AndEdge G) i := by
  induction h with
  | eps hm => exact ⟨_, fun j ⟨l, hl, _⟩ => by cases functional_unique hfun hm hl⟩
  | term hm => exact ⟨_, fun j ⟨l, hl, _⟩ => by cases functional_unique hfun hm hl⟩
  | alt hm => exact ⟨_, fun j ⟨l, hl, _⟩ => by cases functional_unique hfun hm hl⟩
  | seq hm _ ih =>
    refine ⟨_, fun j ⟨l, hl, hj⟩ => ?_⟩
    have := functional_unique hfun hm hl
    simp only [Rule.seq.injEq] at this
    exact ih j (this ▸ hj)

theorem Needs.acyclic_of_acc {i : I} (h : _root_.Acc (AndEdge G) i) : ¬ Needs G i i := by
  have key : ∀ {i j}, Needs G i j → Relation.TransGen (AndEdge G) j i := by
    intro i j h
    induction h with
    | part hm hj => exact .single ⟨_, hm, hj⟩
    | trans _ _ ih1 ih2 => exact ih2.trans ih1
  have irr : ∀ {α : Type} {r : α → α → Prop} {a : α}, _root_.Acc r a → ¬ r a a := by
    intro α r a h
    induction h with
    | intro a _ ih => exact fun h => ih a h h
  exact fun hn => irr h.transGen (key hn)

open Classical in
/-- The number of productions needed. -/
noncomputable def nrank (G : Grammar I n) (i : I) : Nat := (G.map Prod.fst).countP fun j => decide (Needs G i j)

theorem nrank_lt {i j : I} (hj : ∃ r, (j, r) ∈ G) (hno : ¬ Needs G j j) (h : AndEdge G j i) :
    nrank G j < nrank G i := by
  classical
  obtain ⟨r, hj⟩ := hj
  obtain ⟨l, hm, hl⟩ := h
  refine countP_lt (a := j) ?_ (List.mem_map.2 ⟨_, hj, rfl⟩) (by simpa using hno) (by simpa using .part hm hl)
  intro x hx
  simp only [decide_eq_true_eq] at hx ⊢
  exact .trans (.part hm hl) hx

theorem AndEdge.acc_of_needs (hmem : ∀ i, Reachable G root i → ∃ r, (i, r) ∈ G)
    (hno : ∀ i, Reachable G root i → ¬ Needs G i i) {i : I} (hi : Reachable G root i) :
    _root_.Acc (AndEdge G) i := by
  generalize hr : nrank G i = r
  induction r using Nat.strongRecOn generalizing i with
  | ind r ih =>
    refine ⟨_, fun j hj => ?_⟩
    have hjr : Reachable G root j := by
      obtain ⟨l, hl, hjl⟩ := hj
      exact .step hi ⟨_, hl, hjl⟩
    exact ih _ (hr ▸ nrank_lt (hmem j hjr) (hno j hjr) hj) hjr rfl

end

/-! ### Rules -/

/-- The rules of a grammar are those of the schema. -/
structure Rules (S : Schema m n) (root : Ty m n) (G : Grammar (PId m n) n) : Prop where
  gram : S.IsGrammar root G

section
variable {S : Schema m n} {root : Ty m n} {G : Grammar (PId m n) n}

theorem Rules.mem (E : Rules S root G) {i : PId m n} (h : PReach S root i) : (i, S.rule i) ∈ G :=
  IsGrammar.mem E.gram h

theorem Rules.rule (E : Rules S root G) {i : PId m n} {r} (h : (i, r) ∈ G) : r = S.rule i :=
  ((E.gram.2 _ _).1 h).2

theorem Rules.seq_first (E : Rules S root G) {i : PId m n} {l} (hl : S.rule i = .seq l) {tok} :
    FirstI G i tok → ∃ pre j post, l = pre ++ j :: post ∧ (∀ k ∈ pre, Null G k) ∧ FirstI G j tok := by
  intro h
  cases h with
  | term hm _ => have := E.rule hm; rw [hl] at this; cases this
  | alt hm _ _ => have := E.rule hm; rw [hl] at this; cases this
  | seq hm h1 h2 => have := E.rule hm; rw [hl] at this; cases this; exact ⟨_, _, _, rfl, h1, h2⟩

theorem Rules.alt_first (E : Rules S root G) {i : PId m n} {l} (hl : S.rule i = .alt l) {tok} :
    FirstI G i tok → ∃ j ∈ l, FirstI G j tok := by
  intro h
  cases h with
  | term hm _ => have := E.rule hm; rw [hl] at this; cases this
  | seq hm _ _ => have := E.rule hm; rw [hl] at this; cases this
  | alt hm h1 h2 => have := E.rule hm; rw [hl] at this; cases this; exact ⟨_, h1, h2⟩

theorem Rules.seq_null (E : Rules S root G) {i : PId m n} {l} (hl : S.rule i = .seq l) :
    Null G i → ∀ j ∈ l, Null G j := by
  intro h
  cases h with
  | eps hm => have := E.rule hm; rw [hl] at this; cases this
  | alt hm _ _ => have := E.rule hm; rw [hl] at this; cases this
  | seq hm h1 => have := E.rule hm; rw [hl] at this; cases this; exact h1

theorem Rules.alt_null (E : Rules S root G) {i : PId m n} {l} (hl : S.rule i = .alt l) :
    Null G i → ∃ j ∈ l, Null G j := by
  intro h
  cases h with
  | eps hm => have := E.rule hm; rw [hl] at this; cases this
  | alt hm h1 h2 => have := E.rule hm; rw [hl] at this; cases this; exact ⟨_, h1, h2⟩
  | seq hm _ => have := E.rule hm; rw [hl] at this; cases this

theorem Rules.term_null (E : Rules S root G) {i : PId m n} {t} (hl : S.rule i = .term t) : ¬ Null G i := by
  intro h
  cases h with
  | eps hm => have := E.rule hm; rw [hl] at this; cases this
  | alt hm _ _ => have := E.rule hm; rw [hl] at this; cases this
  | seq hm h1 => have := E.rule hm; rw [hl] at this; cases this

theorem Rules.term_first (E : Rules S root G) {i : PId m n} {t} (hl : S.rule i = .term t) {tok} :
    FirstI G i tok → t.Matches tok := by
  intro h
  cases h with
  | term hm h => have := E.rule hm; rw [hl] at this; cases this; exact h
  | alt hm _ _ => have := E.rule hm; rw [hl] at this; cases this
  | seq hm _ _ => have := E.rule hm; rw [hl] at this; cases this

theorem Rules.eps_first (E : Rules S root G) {tok} : ¬ FirstI G .eps tok := by
  intro h
  cases h with
  | term hm h => have := E.rule hm; cases this
  | alt hm _ _ => have := E.rule hm; cases this
  | seq hm _ _ => have := E.rule hm; cases this

theorem Rules.opt_first (E : Rules S root G) {i : PId m n} {tok} (h : FirstI G (.opt i) tok) :
    FirstI G i.id tok := by
  obtain ⟨j, hj, h⟩ := E.alt_first (l := [i.id, .eps]) rfl h
  simp only [List.mem_cons, List.not_mem_nil, or_false] at hj
  rcases hj with rfl | rfl
  · exact h
  · exact absurd h E.eps_first

theorem Rules.first2 (E : Rules S root G) {i a b : PId m n} (hl : S.rule i = .seq [a, b]) {tok}
    (h : FirstI G i tok) : FirstI G a tok ∨ (Null G a ∧ FirstI G b tok) := by
  obtain ⟨pre, j, post, he, hn, hf⟩ := E.seq_first hl h
  match pre, he with
  | [], he => cases he; exact .inl hf
  | [x], he => cases he; exact .inr ⟨hn _ (by simp), hf⟩
  | x :: y :: z :: pre, he => simp at he
  | [x, y], he => simp at he

theorem Rules.plus_first (E : Rules S root G) {i : PId m n} {tok} :
    FirstI G (.plus i) tok → FirstI G i.id tok := by
  intro h
  generalize hp : PId.plus i = p at h
  have key : ∀ p tok, FirstI G p tok → p = .plus i ∨ p = .opt (.plus i) → FirstI G i.id tok := by
    intro p tok h
    induction h with
    | term hm _ => rintro (rfl | rfl) <;> (have := E.rule hm; cases this)
    | @seq p pre j post tok hm hn hf ih =>
      rintro (rfl | rfl)
      · have := E.rule hm
        simp only [Schema.rule, Rule.seq.injEq] at this
        match pre, this with
        | [], he => cases he; exact hf
        | [x], he => cases he; exact ih (.inr rfl)
        | [x, y], he => simp at he
        | x :: y :: z :: pre, he => simp at he
      · have := E.rule hm; cases this
    | @alt p l j tok hm hj hf ih =>
      rintro (rfl | rfl)
      · have := E.rule hm; cases this
      · have := E.rule hm
        simp only [Schema.rule, Rule.alt.injEq] at this
        subst this
        simp only [List.mem_cons, List.not_mem_nil, or_false] at hj
        rcases hj with rfl | rfl
        · exact ih (.inl rfl)
        · exact absurd hf E.eps_first
  exact key p tok h (.inl hp.symm)

end

/-- An accepted schema. -/
structure Ctx (S : Schema m n) (md : Metadata (PId m n) n) (root : Ty m n) (G : Grammar (PId m n) n) : Prop
    extends Rules S root G where
  first : ∀ i x, (md.first.get i).contains x = true ↔ Starts G i x
  jump : ∀ i l, Reachable G root.pid i → S.rule i = .alt l → ∀ x,
    (∀ j, md.jump.lookUp i x = some j → ∃ c, l[j]? = some c ∧ (Starts G c x ∨ Nullable G c)) ∧
    (∀ (j : Nat) c, l[j]? = some c → Starts G c x → md.jump.lookUp i x = some j)
  left : ∀ i, Reachable G root.pid i → ¬ LeftDerives G i i
  needs : ∀ i, Reachable G root.pid i → ¬ Needs G i i
  enums : ∀ k v vs, S k = .enum v vs → Nullable G (.user k) → (∃ tok, md.jump.lookUp (.user k) (some tok) = none) →
    ∀ i tok rest, Reachable G root.pid i → ¬ Derives G [.nt i] (.nt (.user k) :: .tok tok :: rest)

section
variable {S : Schema m n} {md : Metadata (PId m n) n} {root : Ty m n} {G : Grammar (PId m n) n}

theorem Ctx.starts (E : Ctx S md root G) (i : PId m n) (x : Option (TokenSrc n)) :
    (md.first.get i).contains x = true ↔ Starts G i x := by
  exact E.first i x

/-- For the metadata of an accepted grammar. -/
theorem Ctx.of_metadata {fuel : Nat} (h : S.metadata fuel root = some (.ok md)) (hG : S.IsGrammar root G)
    (hleft : ∀ i, Reachable G root.pid i → ¬ LeftDerives G i i) (hneeds : ∀ i, Reachable G root.pid i → ¬ Needs G i i)
    (henum : ∀ k v vs, S k = .enum v vs → Nullable G (.user k) → ∀ i tok rest, Reachable G root.pid i →
      ¬ Derives G [.nt i] (.nt (.user k) :: .tok tok :: rest)) : Ctx S md root G := by
  refine ⟨⟨hG⟩, metadata_first h hG, fun i l hr hi x => ?_, hleft, hneeds, fun k v vs hk hn _ => henum k v vs hk hn⟩
  obtain ⟨h1, h2, -⟩ := metadata_jump h hG hr hi x
  exact ⟨fun j hj => (h1 j hj).imp fun c hc => ⟨hc.1, .inl hc.2⟩, h2⟩

/-- The lookahead is a token that can begin `i`. -/
def FirstAt (G : Grammar (PId m n) n) (i : PId m n) (v : View n) : Prop :=
  ∃ tok, v.look = some tok ∧ FirstI G i tok

theorem Ctx.firstAt (E : Ctx S md root G) {i : PId m n} {v : View n} :
    (v.rest ≠ [] ∧ (md.first.get i).contains v.look = true) ↔ FirstAt G i v := by
  constructor
  · rintro ⟨h1, h2⟩
    have := look_some.2 h1
    cases hl : v.look with
    | none => exact absurd hl this
    | some tok =>
      rw [hl] at h2
      exact ⟨tok, hl, firstOf_iff.1 ((E.starts i (some tok)).1 h2)⟩
  · rintro ⟨tok, h1, h2⟩
    refine ⟨look_some.1 (by simp [h1]), ?_⟩
    rw [h1]
    exact (E.starts i (some tok)).2 (firstOf_iff.2 h2)

theorem Ctx.containsE (E : Ctx S md root G) {i : PId m n} : (md.first.get i).containsE = true ↔ Null G i :=
  (E.starts i none).trans nullable_iff

theorem Ctx.guard (E : Ctx S md root G) {i : PId m n} {v : View n} :
    ((md.first.get i).contains v.look = true ∨ (md.first.get i).containsE = true) ↔
      FirstAt G i v ∨ Null G i := by
  constructor
  · rintro (h | h)
    · by_cases hr : v.rest = []
      · rw [look_none.2 hr] at h; exact .inr (E.containsE.1 h)
      · exact .inl (E.firstAt.1 ⟨hr, h⟩)
    · exact .inr (E.containsE.1 h)
  · rintro (h | h)
    · exact .inl (E.firstAt.2 h).2
    · exact .inr (E.containsE.2 h)

theorem Adv.firstAt {i : PId m n} {v w : View n} (h : Adv v w) (hl : v.len ≤ w.len) :
    FirstAt G i w ↔ FirstAt G i v := by
  unfold FirstAt; rw [h.look_eq hl]

/-! ### Enums that derive the empty sequence -/

/-- `i` can consist of nothing but an enum that derives the empty sequence, and that fails on some token. -/
def Weak (S : Schema m n) (md : Metadata (PId m n) n) (G : Grammar (PId m n) n) (i : PId m n) : Prop :=
  ∃ k f fs, S k = .enum f fs ∧ Null G (.user k) ∧ (∃ tok, md.jump.lookUp (.user k) (some tok) = none) ∧
    Derives G [.nt i] [.nt (.user k)]

theorem derives_nulls {l : List (PId m n)} (h : ∀ j ∈ l, Null G j) : Derives G (l.map .nt) [] :=
  derives_nil_of_all l fun j hj => (h j hj).nullable

theorem Weak.seq (E : Rules S root G) {i j : PId m n} {l} (hr : PReach S root i) (hl : S.rule i = .seq l)
    (hn : ∀ k ∈ l, Null G k) (hj : j ∈ l) (h : Weak S md G j) : Weak S md G i := by
  obtain ⟨k, f, fs, h1, h2, h0, h3⟩ := h
  obtain ⟨a, b, rfl⟩ := List.append_of_mem hj
  refine ⟨k, f, fs, h1, h2, h0, (Derives.one (.seq (hl ▸ E.mem hr))).trans ?_⟩
  have ha : Derives G (a.map .nt) [] := derives_nulls fun x hx => hn x (by simp [hx])
  have hb : Derives G (b.map .nt) [] := derives_nulls fun x hx => hn x (by simp [hx])
  have := ha.append (h3.append hb)
  simpa using this

theorem Weak.alt (E : Rules S root G) {i j : PId m n} {l} (hr : PReach S root i) (hl : S.rule i = .alt l)
    (hj : j ∈ l) (h : Weak S md G j) : Weak S md G i := by
  obtain ⟨k, f, fs, h1, h2, h0, h3⟩ := h
  exact ⟨k, f, fs, h1, h2, h0, (Derives.one (.alt (hl ▸ E.mem hr) hj)).trans h3⟩

/-- Nothing can come right after such a part. -/
theorem Ctx.weak_first (E : Ctx S md root G) {i j c : PId m n} {a b d : List (PId m n)} (hr : PReach S root i)
    (hl : S.rule i = .seq (a ++ j :: (b ++ c :: d))) (ha : ∀ k ∈ a, Null G k) (hb : ∀ k ∈ b, Null G k)
    (h : Weak S md G j) {tok} (hc : FirstI G c tok) : False := by
  obtain ⟨k, f, fs, h1, h2, h0, h3⟩ := h
  obtain ⟨β, h4⟩ := firstOf_iff.2 hc
  have := (derives_nulls ha).append (h3.append ((derives_nulls hb).append (h4.append (.refl (d.map .nt)))))
  refine E.enums k f fs h1 h2.nullable h0 i tok (β ++ d.map .nt) ((reach_iff_schema E.gram _).2 hr)
    ((Derives.one (.seq (hl ▸ E.mem hr))).trans ?_)
  simpa using this

/-! ### Postcondition -/

/-- What is known after producing `t`: if the lookahead can begin `t` then a token was consumed; if `t`
derives the empty sequence then a token was consumed or there is a tree, unless `t` can consist of an enum that fails. -/
def Post (S : Schema m n) (md : Metadata (PId m n) n) (G : Grammar (PId m n) n) (t : Ty m n) (v : View n) (r : Res n (Tree n))
    (v' : View n) : Prop :=
  Adv v v' ∧ (FirstAt G t.pid v → v'.len < v.len) ∧
  (Null G t.pid → v'.len < v.len ∨ r.tree?.isSome = true ∨ Weak S md G t.pid)

def Good (S : Schema m n) (md : Metadata (PId m n) n) (G : Grammar (PId m n) n) (t : Ty m n) (v : View n) : Prop :=
  Halts (fun _ j => produce View.ops S md j t) v (Post S md G t v)

/-- The lookahead can begin `t`, or `t` derives the empty sequence. -/
def MN (G : Grammar (PId m n) n) (t : Ty m n) (v : View n) : Prop := FirstAt G t.pid v ∨ Null G t.pid

theorem Good.adv {t : Ty m n} {v : View n} (h : Good S md G t v) :
    Halts (fun _ j => produce View.ops S md j t) v (fun _ w => Adv v w) := h.mono fun _ _ h => h.1

/-- Producing `t` ends, without any claim about the result. -/
abbrev Ends (S : Schema m n) (md : Metadata (PId m n) n) (t : Ty m n) (v : View n) : Prop :=
  Halts (fun _ j => produce View.ops S md j t) v (fun _ w => Adv v w)

/-! ### Sequences -/

theorem seq_ends : ∀ (ts : List (Ty m n)) (v : View n) acc errs,
    (∀ t ∈ ts, ∀ w : View n, w.len ≤ v.len → Ends S md t w) →
    Halts (fun _ j => seqLoop (ts.map (produce View.ops S md j)) acc errs) v (fun _ w => Adv v w) := by
  intro ts
  induction ts with
  | nil => intro v acc errs _; exact .pure (.refl _)
  | cons t ts ih =>
    intro v acc errs h
    simp only [List.map_cons, seqLoop]
    refine .bind (h t (by simp) v (Nat.le_refl _)) ?_
    intro r w ha
    have rest : ∀ acc errs, Halts (fun _ j => seqLoop (ts.map (produce View.ops S md j)) acc errs) w
        (fun _ v' => Adv v v') := fun acc errs =>
      (ih w acc errs fun t ht w' hw' => h t (by simp [ht]) w' (Nat.le_trans hw' ha.len_le)).mono
        fun _ _ h => ha.trans h
    cases r with
    | success x => exact rest _ _
    | recovered x e => exact rest _ _
    | panic e => exact .pure ha

/-- The lookahead can begin a part of the sequence that comes after parts deriving the empty sequence. -/
def FirstIn (G : Grammar (PId m n) n) (ts : List (Ty m n)) (v : View n) : Prop :=
  ∃ pre t post, ts = pre ++ t :: post ∧ (∀ k ∈ pre, Null G k.pid) ∧ FirstAt G t.pid v

theorem FirstIn.cons {t : Ty m n} {ts : List (Ty m n)} {v : View n} (h : FirstIn G (t :: ts) v) :
    FirstAt G t.pid v ∨ (Null G t.pid ∧ FirstIn G ts v) := by
  obtain ⟨pre, u, post, he, hn, hf⟩ := h
  cases pre with
  | nil => cases he; exact .inl hf
  | cons x pre =>
    cases he
    exact .inr ⟨hn _ (by simp), pre, u, post, rfl, fun k hk => hn k (by simp [hk]), hf⟩

theorem seq_good {L : Nat} : ∀ (ts : List (Ty m n)) (v : View n) acc errs, v.len = L →
    (∀ pre t post, ts = pre ++ t :: post → (∀ k ∈ pre, Null G k.pid) → ∀ w : View n, w.len = L → MN G t w →
      Good S md G t w) →
    (∀ t ∈ ts, ∀ w : View n, w.len < L → Good S md G t w) →
    (∀ pre t post, ts = pre ++ t :: post → (∀ k ∈ pre, Null G k.pid) → Weak S md G t.pid → ∀ w : View n,
      ¬ FirstIn G post w) →
    FirstIn G ts v ∨ (∀ t ∈ ts, Null G t.pid) →
    Halts (fun _ j => seqLoop (ts.map (produce View.ops S md j)) acc errs) v (fun r w => Adv v w ∧
      (FirstIn G ts v → w.len < L) ∧
      ((∀ t ∈ ts, Null G t.pid) → w.len < L ∨ (∃ x, r = .ok x) ∨ ∃ t ∈ ts, Weak S md G t.pid)) := by
  intro ts
  induction ts with
  | nil =>
    intro v acc errs _ _ _ _ h
    refine .pure ⟨.refl _, ?_, fun _ => .inr (.inl ⟨_, rfl⟩)⟩
    rintro ⟨pre, t, post, he, _⟩
    simp at he
  | cons t ts ih =>
    intro v acc errs hv hl hs hweak h
    have ht : MN G t v := by
      rcases h with h | h
      · rcases h.cons with h | h
        · exact .inl h
        · exact .inr h.1
      · exact .inr (h t (by simp))
    simp only [List.map_cons, seqLoop]
    refine .bind (hl [] t ts rfl (by simp) v hv ht) ?_
    rintro r w ⟨ha, h1, h2⟩
    by_cases hw : w.len < L
    · have rest : ∀ acc errs, Halts (fun _ j => seqLoop (ts.map (produce View.ops S md j)) acc errs) w
        (fun r v' => Adv v v' ∧ (FirstIn G (t :: ts) v → v'.len < L) ∧
          ((∀ u ∈ t :: ts, Null G u.pid) → v'.len < L ∨ (∃ x, r = .ok x) ∨ ∃ u ∈ t :: ts, Weak S md G u.pid)) := by
        intro acc errs
        refine (seq_ends ts w acc errs fun t ht w' hw' => (hs t (by simp [ht]) w' (by omega)).adv).mono ?_
        intro r v' h3
        have := h3.len_le
        exact ⟨ha.trans h3, fun _ => by omega, fun _ => .inl (by omega)⟩
      cases r with
      | success x => exact rest _ _
      | recovered x e => exact rest _ _
      | panic e => exact .pure ⟨ha, fun _ => hw, fun _ => .inl hw⟩
    · have hle : v.len ≤ w.len := by omega
      have hwL : w.len = L := by have := ha.len_le; omega
      have hnf : ¬ FirstAt G t.pid v := fun h => by have := h1 h; omega
      have hn : Null G t.pid := ht.resolve_left hnf
      have hsome := (h2 hn).resolve_left (by omega)
      have hin : FirstIn G (t :: ts) v → FirstIn G ts w := by
        intro h
        obtain ⟨pre, u, post, he, hp, hf⟩ := (h.cons.resolve_left hnf).2
        exact ⟨pre, u, post, he, hp, (ha.firstAt hle).2 hf⟩
      have h' : FirstIn G ts w ∨ ∀ t ∈ ts, Null G t.pid :=
        h.imp hin fun h t ht => h t (by simp [ht])
      have rest : ∀ acc errs, Halts (fun _ j => seqLoop (ts.map (produce View.ops S md j)) acc errs) w
        (fun r v' => Adv v v' ∧ (FirstIn G (t :: ts) v → v'.len < L) ∧
          ((∀ u ∈ t :: ts, Null G u.pid) → v'.len < L ∨ (∃ x, r = .ok x) ∨ ∃ u ∈ t :: ts, Weak S md G u.pid)) := by
        intro acc errs
        have hcons : ∀ {pre : List (Ty m n)}, (∀ k ∈ pre, Null G k.pid) → ∀ k ∈ t :: pre, Null G k.pid := by
          intro pre hp k hk
          rcases List.mem_cons.1 hk with rfl | hk
          · exact hn
          · exact hp k hk
        refine (ih w acc errs hwL (fun pre u post he hp => hl (t :: pre) u post (by simp [he]) (hcons hp))
          (fun u hu => hs u (by simp [hu]))
          (fun pre u post he hp => hweak (t :: pre) u post (by simp [he]) (hcons hp)) h').mono ?_
        rintro r v' ⟨h3, h4, h5⟩
        refine ⟨ha.trans h3, fun h => h4 (hin h), fun h => ?_⟩
        rcases h5 fun u hu => h u (by simp [hu]) with h | h | ⟨u, hu, h⟩
        · exact .inl h
        · exact .inr (.inl h)
        · exact .inr (.inr ⟨u, by simp [hu], h⟩)
      cases r with
      | success x => exact rest _ _
      | recovered x e => exact rest _ _
      | panic e =>
        have hw := hsome.resolve_left (by simp [Res.tree?])
        exact .pure ⟨ha, fun h => absurd (hin h) (hweak [] t ts rfl (by simp) hw w),
          fun _ => .inr (.inr ⟨t, by simp, hw⟩)⟩

/-! ### Single steps -/

theorem applyAll_rest (l : List (Tree n × Option (LSet n))) : ∀ v : View n, (v.applyAll l).rest = v.rest := by
  induction l with
  | nil => intro v; rfl
  | cons a l ih =>
    intro v
    obtain ⟨t, sem⟩ := a
    cases sem with
    | none => exact ih v
    | some sem => exact ih _

theorem Halts.peek {v : View n} {Q : Option (Token n) → View n → Prop} (h : Q v.rest.head? v) :
    Halts (fun _ _ => (View.ops (n := n)).mPeek) v Q := by
  refine .const ?_ fun a v' ha => ?_
  · rw [(mPeek_ok (v := v) (v' := v)).2 ⟨rfl, rfl⟩]; simp
  · obtain ⟨rfl, rfl⟩ := mPeek_ok.1 ha
    exact h

theorem Halts.eof {v : View n} {Q : Err n → View n → Prop} (h : Q ⟨v.cur, .unexpectedEof⟩ v) :
    Halts (fun _ _ => (View.ops (n := n)).mUnexpectedEof) v Q := by
  refine .const ?_ fun a v' ha => ?_
  · rw [(mUnexpectedEof_ok (v := v) (v' := v)).2 ⟨rfl, rfl⟩]; simp
  · obtain ⟨rfl, rfl⟩ := mUnexpectedEof_ok.1 ha
    exact h

theorem term_halts {t : Terminal n} {fol : TSet n} {v : View n} :
    Halts (fun _ _ => produceTerm View.ops t fol) v (fun _ w => Adv v w ∧
      ∀ tok, v.look = some tok → t.Matches tok → w.len < v.len) := by
  unfold produceTerm
  cases hlit : t.lit with
  | none =>
    dsimp only
    refine .bind (Q := fun _ w => Adv v w ∧ ∀ tok, v.look = some tok → t.Matches tok → w.len < v.len) ?_
      fun _ _ h => .pure h
    unfold Ops.parseToken
    dsimp only
    refine .bind (Q := fun x w => x = v.rest.head? ∧ w = v) (.peek ⟨rfl, rfl⟩) ?_
    rintro _ _ ⟨rfl, rfl⟩
    rename_i v
    have fail : ∀ s : TSet n, (∀ tok, v.look = some tok → ¬ t.Matches tok) →
        Halts (fun _ _ => (View.ops (n := n)).mExpecting s >>= fun e =>
          (pure (.panic [e]) : M (View n) (Res n (Token n)))) v (fun _ w => Adv v w ∧
          ∀ tok, v.look = some tok → t.Matches tok → w.len < v.len) := by
      intro s h
      refine .bind (Q := fun x w => w = v) (.expecting rfl) ?_
      rintro _ _ rfl
      exact .pure ⟨.refl _, fun tok h1 h2 => absurd h2 (h tok h1)⟩
    cases hr : v.rest with
    | nil => exact fail _ (by simp [View.look, hr])
    | cons d rest =>
      simp only [List.head?_cons]
      have hne : v.rest ≠ [] := by simp [hr]
      refine .ite (fun hc => ?_) (fun hc => ?_)
      · refine .bind (Q := fun x w => w = v.skip) (.consume rfl) ?_
        rintro _ _ rfl
        exact .pure ⟨.skip _, fun _ _ _ => skip_len hne⟩
      · refine fail _ fun tok h1 h2 => hc ?_
        simp only [View.look, hr, List.head?_cons, Option.map_some, Option.some.injEq] at h1
        rw [← h2.1, ← h1]; rfl
  | some lit =>
    dsimp only
    refine .bind (Q := fun _ w => Adv v w ∧ ∀ tok, v.look = some tok → t.Matches tok → w.len < v.len) ?_
      fun _ _ h => .pure h
    unfold Ops.parseTokenLit
    refine .bind (Q := fun x w => x = v.rest.head? ∧ w = v) (.peek ⟨rfl, rfl⟩) ?_
    rintro _ _ ⟨rfl, rfl⟩
    rename_i v
    cases hr : v.rest with
    | nil =>
      have hno : ∀ tok, v.look = some tok → t.Matches tok → v.len < v.len := by simp [View.look, hr]
      refine .ite (fun _ => ?_) (fun _ => ?_)
      · refine .bind (Q := fun x w => w = v) (.currentSpan rfl) ?_
        rintro _ _ rfl
        rename_i v
        refine .bind (Q := fun x w => w = v) (.expecting rfl) ?_
        rintro _ _ rfl
        exact .pure ⟨.refl _, hno⟩
      · refine .bind (Q := fun x w => w = v) (.eof rfl) ?_
        rintro _ _ rfl
        exact .pure ⟨.refl _, hno⟩
    | cons d rest =>
      simp only [List.head?_cons]
      have hne : v.rest ≠ [] := by simp [hr]
      refine .bind (Q := fun x w => d.span.get? v.source = some x ∧ w = v) (.getSrc fun s h => ⟨h, rfl⟩) ?_
      rintro s _ ⟨hs, rfl⟩
      rename_i v
      have hl : v.look = some ⟨d.ty, s⟩ := by
        simp [View.look, hr, Token.toSrc, Token.src, Span.get, hs]
      refine .ite (fun hc => ?_) (fun hc => ?_)
      · refine .bind (Q := fun x w => w = v.skip) (.consume rfl) ?_
        rintro _ _ rfl
        exact .pure ⟨.skip _, fun _ _ _ => skip_len hne⟩
      have hno : ∀ tok, v.look = some tok → t.Matches tok → v.len < v.len := by
        intro tok h1 h2
        rw [hl] at h1
        cases h1
        exact absurd ⟨h2.1, h2.2 _ hlit⟩ hc
      refine .ite (fun _ => ?_) (fun _ => ?_)
      · refine .bind (Q := fun x w => w = v) (.emptySpan rfl) ?_
        rintro _ _ rfl
        rename_i v
        refine .bind (Q := fun x w => w = v) (.expecting rfl) ?_
        rintro _ _ rfl
        exact .pure ⟨.refl _, hno⟩
      · refine .bind (Q := fun x w => w = v) (.expecting rfl) ?_
        rintro _ _ rfl
        exact .pure ⟨.refl _, hno⟩

theorem mapVariant_halts {i : Nat} {sem : Option (LSet n)} {r : Res n (Tree n)} {v : View n} :
    Halts (fun _ _ => mapVariant View.ops i sem r) v (fun r' w => Adv v w ∧ w.len = v.len ∧
      r'.tree?.isSome = r.tree?.isSome) := by
  cases r with
  | success t =>
    simp only [mapVariant]
    refine .bind (Q := fun _ w => Adv v w ∧ w.len = v.len)
      (.fields ⟨.applyAll _ _, by unfold View.len; rw [applyAll_rest]⟩) ?_
    exact fun _ _ h => .pure ⟨h.1, h.2, rfl⟩
  | recovered t e =>
    simp only [mapVariant]
    refine .bind (Q := fun _ w => Adv v w ∧ w.len = v.len)
      (.fields ⟨.applyAll _ _, by unfold View.len; rw [applyAll_rest]⟩) ?_
    exact fun _ _ h => .pure ⟨h.1, h.2, rfl⟩
  | panic e => exact .pure ⟨.refl _, rfl, rfl⟩

theorem ofPair_isSome (x : Tree n) (e : List (Err n)) : (Res.ofPair x e).tree?.isSome = true := by
  unfold Res.ofPair; split <;> rfl

/-- Structs and tuples from `seqLoop`. -/
theorem tuple_halts {ps : Nat → List (P (View n) n)} {v : View n} {K : Bool → View n → Prop}
    (h : Halts (fun _ j => seqLoop (ps j) [] []) v (fun r w => Adv v w ∧ K (match r with | .ok _ => true | .error _ => false) w)) :
    Halts (fun _ j => produceTuple (ps j)) v (fun r w => Adv v w ∧ K r.tree?.isSome w) := by
  simp only [produceTuple]
  refine .bind h ?_
  rintro r w ⟨ha, hk⟩
  cases r with
  | error e => exact .pure ⟨ha, hk⟩
  | ok x => exact .pure ⟨ha, by rw [ofPair_isSome]; exact hk⟩

theorem struct_halts {ps : Nat → List (P (View n) n × Option (LSet n))} {v : View n}
    {K : Bool → View n → Prop} (hK : ∀ b w l, K b w → K b (w.applyAll l))
    (h : Halts (fun _ j => seqLoop ((ps j).map (·.1)) [] []) v (fun r w => Adv v w ∧
      K (match r with | .ok _ => true | .error _ => false) w)) (hc : ∀ j j', (ps j).map (·.2) = (ps j').map (·.2)) :
    Halts (fun _ j => produceStruct View.ops (ps j)) v (fun r w => Adv v w ∧ K r.tree?.isSome w) := by
  simp only [produceStruct]
  refine .bind h ?_
  rintro r w ⟨ha, hk⟩
  cases r with
  | error e => exact .pure ⟨ha, hk⟩
  | ok x =>
    obtain ⟨l, errs⟩ := x
    simp only [hc _ 0]
    refine .bind (Q := fun _ w' => w' = w.applyAll (l.zip ((ps 0).map (·.2)))) (.fields rfl) ?_
    rintro _ _ rfl
    exact .pure ⟨ha.trans (.applyAll _ _), by rw [ofPair_isSome]; exact hK _ _ _ hk⟩

/-! ### Parts -/

theorem PReach.seq {i : PId m n} {l : List (PId m n)} (h : PReach S root i) (hl : S.rule i = .seq l)
    {j : PId m n} (hj : j ∈ l) : PReach S root j := h.part (by rw [hl]; exact hj)

theorem PReach.alt {i : PId m n} {l : List (PId m n)} (h : PReach S root i) (hl : S.rule i = .alt l)
    {j : PId m n} (hj : j ∈ l) : PReach S root j := h.part (by rw [hl]; exact hj)

theorem Ctx.lseq (E : Ctx S md root G) {i : PId m n} (h : PReach S root i) {pre j post}
    (hl : S.rule i = .seq (pre ++ j :: post)) (hn : ∀ k ∈ pre, Null G k) : LStep G i j :=
  .seq (hl ▸ E.mem h) hn

theorem Ctx.lalt (E : Ctx S md root G) {i : PId m n} (h : PReach S root i) {l j}
    (hl : S.rule i = .alt l) (hj : j ∈ l) : LStep G i j := .alt (hl ▸ E.mem h) hj

theorem Ctx.and (E : Ctx S md root G) {i : PId m n} (h : PReach S root i) {l j}
    (hl : S.rule i = .seq l) (hj : j ∈ l) : AndEdge G j i := ⟨l, hl ▸ E.mem h, hj⟩

theorem rule_opt (t : PId m n) : S.rule (.opt t) = .alt [t.id, .eps] := rfl
theorem rule_plus (t : PId m n) : S.rule (.plus t) = .seq [t.id, .opt (.plus t)] := rfl
theorem rule_punct (t p : PId m n) :
    S.rule (.punct t p) = .seq [t.id, .opt (.tup2 p (.opt (.punct t p)))] := rfl
theorem rule_tup2 (a b : PId m n) : S.rule (.tup2 a b) = .seq [a.id, b.id] := rfl

section
variable (E : Ctx S md root G) {t p : Ty m n}
include E

theorem Ctx.opt_part (h : PReach S root (.opt t.prod)) : PReach S root t.pid ∧ LPlus G (.opt t.prod) t.pid :=
  ⟨h.alt (rule_opt _) (by simp [Ty.pid]), (E.lalt h (rule_opt _) (by simp [Ty.pid])).plus⟩

theorem Ctx.plus_part (h : PReach S root (.plus t.prod)) :
    PReach S root t.pid ∧ LPlus G (.plus t.prod) t.pid ∧ AndEdge G t.pid (.plus t.prod) :=
  ⟨h.seq (rule_plus _) (by simp [Ty.pid]), (E.lseq (pre := []) h (rule_plus _) (by simp)).plus,
    E.and h (rule_plus _) (by simp [Ty.pid])⟩

theorem Ctx.star_part (h : PReach S root (.opt (.plus t.prod))) :
    PReach S root t.pid ∧ LPlus G (.opt (.plus t.prod)) t.pid := by
  have h1 : PReach S root (.plus t.prod) := h.alt (rule_opt _) (by simp [PId.id])
  refine ⟨(E.plus_part h1).1, LPlus.trans ?_ (E.plus_part h1).2.1⟩
  exact (E.lalt h (rule_opt _) (by simp [PId.id])).plus

theorem Ctx.split_part (h : PReach S root (Ty.split t p).pid) :
    PReach S root t.pid ∧ PReach S root p.pid ∧ LPlus G (Ty.split t p).pid t.pid ∧
    AndEdge G t.pid (Ty.split t p).pid ∧ (Null G t.pid → LPlus G (Ty.split t p).pid p.pid) ∧
    (Null G (Ty.split t p).pid → Null G t.pid) ∧
    (∀ tok, FirstI G (Ty.split t p).pid tok → FirstI G t.pid tok ∨ (Null G t.pid ∧ FirstI G p.pid tok)) := by
  have hr : S.rule (Ty.split t p).pid = .seq [t.pid, .opt (.plus (.tup2 p.prod t.prod))] := rfl
  have h1 : PReach S root (.opt (.plus (.tup2 p.prod t.prod))) := h.seq hr (by simp)
  have h2 : PReach S root (.plus (.tup2 p.prod t.prod)) := h1.alt (rule_opt _) (by simp [PId.id])
  have h3 : PReach S root (.tup2 p.prod t.prod) := h2.seq (rule_plus _) (by simp [PId.id])
  have h4 : PReach S root p.pid := h3.seq (rule_tup2 _ _) (by simp [Ty.pid])
  refine ⟨h.seq hr (by simp), h4, (E.lseq (pre := []) h hr (by simp)).plus, E.and h hr (by simp), ?_, ?_, ?_⟩
  · intro hn
    refine .trans (E.lseq (pre := [t.pid]) h hr (by simpa using hn)).plus
      (.trans (E.lalt h1 (rule_opt _) (j := .plus (.tup2 p.prod t.prod)) (by simp [PId.id])).plus
      (.trans (E.lseq (pre := []) (j := .tup2 p.prod t.prod) h2 (rule_plus _) (by simp)).plus
      (E.lseq (pre := []) (j := p.pid) h3 (rule_tup2 _ _) (by simp)).plus))
  · intro hn; exact E.seq_null hr hn _ (by simp)
  · intro tok hf
    rcases E.first2 hr hf with h | ⟨hn, h⟩
    · exact .inl h
    have h := E.plus_first (i := .tup2 p.prod t.prod) (E.opt_first h)
    rcases E.first2 (rule_tup2 _ _) h with h | ⟨_, h⟩
    · exact .inr ⟨hn, h⟩
    · exact .inl h

theorem Ctx.punct_part (h : PReach S root (Ty.punct t p).pid) :
    PReach S root t.pid ∧ PReach S root p.pid ∧ LPlus G (Ty.punct t p).pid t.pid ∧
    AndEdge G t.pid (Ty.punct t p).pid ∧ (Null G t.pid → LPlus G (Ty.punct t p).pid p.pid) ∧
    (Null G (Ty.punct t p).pid → Null G t.pid) ∧
    (∀ tok, FirstI G (Ty.punct t p).pid tok → FirstI G t.pid tok ∨ (Null G t.pid ∧ FirstI G p.pid tok)) := by
  have hr : S.rule (Ty.punct t p).pid = .seq [t.pid, .opt (.tup2 p.prod (.opt (.punct t.prod p.prod)))] := rfl
  have h1 : PReach S root (.opt (.tup2 p.prod (.opt (.punct t.prod p.prod)))) := h.seq hr (by simp)
  have h2 : PReach S root (.tup2 p.prod (.opt (.punct t.prod p.prod))) := h1.alt (rule_opt _) (by simp [PId.id])
  have h4 : PReach S root p.pid := h2.seq (rule_tup2 _ _) (by simp [Ty.pid])
  refine ⟨h.seq hr (by simp), h4, (E.lseq (pre := []) h hr (by simp)).plus, E.and h hr (by simp), ?_, ?_, ?_⟩
  · intro hn
    refine .trans (E.lseq (pre := [t.pid]) h hr (by simpa using hn)).plus
      (.trans (E.lalt h1 (rule_opt _) (j := .tup2 p.prod (.opt (.punct t.prod p.prod))) (by simp [PId.id])).plus
      (E.lseq (pre := []) (j := p.pid) h2 (rule_tup2 _ _) (by simp)).plus)
  · intro hn; exact E.seq_null hr hn _ (by simp)
  · intro tok hf
    have key : ∀ q tok, FirstI G q tok →
        (q = (Ty.punct t p).pid → FirstI G t.pid tok ∨ (Null G t.pid ∧ FirstI G p.pid tok)) ∧
        (q = .opt (.tup2 p.prod (.opt (.punct t.prod p.prod))) ∨ q = .tup2 p.prod (.opt (.punct t.prod p.prod)) →
          FirstI G p.pid tok ∨ FirstI G t.pid tok ∨ (Null G t.pid ∧ FirstI G p.pid tok)) ∧
        (q = .opt (.punct t.prod p.prod) → FirstI G t.pid tok ∨ (Null G t.pid ∧ FirstI G p.pid tok)) := by
      intro q tok h
      induction h with
      | term hm _ =>
        refine ⟨?_, ?_, ?_⟩
        · rintro rfl; have := E.rule hm; cases this
        · rintro (rfl | rfl) <;> (have := E.rule hm; cases this)
        · rintro rfl; have := E.rule hm; cases this
      | @seq q pre j post tok hm hn hf ih =>
        refine ⟨?_, ?_, ?_⟩
        · rintro rfl
          have := E.rule hm
          rw [hr] at this
          simp only [Rule.seq.injEq] at this
          match pre, this with
          | [], he => cases he; exact .inl hf
          | [x], he =>
            cases he
            rcases ih.2.1 (.inl rfl) with h | h
            · exact .inr ⟨hn _ (by simp), h⟩
            · exact h
          | [x, y], he => simp at he
          | x :: y :: z :: pre, he => simp at he
        · rintro (rfl | rfl)
          · have := E.rule hm; cases this
          · have := E.rule hm
            simp only [Schema.rule, Rule.seq.injEq] at this
            match pre, this with
            | [], he => cases he; exact .inl hf
            | [x], he => cases he; exact .inr (ih.2.2 rfl)
            | [x, y], he => simp at he
            | x :: y :: z :: pre, he => simp at he
        · rintro rfl; have := E.rule hm; cases this
      | @alt q l j tok hm hj hf ih =>
        refine ⟨?_, ?_, ?_⟩
        · rintro rfl; have := E.rule hm; cases this
        · rintro (rfl | rfl)
          · have := E.rule hm
            simp only [Schema.rule, Rule.alt.injEq] at this
            subst this
            simp only [List.mem_cons, List.not_mem_nil, or_false] at hj
            rcases hj with rfl | rfl
            · exact ih.2.1 (.inr rfl)
            · exact absurd hf E.eps_first
          · have := E.rule hm; cases this
        · rintro rfl
          have := E.rule hm
          simp only [Schema.rule, Rule.alt.injEq] at this
          subst this
          simp only [List.mem_cons, List.not_mem_nil, or_false] at hj
          rcases hj with rfl | rfl
          · exact ih.1 rfl
          · exact absurd hf E.eps_first
    exact (key _ tok hf).1 rfl

end

end

end Teleparse
