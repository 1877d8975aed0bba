import Verif.Proof.Sound
/-
Spans of trees are nested and in order.
-/
namespace Teleparse
variable {m n : Nat} {S : Schema m n}

theorem Tree.Nested.le {x : Tree n} (h : x.Nested) : x.span.lo ≤ x.span.hi := by
  cases h; assumption

/-- Nested trees one after the other between two positions. -/
inductive Chain : Nat → List (Tree n) → Nat → Prop
  | nil {a b} : a ≤ b → Chain a [] b
  | cons {a x l b} : a ≤ x.span.lo → x.Nested → Chain x.span.hi l b → Chain a (x :: l) b

theorem Chain.le {a b : Nat} {l : List (Tree n)} (h : Chain a l b) : a ≤ b := by
  induction h with
  | nil h => exact h
  | cons h1 h2 _ ih => exact Nat.le_trans h1 (Nat.le_trans h2.le ih)

theorem Chain.weaken {a a' b b' : Nat} {l : List (Tree n)} (h : Chain a l b) (ha : a' ≤ a) (hb : b ≤ b') :
    Chain a' l b' := by
  induction h generalizing a' with
  | nil h => exact .nil (by omega)
  | cons h1 h2 _ ih => exact .cons (by omega) h2 (ih (Nat.le_refl _) hb)

theorem Chain.append {a b c : Nat} {l l' : List (Tree n)} (h : Chain a l b) (h' : Chain b l' c) :
    Chain a (l ++ l') c := by
  induction h with
  | nil h => exact h'.weaken h (Nat.le_refl _)
  | cons h1 h2 _ ih => exact .cons h1 h2 (ih h')

theorem Chain.one {a b : Nat} {x : Tree n} (h1 : a ≤ x.span.lo) (h2 : x.Nested) (h3 : x.span.hi ≤ b) :
    Chain a [x] b := .cons h1 h2 (.nil h3)

theorem Chain.mem {a b : Nat} {l : List (Tree n)} (h : Chain a l b) {x : Tree n} (hx : x ∈ l) :
    a ≤ x.span.lo ∧ x.Nested ∧ x.span.hi ≤ b := by
  induction h with
  | nil => cases hx
  | cons h1 h2 h3 ih =>
    rcases List.mem_cons.1 hx with rfl | hx
    · exact ⟨h1, h2, h3.le⟩
    · obtain ⟨h4, h5, h6⟩ := ih hx
      exact ⟨by have := h2.le; omega, h5, h6⟩

theorem Chain.pairwise {a b : Nat} {l : List (Tree n)} (h : Chain a l b) :
    l.Pairwise fun x y => x.span.hi ≤ y.span.lo := by
  induction h with
  | nil => exact .nil
  | cons h1 h2 h3 ih => exact .cons (fun y hy => (h3.mem hy).1) ih

/-- The chain ends at the end of its last tree. -/
theorem Chain.last {a b : Nat} {l : List (Tree n)} (h : Chain a l b) : ∀ {d}, d ≤ a →
    Chain a l ((l.getLast?.map (·.span.hi)).getD a) ∧ (l.getLast?.map (·.span.hi)).getD d ≤ b := by
  induction h with
  | nil h => intro d hd; exact ⟨.nil (Nat.le_refl _), by simp; omega⟩
  | @cons a x l b h1 h2 h3 ih =>
    intro d hd
    obtain ⟨i1, i2⟩ := ih (Nat.le_refl _)
    rw [List.getLast?_cons]
    have e : ∀ z, (Option.map (fun y : Tree n => y.span.hi) (some (l.getLast?.getD x))).getD z =
        (l.getLast?.map (·.span.hi)).getD x.span.hi := by
      intro z; cases l.getLast? <;> rfl
    rw [e, e]
    exact ⟨.cons h1 h2 i1, i2⟩

theorem Chain.sublist {a b : Nat} {l l' : List (Tree n)} (h : Chain a l b) (hs : l'.Sublist l) : Chain a l' b := by
  induction hs generalizing a with
  | slnil => exact h
  | cons x _ ih =>
    cases h with
    | cons h1 h2 h3 => exact ih (h3.weaken (by have := h2.le; omega) (Nat.le_refl _))
  | cons_cons x _ ih =>
    cases h with
    | cons h1 h2 h3 => exact .cons h1 h2 (ih h3)

/-- A node whose span is bounded by chains of its parts. -/
theorem nested_of_chain {x : Tree n} (hle : x.span.lo ≤ x.span.hi)
    (h : ∀ l ∈ x.kids, Chain x.span.lo l x.span.hi) : x.Nested :=
  .node hle (fun l hl _ hy => ((h l hl).mem hy).2.1)
    (fun l hl _ hy => ⟨((h l hl).mem hy).1, ((h l hl).mem hy).2.2⟩) (fun l hl => (h l hl).pairwise)

theorem nested_leaf {x : Tree n} (hle : x.span.lo ≤ x.span.hi) (h : x.kids = []) : x.Nested :=
  nested_of_chain hle (by rw [h]; simp)

/-- `spanOf` of a chain. -/
theorem Chain.spanOf {a b : Nat} {l : List (Tree n)} (h : Chain a l b) (hl : l ≠ []) :
    a ≤ (Teleparse.spanOf l).lo ∧ (Teleparse.spanOf l).hi ≤ b ∧
      Chain (Teleparse.spanOf l).lo l (Teleparse.spanOf l).hi := by
  cases h with
  | nil => exact absurd rfl hl
  | @cons _ x l _ h1 h2 h3 =>
    rw [← spanOf_last]
    obtain ⟨h4, h5⟩ := h3.last (Nat.le_refl _)
    exact ⟨h1, h5, .cons (Nat.le_refl _) h2 h4⟩

theorem Chain.seqNode {a b : Nat} {l : List (Tree n)} (h : Chain a l b) (hl : l ≠ []) {x : Tree n}
    (hs : x.span = Teleparse.spanOf l) (hk : x.kids = [l]) :
    a ≤ x.span.lo ∧ x.Nested ∧ x.span.hi ≤ b := by
  obtain ⟨h1, h2, h3⟩ := h.spanOf hl
  rw [← hs] at h1 h2 h3
  refine ⟨h1, nested_of_chain h3.le ?_, h2⟩
  rw [hk]
  intro l' hl'
  rw [List.mem_singleton.1 hl']; exact h3

/-- A tree between two positions. -/
def Between (a : Nat) (x : Tree n) (b : Nat) : Prop := a ≤ x.span.lo ∧ x.Nested ∧ x.span.hi ≤ b

theorem Between.one {a b : Nat} {x : Tree n} (h : Between a x b) : Chain a [x] b := .one h.1 h.2.1 h.2.2

theorem Between.weaken {a a' b b' : Nat} {x : Tree n} (h : Between a x b) (ha : a' ≤ a) (hb : b ≤ b') :
    Between a' x b' := ⟨by have := h.1; omega, h.2.1, by have := h.2.2; omega⟩

theorem Between.le {a b : Nat} {x : Tree n} (h : Between a x b) : a ≤ b := h.one.le

theorem between_leaf {a b p : Nat} {x : Tree n} (hx : x.span = ⟨p, p⟩) (hk : x.kids = []) (h1 : a ≤ p)
    (h2 : p ≤ b) : Between a x b := by
  refine ⟨by rw [hx]; exact h1, nested_leaf (by rw [hx]; exact Nat.le_refl _) hk, by rw [hx]; exact h2⟩

theorem between_wrap {a b : Nat} {x y : Tree n} (h : Between a x b) (hs : y.span = x.span)
    (hk : y.kids = [] ∨ y.kids = [[x]]) : Between a y b := by
  refine ⟨by rw [hs]; exact h.1, nested_of_chain (by rw [hs]; exact h.2.1.le) ?_, by rw [hs]; exact h.2.2⟩
  intro l hl
  rw [hs]
  rcases hk with hk | hk
  · rw [hk] at hl; cases hl
  · rw [hk] at hl
    rw [List.mem_singleton.1 hl]
    exact .one (Nat.le_refl _) h.2.1 (Nat.le_refl _)

theorem sublist_interleave {α : Type} : ∀ (a b : List α), (a.length = b.length + 1 ∨ a.length = b.length) →
    a.Sublist (interleave a b) ∧ b.Sublist (interleave a b) := by
  intro a b
  induction a, b using interleave.induct with
  | case1 b =>
    intro h
    simp at h
    rw [List.eq_nil_of_length_eq_zero h.symm]; simp [interleave]
  | case2 x xs ys ih =>
    intro h
    rw [interleave_cons]
    simp only [List.length_cons] at h
    obtain ⟨h1, h2⟩ := ih (by omega)
    exact ⟨h2.cons_cons x, h1.cons x⟩

/-! ### Matches -/

theorem between_split {a b : Nat} {es ps : List (Tree n)} (hes : es ≠ [])
    (hl : es.length = ps.length + 1 ∨ es.length = ps.length) (h : Chain a (interleave es ps) b) :
    Between a (.split (spanOf (interleave es ps)) es ps) b := by
  obtain ⟨h1, h2, h3⟩ := h.spanOf (interleave_ne hes)
  obtain ⟨s1, s2⟩ := sublist_interleave es ps hl
  refine ⟨h1, nested_of_chain h3.le ?_, h2⟩
  intro l hl'
  simp only [Tree.kids, List.mem_cons, List.not_mem_nil, or_false] at hl'
  rcases hl' with rfl | rfl
  · exact h3.sublist s1
  · exact h3.sublist s2

theorem between_recover {a b : Nat} {x y : Tree n} (h : Chain a [x, y] b) :
    Between a (.recover x.span x y) b := by
  cases h with
  | cons h1 h2 h3 =>
    cases h3 with
    | cons h3 h4 h5 =>
      have e1 : (Tree.optSome x.span x).span = x.span := rfl
      refine ⟨h1, nested_of_chain ?_ ?_, h5.le⟩
      · show x.span.lo ≤ y.span.hi
        have := h2.le; have := h4.le; omega
      · intro l hl
        rw [List.mem_singleton.1 hl]
        refine .cons (Nat.le_refl _) ?_ (.cons h3 h4 (.nil (Nat.le_refl _)))
        exact (between_wrap (x := x) (y := .optSome x.span x) ⟨h1, h2, Nat.le_refl _⟩ rfl (.inr rfl)).2.1

theorem Parses.between {source : Str} {pos : Nat} {t : Ty m n} {c : List (Cell n)} {x : Tree n}
    (h : Parses S source pos t c x) : After pos c → Between pos x (endOf pos c) := by
  have seqn : ∀ {pos : Nat} {cs : List (List (Cell n))} {l : List (Tree n)} {x : Tree n},
      Chain pos l (endOf pos cs.flatten) → l ≠ [] → x.span = spanOf l → x.kids = [l] →
      Between pos x (endOf pos cs.flatten) := fun h hl hs hk => h.seqNode hl hs hk
  refine Parses.rec (S := S) (source := source)
    (motive_1 := fun pos t c x _ => After pos c → Between pos x (endOf pos c))
    (motive_2 := fun pos ts cs l _ => After pos cs.flatten → Chain pos l (endOf pos cs.flatten))
    ?term ?struct ?enum ?tuple ?box ?optNone ?optSome ?existNone ?existSome ?quote ?parse ?plus ?starNone
    ?starSome ?loopNone ?loopSome ?split ?punct ?recover ?nil ?cons h
  case term =>
    intro pos i k t _ ha
    have h1 : pos ≤ t.span.lo := ha.ge _ (List.mem_singleton.2 rfl)
    have h2 : t.span.lo < t.span.hi := ha.sorted.1 _ (List.mem_singleton.2 rfl)
    exact ⟨h1, nested_leaf (Nat.le_of_lt h2) rfl, Nat.le_refl _⟩
  case struct =>
    intro pos k f fs cs l hk hs ih ha
    have hlen := hs.lengths
    have ht := addAll_tokens cs ((f :: fs).map (·.2)) (by rw [hlen.1]; simp)
    rw [endOf_congr ht]
    exact seqn (ih (ha.congr ht)) (by intro hl; simp [hl] at hlen) rfl rfl
  case enum =>
    intro pos k f fs i t sem c x hk hi _ ih ha
    have ht := add_tokens sem c
    rw [endOf_congr ht]
    exact between_wrap (ih (ha.congr ht)) rfl (.inr rfl)
  case tuple =>
    intro pos t ts cs l ht hs ih ha
    have hlen := hs.lengths
    refine seqn (ih ha) ?_ rfl rfl
    rintro rfl
    rcases ht with ⟨_, _, _, rfl⟩ | ⟨_, _, _, _, rfl⟩ | ⟨_, _, _, _, _, rfl⟩ | ⟨_, _, _, _, _, _, rfl⟩ <;>
      simp at hlen
  case box => intro pos t c x _ ih ha; exact ih ha
  case optNone => intro pos t ha; exact between_leaf rfl rfl (Nat.le_refl _) (Nat.le_refl _)
  case optSome => intro pos t c x _ ih ha; exact between_wrap (ih ha) rfl (.inr rfl)
  case existNone => intro pos t ha; exact between_leaf rfl rfl (Nat.le_refl _) (Nat.le_refl _)
  case existSome => intro pos t c x _ ih ha; exact between_wrap (ih ha) rfl (.inl rfl)
  case quote => intro pos t c x _ ih ha; exact between_wrap (ih ha) rfl (.inl rfl)
  case parse => intro pos t c x _ ih ha; exact between_wrap (ih ha) rfl (.inl rfl)
  case plus =>
    intro pos t k cs l hs ih ha
    have hlen := hs.lengths
    exact seqn (ih ha) (by rintro rfl; simp at hlen) rfl rfl
  case starNone =>
    intro pos t ha
    exact ⟨Nat.le_refl _, nested_of_chain (Nat.le_refl _) (by
      intro l hl; rw [List.mem_singleton.1 hl]; exact .nil (Nat.le_refl _)), Nat.le_refl _⟩
  case starSome =>
    intro pos t k cs l hs ih ha
    have hlen := hs.lengths
    exact seqn (ih ha) (by rintro rfl; simp at hlen) rfl rfl
  case loopNone =>
    intro pos t ha
    exact ⟨Nat.le_refl _, nested_of_chain (Nat.le_refl _) (by
      intro l hl; rw [List.mem_singleton.1 hl]; exact .nil (Nat.le_refl _)), Nat.le_refl _⟩
  case loopSome =>
    intro pos t k cs l hs ih ha
    have hlen := hs.lengths
    exact seqn (ih ha) (by rintro rfl; simp at hlen) rfl rfl
  case split =>
    intro pos t p cs es ps hl hs ih ha
    exact between_split (by rintro rfl; simp at hl) (.inl hl) (ih ha)
  case punct =>
    intro pos t p cs es ps he hl hs ih ha
    exact between_split he hl (ih ha)
  case recover =>
    intro pos t r cs x y hs ih ha
    exact between_recover (ih ha)
  case nil => intro pos _; exact .nil (Nat.le_refl _)
  case cons =>
    intro pos t ts c cs x xs _ _ i1 i2 ha
    rw [List.flatten_cons] at ha ⊢
    have h1 := i1 ha.left
    rw [endOf_append]
    exact h1.one.append (i2 ha.right)

/-! ### All results, if the text ends with the last token -/

structure Tight (source : Str) (v : View n) : Prop extends Sorted source v where
  last : ((v.cells.map (·.token) ++ v.rest).getLast?.map (·.span.hi)).getD 0 = source.length

theorem Tight.adv {source : Str} {v v' : View n} (h : Tight source v) (ha : Adv v v') : Tight source v' := by
  refine ⟨h.toSorted.adv ha, ?_⟩
  obtain ⟨ts, h1, h2⟩ := ha.cons
  rw [h2, List.append_assoc, ← h1]
  exact h.last

theorem Tight.pos_end {source : Str} {v : View n} (h : Tight source v) (hr : v.rest = []) :
    v.pos = source.length := by
  have := h.last
  rw [hr, List.append_nil, List.getLast?_map] at this
  rw [← this, View.pos]
  cases v.cells.getLast? <;> rfl

theorem Sorted.pos_le {source : Str} {v v' : View n} (h : Sorted source v) (ha : Adv v v') : v.pos ≤ v'.pos := by
  have hs := (h.adv ha).store
  obtain ⟨ts, _, h2⟩ := ha.cons
  have e : ∀ w : View n, w.pos = ((w.cells.map (·.token)).getLast?.map (·.span.hi)).getD 0 := by
    intro w; rw [List.getLast?_map, View.pos]; cases w.cells.getLast? <;> rfl
  unfold SortedStore at hs
  rw [e, e, h2]
  rw [h2] at hs
  cases hts : ts.getLast? with
  | none => rw [List.getLast?_eq_none_iff.1 hts]; simp
  | some t =>
    rw [List.getLast?_append, hts]
    have ht := List.mem_of_getLast? hts
    cases hc : (v.cells.map (·.token)).getLast? with
    | none => simp
    | some d =>
      have h3 := (List.pairwise_append.1 hs.2).2.2 d (List.mem_of_getLast? hc) t ht
      have h4 := hs.1 t (List.mem_append_right _ ht)
      simp; omega

theorem Sorted.head {source : Str} {v : View n} (h : Sorted source v) {t : Token n} {l : List (Token n)}
    (hr : v.rest = t :: l) : v.pos ≤ t.span.lo ∧ t.span.lo < t.span.hi ∧ v.skip.pos = t.span.hi := by
  have h1 := h.tokens
  rw [hr] at h1
  refine ⟨?_, h1.1 t (by simp), by rw [View.pos, skip_cells hr]; simp [Cell.ofToken]⟩
  unfold View.pos
  cases hc : v.cells.getLast? with
  | none => simp
  | some d =>
    exact (List.pairwise_append.1 h1.2).2.2 d.token (List.mem_map_of_mem (List.mem_of_getLast? hc)) t (by simp)

def JNest : Judg m n → Prop
  | .ty _ v r v' => ∀ x e, r.Gives x e → Between v.pos x v'.pos
  | .seq ts v acc _ (.ok (l, _)) v' => ∃ new, l = acc ++ new ∧ new.length = ts.length ∧ Chain v.pos new v'.pos
  | .seq _ _ _ _ (.error _) _ => True
  | .iter _ v acc _ hi acc' _ hi' v' => ∃ new, acc' = acc ++ new ∧ Chain v.pos new v'.pos ∧
      hi' = (new.getLast?.map (·.span.hi)).getD hi
  | .loop _ v out _ out' _ v' => ∃ new, out' = out ++ new ∧ Chain v.pos new v'.pos
  | .inner _ q v a _ _ a' v' => (∃ x, a'.elems = a.elems ++ [x] ∧ a'.puncts = a.puncts ++ [q] ∧
      Between v.pos x v'.pos) ∨ (a'.elems = a.elems ∧ a'.puncts = a.puncts)
  | .outer _ _ v a a' v' => ∃ es ps, a'.elems = a.elems ++ es ∧ a'.puncts = a.puncts ++ ps ∧
      Chain v.pos es v'.pos ∧ Chain v.pos ps v'.pos ∧ ∀ q ∈ ps, ∃ y ∈ es, q.span.hi ≤ y.span.lo
  | .pinner _ v a _ _ a' v' => ∃ es, a'.elems = a.elems ++ es ∧ a'.puncts = a.puncts ∧
      Chain v.pos es v'.pos
  | .pouter _ _ v a a' v' => ∃ es ps, a'.elems = a.elems ++ es ∧ a'.puncts = a.puncts ++ ps ∧
      Chain v.pos es v'.pos ∧ Chain v.pos ps v'.pos
  | .head _ v h v' => v.pos ≤ h.span.lo ∧ h.span.lo ≤ h.span.hi ∧ h.span.hi ≤ v'.pos ∧
      ∀ x, h.head = some x → h.span = x.span ∧ x.Nested
  | .tail _ v _ _ x _ _ v' => ∀ y, x = some y → Between v.pos y v'.pos

theorem ofPair_gives {x y : Tree n} {e e' : List (Err n)} (h : (Res.ofPair x e).Gives y e') : y = x := by
  unfold Res.ofPair at h
  split at h <;> cases h <;> rfl

theorem between_list {a b : Nat} {x : Tree n} {l : List (Tree n)} {hi : Nat}
    (h1 : a ≤ x.span.lo) (h2 : x.Nested) (h : Chain x.span.hi l b)
    (hhi : hi = (l.getLast?.map (·.span.hi)).getD x.span.hi) :
    Between a (.list ⟨x.span.lo, hi⟩ (x :: l)) b := by
  obtain ⟨h4, h5⟩ := h.last (Nat.le_refl _)
  rw [← hhi] at h4 h5
  have hc : Chain x.span.lo (x :: l) hi := .cons (Nat.le_refl _) h2 h4
  refine ⟨h1, nested_of_chain hc.le ?_, h5⟩
  intro l' hl'
  rw [List.mem_singleton.1 hl']
  exact hc

theorem RunX.nest {source : Str} {j : Judg m n} (h : Run S j) : Tight source j.pre → JNest j := by
  induction h with
  | @tok i k v t l hr _ _ =>
    intro hv x e hg
    cases hg
    obtain ⟨h1, h2, h3⟩ := hv.toSorted.head hr
    exact ⟨h1, nested_leaf (Nat.le_of_lt h2) rfl, by rw [show v.skip = _ from rfl] at h3; exact Nat.le_of_eq h3.symm⟩
  | @tokRecovered i k v lit sp s _ hsp =>
    intro hv x e hg
    cases hg
    rcases hsp with rfl | ⟨hr, rfl⟩
    · exact between_leaf rfl rfl (Nat.le_refl _) (Nat.le_refl _)
    · have h1 := hv.pos_end hr
      have h2 : v.source = source := hv.src
      rw [h2, ← h1]
      exact between_leaf rfl rfl (Nat.le_refl _) (Nat.le_refl _)
  | tokPanic => intro _ x e hg; cases hg
  | seqNil => intro hv; exact ⟨[], by simp, rfl, .nil (Nat.le_refl _)⟩
  | @seqGive t ts v acc errs r x e v1 res v' h1 hg h2 i1 i2 =>
    intro hv
    have i1 := i1 hv x e hg
    have i2 := i2 (hv.adv h1.adv)
    match res with
    | .ok (l, _) =>
      obtain ⟨new, h3, h4, h5⟩ := i2
      exact ⟨x :: new, by simp [h3], by simp [h4], i1.one.append h5⟩
    | .error _ => trivial
  | seqPanic => intro _; trivial
  | @struct k f fs v l errs v1 _ h1 i1 =>
    intro hv x e hg
    obtain ⟨new, h3, h4, h5⟩ := i1 hv
    have hl : l = new := by simpa using h3
    subst hl
    rw [ofPair_gives hg]
    have hne : l ≠ [] := by rintro rfl; simp at h4
    exact (show Between _ _ _ from h5.seqNode (x := .seq (spanOf l) l) hne rfl rfl).weaken (Nat.le_refl _)
      ((hv.adv h1.adv).toSorted.pos_le (.applyAll _ _))
  | structPanic => intro _ x e hg; cases hg
  | @tuple t ts v l errs v1 ht h1 i1 =>
    intro hv x e hg
    obtain ⟨new, h3, h4, h5⟩ := i1 hv
    have hl : l = new := by simpa using h3
    subst hl
    rw [ofPair_gives hg]
    have hne : l ≠ [] := by rintro rfl; cases ht <;> simp at h4
    exact h5.seqNode (x := .seq (spanOf l) l) hne rfl rfl
  | tuplePanic => intro _ x e hg; cases hg
  | enumSuccess _ _ h1 i1 =>
    intro hv x e hg
    cases hg
    exact (between_wrap (y := .variant _ _) (i1 hv _ _ (.success _)) rfl (.inr rfl)).weaken (Nat.le_refl _)
      ((hv.adv h1.adv).toSorted.pos_le (.applyAll _ _))
  | enumRecovered _ _ h1 i1 =>
    intro hv x e hg
    cases hg
    exact (between_wrap (y := .variant _ _) (i1 hv _ _ (.recovered _ _)) rfl (.inr rfl)).weaken (Nat.le_refl _)
      ((hv.adv h1.adv).toSorted.pos_le (.applyAll _ _))
  | enumPanic => intro _ x e hg; cases hg
  | enumNone => intro _ x e hg; cases hg
  | box _ i => exact i
  | @optNone t' t mk v ho =>
    intro hv x e hg
    cases hg
    cases ho
    · exact between_leaf rfl rfl (Nat.le_refl _) (Nat.le_refl _)
    · exact between_leaf rfl rfl (Nat.le_refl _) (Nat.le_refl _)
    · exact ⟨Nat.le_refl _, nested_of_chain (Nat.le_refl _) (by
        intro l hl; rw [List.mem_singleton.1 hl]; exact .nil (Nat.le_refl _)), Nat.le_refl _⟩
  | @optSuccess t' t mk v x v1 ho h1 i1 =>
    intro hv y e hg
    have := i1 hv _ _ (.success _)
    cases hg
    cases ho
    · exact between_wrap this rfl (.inr rfl)
    · exact between_wrap this rfl (.inl rfl)
    · unfold mkStar
      cases x
      case list => exact this
      all_goals
        exact ⟨this.1, nested_of_chain this.2.1.le (by
          intro l hl; rw [List.mem_singleton.1 hl]; exact .nil this.2.1.le), this.2.2⟩
  | @optRecovered t' t mk v x e v1 ho h1 i1 =>
    intro hv y e' hg
    have := i1 hv _ _ (.recovered _ _)
    cases hg
    cases ho
    · exact between_wrap this rfl (.inr rfl)
    · exact between_wrap this rfl (.inl rfl)
    · unfold mkStar
      cases x
      case list => exact this
      all_goals
        exact ⟨this.1, nested_of_chain this.2.1.le (by
          intro l hl; rw [List.mem_singleton.1 hl]; exact .nil this.2.1.le), this.2.2⟩
  | @optPanic t' t mk v e v1 ho h1 i1 =>
    intro hv y e' hg
    have hle := hv.toSorted.pos_le h1.adv
    cases hg
    cases ho
    · exact between_leaf rfl rfl hle (Nat.le_refl _)
    · exact between_leaf rfl rfl hle (Nat.le_refl _)
    · exact ⟨hle, nested_of_chain (Nat.le_refl _) (by
        intro l hl; rw [List.mem_singleton.1 hl]; exact .nil (Nat.le_refl _)), Nat.le_refl _⟩
  | textSuccess _ _ _ i1 =>
    intro hv y e hg
    cases hg
    exact between_wrap (i1 hv _ _ (.success _)) rfl (.inl rfl)
  | textRecovered _ _ _ i1 =>
    intro hv y e hg
    cases hg
    exact between_wrap (i1 hv _ _ (.recovered _ _)) rfl (.inl rfl)
  | textPanic => intro _ x e hg; cases hg
  | @plus t v r x e v1 l errs hi v' h1 hg h2 i1 i2 =>
    intro hv y e' hy
    rw [ofPair_gives hy]
    have b := i1 hv x e hg
    obtain ⟨new, h3, h4, h5⟩ := i2 (hv.adv h1.adv)
    rw [h3]
    exact between_list b.1 b.2.1 (h4.weaken b.2.2 (Nat.le_refl _)) h5
  | plusPanic => intro _ x e hg; cases hg
  | iterStop => intro hv; exact ⟨[], by simp, .nil (Nat.le_refl _), rfl⟩
  | @iterGive t v acc errs hi r x e v1 acc' errs' hi' v' _ h1 hg h2 i1 i2 =>
    intro hv
    obtain ⟨new, h3, h4, h5⟩ := i2 (hv.adv h1.adv)
    refine ⟨x :: new, by simp [h3], (i1 hv x e hg).one.append h4, ?_⟩
    rw [h5, List.getLast?_cons]
    cases new.getLast? <;> rfl
  | iterPanic h1 _ => intro hv; exact ⟨[], by simp, .nil (hv.toSorted.pos_le h1.adv), rfl⟩
  | loopEmpty h1 _ =>
    intro hv y e' hy
    rw [ofPair_gives hy]
    exact ⟨hv.toSorted.pos_le h1.adv, nested_of_chain (Nat.le_refl _) (by
        intro l hl; rw [List.mem_singleton.1 hl]; exact .nil (Nat.le_refl _)), Nat.le_refl _⟩
  | @loopList t v out errs v' h1 ho i1 =>
    intro hv y e' hy
    rw [ofPair_gives hy]
    obtain ⟨new, h3, h4⟩ := i1 hv
    have hl : out = new := by simpa using h3
    subst hl
    exact h4.seqNode (x := .list (spanOf out) out) ho rfl rfl
  | loopStop => intro hv; exact ⟨[], by simp, .nil (Nat.le_refl _)⟩
  | loopSkip hsk _ i1 =>
    intro hv
    obtain ⟨new, h3, h4⟩ := i1 (hv.adv hsk.adv)
    exact ⟨new, h3, h4.weaken (hv.toSorted.pos_le hsk.adv) (Nat.le_refl _)⟩
  | @loopGive t v out errs r x e v1 out' errs' v' h1 hg h2 i1 i2 =>
    intro hv
    obtain ⟨new, h3, h4⟩ := i2 (hv.adv h1.adv)
    exact ⟨x :: new, by simp [h3], (i1 hv x e hg).one.append h4⟩
  | loopPanic h1 _ _ i2 =>
    intro hv
    obtain ⟨new, h3, h4⟩ := i2 (hv.adv h1.adv)
    exact ⟨new, h3, h4.weaken (hv.toSorted.pos_le h1.adv) (Nat.le_refl _)⟩
  | loopGiveStuck _ hg i1 => intro hv; exact ⟨[_], rfl, (i1 hv _ _ hg).one⟩
  | loopPanicStuck h1 _ => intro hv; exact ⟨[], by simp, .nil (hv.toSorted.pos_le h1.adv)⟩
  | @split t p v r x e v1 a v' h1 hg h2 i1 i2 =>
    intro hv y e' hy
    rw [ofPair_gives hy]
    have b := i1 hv x e hg
    obtain ⟨es, ps, h3, h4, h5, h6, h7⟩ := i2 (hv.adv h1.adv)
    have h3' : a.elems = x :: es := h3
    have h4' : a.puncts = ps := by simpa using h4
    rw [h3', h4']
    have c : Chain x.span.hi es v'.pos := h5.weaken b.2.2 (Nat.le_refl _)
    obtain ⟨c1, c2⟩ := c.last (Nat.le_refl _)
    have e1 : ∀ z, (((x :: es).getLast?.map (·.span.hi)).getD z) =
        (es.getLast?.map (·.span.hi)).getD x.span.hi := by
      intro z; rw [List.getLast?_cons]; cases es.getLast? <;> rfl
    rw [e1]
    have c3 : Chain x.span.lo (x :: es) ((es.getLast?.map (·.span.hi)).getD x.span.hi) :=
      .cons (Nat.le_refl _) b.2.1 c1
    refine ⟨b.1, nested_of_chain c3.le ?_, c2⟩
    intro l hl
    simp only [Tree.kids, List.mem_cons, List.not_mem_nil, or_false] at hl
    rcases hl with rfl | rfl
    · exact c3
    · have c4 : Chain x.span.lo l v'.pos :=
        h6.weaken (Nat.le_trans b.2.1.le b.2.2) (Nat.le_refl _)
      have c5 := (c4.last (d := x.span.lo) (Nat.le_refl _)).1
      refine c5.weaken (Nat.le_refl _) ?_
      cases hq : l.getLast? with
      | none => exact c3.le
      | some q =>
        obtain ⟨y, hy1, hy2⟩ := h7 q (List.mem_of_getLast? hq)
        have m1 := c1.mem hy1
        have := m1.2.1.le
        have := m1.2.2
        show q.span.hi ≤ (es.getLast?.map (·.span.hi)).getD x.span.hi
        omega
  | splitPanic => intro _ x e hg; cases hg
  | outerStop => intro hv; exact ⟨[], [], by simp, by simp, .nil (Nat.le_refl _), .nil (Nat.le_refl _), by simp⟩
  | outerPanic h1 _ =>
    intro hv
    have := hv.toSorted.pos_le h1.adv
    exact ⟨[], [], by simp, by simp, .nil this, .nil this, by simp⟩
  | @outerGo t p v a r q e v1 a1 v2 a' v' _ h1 hg h2 h3 i1 i2 i3 =>
    intro hv
    have b := i1 hv q e hg
    have hv1 := hv.adv h1.adv
    have hv2 : Tight source v2 := hv1.adv h2.adv
    have i2 := i2 hv1
    have hle : v1.pos ≤ v2.pos := hv1.toSorted.pos_le h2.adv
    obtain ⟨es, ps, k1, k2, k3, k4, k5⟩ := i3 hv2
    rcases i2 with ⟨x, h4, h5, h6⟩ | ⟨h4, h5⟩
    · refine ⟨x :: es, q :: ps, by rw [k1, h4]; simp, by rw [k2, h5]; simp,
        (h6.one.append k3).weaken b.le (Nat.le_refl _),
        (b.one.weaken (Nat.le_refl _) hle).append k4, ?_⟩
      intro q' hq'
      rcases List.mem_cons.1 hq' with rfl | hq'
      · exact ⟨x, by simp, Nat.le_trans b.2.2 h6.1⟩
      · obtain ⟨y, hy1, hy2⟩ := k5 q' hq'
        exact ⟨y, by simp [hy1], hy2⟩
    · exact ⟨es, ps, by rw [k1, h4], by rw [k2, h5], k3.weaken (Nat.le_trans b.le hle) (Nat.le_refl _),
        k4.weaken (Nat.le_trans b.le hle) (Nat.le_refl _), k5⟩
  | @outerBreak t p v a r q e v1 a1 v2 _ h1 hg h2 i1 i2 =>
    intro hv
    have b := i1 hv q e hg
    have hv1 := hv.adv h1.adv
    have hle : v1.pos ≤ v2.pos := hv1.toSorted.pos_le h2.adv
    have hle2 := Nat.le_trans b.le hle
    rcases i2 hv1 with ⟨x, h4, h5, h6⟩ | ⟨h4, h5⟩
    · refine ⟨[x], [q], h4, h5, h6.one.weaken b.le (Nat.le_refl _), b.one.weaken (Nat.le_refl _) hle, ?_⟩
      intro q' hq'
      rw [List.mem_singleton.1 hq']
      exact ⟨x, by simp, Nat.le_trans b.2.2 h6.1⟩
    · exact ⟨[], [], by simpa using h4, by simpa using h5, .nil hle2, .nil hle2, by simp⟩
  | innerGive _ hg i1 => intro hv; exact .inl ⟨_, rfl, rfl, i1 hv _ _ hg⟩
  | innerFailLeave => intro hv; exact .inr ⟨rfl, rfl⟩
  | @innerFailGo t q v a panic e v1 go a' v' h1 h2 i1 i2 =>
    intro hv
    have ha : Adv v v1.skip := h1.adv.trans (.skip _)
    rcases i2 (hv.adv ha) with ⟨x, h4, h5, h6⟩ | h
    · exact .inl ⟨x, h4, h5, h6.weaken (hv.toSorted.pos_le ha) (Nat.le_refl _)⟩
    · exact .inr h
  | innerNoteLeave => intro hv; exact .inr ⟨rfl, rfl⟩
  | @innerNoteGo t q v a panic panic1 go a' v' _ h2 i2 =>
    intro hv
    rcases i2 (hv.adv (.skip _)) with ⟨x, h4, h5, h6⟩ | h
    · exact .inl ⟨x, h4, h5, h6.weaken (hv.toSorted.pos_le (.skip _)) (Nat.le_refl _)⟩
    · exact .inr h
  | @punct t p v r x e v1 a v' h1 hg h2 i1 i2 =>
    intro hv y e' hy
    rw [ofPair_gives hy]
    have b := i1 hv x e hg
    obtain ⟨es, ps, h3, h4, h5, h6⟩ := i2 (hv.adv h1.adv)
    have h3' : a.elems = x :: es := h3
    have h4' : a.puncts = ps := by simpa using h4
    rw [h3', h4']
    have c1 : Chain x.span.lo (x :: es) v'.pos :=
      .cons (Nat.le_refl _) b.2.1 (h5.weaken b.2.2 (Nat.le_refl _))
    have c2 : Chain x.span.lo ps v'.pos := h6.weaken (Nat.le_trans b.2.1.le b.2.2) (Nat.le_refl _)
    obtain ⟨d1, d2⟩ := c1.last (Nat.le_refl _)
    obtain ⟨d3, d4⟩ := c2.last (Nat.le_refl _)
    refine ⟨b.1, nested_of_chain (Nat.le_trans d1.le (Nat.le_max_left _ _)) ?_, Nat.max_le.2 ⟨d2, d4⟩⟩
    intro l hl
    simp only [Tree.kids, List.mem_cons, List.not_mem_nil, or_false] at hl
    rcases hl with rfl | rfl
    · exact d1.weaken (Nat.le_refl _) (Nat.le_max_left _ _)
    · exact d3.weaken (Nat.le_refl _) (Nat.le_max_right _ _)
  | punctPanic => intro _ x e hg; cases hg
  | pouterStop => intro hv; exact ⟨[], [], by simp, by simp, .nil (Nat.le_refl _), .nil (Nat.le_refl _)⟩
  | pouterPanic h1 _ =>
    intro hv
    have := hv.toSorted.pos_le h1.adv
    exact ⟨[], [], by simp, by simp, .nil this, .nil this⟩
  | @pouterGo t p v a r q e v1 a1 v2 a' v' _ h1 hg h2 h3 i1 i2 i3 =>
    intro hv
    have b := i1 hv q e hg
    have hv1 := hv.adv h1.adv
    have hv2 : Tight source v2 := hv1.adv h2.adv
    have hle : v1.pos ≤ v2.pos := hv1.toSorted.pos_le h2.adv
    obtain ⟨es, ps, k1, k2, k3, k4⟩ := i3 hv2
    obtain ⟨es1, g1, g2, g3⟩ := i2 hv1
    exact ⟨es1 ++ es, q :: ps, by rw [k1, g1]; simp, by rw [k2, g2]; simp,
      (g3.append k3).weaken b.le (Nat.le_refl _), (b.one.weaken (Nat.le_refl _) hle).append k4⟩
  | @pouterBreak t p v a r q e v1 a1 v2 _ h1 hg h2 i1 i2 =>
    intro hv
    have b := i1 hv q e hg
    have hv1 := hv.adv h1.adv
    have hle : v1.pos ≤ v2.pos := hv1.toSorted.pos_le h2.adv
    obtain ⟨es1, g1, g2, g3⟩ := i2 hv1
    exact ⟨es1, [q], by rw [g1], by rw [g2], g3.weaken b.le (Nat.le_refl _),
      b.one.weaken (Nat.le_refl _) hle⟩
  | pinnerGive _ hg i1 => intro hv; exact ⟨[_], rfl, rfl, (i1 hv _ _ hg).one⟩
  | pinnerStop => intro hv; exact ⟨[], by simp, rfl, .nil (Nat.le_refl _)⟩
  | pinnerFailLeave h1 _ => intro hv; exact ⟨[], by simp, rfl, .nil (hv.toSorted.pos_le h1.adv)⟩
  | @pinnerFailGo t v a panic e v1 go a' v' h1 h2 i1 i2 =>
    intro hv
    have ha : Adv v v1.skip := h1.adv.trans (.skip _)
    obtain ⟨es, g1, g2, g3⟩ := i2 (hv.adv ha)
    exact ⟨es, g1, g2, g3.weaken (hv.toSorted.pos_le ha) (Nat.le_refl _)⟩
  | pinnerNoteLeave => intro hv; exact ⟨[], by simp, rfl, .nil (Nat.le_refl _)⟩
  | @pinnerNoteGo t v a panic panic1 go a' v' _ h2 i2 =>
    intro hv
    obtain ⟨es, g1, g2, g3⟩ := i2 (hv.adv (.skip _))
    exact ⟨es, g1, g2, g3.weaken (hv.toSorted.pos_le (.skip _)) (Nat.le_refl _)⟩
  | @recover t r v h v1 x errs panic v' h1 h2 i1 i2 =>
    intro hv y e' hy
    rw [ofPair_gives hy]
    obtain ⟨a1, a2, a3, a4⟩ := i1 hv
    have b := i2 (hv.adv h1.adv) x rfl
    unfold mkRecover
    cases hh : h.head with
    | some z =>
      obtain ⟨b1, b2⟩ := a4 z hh
      rw [b1] at a1 a2 a3
      simp only [b1]
      exact between_recover (.cons a1 b2 (b.one.weaken a3 (Nat.le_refl _)))
    | none =>
      simp only
      have hle : h.span.lo ≤ x.span.hi := by
        have := b.1; have := b.2.1.le; omega
      refine ⟨a1, nested_of_chain hle ?_, b.2.2⟩
      intro l hl
      rw [List.mem_singleton.1 hl]
      refine .cons (Nat.le_refl _) (nested_leaf a2 rfl) (.cons (Nat.le_trans a3 b.1) b.2.1 (.nil (Nat.le_refl _)))
  | recoverPanic => intro _ x e hg; cases hg
  | headGive _ hg i1 =>
    intro hv
    have b := i1 hv _ _ hg
    exact ⟨b.1, b.2.1.le, b.2.2, fun y hy => by cases hy; exact ⟨rfl, b.2.1⟩⟩
  | headPanic h1 _ =>
    intro hv
    exact ⟨hv.toSorted.pos_le h1.adv, Nat.le_refl _, Nat.le_refl _, fun y hy => by cases hy⟩
  | headNone => intro hv; exact ⟨Nat.le_refl _, Nat.le_refl _, Nat.le_refl _, fun y hy => by cases hy⟩
  | tailGive _ hg i1 => intro hv y hy; cases hy; exact i1 hv _ _ hg
  | tailPanic => intro hv y hy; cases hy
  | tailNote h => cases h
  | tailStop => intro hv y hy; cases hy
  | @tailFail t v errs panic e v1 panic1 x errs' panic' v' _ h1 _ h2 i1 i2 =>
    intro hv y hy
    have ha : Adv v v1.skip := h1.adv.trans (.skip _)
    exact (i2 (hv.adv ha) y hy).weaken (hv.toSorted.pos_le ha) (Nat.le_refl _)
  | tailSkip _ _ _ i2 =>
    intro hv y hy
    exact (i2 (hv.adv (.skip _)) y hy).weaken (hv.toSorted.pos_le (.skip _)) (Nat.le_refl _)

end Teleparse
