import Verif.Spec.Reparse
import Verif.Proof.Nodes
import Verif.Proof.Parts
import Verif.Proof.CompleteLoop
/-
A match in the middle of a source is a match of the piece of the source alone.
-/
namespace Teleparse
variable {m n : Nat} {S : Schema m n}

/-! ### The position before -/

theorem endOf_pos {c : List (Cell n)} (h : c ≠ []) (pos pos' : Nat) : endOf pos c = endOf pos' c := by
  unfold endOf
  cases hl : c.getLast? with
  | none => exact absurd (List.getLast?_eq_none_iff.1 hl) h
  | some d => rfl

theorem Parses.empty_span {source : Str} {pos : Nat} {t : Ty m n} {x : Tree n} (h : Parses S source pos t [] x) :
    x.span = ⟨pos, pos⟩ := by
  have hb := h.between ⟨⟨by simp, by simp⟩, by simp⟩
  have h1 := hb.1
  have h2 := hb.2.1.le
  have h3 := hb.2.2
  rw [endOf_nil] at h3
  cases hs : x.span with
  | mk a b => rw [hs] at h1 h2 h3; simp only at h1 h2 h3; congr 1 <;> omega

/-- Where the token before ends does not matter if there is something between it and the tree. -/
theorem Parses.anywhere {source : Str} {pos : Nat} {t : Ty m n} {c : List (Cell n)} {x : Tree n}
    (h : Parses S source pos t c x) : After pos c → pos < x.span.lo → ∀ pos', Parses S source pos' t c x := by
  refine Parses.rec (S := S) (source := source)
    (motive_1 := fun pos t c x _ => After pos c → pos < x.span.lo → ∀ pos', Parses S source pos' t c x)
    (motive_2 := fun pos ts cs l _ => After pos cs.flatten → l ≠ [] → pos < (spanOf l).lo →
      ∀ pos', ParsesSeq S source pos' ts cs l)
    ?term ?struct ?enum ?tuple ?box ?optNone ?optSome ?existNone ?existSome ?quote ?parse ?plus ?starNone
    ?starSome ?loopNone ?loopSome ?split ?punct ?recover ?nil ?cons h
  case term => intro pos i k t hm _ _ pos'; exact .term hm
  case struct =>
    intro pos k f fs cs l hk hs ih ha hlt pos'
    have ht := addAll_tokens cs ((f :: fs).map (·.2)) (by rw [hs.lengths.1]; simp)
    have hl : l ≠ [] := by intro e; have := hs.lengths.2; rw [e] at this; simp at this
    exact .struct hk (ih (ha.congr ht) hl hlt pos')
  case enum =>
    intro pos k f fs i t sem c x hk hi _ ih ha hlt pos'
    exact .enum hk hi (ih (ha.congr (add_tokens sem c)) hlt pos')
  case tuple =>
    intro pos t ts cs l ht hs ih ha hlt pos'
    have hl : l ≠ [] := by
      intro e; have := hs.lengths.2; rw [e] at this
      rcases ht with ⟨_, _, _, rfl⟩ | ⟨_, _, _, _, rfl⟩ | ⟨_, _, _, _, _, rfl⟩ | ⟨_, _, _, _, _, _, rfl⟩ <;> simp at this
    exact .tuple ht (ih ha hl hlt pos')
  case box => intro pos t c x _ ih ha hlt pos'; exact .box (ih ha hlt pos')
  case optNone => intro pos t _ hlt; exact absurd hlt (Nat.lt_irrefl _)
  case optSome => intro pos t c x _ ih ha hlt pos'; exact .optSome (ih ha hlt pos')
  case existNone => intro pos t _ hlt; exact absurd hlt (Nat.lt_irrefl _)
  case existSome => intro pos t c x _ ih ha hlt pos'; exact .existSome (ih ha hlt pos')
  case quote => intro pos t c x _ ih ha hlt pos'; exact .quote (ih ha hlt pos')
  case parse => intro pos t c x _ ih ha hlt pos'; exact .parse (ih ha hlt pos')
  case plus =>
    intro pos t k cs l hs ih ha hlt pos'
    have hl : l ≠ [] := by intro e; have := hs.lengths.2; rw [e] at this; simp at this
    exact .plus (ih ha hl hlt pos')
  case starNone => intro pos t _ hlt; exact absurd hlt (Nat.lt_irrefl _)
  case starSome =>
    intro pos t k cs l hs ih ha hlt pos'
    have hl : l ≠ [] := by intro e; have := hs.lengths.2; rw [e] at this; simp at this
    exact .starSome (ih ha hl hlt pos')
  case loopNone => intro pos t _ hlt; exact absurd hlt (Nat.lt_irrefl _)
  case loopSome =>
    intro pos t k cs l hs ih ha hlt pos'
    have hl : l ≠ [] := by intro e; have := hs.lengths.2; rw [e] at this; simp at this
    exact .loopSome (ih ha hl hlt pos')
  case split =>
    intro pos t p cs es ps hlen hs ih ha hlt pos'
    have he : es ≠ [] := by intro e; rw [e] at hlen; simp at hlen
    exact .split hlen (ih ha (interleave_ne he) hlt pos')
  case punct =>
    intro pos t p cs es ps he hlen hs ih ha hlt pos'
    exact .punct he hlen (ih ha (interleave_ne he) hlt pos')
  case recover =>
    intro pos t r cs x y hs ih ha hlt pos'
    exact .recover (ih ha (by simp) hlt pos')
  case nil => intro pos _ h; exact absurd rfl h
  case cons =>
    intro pos t ts c cs x xs hx hxs i1 i2 ha _ hlt pos'
    have hlt' : pos < x.span.lo := hlt
    rw [List.flatten_cons] at ha
    have hc : c ≠ [] := by
      rintro rfl
      rw [hx.empty_span] at hlt'
      exact absurd hlt' (Nat.lt_irrefl _)
    exact .cons (i1 ha.left hlt' pos') (by rw [endOf_pos hc pos' pos]; exact hxs)

/-! ### Moving -/

/-- The cell `k` bytes later. -/
def Cell.up (k : Nat) (c : Cell n) : Cell n := ⟨c.token.up k, c.semantic⟩

theorem upAll_eq (k : Nat) (l : List (Tree n)) : upAll k l = l.map (Tree.up k) := by
  induction l with
  | nil => rfl
  | cons x l ih => rw [upAll, ih]; rfl

theorem Tree.up_span (k : Nat) : ∀ x : Tree n, (x.up k).span = x.span.up k
  | .tok _ => rfl
  | .seq _ _ => rfl
  | .variant _ x => Tree.up_span k x
  | .optSome _ _ => rfl
  | .optNone _ => rfl
  | .exist _ _ => rfl
  | .text _ _ => rfl
  | .list _ _ => rfl
  | .split _ _ _ => rfl
  | .recover hs _ y => by
    show (⟨(hs.up k).lo, (y.up k).span.hi⟩ : Span) = _
    rw [Tree.up_span k y]; rfl
  | .recoverNone hs y => by
    show (⟨(hs.up k).lo, (y.up k).span.hi⟩ : Span) = _
    rw [Tree.up_span k y]; rfl

theorem spanOf_up (k : Nat) {l : List (Tree n)} (h : l ≠ []) : spanOf (l.map (Tree.up k)) = (spanOf l).up k := by
  unfold spanOf Span.up
  cases hl : l.getLast? with
  | none => exact absurd (List.getLast?_eq_none_iff.1 hl) h
  | some y =>
    cases l with
    | nil => exact absurd rfl h
    | cons x l =>
      rw [List.getLast?_map, hl]
      simp [Tree.up_span, Span.up]

theorem endOf_up (k pos : Nat) (c : List (Cell n)) : endOf (pos + k) (c.map (Cell.up k)) = endOf pos c + k := by
  unfold endOf
  rw [List.getLast?_map]
  cases c.getLast? <;> simp [Cell.up, Token.up, Span.up]

theorem add_up (k : Nat) (sem : Option (LSet n)) (c : List (Cell n)) :
    (c.map (Cell.add sem)).map (Cell.up k) = (c.map (Cell.up k)).map (Cell.add sem) := by
  rw [List.map_map, List.map_map]
  congr 1
  funext d
  cases sem <;> rfl

theorem addAll_up (k : Nat) : ∀ (cs : List (List (Cell n))) (sems : List (Option (LSet n))),
    (addAll cs sems).map (Cell.up k) = addAll (cs.map (List.map (Cell.up k))) sems
  | [], _ => by simp [addAll]
  | _ :: _, [] => by simp [addAll]
  | c :: cs, sem :: sems => by
    rw [addAll, List.map_cons, addAll, List.map_append, add_up, addAll_up k cs sems]

theorem interleave_map {α β : Type} (f : α → β) (a b : List α) :
    (interleave a b).map f = interleave (a.map f) (b.map f) := by
  induction a, b using interleave.induct with
  | case1 b => simp [interleave]
  | case2 y xs ys ih => rw [List.map_cons, interleave_cons, interleave_cons, List.map_cons, ih]

theorem textOf_cut (source : Str) (lo hi : Nat) (sp : Span) (h : sp.hi + lo ≤ hi) :
    textOf (textOf source ⟨lo, hi⟩) sp = textOf source (sp.up lo) := by
  unfold textOf Span.up
  simp only
  rw [List.drop_take, List.drop_drop, List.take_take]
  congr 1
  · omega
  · congr 1; omega

theorem interleave_unmap {α β : Type} (f : α → β) (a b : List β) :
    a.length = b.length + 1 ∨ a.length = b.length → ∀ l, l.map f = interleave a b →
      ∃ a' b', a'.map f = a ∧ b'.map f = b ∧ l = interleave a' b' := by
  induction a, b using interleave.induct with
  | case1 b =>
    intro h l hl
    cases b with
    | cons _ _ => simp at h
    | nil =>
      simp [interleave] at hl
      subst hl
      exact ⟨[], [], rfl, rfl, by simp [interleave]⟩
  | case2 y xs ys ih =>
    intro h l hl
    rw [interleave_cons] at hl
    cases l with
    | nil => simp at hl
    | cons z l =>
      rw [List.map_cons, List.cons.injEq] at hl
      obtain ⟨a', b', h1, h2, h3⟩ := ih (by simp at h; omega) l hl.2
      refine ⟨z :: b', a', ?_, h1, ?_⟩
      · rw [List.map_cons, hl.1, h2]
      · rw [interleave_cons, h3]

theorem Token.of_up {k : Nat} {t : Token n} (h : k ≤ t.span.lo) (h' : k ≤ t.span.hi) : ∃ t' : Token n, t'.up k = t := by
  refine ⟨⟨⟨t.span.lo - k, t.span.hi - k⟩, t.ty⟩, ?_⟩
  unfold Token.up Span.up
  simp only [Nat.sub_add_cancel h, Nat.sub_add_cancel h']

/-- A match inside of `lo..hi` is a match of that piece of the source. -/
theorem Parses.cut {source : Str} {lo hi : Nat} {pos : Nat} {t : Ty m n} {c : List (Cell n)} {x : Tree n}
    (h : Parses S source pos t c x) : After pos c → endOf pos c ≤ hi → ∀ pos', pos = pos' + lo →
      ∃ c' x', c'.map (Cell.up lo) = c ∧ x'.up lo = x ∧ Parses S (textOf source ⟨lo, hi⟩) pos' t c' x' := by
  have text : ∀ {pos t c} {x x' : Tree n}, Parses S source pos t c x → After pos c → endOf pos c ≤ hi → x'.up lo = x →
      textOf source x.span = textOf (textOf source ⟨lo, hi⟩) x'.span := by
    intro pos t c x x' hp ha he hx
    subst hx
    have := (hp.between ha).2.2
    rw [Tree.up_span] at this ⊢
    rw [textOf_cut]
    exact Nat.le_trans this he
  refine Parses.rec (S := S) (source := source)
    (motive_1 := fun pos t c x _ => After pos c → endOf pos c ≤ hi → ∀ pos', pos = pos' + lo →
      ∃ c' x', c'.map (Cell.up lo) = c ∧ x'.up lo = x ∧ Parses S (textOf source ⟨lo, hi⟩) pos' t c' x')
    (motive_2 := fun pos ts cs l _ => After pos cs.flatten → endOf pos cs.flatten ≤ hi → ∀ pos', pos = pos' + lo →
      ∃ cs' l', cs'.map (List.map (Cell.up lo)) = cs ∧ l'.map (Tree.up lo) = l ∧
        ParsesSeq S (textOf source ⟨lo, hi⟩) pos' ts cs' l')
    ?term ?struct ?enum ?tuple ?box ?optNone ?optSome ?existNone ?existSome ?quote ?parse ?plus ?starNone
    ?starSome ?loopNone ?loopSome ?split ?punct ?recover ?nil ?cons h
  case term =>
    rintro _ i k t hm ha he pos' rfl
    have h1 : pos' + lo ≤ t.span.lo := ha.ge _ (List.mem_singleton.2 rfl)
    have h2 : t.span.lo < t.span.hi := ha.sorted.1 _ (List.mem_singleton.2 rfl)
    obtain ⟨t', rfl⟩ := Token.of_up (k := lo) (t := t) (by omega) (by omega)
    refine ⟨[Cell.ofToken t'], .tok t', rfl, rfl, .term ?_⟩
    rw [textOf_cut source lo hi t'.span he]
    exact hm
  case struct =>
    rintro pos k f fs cs l hk hs ih ha he pos' rfl
    have ht := addAll_tokens cs ((f :: fs).map (·.2)) (by rw [hs.lengths.1]; simp)
    have hl : l ≠ [] := by intro e; have := hs.lengths.2; rw [e] at this; simp at this
    obtain ⟨cs', l', rfl, rfl, h'⟩ := ih (ha.congr ht) (by rw [← endOf_congr ht]; exact he) pos' rfl
    refine ⟨_, _, addAll_up lo cs' _, ?_, .struct hk h'⟩
    rw [Tree.up, upAll_eq, spanOf_up lo (by intro e; exact hl (by rw [e]; rfl))]
  case enum =>
    rintro pos k f fs i t sem c x hk hi _ ih ha he pos' rfl
    have ht := add_tokens sem c
    obtain ⟨c', x', rfl, rfl, h'⟩ := ih (ha.congr ht) (by rw [← endOf_congr ht]; exact he) pos' rfl
    exact ⟨_, _, add_up lo sem c', rfl, .enum hk hi h'⟩
  case tuple =>
    rintro pos t ts cs l ht hs ih ha he pos' rfl
    have hl : l ≠ [] := by
      intro e; have := hs.lengths.2; rw [e] at this
      rcases ht with ⟨_, _, _, rfl⟩ | ⟨_, _, _, _, rfl⟩ | ⟨_, _, _, _, _, rfl⟩ | ⟨_, _, _, _, _, _, rfl⟩ <;> simp at this
    obtain ⟨cs', l', rfl, rfl, h'⟩ := ih ha he pos' rfl
    refine ⟨_, _, List.map_flatten, ?_, .tuple ht h'⟩
    rw [Tree.up, upAll_eq, spanOf_up lo (by intro e; exact hl (by rw [e]; rfl))]
  case box =>
    rintro pos t c x _ ih ha he pos' rfl
    obtain ⟨c', x', h1, h2, h'⟩ := ih ha he pos' rfl
    exact ⟨c', x', h1, h2, .box h'⟩
  case optNone => rintro pos t _ _ pos' rfl; exact ⟨[], _, rfl, rfl, .optNone⟩
  case optSome =>
    rintro pos t c x _ ih ha he pos' rfl
    obtain ⟨c', x', h1, rfl, h'⟩ := ih ha he pos' rfl
    exact ⟨c', _, h1, by rw [Tree.up, Tree.up_span], .optSome h'⟩
  case existNone => rintro pos t _ _ pos' rfl; exact ⟨[], _, rfl, rfl, .existNone⟩
  case existSome =>
    rintro pos t c x _ ih ha he pos' rfl
    obtain ⟨c', x', h1, rfl, h'⟩ := ih ha he pos' rfl
    exact ⟨c', _, h1, by rw [Tree.up, Tree.up_span], .existSome h'⟩
  case quote =>
    rintro pos t c x hp ih ha he pos' rfl
    obtain ⟨c', x', h1, h2, h'⟩ := ih ha he pos' rfl
    refine ⟨c', _, h1, ?_, .quote h'⟩
    rw [Tree.up, ← text hp ha he h2, ← h2, Tree.up_span]
  case parse =>
    rintro pos t c x hp ih ha he pos' rfl
    obtain ⟨c', x', h1, h2, h'⟩ := ih ha he pos' rfl
    refine ⟨c', _, h1, ?_, .parse h'⟩
    rw [Tree.up, ← text hp ha he h2, ← h2, Tree.up_span]
  case plus =>
    rintro pos t k cs l hs ih ha he pos' rfl
    have hl : l ≠ [] := by intro e; have := hs.lengths.2; rw [e] at this; simp at this
    obtain ⟨cs', l', rfl, rfl, h'⟩ := ih ha he pos' rfl
    refine ⟨_, _, List.map_flatten, ?_, .plus h'⟩
    rw [Tree.up, upAll_eq, spanOf_up lo (by intro e; exact hl (by rw [e]; rfl))]
  case starNone => rintro pos t _ _ pos' rfl; exact ⟨[], _, rfl, rfl, .starNone⟩
  case starSome =>
    rintro pos t k cs l hs ih ha he pos' rfl
    have hl : l ≠ [] := by intro e; have := hs.lengths.2; rw [e] at this; simp at this
    obtain ⟨cs', l', rfl, rfl, h'⟩ := ih ha he pos' rfl
    refine ⟨_, _, List.map_flatten, ?_, .starSome h'⟩
    rw [Tree.up, upAll_eq, spanOf_up lo (by intro e; exact hl (by rw [e]; rfl))]
  case loopNone => rintro pos t _ _ pos' rfl; exact ⟨[], _, rfl, rfl, .loopNone⟩
  case loopSome =>
    rintro pos t k cs l hs ih ha he pos' rfl
    have hl : l ≠ [] := by intro e; have := hs.lengths.2; rw [e] at this; simp at this
    obtain ⟨cs', l', rfl, rfl, h'⟩ := ih ha he pos' rfl
    refine ⟨_, _, List.map_flatten, ?_, .loopSome h'⟩
    rw [Tree.up, upAll_eq, spanOf_up lo (by intro e; exact hl (by rw [e]; rfl))]
  case split =>
    rintro pos t p cs es ps hlen hs ih ha he pos' rfl
    obtain ⟨cs', l', rfl, hl', h'⟩ := ih ha he pos' rfl
    obtain ⟨es', ps', rfl, rfl, rfl⟩ := interleave_unmap _ es ps (.inl hlen) l' hl'
    simp only [List.length_map] at hlen h'
    have hne : es' ≠ [] := by intro e; rw [e] at hlen; simp at hlen
    refine ⟨_, _, List.map_flatten, ?_, .split hlen h'⟩
    rw [Tree.up, upAll_eq, upAll_eq, ← spanOf_up lo (interleave_ne hne), interleave_map]
  case punct =>
    rintro pos t p cs es ps hes hlen hs ih ha he pos' rfl
    obtain ⟨cs', l', rfl, hl', h'⟩ := ih ha he pos' rfl
    obtain ⟨es', ps', rfl, rfl, rfl⟩ := interleave_unmap _ es ps hlen l' hl'
    simp only [List.length_map] at hlen h'
    have hne : es' ≠ [] := by intro e; exact hes (by rw [e]; rfl)
    refine ⟨_, _, List.map_flatten, ?_, .punct hne hlen h'⟩
    rw [Tree.up, upAll_eq, upAll_eq, ← spanOf_up lo (interleave_ne hne), interleave_map]
  case recover =>
    rintro pos t r cs x y hs ih ha he pos' rfl
    obtain ⟨cs', l', rfl, hl', h'⟩ := ih ha he pos' rfl
    match l', hl' with
    | [x', y'], hl' =>
      simp only [List.map_cons, List.map_nil, List.cons.injEq, and_true] at hl'
      obtain ⟨rfl, rfl⟩ := hl'
      exact ⟨_, _, List.map_flatten, by rw [Tree.up, Tree.up_span], .recover h'⟩
  case nil => rintro pos _ _ pos' rfl; exact ⟨[], [], rfl, rfl, .nil⟩
  case cons =>
    rintro pos t ts c cs x xs hx hxs i1 i2 ha he pos' rfl
    rw [List.flatten_cons] at ha he
    rw [endOf_append] at he
    obtain ⟨c', x', rfl, rfl, h1⟩ := i1 ha.left (Nat.le_trans ha.right.end_ge he) pos' rfl
    obtain ⟨cs', l', rfl, rfl, h2⟩ := i2 ha.right he (endOf pos' c') (endOf_up lo pos' c')
    exact ⟨_, _, rfl, rfl, .cons h1 h2⟩

/-- A tree begins at the end of the token before, or where one of its tokens begins. -/
theorem Parses.begins {source : Str} {pos : Nat} {t : Ty m n} {c : List (Cell n)} {x : Tree n}
    (h : Parses S source pos t c x) : x.span.lo = pos ∨ ∃ d ∈ c.map (·.token), x.span.lo = d.span.lo := by
  refine Parses.rec (S := S) (source := source)
    (motive_1 := fun pos t c x _ => x.span.lo = pos ∨ ∃ d ∈ c.map (·.token), x.span.lo = d.span.lo)
    (motive_2 := fun pos ts cs l _ => l ≠ [] →
      (spanOf l).lo = pos ∨ ∃ d ∈ cs.flatten.map (·.token), (spanOf l).lo = d.span.lo)
    ?term ?struct ?enum ?tuple ?box ?optNone ?optSome ?existNone ?existSome ?quote ?parse ?plus ?starNone
    ?starSome ?loopNone ?loopSome ?split ?punct ?recover ?nil ?cons h
  case term => intro pos i k t _; exact .inr ⟨t, .head _, rfl⟩
  case struct =>
    intro pos k f fs cs l hk hs ih
    have ht := addAll_tokens cs ((f :: fs).map (·.2)) (by rw [hs.lengths.1]; simp)
    have hl : l ≠ [] := by intro e; have := hs.lengths.2; rw [e] at this; simp at this
    rw [ht]
    exact ih hl
  case enum =>
    intro pos k f fs i t sem c x hk hi _ ih
    rw [add_tokens sem c]
    exact ih
  case tuple =>
    intro pos t ts cs l ht hs ih
    have hl : l ≠ [] := by
      intro e; have := hs.lengths.2; rw [e] at this
      rcases ht with ⟨_, _, _, rfl⟩ | ⟨_, _, _, _, rfl⟩ | ⟨_, _, _, _, _, rfl⟩ | ⟨_, _, _, _, _, _, rfl⟩ <;> simp at this
    exact ih hl
  case box => intro pos t c x _ ih; exact ih
  case optNone => intro pos t; exact .inl rfl
  case optSome => intro pos t c x _ ih; exact ih
  case existNone => intro pos t; exact .inl rfl
  case existSome => intro pos t c x _ ih; exact ih
  case quote => intro pos t c x _ ih; exact ih
  case parse => intro pos t c x _ ih; exact ih
  case plus =>
    intro pos t k cs l hs ih
    have hl : l ≠ [] := by intro e; have := hs.lengths.2; rw [e] at this; simp at this
    exact ih hl
  case starNone => intro pos t; exact .inl rfl
  case starSome =>
    intro pos t k cs l hs ih
    have hl : l ≠ [] := by intro e; have := hs.lengths.2; rw [e] at this; simp at this
    exact ih hl
  case loopNone => intro pos t; exact .inl rfl
  case loopSome =>
    intro pos t k cs l hs ih
    have hl : l ≠ [] := by intro e; have := hs.lengths.2; rw [e] at this; simp at this
    exact ih hl
  case split =>
    intro pos t p cs es ps hlen hs ih
    have he : es ≠ [] := by intro e; rw [e] at hlen; simp at hlen
    exact ih (interleave_ne he)
  case punct => intro pos t p cs es ps he hlen hs ih; exact ih (interleave_ne he)
  case recover => intro pos t r cs x y hs ih; exact ih (by simp)
  case nil => intro pos h; exact absurd rfl h
  case cons =>
    intro pos t ts c cs x xs hx hxs i1 i2 _
    rcases i1 with h | ⟨d, hd, h⟩
    · exact .inl h
    · exact .inr ⟨d, by rw [List.flatten_cons, List.map_append]; exact List.mem_append_left _ hd, h⟩

/-! ### Items -/

theorem map_exists {α β : Type} (f : α → β) : ∀ l : List β, (∀ b ∈ l, ∃ a, f a = b) → ∃ l' : List α, l'.map f = l
  | [], _ => ⟨[], rfl⟩
  | b :: l, h => by
    obtain ⟨a, ha⟩ := h b (.head _)
    obtain ⟨l', hl⟩ := map_exists f l fun c hc => h c (.tail _ hc)
    exact ⟨a :: l', by rw [List.map_cons, ha, hl]⟩

theorem Item.up_span (k : Nat) (i : Item n) : (i.up k).span = i.span.up k := by cases i <;> rfl

theorem Cut.exists (sp : Span) {source : Str} {items : List (Item n)} (hw : ItemsWF source items) :
    ∃ items', Cut sp items items' := by
  refine map_exists _ _ fun i hi => ?_
  obtain ⟨h1, h2⟩ := List.mem_filter.1 hi
  have h3 := (hw.1 i h1).1
  simp only [Bool.and_eq_true, decide_eq_true_eq] at h2
  cases i with
  | token t =>
    obtain ⟨t', rfl⟩ := Token.of_up (k := sp.lo) (t := t) h2.1 (by simp only [Item.span] at h2 h3; omega)
    exact ⟨.token t', rfl⟩
  | error s =>
    simp only [Item.span] at h2 h3
    refine ⟨.error ⟨s.lo - sp.lo, s.hi - sp.lo⟩, ?_⟩
    unfold Item.up Span.up
    simp only [Nat.sub_add_cancel h2.1, Nat.sub_add_cancel (show sp.lo ≤ s.hi by omega)]

theorem textOf_length {source : Str} {sp : Span} (h : sp.hi ≤ source.length) :
    (textOf source sp).length = sp.hi - sp.lo := by
  unfold textOf
  rw [List.length_take, List.length_drop]
  omega

theorem isBoundary_cut {source : Str} {sp : Span} (h : sp.hi ≤ source.length) {x : Nat} (hx : x + sp.lo ≤ sp.hi)
    (hb : isBoundary source (x + sp.lo) = true) : isBoundary (textOf source sp) x = true := by
  unfold isBoundary at *
  rw [textOf_length h]
  by_cases h0 : x = 0
  · rw [if_pos h0]
  · rw [if_neg h0]
    by_cases h1 : x = sp.hi - sp.lo
    · rw [if_pos h1]
    · rw [if_neg h1]
      rw [if_neg (by omega), if_neg (by omega)] at hb
      have : (textOf source sp)[x]? = source[x + sp.lo]? := by
        unfold textOf
        rw [List.getElem?_take, if_pos (by omega), List.getElem?_drop, Nat.add_comm]
      rw [this]
      exact hb

theorem Cut.mem {sp : Span} {items items' : List (Item n)} (h : Cut sp items items') {i : Item n} (hi : i ∈ items') :
    i.up sp.lo ∈ items ∧ i.span.hi + sp.lo ≤ sp.hi := by
  have : i.up sp.lo ∈ items'.map (Item.up sp.lo) := List.mem_map_of_mem hi
  rw [h] at this
  obtain ⟨h1, h2⟩ := List.mem_filter.1 this
  simp only [Bool.and_eq_true, decide_eq_true_eq, Item.up_span, Span.up] at h2
  exact ⟨h1, h2.2⟩

theorem Cut.wf {sp : Span} {source : Str} {items items' : List (Item n)} (h : Cut sp items items')
    (hw : ItemsWF source items) (hs : sp.hi ≤ source.length) : ItemsWF (textOf source sp) items' := by
  constructor
  · intro i hi
    obtain ⟨h1, h2⟩ := h.mem hi
    obtain ⟨g1, g2, g3, g4⟩ := hw.1 _ h1
    rw [Item.up_span] at g1 g2 g3 g4
    simp only [Span.up] at g1 g2 g3 g4
    refine ⟨by omega, by rw [textOf_length hs]; omega, isBoundary_cut hs (by omega) g3, isBoundary_cut hs h2 g4⟩
  · have hp : (items'.map (Item.up sp.lo)).Pairwise (fun a b => a.span.hi ≤ b.span.lo) := by
      rw [h]; exact hw.2.filter _
    rw [List.pairwise_map] at hp
    refine hp.imp fun {a b} hab => ?_
    rw [Item.up_span, Item.up_span] at hab
    simp only [Span.up] at hab
    omega

theorem tokensOf_up (k : Nat) (items : List (Item n)) :
    tokensOf (items.map (Item.up k)) = (tokensOf items).map (Token.up k) := by
  induction items with
  | nil => rfl
  | cons i items ih => cases i <;> simp [tokensOf, Item.up, ih]

theorem tokensOf_filter (P : Span → Bool) (items : List (Item n)) :
    tokensOf (items.filter fun i => P i.span) = (tokensOf items).filter fun t => P t.span := by
  induction items with
  | nil => rfl
  | cons i items ih =>
    cases i with
    | token t =>
      rw [tokensOf, List.filter_cons, List.filter_cons, show (Item.token t).span = t.span from rfl]
      cases P t.span <;> simp [tokensOf, ih]
    | error sp =>
      rw [tokensOf, List.filter_cons, show (Item.error sp : Item n).span = sp from rfl]
      cases P sp <;> simp [tokensOf, ih]

theorem Cut.stream {sp : Span} {items items' : List (Item n)} (h : Cut sp items items') (ext : Fin n → Bool) :
    (streamOf ext items').map (Token.up sp.lo) =
      (streamOf ext items).filter fun t => sp.lo ≤ t.span.lo && t.span.hi ≤ sp.hi := by
  have h1 := congrArg tokensOf h
  rw [tokensOf_up, tokensOf_filter (fun s => sp.lo ≤ s.lo && s.hi ≤ sp.hi)] at h1
  unfold streamOf
  rw [List.filter_filter]
  have h2 := congrArg (List.filter fun t : Token n => !ext t.ty) h1
  rw [List.filter_filter] at h2
  rw [show ((tokensOf items').filter fun t => !ext t.ty).map (Token.up sp.lo) =
    ((tokensOf items').map (Token.up sp.lo)).filter fun t => !ext t.ty from by rw [List.filter_map]; rfl, h2]
  congr 1
  funext t
  exact Bool.and_comm _ _

theorem Token.up_inj {k : Nat} {a b : Token n} (h : a.up k = b.up k) : a = b := by
  obtain ⟨⟨x, y⟩, t⟩ := a
  obtain ⟨⟨x', y'⟩, t'⟩ := b
  simp only [Token.up, Span.up, Token.mk.injEq, Span.mk.injEq] at h ⊢
  omega

theorem map_inj {α β : Type} {f : α → β} (hf : ∀ a b, f a = f b → a = b) : ∀ {l l' : List α}, l.map f = l'.map f → l = l'
  | [], [], _ => rfl
  | a :: l, b :: l', h => by
    rw [List.map_cons, List.map_cons, List.cons.injEq] at h
    rw [hf a b h.1, map_inj hf h.2]

theorem Item.up_inj {k : Nat} {a b : Item n} (h : a.up k = b.up k) : a = b := by
  cases a with
  | token t =>
    cases b with
    | token t' => simp only [Item.up, Item.token.injEq] at h ⊢; exact Token.up_inj h
    | error _ => simp [Item.up] at h
  | error s =>
    cases b with
    | token _ => simp [Item.up] at h
    | error s' =>
      obtain ⟨x, y⟩ := s
      obtain ⟨x', y'⟩ := s'
      simp only [Item.up, Span.up, Item.error.injEq, Span.mk.injEq] at h ⊢
      omega

theorem Cut.unique {sp : Span} {items a b : List (Item n)} (h : Cut sp items a) (h' : Cut sp items b) : a = b :=
  map_inj (fun _ _ => Item.up_inj) (h.trans h'.symm)

/-- A match of some of the tokens of the input is a match of all tokens of the piece of the input. -/
theorem Parses.alone {ext : Fin n → Bool} {source : Str} {items : List (Item n)} (hw : ItemsWF source items)
    {pre c post : List (Cell n)} (hs : streamOf ext items = (pre ++ c ++ post).map (·.token)) {t : Ty m n} {y : Tree n}
    (h : Parses S source (endOf 0 pre) t c y) {items' : List (Item n)} (hcut : Cut y.span items items') :
    y.span.hi ≤ source.length ∧ ∃ c' y', c'.map (Cell.up y.span.lo) = c ∧ y'.up y.span.lo = y ∧
      Parses S (textOf source y.span) 0 t c' y' ∧ c'.map (·.token) = streamOf ext items' := by
  have hsort : SortedStore (pre ++ c ++ post) := by
    have := hw.sorted (ext := ext)
    rw [hs] at this
    exact this
  have ha : After 0 (pre ++ c ++ post) := ⟨hsort, fun _ _ => Nat.zero_le _⟩
  have hc : After (endOf 0 pre) c := ha.left.right
  have hf := h.fits hc
  have hc' : After y.span.lo c := ⟨hc.sorted, hf.le⟩
  have hend : endOf y.span.lo c = y.span.hi := by
    by_cases hn : c = []
    · rw [hf.hi, hn]; show y.span.lo = endOf 0 pre; exact hf.nil hn
    · rw [hf.hi]; exact endOf_pos hn _ _
  have h0 : Parses S source y.span.lo t c y := by
    rcases Nat.eq_or_lt_of_le hf.ge with e | e
    · rw [← e]; exact h
    · exact h.anywhere hc e _
  have hhi : y.span.hi ≤ source.length := by
    rw [hf.hi, ← endOf_append]
    by_cases hn : pre ++ c = []
    · rw [hn]; exact Nat.zero_le _
    · obtain ⟨d, hd, he⟩ := endOf_mem (pos := 0) hn
      rw [he]
      refine (hw.inSource (ext := ext) d.token ?_).2.1
      rw [hs]
      exact List.mem_map_of_mem (List.mem_append_left _ hd)
  obtain ⟨c', y', h1, h2, h3⟩ := h0.cut (lo := y.span.lo) (hi := y.span.hi) hc' (Nat.le_of_eq hend) 0 (by omega)
  refine ⟨hhi, c', y', h1, h2, h3, ?_⟩
  refine map_inj (f := Token.up y.span.lo) (fun _ _ => Token.up_inj) ?_
  rw [hcut.stream ext]
  obtain ⟨d, g1, g2⟩ := inside_node h (w := pre ++ c ++ post) hsort rfl rfl
  rw [show TokenVec.inside? (pre ++ c ++ post) y.span = _ from C10_inside hsort _] at g1
  cases g1
  rw [hs, show (fun t : Token n => decide (y.span.lo ≤ t.span.lo) && decide (t.span.hi ≤ y.span.hi)) =
    fun t => decide (t.span.Inside y.span) from by
      funext t; rw [Bool.eq_iff_iff, Bool.and_eq_true, decide_eq_true_iff, decide_eq_true_iff, decide_eq_true_iff]; rfl, List.filter_map]
  have e : (c'.map (·.token)).map (Token.up y.span.lo) = c.map (·.token) := by
    rw [← h1, List.map_map, List.map_map]; rfl
  rw [e, ← g2]
  rfl

/-! ### The part as a root -/

theorem LoopFree.part {t u : Ty m n} (h : LoopFree S t) (hu : u ∈ S.tyParts t) : LoopFree S u :=
  fun w hw => h w (Reach.trans (.step .refl hu) hw)

theorem LoopTail.part {t u : Ty m n} (h : LoopTail S t) (hu : u ∈ S.tyParts t) : LoopTail S u := by
  cases h with
  | free h => exact .free (h.part hu)
  | loop h => rw [show S.tyParts (.loop _) = [_] from rfl, List.mem_singleton] at hu; subst hu; exact .free h
  | box h => rw [show S.tyParts (.box _) = [_] from rfl, List.mem_singleton] at hu; subst hu; exact h
  | quote h => rw [show S.tyParts (.quote _) = [_] from rfl, List.mem_singleton] at hu; subst hu; exact h
  | parse h => rw [show S.tyParts (.parse _) = [_] from rfl, List.mem_singleton] at hu; subst hu; exact h
  | @tuple _ ts w ht h1 h2 =>
    have hp : S.tyParts t = ts ++ [w] := by
      rcases ht with ⟨_, _, rfl, e⟩ | ⟨_, _, _, rfl, e⟩ | ⟨_, _, _, _, rfl, e⟩ | ⟨_, _, _, _, _, rfl, e⟩ <;> exact e.symm
    rw [hp, List.mem_append, List.mem_singleton] at hu
    rcases hu with hu | rfl
    · exact .free (h1 u hu)
    · exact h2
  | @struct k f fs ts w hk he h1 h2 =>
    have hp : S.tyParts (.user k) = ts ++ [w] := by rw [Schema.tyParts, hk]; exact he
    rw [hp, List.mem_append, List.mem_singleton] at hu
    rcases hu with hu | rfl
    · exact .free (h1 u hu)
    · exact h2

theorem LoopTail.reach {t u : Ty m n} (h : LoopTail S t) (hu : Reach S.tyParts t u) : LoopTail S u := by
  induction hu with
  | refl => exact h
  | step _ hp ih => exact ih.part hp

set_option linter.unusedSectionVars false
section
variable {I : Type} [DecidableEq I] {G' G : Grammar I n} (h : ∀ p ∈ G', p ∈ G)
include h

theorem Beyond.sub {a : I} {tok : TokenSrc n} (hb : Beyond G' a tok) : Beyond G a tok := by
  obtain ⟨x, pre, mid, b, post, h1, h2, h3, β, h4⟩ := hb
  exact ⟨x, pre, mid, b, post, h _ h1, h2, fun k hk => (h3 k hk).congr h, β, h4.congr h⟩

theorem EndsWith.sub {a i : I} (he : EndsWith G' a i) : EndsWith G a i :=
  let ⟨α, hd⟩ := he
  ⟨α, hd.congr h⟩

theorem SkipSafe.sub (hs : SkipSafe G) : SkipSafe G' :=
  fun a i l p q s t tok h1 h2 h3 h4 h5 h6 ⟨β, h7⟩ h8 =>
    hs a i l p q s t tok (h1.sub h) (h _ h2) h3 h4 h5 (h6.congr h) ⟨β, h7.congr h⟩ (h8.sub h)

theorem FollowOf.sub {root root' i : I} {tok : TokenSrc n} (hr : Reachable G root root')
    (hf : FollowOf G' root' i (some tok)) : FollowOf G root i (some tok) := by
  obtain ⟨α, β, hd⟩ := hf
  obtain ⟨γ, δ, hc⟩ := hr.connected
  have h1 := Derives.trans (by simpa using hc) ((hd.congr h).ctx γ δ)
  exact ⟨γ ++ α, β ++ δ, by simpa using h1⟩

end

end Teleparse
