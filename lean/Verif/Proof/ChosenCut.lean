import Verif.Proof.ChosenShift
import Verif.Proof.Reparse
/-
A predictive match in the middle of a source is one of the piece of the source alone; the nodes of its tree are
predictive matches.
-/
namespace Teleparse
variable {m n : Nat}

section
variable {S : Schema m n} {md : Metadata (PId m n) n} {source : Str}

/-! ### The position before -/

def Claim.Anywhere (S : Schema m n) (md : Metadata (PId m n) n) (source : Str) : Claim m n → Prop
  | .ty pos t c x next => pos < x.span.lo → ∀ pos', Chosen S md source (.ty pos' t c x next)
  | .seq pos ts cs xs next => xs ≠ [] → pos < (spanOf xs).lo → ∀ pos', Chosen S md source (.seq pos' ts cs xs next)
  | .loop pos t cs xs => xs ≠ [] → pos < (spanOf xs).lo → ∀ pos', Chosen S md source (.loop pos' t cs xs)
  | _ => True

theorem Chosen.ne_nil {pos : Nat} {t : Ty m n} {c : List (Cell n)} {x : Tree n} {next}
    (h : Chosen S md source (.ty pos t c x next)) (hlt : pos < x.span.lo) : c ≠ [] := by
  rintro rfl
  rw [Parses.empty_span h.holds] at hlt
  exact absurd hlt (Nat.lt_irrefl _)

/-- Where the token before ends does not matter if there is something between it and the tree. -/
theorem Chosen.anywhere {j : Claim m n} (h : Chosen S md source j) : j.Anywhere S md source := by
  induction h with
  | term h => exact fun _ _ => .term h
  | struct hk h ih =>
    intro hlt pos'
    refine .struct hk (ih ?_ hlt pos')
    intro e
    have := (show ParsesSeq _ _ _ _ _ _ from h.holds).lengths.2
    rw [e] at this
    simp at this
  | enum hk hi hl _ ih => exact fun hlt pos' => .enum hk hi hl (ih hlt pos')
  | tuple ht h ih =>
    intro hlt pos'
    refine .tuple ht (ih ?_ hlt pos')
    intro e
    have := (show ParsesSeq _ _ _ _ _ _ from h.holds).lengths.2
    rw [e] at this
    rcases ht with ⟨_, _, _, rfl⟩ | ⟨_, _, _, _, rfl⟩ | ⟨_, _, _, _, _, rfl⟩ | ⟨_, _, _, _, _, _, rfl⟩ <;> simp at this
  | box _ ih => exact fun hlt pos' => .box (ih hlt pos')
  | quote _ ih => exact fun hlt pos' => .quote (ih hlt pos')
  | parse _ ih => exact fun hlt pos' => .parse (ih hlt pos')
  | optNone => exact fun hlt => absurd hlt (Nat.lt_irrefl _)
  | existNone => exact fun hlt => absurd hlt (Nat.lt_irrefl _)
  | starNone => exact fun hlt => absurd hlt (Nat.lt_irrefl _)
  | loopNone => exact fun hlt => absurd hlt (Nat.lt_irrefl _)
  | optSome hs _ ih => exact fun hlt pos' => .optSome hs (ih hlt pos')
  | existSome hs _ ih => exact fun hlt pos' => .existSome hs (ih hlt pos')
  | @plus pos _ _ _ _ _ _ h1 h2 ih _ =>
    intro hlt pos'
    exact .plus (ih hlt pos') (by rw [endOf_pos (h1.ne_nil hlt) pos' pos]; exact h2)
  | @starSome pos _ _ _ _ _ _ hs h1 h2 ih _ =>
    intro hlt pos'
    exact .starSome hs (ih hlt pos') (by rw [endOf_pos (h1.ne_nil hlt) pos' pos]; exact h2)
  | loopSome hne _ ih => exact fun hlt pos' => .loopSome hne (ih hne hlt pos')
  | @split pos _ _ _ x _ _ _ _ h1 h2 ih _ =>
    intro hlt pos'
    have hlt : pos < x.span.lo := by
      have h : pos < (spanOf (interleave (x :: _) _)).lo := hlt
      rw [interleave_cons] at h
      exact h
    exact .split (ih hlt pos') (by rw [endOf_pos (h1.ne_nil hlt) pos' pos]; exact h2)
  | @punct pos _ _ _ x _ _ _ _ h1 h2 ih _ =>
    intro hlt pos'
    have hlt : pos < x.span.lo := by
      have h : pos < (spanOf (interleave (x :: _) _)).lo := hlt
      rw [interleave_cons] at h
      exact h
    exact .punct (ih hlt pos') (by rw [endOf_pos (h1.ne_nil hlt) pos' pos]; exact h2)
  | @recover pos _ _ _ _ _ _ _ hs h1 hs' h2 ih _ =>
    intro hlt pos'
    exact .recover hs (ih hlt pos') hs' (by rw [endOf_pos (h1.ne_nil hlt) pos' pos]; exact h2)
  | seqNil => exact fun h => absurd rfl h
  | @seqCons pos _ _ _ _ x _ _ h1 h2 ih _ =>
    intro _ hlt pos'
    have hlt : pos < x.span.lo := hlt
    exact .seqCons (ih hlt pos') (by rw [endOf_pos (h1.ne_nil hlt) pos' pos]; exact h2)
  | loopStop => exact fun h => absurd rfl h
  | @loopGo pos _ _ _ x _ hs hc h1 h2 ih _ =>
    intro _ hlt pos'
    have hlt : pos < x.span.lo := hlt
    exact .loopGo hs hc (ih hlt pos') (by rw [endOf_pos (h1.ne_nil hlt) pos' pos]; exact h2)
  | _ => trivial

/-! ### Moving -/

/-- The cells lie before `hi`. -/
def Below (hi : Nat) (c : List (Cell n)) : Prop := ∀ d ∈ c, d.token.span.hi ≤ hi

theorem Below.left {hi : Nat} {a b : List (Cell n)} (h : Below hi (a ++ b)) : Below hi a :=
  fun d hd => h d (List.mem_append_left _ hd)

theorem Below.right {hi : Nat} {a b : List (Cell n)} (h : Below hi (a ++ b)) : Below hi b :=
  fun d hd => h d (List.mem_append_right _ hd)

theorem After.below {pos hi : Nat} {c : List (Cell n)} (h : After pos c) (he : endOf pos c ≤ hi) : Below hi c :=
  fun _ hd => Nat.le_trans (h.mem_le hd) he

theorem ahead_cut {lo hi : Nat} {c : List (Cell n)} (h : Below hi (c.map (Cell.up lo))) (next : Option (TokenSrc n)) :
    ahead source (c.map (Cell.up lo)) next = ahead (textOf source ⟨lo, hi⟩) c next := by
  cases c with
  | nil => simp [ahead, wordOf]
  | cons d c =>
    have h1 : d.token.span.hi + lo ≤ hi := h _ (by rw [List.map_cons]; exact .head _)
    simp only [ahead, wordOf, List.map_cons, List.head?_cons]
    rw [textOf_cut source lo hi d.token.span h1]
    rfl

def Claim.Cuts (S : Schema m n) (md : Metadata (PId m n) n) (source : Str) (lo hi : Nat) : Claim m n → Prop
  | .ty pos t c x next => After pos c → endOf pos c ≤ hi → ∀ pos', pos = pos' + lo →
      ∃ c' x', c'.map (Cell.up lo) = c ∧ x'.up lo = x ∧ Chosen S md (textOf source ⟨lo, hi⟩) (.ty pos' t c' x' next)
  | .seq pos ts cs xs next => After pos cs.flatten → endOf pos cs.flatten ≤ hi → ∀ pos', pos = pos' + lo →
      ∃ cs' xs', cs'.map (List.map (Cell.up lo)) = cs ∧ xs'.map (Tree.up lo) = xs ∧
        Chosen S md (textOf source ⟨lo, hi⟩) (.seq pos' ts cs' xs' next)
  | .more pos t cs xs next => After pos cs.flatten → endOf pos cs.flatten ≤ hi → ∀ pos', pos = pos' + lo →
      ∃ cs' xs', cs'.map (List.map (Cell.up lo)) = cs ∧ xs'.map (Tree.up lo) = xs ∧
        Chosen S md (textOf source ⟨lo, hi⟩) (.more pos' t cs' xs' next)
  | .loop pos t cs xs => After pos cs.flatten → endOf pos cs.flatten ≤ hi → ∀ pos', pos = pos' + lo →
      ∃ cs' xs', cs'.map (List.map (Cell.up lo)) = cs ∧ xs'.map (Tree.up lo) = xs ∧
        Chosen S md (textOf source ⟨lo, hi⟩) (.loop pos' t cs' xs')
  | .split pos t p cs ps es next => After pos cs.flatten → endOf pos cs.flatten ≤ hi → ∀ pos', pos = pos' + lo →
      ∃ cs' ps' es', cs'.map (List.map (Cell.up lo)) = cs ∧ ps'.map (Tree.up lo) = ps ∧ es'.map (Tree.up lo) = es ∧
        Chosen S md (textOf source ⟨lo, hi⟩) (.split pos' t p cs' ps' es' next)
  | .punct pos t p cs ps es next => After pos cs.flatten → endOf pos cs.flatten ≤ hi → ∀ pos', pos = pos' + lo →
      ∃ cs' ps' es', cs'.map (List.map (Cell.up lo)) = cs ∧ ps'.map (Tree.up lo) = ps ∧ es'.map (Tree.up lo) = es ∧
        Chosen S md (textOf source ⟨lo, hi⟩) (.punct pos' t p cs' ps' es' next)

theorem flatten_up (lo : Nat) (cs : List (List (Cell n))) :
    (cs.map (List.map (Cell.up lo))).flatten = cs.flatten.map (Cell.up lo) := List.map_flatten.symm

theorem textOf_up {lo hi pos : Nat} {t : Ty m n} {c : List (Cell n)} {x x' : Tree n} (hp : Parses S source pos t c x)
    (ha : After pos c) (he : endOf pos c ≤ hi) (hx : x'.up lo = x) :
    textOf source x.span = textOf (textOf source ⟨lo, hi⟩) x'.span := by
  subst hx
  have := (hp.between ha).2.2
  rw [Tree.up_span] at this ⊢
  rw [textOf_cut]
  exact Nat.le_trans this he

/-- A predictive match inside of `lo..hi` is one of that piece of the source. -/
theorem Chosen.cut {lo hi : Nat} {j : Claim m n} (h : Chosen S md source j) : j.Cuts S md source lo hi := by
  induction h with
  | @term pos i k t next hm =>
    rintro ha he pos' rfl
    have h1 : pos' + lo ≤ t.span.lo := ha.ge _ (List.mem_singleton.2 rfl)
    have h2 : t.span.lo < t.span.hi := ha.sorted.1 _ (List.mem_singleton.2 rfl)
    obtain ⟨t', rfl⟩ := Token.of_up (k := lo) (t := t) (by omega) (by omega)
    refine ⟨[Cell.ofToken t'], .tok t', rfl, rfl, .term ?_⟩
    rw [textOf_cut source lo hi t'.span he]
    exact hm
  | @struct pos k f fs cs l next hk h ih =>
    rintro ha he pos' rfl
    have hs : ParsesSeq _ _ _ _ _ _ := h.holds
    have ht := addAll_tokens cs ((f :: fs).map (·.2)) (by rw [hs.lengths.1]; simp)
    have hl : l ≠ [] := by intro e; have := hs.lengths.2; rw [e] at this; simp at this
    obtain ⟨cs', l', rfl, rfl, h'⟩ := ih (ha.congr ht) (by rw [← endOf_congr ht]; exact he) pos' rfl
    refine ⟨_, _, addAll_up lo cs' _, ?_, .struct hk h'⟩
    rw [Tree.up, upAll_eq, spanOf_up lo (by intro e; exact hl (by rw [e]; rfl))]
  | @enum pos k f fs i t sem c x next hk hi' hl h ih =>
    rintro ha he pos' rfl
    have ht := add_tokens sem c
    have ha' := ha.congr ht
    have he' : endOf (pos' + lo) c ≤ hi := by rw [← endOf_congr ht]; exact he
    obtain ⟨c', x', rfl, rfl, h'⟩ := ih ha' he' pos' rfl
    exact ⟨_, _, add_up lo sem c', rfl, .enum hk hi' (by rw [← ahead_cut (ha'.below he')]; exact hl) h'⟩
  | @tuple pos t ts cs l next ht h ih =>
    rintro ha he pos' rfl
    have hs : ParsesSeq _ _ _ _ _ _ := h.holds
    have hl : l ≠ [] := by
      intro e; have := hs.lengths.2; rw [e] at this
      rcases ht with ⟨_, _, _, rfl⟩ | ⟨_, _, _, _, rfl⟩ | ⟨_, _, _, _, _, rfl⟩ | ⟨_, _, _, _, _, _, rfl⟩ <;> simp at this
    obtain ⟨cs', l', rfl, rfl, h'⟩ := ih ha he pos' rfl
    refine ⟨_, _, List.map_flatten, ?_, .tuple ht h'⟩
    rw [Tree.up, upAll_eq, spanOf_up lo (by intro e; exact hl (by rw [e]; rfl))]
  | box h ih =>
    rintro ha he pos' rfl
    obtain ⟨c', x', h1, h2, h'⟩ := ih ha he pos' rfl
    exact ⟨c', x', h1, h2, .box h'⟩
  | optNone hs => rintro _ _ pos' rfl; exact ⟨[], _, rfl, rfl, .optNone hs⟩
  | @optSome pos t c x next hs h ih =>
    rintro ha he pos' rfl
    obtain ⟨c', x', rfl, rfl, h'⟩ := ih ha he pos' rfl
    exact ⟨c', _, rfl, by rw [Tree.up, Tree.up_span], .optSome (by rw [← ahead_cut (ha.below he)]; exact hs) h'⟩
  | existNone hs => rintro _ _ pos' rfl; exact ⟨[], _, rfl, rfl, .existNone hs⟩
  | @existSome pos t c x next hs h ih =>
    rintro ha he pos' rfl
    obtain ⟨c', x', rfl, rfl, h'⟩ := ih ha he pos' rfl
    exact ⟨c', _, rfl, by rw [Tree.up, Tree.up_span], .existSome (by rw [← ahead_cut (ha.below he)]; exact hs) h'⟩
  | quote h ih =>
    rintro ha he pos' rfl
    obtain ⟨c', x', h1, h2, h'⟩ := ih ha he pos' rfl
    refine ⟨c', _, h1, ?_, .quote h'⟩
    rw [Tree.up, ← textOf_up h.holds ha he h2, ← h2, Tree.up_span]
  | parse h ih =>
    rintro ha he pos' rfl
    obtain ⟨c', x', h1, h2, h'⟩ := ih ha he pos' rfl
    refine ⟨c', _, h1, ?_, .parse h'⟩
    rw [Tree.up, ← textOf_up h.holds ha he h2, ← h2, Tree.up_span]
  | @plus pos t c x cs xs next h1 h2 ih1 ih2 =>
    rintro ha he pos' rfl
    rw [endOf_append] at he
    obtain ⟨c', x', rfl, rfl, g1⟩ := ih1 ha.left (Nat.le_trans ha.right.end_ge he) pos' rfl
    obtain ⟨cs', l', rfl, rfl, g2⟩ := ih2 ha.right he (endOf pos' c') (endOf_up lo pos' c')
    rw [flatten_up] at ha he g1
    rw [ahead_cut (ha.right.below he)] at g1
    refine ⟨_, _, by rw [flatten_up, ← List.map_append], ?_, .plus g1 g2⟩
    rw [Tree.up, upAll_eq, ← spanOf_up lo (List.cons_ne_nil _ _)]; rfl
  | starNone hs => rintro _ _ pos' rfl; exact ⟨[], _, rfl, rfl, .starNone hs⟩
  | @starSome pos t c x cs xs next hs h1 h2 ih1 ih2 =>
    rintro ha he pos' rfl
    have hb := ha.below he
    rw [endOf_append] at he
    obtain ⟨c', x', rfl, rfl, g1⟩ := ih1 ha.left (Nat.le_trans ha.right.end_ge he) pos' rfl
    obtain ⟨cs', l', rfl, rfl, g2⟩ := ih2 ha.right he (endOf pos' c') (endOf_up lo pos' c')
    rw [flatten_up] at ha he g1 hb hs
    rw [ahead_cut hb.right] at g1
    rw [← List.map_append] at hb hs
    rw [ahead_cut hb] at hs
    refine ⟨_, _, by rw [flatten_up, ← List.map_append], ?_, .starSome hs g1 g2⟩
    rw [Tree.up, upAll_eq, ← spanOf_up lo (List.cons_ne_nil _ _)]; rfl
  | loopNone => rintro _ _ pos' rfl; exact ⟨[], _, rfl, rfl, .loopNone⟩
  | @loopSome pos t cs xs hne h ih =>
    rintro ha he pos' rfl
    obtain ⟨cs', l', rfl, rfl, h'⟩ := ih ha he pos' rfl
    have hne' : l' ≠ [] := by intro e; exact hne (by rw [e]; rfl)
    refine ⟨_, _, List.map_flatten, ?_, .loopSome hne' h'⟩
    rw [Tree.up, upAll_eq, spanOf_up lo hne']
  | @split pos t p c x cs ps es next h1 h2 ih1 ih2 =>
    rintro ha he pos' rfl
    rw [endOf_append] at he
    obtain ⟨c', x', rfl, rfl, g1⟩ := ih1 ha.left (Nat.le_trans ha.right.end_ge he) pos' rfl
    obtain ⟨cs', ps', es', rfl, rfl, rfl, g2⟩ := ih2 ha.right he (endOf pos' c') (endOf_up lo pos' c')
    rw [flatten_up] at ha he g1
    rw [ahead_cut (ha.right.below he)] at g1
    refine ⟨_, _, by rw [flatten_up, ← List.map_append], ?_, .split g1 g2⟩
    rw [Tree.up, upAll_eq, upAll_eq, ← spanOf_up lo (interleave_ne (List.cons_ne_nil _ _)), interleave_map]; rfl
  | @punct pos t p c x cs ps es next h1 h2 ih1 ih2 =>
    rintro ha he pos' rfl
    rw [endOf_append] at he
    obtain ⟨c', x', rfl, rfl, g1⟩ := ih1 ha.left (Nat.le_trans ha.right.end_ge he) pos' rfl
    obtain ⟨cs', ps', es', rfl, rfl, rfl, g2⟩ := ih2 ha.right he (endOf pos' c') (endOf_up lo pos' c')
    rw [flatten_up] at ha he g1
    rw [ahead_cut (ha.right.below he)] at g1
    refine ⟨_, _, by rw [flatten_up, ← List.map_append], ?_, .punct g1 g2⟩
    rw [Tree.up, upAll_eq, upAll_eq, ← spanOf_up lo (interleave_ne (List.cons_ne_nil _ _)), interleave_map]; rfl
  | @recover pos t r c x d y next hs1 h1 hs2 h2 ih1 ih2 =>
    rintro ha he pos' rfl
    have hb := ha.below he
    rw [endOf_append] at he
    obtain ⟨c', x', rfl, rfl, g1⟩ := ih1 ha.left (Nat.le_trans ha.right.end_ge he) pos' rfl
    obtain ⟨d', y', rfl, rfl, g2⟩ := ih2 ha.right he (endOf pos' c') (endOf_up lo pos' c')
    rw [ahead_cut hb.right] at g1 hs2
    rw [← List.map_append] at hb hs1
    rw [ahead_cut hb] at hs1
    exact ⟨_, _, List.map_append, by rw [Tree.up, Tree.up_span], .recover hs1 g1 hs2 g2⟩
  | seqNil => rintro _ _ pos' rfl; exact ⟨[], [], rfl, rfl, .seqNil⟩
  | @seqCons pos t ts c cs x xs next h1 h2 ih1 ih2 =>
    rintro ha he pos' rfl
    rw [List.flatten_cons] at ha he
    rw [endOf_append] at he
    obtain ⟨c', x', rfl, rfl, g1⟩ := ih1 ha.left (Nat.le_trans ha.right.end_ge he) pos' rfl
    obtain ⟨cs', l', rfl, rfl, g2⟩ := ih2 ha.right he (endOf pos' c') (endOf_up lo pos' c')
    rw [flatten_up] at ha he g1
    rw [ahead_cut (ha.right.below he)] at g1
    exact ⟨_, _, rfl, rfl, .seqCons g1 g2⟩
  | moreStop hs => rintro _ _ pos' rfl; exact ⟨[], [], rfl, rfl, .moreStop hs⟩
  | @moreGo pos t c cs x xs next hs h1 h2 ih1 ih2 =>
    rintro ha he pos' rfl
    rw [List.flatten_cons] at ha he
    have hb := ha.below he
    rw [endOf_append] at he
    obtain ⟨c', x', rfl, rfl, g1⟩ := ih1 ha.left (Nat.le_trans ha.right.end_ge he) pos' rfl
    obtain ⟨cs', l', rfl, rfl, g2⟩ := ih2 ha.right he (endOf pos' c') (endOf_up lo pos' c')
    rw [flatten_up] at g1 hb hs
    rw [ahead_cut hb.right] at g1
    rw [← List.map_append] at hb hs
    rw [ahead_cut hb] at hs
    exact ⟨_, _, rfl, rfl, .moreGo hs g1 g2⟩
  | loopStop => rintro _ _ pos' rfl; exact ⟨[], [], rfl, rfl, .loopStop⟩
  | @loopGo pos t c cs x xs hs hc h1 h2 ih1 ih2 =>
    rintro ha he pos' rfl
    rw [List.flatten_cons] at ha he
    have hb := ha.below he
    rw [endOf_append] at he
    obtain ⟨c', x', rfl, rfl, g1⟩ := ih1 ha.left (Nat.le_trans ha.right.end_ge he) pos' rfl
    obtain ⟨cs', l', rfl, rfl, g2⟩ := ih2 ha.right he (endOf pos' c') (endOf_up lo pos' c')
    rw [flatten_up] at g1 hb hs
    rw [ahead_cut hb.right] at g1
    rw [← List.map_append] at hb hs
    rw [ahead_cut hb] at hs
    exact ⟨_, _, rfl, rfl, .loopGo hs (by rintro rfl; exact hc rfl) g1 g2⟩
  | splitStop hs => rintro _ _ pos' rfl; exact ⟨[], [], [], rfl, rfl, rfl, .splitStop hs⟩
  | @splitGo pos t p c q d x cs ps es next hs h1 hs2 h2 h3 ih1 ih2 ih3 =>
    rintro ha he pos' rfl
    rw [List.flatten_cons, List.flatten_cons] at ha he
    have hb := ha.below he
    rw [endOf_append] at he
    have ha2 := ha.right
    obtain ⟨c', q', rfl, rfl, g1⟩ := ih1 ha.left (Nat.le_trans ha2.end_ge he) pos' rfl
    rw [endOf_append] at he
    obtain ⟨d', x', rfl, rfl, g2⟩ := ih2 ha2.left (Nat.le_trans ha2.right.end_ge he) (endOf pos' c') (endOf_up lo pos' c')
    obtain ⟨cs', ps', es', rfl, rfl, rfl, g3⟩ := ih3 ha2.right he (endOf (endOf pos' c') d')
      (by rw [endOf_up, endOf_up])
    rw [flatten_up] at g1 g2 hs hs2 hb
    rw [ahead_cut hb.right.right] at g2
    rw [← List.map_append] at g1 hs hs2 hb
    rw [ahead_cut hb.right] at g1 hs2
    rw [← List.map_append] at hs hb
    rw [ahead_cut hb] at hs
    exact ⟨_, _, _, rfl, rfl, rfl, .splitGo hs g1 hs2 g2 g3⟩
  | punctStop hs => rintro _ _ pos' rfl; exact ⟨[], [], [], rfl, rfl, rfl, .punctStop hs⟩
  | @punctTrail pos t p c q next hs h1 hn hf ih1 =>
    rintro ha he pos' rfl
    rw [List.flatten_cons, List.flatten_nil, List.append_nil] at ha he
    obtain ⟨c', q', rfl, rfl, g1⟩ := ih1 ha he pos' rfl
    exact ⟨[c'], [q'], [], rfl, rfl, rfl, .punctTrail (by rw [← ahead_cut (ha.below he)]; exact hs) g1 hn hf⟩
  | @punctGo pos t p c q d x cs ps es next hs h1 hs2 h2 h3 ih1 ih2 ih3 =>
    rintro ha he pos' rfl
    rw [List.flatten_cons, List.flatten_cons] at ha he
    have hb := ha.below he
    rw [endOf_append] at he
    have ha2 := ha.right
    obtain ⟨c', q', rfl, rfl, g1⟩ := ih1 ha.left (Nat.le_trans ha2.end_ge he) pos' rfl
    rw [endOf_append] at he
    obtain ⟨d', x', rfl, rfl, g2⟩ := ih2 ha2.left (Nat.le_trans ha2.right.end_ge he) (endOf pos' c') (endOf_up lo pos' c')
    obtain ⟨cs', ps', es', rfl, rfl, rfl, g3⟩ := ih3 ha2.right he (endOf (endOf pos' c') d')
      (by rw [endOf_up, endOf_up])
    rw [flatten_up] at g1 g2 hs hs2 hb
    rw [ahead_cut hb.right.right] at g2
    rw [← List.map_append] at g1 hs hs2 hb
    rw [ahead_cut hb.right] at g1 hs2
    rw [← List.map_append] at hs hb
    rw [ahead_cut hb] at hs
    exact ⟨_, _, _, rfl, rfl, rfl, .punctGo hs g1 hs2 g2 g3⟩

end

end Teleparse
