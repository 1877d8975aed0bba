import Verif.Spec.Chosen
import Verif.Proof.Complete
/-
Error-free parsing and predictive matching.
-/
namespace Teleparse
variable {m n : Nat}

section
variable {S : Schema m n} {md : Metadata (PId m n) n} {source : Str}

/-! ### The next token -/

theorem ahead_nil (next : Option (TokenSrc n)) : ahead source [] next = next := by simp [ahead, wordOf]

theorem ahead_append (c d : List (Cell n)) (next : Option (TokenSrc n)) :
    ahead source (c ++ d) next = ahead source c (ahead source d next) := by
  cases c <;> simp [ahead, wordOf]

theorem ahead_congr {c d : List (Cell n)} (h : toks c = toks d) (next : Option (TokenSrc n)) :
    ahead source c next = ahead source d next := by
  unfold ahead; rw [wordOf_congr source h]

theorem la_ahead (c : List (Cell n)) (rest : List (Token n)) :
    la source (toks c ++ rest) = ahead source c (la source rest) := by
  cases c <;> simp [ahead, wordOf, la, Token.word]

theorem ahead_cons {c : List (Cell n)} (h : c ≠ []) (a b : Option (TokenSrc n)) :
    ahead source c a = ahead source c b := by
  cases c with
  | nil => exact absurd rfl h
  | cons => simp [ahead, wordOf]

theorem sees_iff {i : PId m n} {o : Option (TokenSrc n)} :
    (o.isSome && (md.first.get i).contains o) = true ↔ md.sees i o := by
  cases o <;> simp [Metadata.sees]

theorem not_sees_iff {i : PId m n} {o : Option (TokenSrc n)} :
    ¬ (o.isSome && (md.first.get i).contains o) = true ↔ ¬ md.sees i o := not_congr sees_iff

theorem not_sees_none {i : PId m n} : ¬ md.sees i none := by rintro ⟨_, h, _⟩; cases h

theorem starts_iff {i : PId m n} {o : Option (TokenSrc n)} :
    ((md.first.get i).contains o || (md.first.get i).containsE) = true ↔ md.starts i o := by
  simp [Metadata.starts]

/-! ### Predictive matching is matching -/

/-- What a claim says without the choices. -/
def Claim.Holds (S : Schema m n) (source : Str) : Claim m n → Prop
  | .ty pos t c x _ => Parses S source pos t c x
  | .seq pos ts cs xs _ => ParsesSeq S source pos ts cs xs
  | .more pos t cs xs _ => ParsesSeq S source pos (List.replicate xs.length t) cs xs
  | .loop pos t cs xs => ParsesSeq S source pos (List.replicate xs.length t) cs xs
  | .split pos t p cs ps es _ => ps.length = es.length ∧
      ParsesSeq S source pos (alternate p t (ps.length + es.length)) cs (interleave ps es)
  | .punct pos t p cs ps es _ => (ps.length = es.length ∨ ps.length = es.length + 1) ∧
      ParsesSeq S source pos (alternate p t (ps.length + es.length)) cs (interleave ps es)

theorem Chosen.holds {j : Claim m n} (h : Chosen S md source j) : j.Holds S source := by
  induction h with
  | term h => exact .term h
  | struct hk _ ih => exact .struct hk ih
  | enum hk hi _ _ ih => exact .enum hk hi ih
  | tuple ht _ ih => exact .tuple ht ih
  | box _ ih => exact .box ih
  | optNone => exact .optNone
  | optSome _ _ ih => exact .optSome ih
  | existNone => exact .existNone
  | existSome _ _ ih => exact .existSome ih
  | quote _ ih => exact .quote ih
  | parse _ ih => exact .parse ih
  | @plus _ _ c x cs xs _ _ _ ih1 ih2 => exact Parses.plus (k := xs.length) (cs := c :: cs) (.cons ih1 ih2)
  | starNone => exact .starNone
  | @starSome _ _ c x cs xs _ _ _ _ ih1 ih2 =>
    exact Parses.starSome (k := xs.length) (cs := c :: cs) (.cons ih1 ih2)
  | loopNone => exact .loopNone
  | @loopSome _ _ cs xs hx _ ih =>
    obtain ⟨k, hk⟩ : ∃ k, xs.length = k + 1 := ⟨xs.length - 1, by cases xs; exact absurd rfl hx; simp⟩
    exact .loopSome (by rw [← hk]; exact ih)
  | @split pos t p c x cs ps es next _ _ ih1 ih2 =>
    refine Parses.split (es := x :: es) (ps := ps) (cs := c :: cs) (by simp [ih2.1]) ?_
    rw [interleave_cons, List.length_cons, show es.length + 1 + ps.length = ps.length + es.length + 1 by omega]
    exact .cons ih1 ih2.2
  | @punct pos t p c x cs ps es next _ _ ih1 ih2 =>
    refine Parses.punct (es := x :: es) (ps := ps) (cs := c :: cs) (by simp) (by have := ih2.1; simp only [List.length_cons]; omega) ?_
    rw [interleave_cons, List.length_cons, show es.length + 1 + ps.length = ps.length + es.length + 1 by omega]
    exact .cons ih1 ih2.2
  | @recover pos t r c x d y next _ _ _ _ ih1 ih2 =>
    have := Parses.recover (cs := [c, d]) (.cons ih1 (.cons ih2 .nil))
    simpa [Claim.Holds] using this
  | seqNil => exact .nil
  | seqCons _ _ ih1 ih2 => exact .cons ih1 ih2
  | moreStop => exact .nil
  | moreGo _ _ _ ih1 ih2 => exact .cons ih1 ih2
  | loopStop => exact .nil
  | loopGo _ _ _ _ ih1 ih2 => exact .cons ih1 ih2
  | splitStop => exact ⟨rfl, by simpa [interleave, alternate] using .nil⟩
  | @splitGo pos t p c q d x cs ps es next _ _ _ _ _ ih1 ih2 ih3 =>
    refine ⟨by simp [ih3.1], ?_⟩
    rw [interleave_cons, interleave_cons, List.length_cons, List.length_cons,
      show ps.length + 1 + (es.length + 1) = ps.length + es.length + 1 + 1 by omega]
    exact .cons ih1 (.cons ih2 ih3.2)
  | punctStop => exact ⟨.inl rfl, by simpa [interleave, alternate] using .nil⟩
  | punctTrail _ _ _ _ ih =>
    exact ⟨.inr rfl, by simpa [interleave, alternate] using .cons ih .nil⟩
  | @punctGo pos t p c q d x cs ps es next _ _ _ _ _ ih1 ih2 ih3 =>
    refine ⟨by have := ih3.1; simp only [List.length_cons]; omega, ?_⟩
    rw [interleave_cons, interleave_cons, List.length_cons, List.length_cons,
      show ps.length + 1 + (es.length + 1) = ps.length + es.length + 1 + 1 by omega]
    exact .cons ih1 (.cons ih2 ih3.2)

/-! ### Predictive matches are found -/

/-- What the parser does for a claim, on tokens followed by `next`. -/
def Claim.Done (S : Schema m n) (md : Metadata (PId m n) n) (source : Str) : Claim m n → Prop
  | .ty pos t c x next => ∀ d rest, endOf 0 d = pos → Ready source ⟨source, d, toks c ++ rest⟩ →
      la source rest = next → Does S md t ⟨source, d, toks c ++ rest⟩ x ⟨source, d ++ c, rest⟩
  | .seq pos ts cs xs next => ∀ d rest acc, endOf 0 d = pos → Ready source ⟨source, d, toks cs.flatten ++ rest⟩ →
      la source rest = next →
      Halts (fun _ j => seqLoop (ts.map (produce View.ops S md j)) acc []) ⟨source, d, toks cs.flatten ++ rest⟩
        (fun a u => a = .ok (acc ++ xs, []) ∧ u = ⟨source, d ++ cs.flatten, rest⟩)
  | .more pos t cs xs next => ∀ d rest acc hi, endOf 0 d = pos →
      Ready source ⟨source, d, toks cs.flatten ++ rest⟩ → la source rest = next →
      Halts (fun i j => iterLoop View.ops (md.first.get (Ty.plus t).pid) (produce View.ops S md j t) i acc [] hi)
        ⟨source, d, toks cs.flatten ++ rest⟩
        (fun a u => a = (acc ++ xs, [], (xs.getLast?.map (·.span.hi)).getD hi) ∧
          u = ⟨source, d ++ cs.flatten, rest⟩)
  | .loop pos t cs xs => ∀ d acc, endOf 0 d = pos → Ready source ⟨source, d, toks cs.flatten⟩ →
      Halts (fun i j => loopLoop View.ops (md.first.get (Ty.loop t).pid) (produce View.ops S md j t) i acc [])
        ⟨source, d, toks cs.flatten⟩ (fun a u => a = (acc ++ xs, []) ∧ u = ⟨source, d ++ cs.flatten, []⟩)
  | .split pos t p cs ps es next => ∀ d rest ae ap fol, endOf 0 d = pos →
      Ready source ⟨source, d, toks cs.flatten ++ rest⟩ → la source rest = next →
      Halts (fun i j => splitOuter View.ops (md.first.get t.pid) (md.first.get p.pid) fol
          (produce View.ops S md j t) (produce View.ops S md j p) i ⟨ae, ap, []⟩)
        ⟨source, d, toks cs.flatten ++ rest⟩
        (fun a u => a = ⟨ae ++ es, ap ++ ps, []⟩ ∧ u = ⟨source, d ++ cs.flatten, rest⟩)
  | .punct pos t p cs ps es next => ∀ d rest ae ap, endOf 0 d = pos →
      Ready source ⟨source, d, toks cs.flatten ++ rest⟩ → la source rest = next →
      Halts (fun i j => punctOuter View.ops (md.first.get t.pid) (md.first.get p.pid)
          (md.follow.get (Ty.punct t p).pid) (produce View.ops S md j t) (produce View.ops S md j p) i ⟨ae, ap, []⟩)
        ⟨source, d, toks cs.flatten ++ rest⟩
        (fun a u => a = ⟨ae ++ es, ap ++ ps, []⟩ ∧ u = ⟨source, d ++ cs.flatten, rest⟩)

theorem Ready.sees {i : PId m n} {d : List (Cell n)} {l : List (Token n)} (h : Ready source ⟨source, d, l⟩) :
    ((View.mk source d l).look.isSome && (md.first.get i).contains (View.mk source d l).look) = true ↔
      md.sees i (Teleparse.la source l) := by
  rw [h.la]; exact sees_iff

theorem produceOption_none {i : PId m n} {p : Nat → Nat → P (View n) n} {mk : Span → Option (Tree n) → Tree n}
    {d : List (Cell n)} {rest : List (Token n)} {pos : Nat} (hd : endOf 0 d = pos)
    (hr : Ready source ⟨source, d, rest⟩) (h : ¬ md.sees i (la source rest)) :
    Halts (fun a j => produceOption View.ops (md.first.get i) (p a j) mk) ⟨source, d, rest⟩
      (fun a u => a = .success (mk ⟨pos, pos⟩ none) ∧ u = ⟨source, d, rest⟩) := by
  simp only [produceOption]
  refine .peekTo (.ite (fun hc => absurd (hr.sees.1 hc) h) (fun _ => .emptyTo (.pure ⟨?_, rfl⟩)))
  rw [show (View.mk source d rest).pos = pos from hd]

theorem produceOption_some {i : PId m n} {p : Nat → Nat → P (View n) n} {mk : Span → Option (Tree n) → Tree n}
    {d c : List (Cell n)} {rest : List (Token n)} {x : Tree n}
    (hr : Ready source ⟨source, d, toks c ++ rest⟩) (h : md.sees i (ahead source c (la source rest)))
    (hp : Halts p ⟨source, d, toks c ++ rest⟩ (fun a u => a = .success x ∧ u = ⟨source, d ++ c, rest⟩)) :
    Halts (fun a j => produceOption View.ops (md.first.get i) (p a j) mk) ⟨source, d, toks c ++ rest⟩
      (fun a u => a = .success (mk x.span (some x)) ∧ u = ⟨source, d ++ c, rest⟩) := by
  rw [← la_ahead] at h
  simp only [produceOption]
  refine .peekTo (.ite (fun _ => ?_) (fun hc => absurd (hr.sees.2 h) hc))
  refine .bind hp ?_
  rintro _ _ ⟨rfl, rfl⟩
  exact .pure ⟨rfl, rfl⟩

/-- Producing `Plus`, as a part of `Star`. -/
theorem producePlus_done {t : Ty m n} {d c : List (Cell n)} {cs : List (List (Cell n))} {x : Tree n}
    {xs : List (Tree n)} {rest : List (Token n)}
    (h1 : Does S md t ⟨source, d, toks c ++ (toks cs.flatten ++ rest)⟩ x ⟨source, d ++ c, toks cs.flatten ++ rest⟩)
    (h2 : ∀ acc hi, Halts
      (fun i j => iterLoop View.ops (md.first.get (Ty.plus t).pid) (produce View.ops S md j t) i acc [] hi)
        ⟨source, d ++ c, toks cs.flatten ++ rest⟩
        (fun a u => a = (acc ++ xs, [], (xs.getLast?.map (·.span.hi)).getD hi) ∧
          u = ⟨source, d ++ c ++ cs.flatten, rest⟩)) :
    Halts (fun i j => producePlus View.ops (md.first.get (Ty.plus t).pid) (produce View.ops S md j t) i)
      ⟨source, d, toks (c ++ cs.flatten) ++ rest⟩
      (fun a u => a = .success (.list (spanOf (x :: xs)) (x :: xs)) ∧ u = ⟨source, d ++ (c ++ cs.flatten), rest⟩) := by
  rw [toks, List.map_append, List.append_assoc]
  simp only [producePlus]
  refine h1.to ?_
  dsimp only
  simp only [plusRest]
  refine .bind (h2 [x] x.span.hi) ?_
  rintro _ _ ⟨rfl, rfl⟩
  refine .pure ⟨?_, by simp⟩
  cases xs with
  | nil => rfl
  | cons y ys =>
    rw [last_hi (y :: ys) (by simp) x.span.hi 0]
    simp only [List.singleton_append, Res.ofPair, spanOf, List.head?_cons, Option.map_some, Option.getD_some]
    rw [getLast?_tail x (l := y :: ys) (by simp)]
    rfl

theorem toks_append (c d : List (Cell n)) : toks (c ++ d) = toks c ++ toks d := List.map_append

theorem Chosen.done {j : Claim m n} (h : Chosen S md source j) : j.Done S md source := by
  induction h with
  | term hm => intro d rest _ _ _; exact Comp.term hm
  | @struct pos k f fs cs l next hk h ih =>
    intro d rest hd hr hn
    have hp : ParsesSeq S source pos ((f :: fs).map (·.1)) cs l := h.holds
    have hlen := hp.lengths
    have hl2 : cs.length = ((f :: fs).map (·.2)).length := by rw [hlen.1]; simp
    have htok : toks (addAll cs ((f :: fs).map (·.2))) = toks cs.flatten := addAll_tokens _ _ hl2
    rw [htok] at hr ⊢
    refine Halts.produce ?_
    simp only [produceStep, hk, produceStruct]
    refine .bind (Q := fun a u => a = .ok (l, []) ∧ u = ⟨source, d ++ cs.flatten, rest⟩) ?_ ?_
    · have e : ∀ j, ((f :: fs).map fun g => (produce View.ops S md j g.1, g.2)).map (·.1) =
          ((f :: fs).map (·.1)).map (produce View.ops S md j) := by
        intro j; simp [Function.comp_def]
      simp only [e]
      exact ih d rest [] hd hr hn
    · rintro _ _ ⟨rfl, rfl⟩
      dsimp only
      refine .bind (Q := fun _ w => w = ⟨source, d ++ addAll cs ((f :: fs).map (·.2)), rest⟩) ?_ ?_
      · have e : ∀ j, ((f :: fs).map fun g => (produce View.ops S md j g.1, g.2)).map (·.2) =
            (f :: fs).map (·.2) := by
          intro j; simp [Function.comp_def]
        simp only [e]
        refine .fields ?_
        rw [applyAll_groups (pre := d) (pos := pos) rfl hr.step.sorted.store hd
          (hp.fits (by rw [← hd]; exact hr.after)) hl2]
      · rintro _ _ rfl
        exact .pure ⟨rfl, rfl⟩
  | @enum pos k f fs i t sem c x next hk hi hlook h ih =>
    intro d rest hd hr hn
    have hp : Parses S source pos t c x := h.holds
    have htok : toks (c.map (Cell.add sem)) = toks c := add_tokens _ _
    rw [htok] at hr ⊢
    refine Halts.produce ?_
    simp only [produceStep, hk, produceEnum]
    refine .peekTo ?_
    rw [hr.la, la_ahead, hn, hlook]
    have e : ∀ j, ((f :: fs).map fun v => (produce View.ops S md j v.1, v.2))[i]? =
        some (produce View.ops S md j t, sem) := by
      intro j; rw [List.getElem?_map, hi]; rfl
    simp only [e]
    refine (ih d rest hd hr hn).to ?_
    simp only [mapVariant]
    refine .bind (Q := fun _ w => w = ⟨source, d ++ c.map (Cell.add sem), rest⟩) ?_ ?_
    · refine .fields ?_
      have := applyAll_groups (l := [x]) (cs := [c]) (sems := [sem]) (pre := d) (pos := pos)
        (v := ⟨source, d ++ c, rest⟩) (by simp) hr.step.sorted.store hd
        (.cons (hp.fits (by rw [← hd]; exact hr.after)) .nil) rfl
      rw [show [(x, sem)] = [x].zip [sem] from rfl, this]
      simp [addAll]
    · rintro _ _ rfl
      exact .pure ⟨rfl, rfl⟩
  | @tuple pos t ts cs l next ht h ih =>
    intro d rest hd hr hn
    refine Halts.produce ?_
    have e : ∀ i j, produceStep View.ops S md i (produce View.ops S md j) t =
        produceTuple (ts.map (produce View.ops S md j)) := by
      intro i j
      rcases ht with ⟨_, _, rfl, rfl⟩ | ⟨_, _, _, rfl, rfl⟩ | ⟨_, _, _, _, rfl, rfl⟩ | ⟨_, _, _, _, _, rfl, rfl⟩ <;> rfl
    simp only [e, produceTuple]
    refine .bind (ih d rest [] hd hr hn) ?_
    rintro _ _ ⟨rfl, rfl⟩
    exact .pure ⟨rfl, rfl⟩
  | box _ ih => intro d rest hd hr hn; exact Halts.produce (ih d rest hd hr hn)
  | optNone hs =>
    intro d rest hd hr hn
    subst hn
    refine Halts.produce ((produceOption_none hd hr hs).mono ?_)
    rintro _ _ ⟨rfl, rfl⟩
    exact ⟨rfl, by simp⟩
  | optSome hs _ ih =>
    intro d rest hd hr hn
    have := ih d rest hd hr hn
    subst hn
    exact Halts.produce (produceOption_some hr hs this)
  | existNone hs =>
    intro d rest hd hr hn
    subst hn
    refine Halts.produce ((produceOption_none hd hr hs).mono ?_)
    rintro _ _ ⟨rfl, rfl⟩
    exact ⟨rfl, by simp⟩
  | existSome hs _ ih =>
    intro d rest hd hr hn
    have := ih d rest hd hr hn
    subst hn
    exact Halts.produce (produceOption_some hr hs this)
  | @quote pos t c x next _ ih =>
    intro d rest hd hr hn
    refine Halts.produce ?_
    simp only [produceStep, produceText]
    refine (ih d rest hd hr hn).to ?_
    dsimp only
    refine .bind (Q := fun s w => s = textOf source x.span ∧ w = ⟨source, d ++ c, rest⟩)
      (.getSrc fun s hs => ⟨get?_textOf hs, rfl⟩) ?_
    rintro _ _ ⟨rfl, rfl⟩
    exact .pure ⟨rfl, rfl⟩
  | @parse pos t c x next _ ih =>
    intro d rest hd hr hn
    refine Halts.produce ?_
    simp only [produceStep, produceText]
    refine (ih d rest hd hr hn).to ?_
    dsimp only
    refine .bind (Q := fun s w => s = textOf source x.span ∧ w = ⟨source, d ++ c, rest⟩)
      (.getSrc fun s hs => ⟨get?_textOf hs, rfl⟩) ?_
    rintro _ _ ⟨rfl, rfl⟩
    exact .pure ⟨rfl, rfl⟩
  | @plus pos t c x cs xs next _ _ ih1 ih2 =>
    intro d rest hd hr hn
    have hr' : Ready source ⟨source, d, toks c ++ (toks cs.flatten ++ rest)⟩ := by
      rw [← List.append_assoc, ← toks_append]; exact hr
    refine Halts.produce (producePlus_done (ih1 d _ hd hr' (by rw [la_ahead, hn])) ?_)
    intro acc hi
    exact ih2 (d ++ c) rest acc hi (by rw [endOf_append, hd]) hr'.step hn
  | starNone hs =>
    intro d rest hd hr hn
    subst hn
    refine Halts.produce ((produceOption_none hd hr hs).mono ?_)
    rintro _ _ ⟨rfl, rfl⟩
    exact ⟨rfl, by simp⟩
  | @starSome pos t c x cs xs next hs _ _ ih1 ih2 =>
    intro d rest hd hr hn
    have hr' : Ready source ⟨source, d, toks c ++ (toks cs.flatten ++ rest)⟩ := by
      rw [← List.append_assoc, ← toks_append]; exact hr
    have hp := producePlus_done (ih1 d _ hd hr' (by rw [la_ahead, hn]))
      (fun acc hi => ih2 (d ++ c) rest acc hi (by rw [endOf_append, hd]) hr'.step hn)
    subst hn
    refine Halts.produce (produceOption_some hr hs hp (mk := mkStar))
  | @loopNone pos t =>
    intro d rest hd hr hn
    have hrest : rest = [] := by cases rest; rfl; cases hn
    subst hrest
    refine Halts.produce ?_
    simp only [produceStep, produceLoop]
    refine .bind (Q := fun a u => a = ([], []) ∧ u = ⟨source, d, []⟩) ?_ ?_
    · refine .succ ?_
      simp only [loopLoop]
      refine .peekTo (.ite (fun _ => .pure ⟨rfl, rfl⟩) (fun hc => ?_))
      exact absurd (by rw [hr.la]; rfl) hc
    · rintro _ _ ⟨rfl, rfl⟩
      refine .ite (fun _ => .emptyTo (.pure ⟨?_, by simp⟩)) (fun hc => absurd rfl hc)
      rw [show (View.mk source d []).pos = pos from hd]
      rfl
  | @loopSome pos t cs xs hx _ ih =>
    intro d rest hd hr hn
    have hrest : rest = [] := by cases rest; rfl; cases hn
    subst hrest
    rw [List.append_nil] at hr ⊢
    refine Halts.produce ?_
    simp only [produceStep, produceLoop]
    refine .bind (ih d [] hd hr) ?_
    rintro _ _ ⟨rfl, rfl⟩
    simp only [List.nil_append]
    refine .ite (fun hc => absurd (List.isEmpty_iff.1 hc) hx) (fun hc => .pure ⟨rfl, rfl⟩)
  | @split pos t p c x cs ps es next _ h2 ih1 ih2 =>
    intro d rest hd hr hn
    have hl : ps.length = es.length := h2.holds.1
    rw [toks_append, List.append_assoc] at hr ⊢
    refine Halts.produce ?_
    simp only [produceStep, produceSplit]
    refine (ih1 d _ hd hr (by rw [la_ahead, hn])).to ?_
    dsimp only
    refine .bind (ih2 (d ++ c) rest [x] [] _ (by rw [endOf_append, hd]) hr.step hn) ?_
    rintro _ _ ⟨rfl, rfl⟩
    refine .pure ⟨?_, by simp⟩
    simp only [splitDone, List.singleton_append, List.nil_append]
    rw [split_span x es ps hl.symm]
    rfl
  | @punct pos t p c x cs ps es next h1 h2 ih1 ih2 =>
    intro d rest hd hr hn
    have hl : ps.length = es.length ∨ ps.length = es.length + 1 := h2.holds.1
    have haft := hr.after
    have hfit : FitsSeq pos (c :: cs) (interleave (x :: es) ps) := by
      rw [interleave_cons]
      exact ParsesSeq.fits (.cons h1.holds h2.holds.2) (by rw [← hd]; exact haft)
    rw [toks_append, List.append_assoc] at hr ⊢
    refine Halts.produce ?_
    simp only [produceStep, producePunct]
    refine (ih1 d _ hd hr (by rw [la_ahead, hn])).to ?_
    dsimp only
    refine .bind (ih2 (d ++ c) rest [x] [] (by rw [endOf_append, hd]) hr.step hn) ?_
    rintro _ _ ⟨rfl, rfl⟩
    refine .pure ⟨?_, by simp⟩
    simp only [punctDone, List.singleton_append, List.nil_append]
    rw [hd] at haft
    rw [punct_span x es ps hl hfit haft]
    rfl
  | @recover pos t u c x c' y next hs1 _ hs2 _ ih1 ih2 =>
    intro d rest hd hr hn
    rw [toks_append, List.append_assoc] at hr ⊢
    refine Halts.produce ?_
    simp only [produceStep, produceRecover]
    refine .bind (Q := fun a w => a = ⟨[], none, x.span, some x⟩ ∧
      w = ⟨source, d ++ c, toks c' ++ rest⟩) ?_ ?_
    · simp only [recoverHead]
      refine .peekTo (.ite (fun _ => ?_) (fun hc => ?_))
      · refine (ih1 d _ hd hr (by rw [la_ahead, hn])).to ?_
        exact .pure ⟨rfl, rfl⟩
      · exfalso
        apply hc
        rw [starts_iff, hr.la, la_ahead, la_ahead, hn, ← ahead_append]
        exact hs1
    · rintro _ _ ⟨rfl, rfl⟩
      have hu := ih2 (d ++ c) rest (by rw [endOf_append, hd]) hr.step hn
      have hg : ((md.first.get u.pid).contains (View.mk source (d ++ c) (toks c' ++ rest)).look ||
          (md.first.get u.pid).containsE) = true := by
        rw [starts_iff, hr.step.la, la_ahead, hn]
        exact hs2
      refine .bind (Q := fun a w => a = (some y, [], none) ∧ w = ⟨source, (d ++ c) ++ c', rest⟩) ?_ ?_
      · refine .succ ?_
        simp only [recoverLoop]
        refine .peekTo ?_
        refine .ite (fun hn => ?_) (fun _ => ?_)
        · refine .ite (fun _ => ?_) (fun hc => ?_)
          · exact hu.to (.pure ⟨rfl, rfl⟩)
          · exfalso
            apply hc
            rw [Option.isNone_iff_eq_none] at hn
            rw [hn] at hg
            simpa [TSet.containsE, TSet.contains] using hg
        · refine .ite (fun _ => ?_) (fun hc => absurd hg hc)
          exact hu.to (.pure ⟨rfl, rfl⟩)
      · rintro _ _ ⟨rfl, rfl⟩
        exact .pure ⟨rfl, by simp⟩
  | seqNil =>
    intro d rest acc _ _ _
    exact .pure ⟨by simp, by simp⟩
  | @seqCons pos t ts c cs x xs next _ _ ih1 ih2 =>
    intro d rest acc hd hr hn
    rw [List.flatten_cons, toks_append, List.append_assoc] at hr ⊢
    simp only [List.map_cons, seqLoop]
    refine (ih1 d _ hd hr (by rw [la_ahead, hn])).to ?_
    dsimp only
    refine (ih2 (d ++ c) rest (acc ++ [x]) (by rw [endOf_append, hd]) hr.step hn).mono ?_
    rintro _ _ ⟨rfl, rfl⟩
    exact ⟨by simp, by simp⟩
  | moreStop hs =>
    intro d rest acc hi hd hr hn
    subst hn
    refine .succ ?_
    simp only [iterLoop]
    refine .peekTo (.ite (fun hc => absurd (hr.sees.1 hc) hs) (fun _ => .pure ⟨by simp, by simp⟩))
  | @moreGo pos t c cs x xs next hs _ _ ih1 ih2 =>
    intro d rest acc hi hd hr hn
    rw [List.flatten_cons, toks_append, List.append_assoc] at hr ⊢
    refine .succ ?_
    simp only [iterLoop]
    refine .peekTo (.ite (fun _ => ?_) (fun hc => absurd (hr.sees.2 ?_) hc))
    · refine (ih1 d _ hd hr (by rw [la_ahead, hn])).to ?_
      dsimp only
      refine (ih2 (d ++ c) rest (acc ++ [x]) x.span.hi (by rw [endOf_append, hd]) hr.step hn).mono ?_
      rintro _ _ ⟨rfl, rfl⟩
      refine ⟨?_, by simp⟩
      cases xs with
      | nil => simp
      | cons y ys => rw [last_hi (y :: ys) (by simp) x.span.hi hi, getLast?_tail x (by simp)]; simp
    · rw [la_ahead, la_ahead, hn, ← ahead_append]; exact hs
  | loopStop =>
    intro d acc hd hr
    refine .succ ?_
    simp only [loopLoop]
    refine .peekTo (.ite (fun _ => .pure ⟨by simp, by simp⟩) (fun hc => ?_))
    exact absurd (by rw [hr.la]; rfl) hc
  | @loopGo pos t c cs x xs hs hne _ _ ih1 ih2 =>
    intro d acc hd hr
    rw [List.flatten_cons, toks_append] at hr ⊢
    have hla : la source (toks c ++ toks cs.flatten) = ahead source (c ++ cs.flatten) none := by
      rw [la_ahead, ahead_append]
      congr 1
      have := la_ahead (source := source) cs.flatten []
      rwa [List.append_nil] at this
    obtain ⟨w, hw, hf⟩ := hs
    rw [hw] at hla
    refine .succ ?_
    simp only [loopLoop]
    refine .peekTo (.ite (fun hc => ?_) (fun _ => ?_))
    · rw [hr.la, hla] at hc; cases hc
    · refine .bind (Q := fun a u => a = ([], true) ∧ u = ⟨source, d, toks c ++ toks cs.flatten⟩) ?_ ?_
      · refine .ite (fun hc => ?_) (fun _ => .pure ⟨rfl, rfl⟩)
        rw [hr.la, hla, hf] at hc
        cases hc
      · rintro _ _ ⟨rfl, rfl⟩
        dsimp only
        refine .ite (fun hc => by cases hc) (fun _ => ?_)
        refine .bind (Q := fun a u => a = (true, acc ++ [x], []) ∧ u = ⟨source, d ++ c, toks cs.flatten⟩) ?_ ?_
        · simp only [loopElem]
          refine .bind (Q := fun a u => a = (View.mk source d (toks c ++ toks cs.flatten)).cur ∧
            u = ⟨source, d, toks c ++ toks cs.flatten⟩) (.currentSpan ⟨rfl, rfl⟩) ?_
          rintro _ _ ⟨rfl, rfl⟩
          refine (ih1 d _ hd hr ?_).to ?_
          · have := la_ahead (source := source) cs.flatten []
            rwa [List.append_nil] at this
          dsimp only
          refine .bind (Q := fun a u => a = (View.mk source (d ++ c) (toks cs.flatten)).cur ∧
            u = ⟨source, d ++ c, toks cs.flatten⟩) (.currentSpan ⟨rfl, rfl⟩) ?_
          rintro _ _ ⟨rfl, rfl⟩
          refine .ite (fun hc => ?_) (fun _ => .pure ⟨rfl, rfl⟩)
          exfalso
          have ha : Adv (View.mk source d (toks c ++ toks cs.flatten))
              (View.mk source (d ++ c) (toks cs.flatten)) := ⟨rfl, toks c, rfl, by simp⟩
          have := (hr.cur_lo ha (by simp [hne])).1 hc
          have := congrArg List.length this
          simp only [List.length_append, List.length_map] at this
          exact hne (List.eq_nil_of_length_eq_zero (by omega))
        · rintro _ _ ⟨rfl, rfl⟩
          simp only [if_true]
          refine (ih2 (d ++ c) _ (by rw [endOf_append, hd]) hr.step).mono ?_
          rintro _ _ ⟨rfl, rfl⟩
          exact ⟨by simp, by simp⟩
  | splitStop hs =>
    intro d rest ae ap fol hd hr hn
    subst hn
    refine .succ ?_
    simp only [splitOuter]
    exact .peekTo (.ite (fun hc => absurd (hr.sees.1 hc) hs) (fun _ => .pure ⟨by simp, by simp⟩))
  | @splitGo pos t p c q c' x cs ps es next hs1 _ hs2 _ _ ih1 ih2 ih3 =>
    intro d rest ae ap fol hd hr hn
    rw [List.flatten_cons, List.flatten_cons, toks_append, toks_append, List.append_assoc,
      List.append_assoc] at hr ⊢
    refine .succ ?_
    simp only [splitOuter]
    refine .peekTo (.ite (fun _ => ?_) (fun hc => absurd (hr.sees.2 ?_) hc))
    · refine (ih1 d _ hd hr (by rw [la_ahead, la_ahead, hn, ← ahead_append])).to ?_
      dsimp only
      refine .bind (Q := fun a u => a = (true, ⟨ae ++ [x], ap ++ [q], []⟩) ∧
        u = ⟨source, (d ++ c) ++ c', toks cs.flatten ++ rest⟩) ?_ ?_
      · refine .succ ?_
        simp only [splitInner]
        refine .bind (Q := fun a u => a = .error ⟨ae ++ [x], ap ++ [q], []⟩ ∧
          u = ⟨source, (d ++ c) ++ c', toks cs.flatten ++ rest⟩) ?_ ?_
        · simp only [splitTry]
          refine .peekTo (.ite (fun _ => ?_) (fun hc => absurd (starts_iff.2 ?_) hc))
          · refine (ih2 (d ++ c) _ (by rw [endOf_append, hd]) hr.step (by rw [la_ahead, hn])).to ?_
            exact .pure ⟨rfl, rfl⟩
          · rw [hr.step.la, la_ahead, la_ahead, hn, ← ahead_append]; exact hs2
        · rintro _ _ ⟨rfl, rfl⟩
          exact .pure ⟨rfl, rfl⟩
      · rintro _ _ ⟨rfl, rfl⟩
        simp only [if_true]
        refine (ih3 (d ++ c ++ c') rest _ _ _ (by rw [endOf_append, endOf_append, hd]) hr.step.step hn).mono ?_
        rintro _ _ ⟨rfl, rfl⟩
        exact ⟨by simp, by simp⟩
    · rw [la_ahead, la_ahead, la_ahead, hn, ← ahead_append, ← ahead_append, List.append_assoc]; exact hs1
  | punctStop hs =>
    intro d rest ae ap hd hr hn
    subst hn
    refine .succ ?_
    simp only [punctOuter]
    exact .peekTo (.ite (fun hc => absurd (hr.sees.1 hc) hs) (fun _ => .pure ⟨by simp, by simp⟩))
  | @punctTrail pos t p c q next hs1 _ hs2 hf ih =>
    intro d rest ae ap hd hr hn
    simp only [List.flatten_cons, List.flatten_nil, List.append_nil] at hr ⊢
    refine .succ ?_
    simp only [punctOuter]
    refine .peekTo (.ite (fun _ => ?_) (fun hc => absurd (hr.sees.2 ?_) hc))
    · refine (ih d rest hd hr hn).to ?_
      dsimp only
      refine .bind (Q := fun a u => a = (false, ⟨ae, ap ++ [q], []⟩) ∧ u = ⟨source, d ++ c, rest⟩) ?_ ?_
      · refine .succ ?_
        simp only [punctInner]
        refine .bind (Q := fun b u => b = .error (false, ⟨ae, ap ++ [q], []⟩) ∧ u = ⟨source, d ++ c, rest⟩) ?_ ?_
        · simp only [punctTry]
          refine .peekTo (.ite (fun _ => .pure ⟨by simp, rfl⟩) (fun hno => ?_))
          rw [hr.step.la, hn] at hno ⊢
          cases next with
          | none => exact absurd rfl hno
          | some tok =>
            refine .ite (fun hc => absurd ⟨tok, rfl, hc⟩ hs2) (fun _ => .ite (fun _ => .pure ⟨by simp, rfl⟩) (fun hc => ?_))
            exact absurd (hf tok rfl) hc
        · rintro _ _ ⟨rfl, rfl⟩
          exact .pure ⟨rfl, rfl⟩
      · rintro _ _ ⟨rfl, rfl⟩
        exact .pure ⟨by simp, rfl⟩
    · rw [la_ahead, hn]; exact hs1
  | @punctGo pos t p c q c' x cs ps es next hs1 _ hs2 _ _ ih1 ih2 ih3 =>
    intro d rest ae ap hd hr hn
    rw [List.flatten_cons, List.flatten_cons, toks_append, toks_append, List.append_assoc,
      List.append_assoc] at hr ⊢
    refine .succ ?_
    simp only [punctOuter]
    refine .peekTo (.ite (fun _ => ?_) (fun hc => absurd (hr.sees.2 ?_) hc))
    · refine (ih1 d _ hd hr (by rw [la_ahead, la_ahead, hn, ← ahead_append])).to ?_
      dsimp only
      refine .bind (Q := fun a u => a = (true, ⟨ae ++ [x], ap ++ [q], []⟩) ∧
        u = ⟨source, (d ++ c) ++ c', toks cs.flatten ++ rest⟩) ?_ ?_
      · refine .succ ?_
        simp only [punctInner]
        refine .bind (Q := fun a u => a = .error (true, ⟨ae ++ [x], ap ++ [q], []⟩) ∧
          u = ⟨source, (d ++ c) ++ c', toks cs.flatten ++ rest⟩) ?_ ?_
        · simp only [punctTry]
          refine .peekTo ?_
          obtain ⟨w, hw, hf⟩ := hs2
          rw [hr.step.la, la_ahead, la_ahead, hn, ← ahead_append, hw]
          refine .ite (fun hn => by cases hn) (fun _ => .ite (fun _ => ?_) (fun hc => absurd hf hc))
          refine (ih2 (d ++ c) _ (by rw [endOf_append, hd]) hr.step (by rw [la_ahead, hn])).to ?_
          exact .pure ⟨by simp, rfl⟩
        · rintro _ _ ⟨rfl, rfl⟩
          exact .pure ⟨rfl, rfl⟩
      · rintro _ _ ⟨rfl, rfl⟩
        simp only [if_true]
        refine (ih3 (d ++ c ++ c') rest _ _ (by rw [endOf_append, endOf_append, hd]) hr.step.step hn).mono ?_
        rintro _ _ ⟨rfl, rfl⟩
        exact ⟨by simp, by simp⟩
    · rw [la_ahead, la_ahead, la_ahead, hn, ← ahead_append, ← ahead_append, List.append_assoc]; exact hs1

end
end Teleparse
