import Verif.Proof.State
/-
Facts about `Yields` and the first step of producing.
-/
namespace Teleparse
variable {m n : Nat} {ext : Fin n → Bool} {S : Schema m n} {md : Metadata (PId m n) n}

theorem get?_eq {source : Str} {sp : Span} (h : sp.InSource source) (hlt : sp.lo < sp.hi) :
    sp.get? source = some ((source.drop sp.lo).take (sp.hi - sp.lo)) := by
  unfold Span.get?
  rw [if_neg (by omega)]
  obtain ⟨⟨_, h2⟩, h3, h4⟩ := h
  have e : min sp.hi source.length = sp.hi := Nat.min_eq_left h3
  simp only [e]
  unfold sliceStr?
  rw [if_pos ⟨by omega, h3, h2, h4⟩]

theorem yields_iff {t : Ty m n} {p p' : Parser n} {r : Res n (Tree n)} :
    Yields ext S md t p r p' ↔
      ∃ fuel, produceStep (Parser.ops ext) S md fuel (produce (Parser.ops ext) S md fuel) t p = .ok r p' := by
  constructor
  · rintro ⟨fuel, h⟩
    cases fuel with
    | zero => cases h
    | succ fuel => exact ⟨fuel, h⟩
  · rintro ⟨fuel, h⟩; exact ⟨fuel + 1, h⟩

theorem produce_more {σ : Type} {o : Ops σ n} {t : Ty m n} {p p' : σ} {r : Res n (Tree n)} {f f' : Nat}
    (h : produce o S md f t p = .ok r p') (hf : f ≤ f') : produce o S md f' t p = .ok r p' := by
  rw [produce_mono o S md hf t p (by rw [h]; simp), h]

theorem Yields.unique {t : Ty m n} {p p1 p2 : Parser n} {r1 r2 : Res n (Tree n)}
    (h1 : Yields ext S md t p r1 p1) (h2 : Yields ext S md t p r2 p2) : r1 = r2 ∧ p1 = p2 := by
  obtain ⟨f1, h1⟩ := h1
  obtain ⟨f2, h2⟩ := h2
  have a := produce_more h1 (Nat.le_max_left f1 f2)
  have b := produce_more h2 (Nat.le_max_right f1 f2)
  rw [a] at b
  cases b
  exact ⟨rfl, rfl⟩

theorem Yields.run {t : Ty m n} {p p' : Parser n} {r : Res n (Tree n)} (h : Yields ext S md t p r p') :
    Run S (.ty t (p.view ext) r (p'.view ext)) := by
  obtain ⟨fuel, h⟩ := h
  have hs := produce_view ext S md fuel t p
  rw [h] at hs
  exact run_of_produce S md fuel t _ _ _ hs

theorem Yields.reached {source : Str} {items : List (Item n)} {t : Ty m n} {p p' : Parser n}
    {r : Res n (Tree n)} (hp : Reached ext source items p) (h : Yields ext S md t p r p') :
    Reached ext source items p' := by
  obtain ⟨fuel, h⟩ := h
  exact .produce S md fuel t r hp h

/-- What is produced depends on the stream only. -/
theorem Yields.view {t : Ty m n} {p q p' : Parser n} {r : Res n (Tree n)} (h : Yields ext S md t p r p')
    (hv : p.view ext = q.view ext) : ∃ q', Yields ext S md t q r q' ∧ p'.view ext = q'.view ext := by
  obtain ⟨fuel, h⟩ := h
  have h1 := produce_view ext S md fuel t p
  rw [h, hv] at h1
  obtain ⟨q', h2, h3⟩ := Sim.run (produce_view ext S md fuel t) h1
  exact ⟨q', ⟨fuel, h2⟩, h3.symm⟩

theorem Reached.token {source : Str} {items : List (Item n)} {p : Parser n}
    (h : Reached ext source items p) (hw : ItemsWF source items) {t : Token n}
    (ht : t ∈ (p.view ext).rest) :
    t.span.get? source = some ((source.drop t.span.lo).take (t.span.hi - t.span.lo)) :=
  get?_eq ((h.inSource hw).good.rest t ht) ((hw.sorted (ext := ext)).1 t (by
    rw [← h.total]; exact List.mem_append_right _ ht))

theorem Reached.look {source : Str} {items : List (Item n)} {p : Parser n}
    (h : Reached ext source items p) (hw : ItemsWF source items) :
    (p.view ext).look = p.lookahead ext := by
  unfold View.look Parser.lookahead
  cases hr : (p.view ext).rest with
  | nil => rfl
  | cons t l =>
    have := h.token hw (t := t) (by simp [hr])
    have hs : (p.view ext).source = source := h.source
    simp [Token.toSrc, Token.src, Span.get, hs, this, h.source]

theorem Reached.peekSrc {source : Str} {items : List (Item n)} {p : Parser n}
    (h : Reached ext source items p) (hw : ItemsWF source items) :
    (Parser.ops ext).mPeekSrc p = .ok (p.lookahead ext) (p.peek ext).2 := by
  obtain ⟨h1, h2⟩ := view_fill ext p
  unfold Ops.mPeekSrc
  rw [bind_ok]
  refine ⟨(p.view ext).rest.head?, p.fill ext, by simp [Ops.mPeek, Parser.ops, Parser.peek, h2], ?_⟩
  unfold Parser.lookahead
  cases hr : (p.view ext).rest with
  | nil => rfl
  | cons t l =>
    have ht := h.token hw (t := t) (by simp [hr])
    have hs : (p.fill ext).info.source = source := h.peek.source
    have hs' : p.info.source = source := h.source
    simp only [List.head?_cons, Option.map_some, hs']
    rw [bind_ok]
    refine ⟨_, p.fill ext, ?_, rfl⟩
    unfold Ops.mGetSrc
    rw [bind_ok]
    refine ⟨source, p.fill ext, by simp [Ops.mSource, Parser.ops, hs], ?_⟩
    rw [ht]
    rfl

theorem emptySpan_view {p q : Parser n} (h : p.view ext = q.view ext) : p.emptySpan = q.emptySpan := by
  have : p.info.tokens = q.info.tokens := congrArg View.cells h
  simp [Parser.emptySpan, this]

theorem peek_view (ext : Fin n → Bool) (p : Parser n) : (p.peek ext).2.view ext = p.view ext :=
  (view_fill ext p).1

/-- The result of `produce_option` when the element was produced. -/
def optWrap (mk : Span → Option (Tree n) → Tree n) (sp : Span) : Res n (Tree n) → Res n (Tree n)
  | .success x => .success (mk x.span (some x))
  | .recovered x e => .recovered (mk x.span (some x)) e
  | .panic e => .recovered (mk sp none) e

theorem produceOption_ok {source : Str} {items : List (Item n)} {p p' : Parser n}
    (h : Reached ext source items p) (hw : ItemsWF source items) (first : TSet n)
    (q : P (Parser n) n) (mk : Span → Option (Tree n) → Tree n) (r : Res n (Tree n)) :
    produceOption (Parser.ops ext) first q mk p = .ok r p' ↔
      if p.canStart ext first then
        ∃ r0, q (p.peek ext).2 = .ok r0 p' ∧ r = optWrap mk p'.emptySpan r0
      else r = .success (mk p.emptySpan none) ∧ p' = (p.peek ext).2 := by
  unfold produceOption
  rw [bind_ok]
  have he : (Parser.ops ext).mEmptySpan (p.peek ext).2 = .ok p.emptySpan (p.peek ext).2 := by
    rw [emptySpan_view (peek_view ext p).symm]; rfl
  constructor
  · rintro ⟨a, s1, h1, h2⟩
    rw [h.peekSrc hw] at h1
    cases h1
    unfold Parser.canStart
    split at h2
    · rename_i hc
      rw [if_pos hc]
      rw [bind_ok] at h2
      obtain ⟨r0, p1, h3, h4⟩ := h2
      cases r0 with
      | success x =>
        rw [pure_ok] at h4
        obtain ⟨rfl, rfl⟩ := h4
        exact ⟨_, h3, rfl⟩
      | recovered x e =>
        rw [pure_ok] at h4
        obtain ⟨rfl, rfl⟩ := h4
        exact ⟨_, h3, rfl⟩
      | panic e =>
        rw [bind_ok] at h4
        obtain ⟨sp, p2, h5, h6⟩ := h4
        cases h5
        rw [pure_ok] at h6
        obtain ⟨rfl, rfl⟩ := h6
        exact ⟨_, h3, rfl⟩
    · rename_i hc
      rw [if_neg hc]
      rw [bind_ok] at h2
      obtain ⟨sp, p2, h5, h6⟩ := h2
      rw [he] at h5
      cases h5
      rw [pure_ok] at h6
      obtain ⟨rfl, rfl⟩ := h6
      exact ⟨rfl, rfl⟩
  · intro h2
    refine ⟨_, _, h.peekSrc hw, ?_⟩
    unfold Parser.canStart at h2
    split at h2
    · rename_i hc
      rw [if_pos hc, bind_ok]
      obtain ⟨r0, h3, rfl⟩ := h2
      refine ⟨r0, p', h3, ?_⟩
      cases r0 with
      | success x => rfl
      | recovered x e => rfl
      | panic e =>
        rw [bind_ok]
        exact ⟨_, _, rfl, rfl⟩
    · rename_i hc
      rw [if_neg hc, bind_ok]
      obtain ⟨rfl, rfl⟩ := h2
      exact ⟨_, _, he, rfl⟩

theorem seqLoop_parts (ts : List (Ty m n)) (fuel : Nat) : ∀ (p p' : Parser n) acc errs res,
    seqLoop (ts.map (produce (Parser.ops ext) S md fuel)) acc errs p = .ok res p' →
    ∃ rs, Parts ext S md ts p rs p' ∧
      ((noneFailed rs ∧ res = .ok (acc ++ allTrees rs, errs ++ allErrs rs)) ∨
       (¬ noneFailed rs ∧ res = .error (errs ++ allErrs rs))) := by
  induction ts with
  | nil =>
    intro p p' acc errs res h
    simp only [List.map_nil, seqLoop, pure_ok] at h
    obtain ⟨rfl, rfl⟩ := h
    exact ⟨[], .nil, .inl ⟨by simp [noneFailed], by simp [allTrees, allErrs]⟩⟩
  | cons t ts ih =>
    intro p p' acc errs res h
    simp only [List.map_cons, seqLoop, bind_ok] at h
    obtain ⟨r, p1, h1, h2⟩ := h
    have key : ∀ x e, r.tree? = some x → r.errs = e →
        seqLoop (ts.map (produce (Parser.ops ext) S md fuel)) (acc ++ [x]) (errs ++ e) p1 = .ok res p' →
        ∃ rs, Parts ext S md (t :: ts) p rs p' ∧
          ((noneFailed rs ∧ res = .ok (acc ++ allTrees rs, errs ++ allErrs rs)) ∨
           (¬ noneFailed rs ∧ res = .error (errs ++ allErrs rs))) := by
      intro x e hx he h3
      obtain ⟨rs, h4, h5⟩ := ih _ _ _ _ _ h3
      refine ⟨r :: rs, .next ⟨fuel, h1⟩ (by simp [hx]) h4, ?_⟩
      rcases h5 with ⟨h5, rfl⟩ | ⟨h5, rfl⟩
      · refine .inl ⟨?_, ?_⟩
        · intro r' hr'
          rcases List.mem_cons.1 hr' with rfl | hr'
          · simp [hx]
          · exact h5 r' hr'
        · simp [allTrees, allErrs, hx, he]
      · refine .inr ⟨fun hn => h5 fun r' hr' => hn r' (List.mem_cons_of_mem _ hr'), ?_⟩
        simp [allErrs, he]
    cases r with
    | success x => exact key x [] rfl rfl (by simpa using h2)
    | recovered x e => exact key x e rfl rfl h2
    | panic e =>
      rw [pure_ok] at h2
      obtain ⟨rfl, rfl⟩ := h2
      refine ⟨[.panic e], .fail ⟨fuel, h1⟩, .inr ⟨?_, by simp [allErrs, Res.errs]⟩⟩
      intro hn
      have := hn _ (List.mem_cons_self ..)
      simp [Res.tree?] at this

theorem parts_seqLoop {ts : List (Ty m n)} {p p' : Parser n} {rs : List (Res n (Tree n))}
    (h : Parts ext S md ts p rs p') : ∃ N, ∀ fuel, N ≤ fuel → ∀ acc errs,
      (noneFailed rs → seqLoop (ts.map (produce (Parser.ops ext) S md fuel)) acc errs p =
        .ok (.ok (acc ++ allTrees rs, errs ++ allErrs rs)) p') ∧
      (¬ noneFailed rs → seqLoop (ts.map (produce (Parser.ops ext) S md fuel)) acc errs p =
        .ok (.error (errs ++ allErrs rs)) p') := by
  induction h with
  | nil =>
    refine ⟨0, fun fuel _ acc errs => ⟨fun _ => ?_, fun hn => absurd (by simp [noneFailed]) hn⟩⟩
    simp [seqLoop, allTrees, allErrs, pure_ok]
  | @next t ts p r p1 rs p' hy hr _ ih =>
    obtain ⟨N, ih⟩ := ih
    obtain ⟨f, hy⟩ := hy
    refine ⟨max N f, fun fuel hf acc errs => ?_⟩
    have h1 := produce_more hy (f' := fuel) (by omega)
    obtain ⟨x, hx⟩ := Option.isSome_iff_exists.1 hr
    have key : ∀ res, seqLoop (ts.map (produce (Parser.ops ext) S md fuel)) (acc ++ [x]) (errs ++ r.errs) p1 =
        .ok res p' → seqLoop ((t :: ts).map (produce (Parser.ops ext) S md fuel)) acc errs p = .ok res p' := by
      intro res h2
      simp only [List.map_cons, seqLoop, bind_ok]
      refine ⟨r, p1, h1, ?_⟩
      cases r with
      | success y => cases hx; simpa [Res.errs] using h2
      | recovered y e => cases hx; exact h2
      | panic e => cases hx
    obtain ⟨i1, i2⟩ := ih fuel (by omega) (acc ++ [x]) (errs ++ r.errs)
    have hsub : noneFailed (r :: rs) ↔ noneFailed rs := by
      constructor
      · intro hn r' hr'; exact hn r' (List.mem_cons_of_mem _ hr')
      · intro hn r' hr'
        rcases List.mem_cons.1 hr' with rfl | hr'
        · exact hr
        · exact hn r' hr'
    constructor
    · intro hn
      have := key _ (i1 (hsub.1 hn))
      rw [this]
      simp [allTrees, allErrs, hx]
    · intro hn
      have := key _ (i2 (fun h => hn (hsub.2 h)))
      rw [this]
      simp [allErrs]
  | @fail t ts p e p1 hy =>
    obtain ⟨f, hy⟩ := hy
    refine ⟨f, fun fuel hf acc errs => ⟨fun hn => ?_, fun _ => ?_⟩⟩
    · have := hn _ (List.mem_cons_self ..)
      simp [Res.tree?] at this
    · simp only [List.map_cons, seqLoop, bind_ok]
      refine ⟨_, _, produce_more hy hf, ?_⟩
      simp [pure_ok, allErrs, Res.errs]

theorem tupLike_step {t : Ty m n} {ts : List (Ty m n)} (ht : TupLike t ts) (fuel : Nat)
    (rec : Ty m n → P (Parser n) n) :
    produceStep (Parser.ops ext) S md fuel rec t = produceTuple (ts.map rec) := by
  cases ht <;> rfl

theorem seqResult_ofPair {rs : List (Res n (Tree n))} (h : noneFailed rs) :
    SeqResult rs (Res.ofPair (.seq (spanOf (allTrees rs)) (allTrees rs)) (allErrs rs)) := by
  unfold Res.ofPair
  cases he : allErrs rs with
  | nil => exact .success h he
  | cons a l =>
    have := SeqResult.recovered h (by rw [he]; simp)
    rw [he] at this
    exact this

theorem SeqResult.unique {rs : List (Res n (Tree n))} {a b : Res n (Tree n)} (h1 : SeqResult rs a)
    (h2 : SeqResult rs b) : a = b := by
  cases h1 <;> cases h2 <;> first | rfl | contradiction

theorem tupLike_of {t : Ty m n} {ts : List (Ty m n)} (h : t.isTuple ts) : TupLike t ts := by
  rcases h with ⟨a, b, rfl, rfl⟩ | ⟨a, b, c, rfl, rfl⟩ | ⟨a, b, c, d, rfl, rfl⟩ | ⟨a, b, c, d, e, rfl, rfl⟩
  · exact .tup2 a b
  · exact .tup3 a b c
  · exact .tup4 a b c d
  · exact .tup5 a b c d e

theorem applyFields_parser {l : List (Tree n × Option (LSet n))} {p p' : Parser n} {x : Unit} :
    applyFields (Parser.ops ext) l p = .ok x p' ↔ p' = p.applyAll l := by
  induction l generalizing p with
  | nil => simp [applyFields, Parser.applyAll, pure_ok, eq_comm]
  | cons a l ih =>
    obtain ⟨t, sem⟩ := a
    cases sem with
    | none => simp [applyFields, Parser.applyAll, ih]
    | some sem =>
      simp only [applyFields, Parser.applyAll, bind_ok, ih]
      constructor
      · rintro ⟨_, _, h1, rfl⟩; cases h1; rfl
      · rintro rfl; exact ⟨(), _, rfl, rfl⟩

theorem get?_slice {source : Str} {sp : Span} (h : sp.InSource source) :
    sp.get? source = some ((source.drop sp.lo).take (sp.hi - sp.lo)) := by
  by_cases hlt : sp.lo < sp.hi
  · exact get?_eq h hlt
  · have e : sp.hi - sp.lo = 0 := by omega
    simp [Span.get?, show sp.hi ≤ sp.lo by omega, e]

theorem mGetSrc_parser {p : Parser n} {sp : Span} (h : sp.InSource p.info.source) :
    (Parser.ops ext).mGetSrc sp p = .ok ((p.info.source.drop sp.lo).take (sp.hi - sp.lo)) p := by
  unfold Ops.mGetSrc
  rw [bind_ok]
  refine ⟨p.info.source, p, rfl, ?_⟩
  rw [get?_slice h]
  rfl

theorem mCurrentSpan_parser (p : Parser n) :
    (Parser.ops ext).mCurrentSpan p = .ok (p.view ext).cur (p.peek ext).2 := by
  obtain ⟨h1, h2⟩ := view_fill ext p
  unfold Ops.mCurrentSpan
  rw [bind_ok]
  refine ⟨(p.view ext).rest.head?, p.fill ext, by simp [Ops.mPeek, Parser.ops, Parser.peek, h2], ?_⟩
  unfold View.cur
  have hs : (p.fill ext).info.source = (p.view ext).source := by rw [← h1]; rfl
  cases hr : (p.view ext).rest with
  | cons t l => rfl
  | nil =>
    simp only [List.head?_nil]
    rw [bind_ok]
    exact ⟨_, _, rfl, by simp [Parser.ops, hs, pure_ok, Parser.peek]⟩

theorem peek_peek (ext : Fin n → Bool) (p : Parser n) :
    ((p.peek ext).2.peek ext).2.view ext = p.view ext := by rw [peek_view, peek_view]

theorem yields_of_view {fuel : Nat} {t : Ty m n} {p : Parser n} {r : Res n (Tree n)} {v : View n}
    (h : produce View.ops S md fuel t (p.view ext) = .ok r v) :
    ∃ p', Yields ext S md t p r p' ∧ p'.view ext = v := by
  obtain ⟨p', h1, h2⟩ := Sim.run (produce_view ext S md fuel t) h
  exact ⟨p', ⟨fuel, h1⟩, h2⟩

theorem nextSpan_eq (p : Parser n) : p.nextSpan ext = (p.view ext).cur := by
  unfold Parser.nextSpan View.cur
  cases (p.view ext).rest <;> rfl

theorem term_missing {v : View n} {i : Nat} {k : Terminal n} {lit : Str} (hlit : k.lit = some lit)
    (hget : ∀ t ∈ v.rest.head?, (t.span.get? v.source).isSome = true)
    (hmiss : v.look ≠ some ⟨k.ty, lit⟩)
    (hfol : (md.follow.get (.term i k)).contains v.look = true) (fuel : Nat) :
    ∃ x : Token n, produce View.ops S md (fuel + 1) (.term i k) v =
      .ok (.recovered (.tok x) [⟨v.cur, .expecting (TSet.one k.ty (some lit))⟩]) v ∧
      x.ty = k.ty ∧ x.span.lo = x.span.hi := by
  unfold produce produceStep produceTerm
  simp only [hlit]
  cases hr : v.rest with
  | nil =>
    refine ⟨⟨v.cur, k.ty⟩, ?_, rfl, by simp [View.cur, hr]⟩
    have hl : v.look = none := by simp [View.look, hr]
    rw [hl] at hfol
    rw [bind_ok]
    refine ⟨.recovered ⟨v.cur, k.ty⟩ [⟨v.cur, .expecting (TSet.one k.ty (some lit))⟩], v, ?_, rfl⟩
    unfold Ops.parseTokenLit
    rw [bind_ok]
    refine ⟨none, v, by simp [mPeek_ok, hr], ?_⟩
    simp only
    rw [if_pos (show (md.follow.get (.term i k)).containsE = true from hfol), bind_ok]
    refine ⟨v.cur, v, by simp [mCurrentSpan_ok], ?_⟩
    rw [bind_ok]
    exact ⟨_, v, mExpecting_ok.2 ⟨rfl, rfl⟩, rfl⟩
  | cons t l =>
    refine ⟨⟨⟨v.pos, v.pos⟩, k.ty⟩, ?_, rfl, rfl⟩
    obtain ⟨s, hs⟩ := Option.isSome_iff_exists.1 (hget t (by simp [hr]))
    have hl : v.look = some ⟨t.ty, s⟩ := by simp [View.look, hr, Token.toSrc, Token.src, Span.get, hs]
    rw [hl] at hfol hmiss
    rw [bind_ok]
    refine ⟨.recovered ⟨⟨v.pos, v.pos⟩, k.ty⟩ [⟨v.cur, .expecting (TSet.one k.ty (some lit))⟩], v, ?_, rfl⟩
    unfold Ops.parseTokenLit
    rw [bind_ok]
    refine ⟨some t, v, by simp [mPeek_ok, hr], ?_⟩
    simp only
    rw [bind_ok]
    refine ⟨s, v, mGetSrc_ok.2 ⟨hs, rfl⟩, ?_⟩
    rw [if_neg (by rintro ⟨h1, h2⟩; exact hmiss (by rw [h1, h2])), if_pos hfol, bind_ok]
    refine ⟨_, v, mEmptySpan_ok.2 ⟨rfl, rfl⟩, ?_⟩
    rw [bind_ok]
    exact ⟨_, v, mExpecting_ok.2 ⟨rfl, rfl⟩, rfl⟩

theorem Reached.getHead {source : Str} {items : List (Item n)} {p : Parser n}
    (h : Reached ext source items p) (hw : ItemsWF source items) :
    ∀ t ∈ (p.view ext).rest.head?, (t.span.get? (p.view ext).source).isSome = true := by
  intro t ht
  have hs : (p.view ext).source = source := h.source
  rw [hs, h.token hw (List.mem_of_mem_head? ht)]
  rfl

end Teleparse
