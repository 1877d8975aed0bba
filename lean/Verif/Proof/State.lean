import Verif.Proof.Good
import Verif.Spec.Produce
/-
Invariants of all reachable parser states.
-/
namespace Teleparse
variable {m n : Nat}

theorem Res.Good.errs {E : Nat → Prop} {r : Res n (Tree n)} (h : r.Good E) : GoodE E r.errs := by
  cases r with
  | success x => exact .nil
  | recovered x e => exact h.2
  | panic e => exact h

theorem produce_good {E : Nat → Prop} {ext : Fin n → Bool} {S : Schema m n} {md : Metadata (PId m n) n}
    {fuel : Nat} {t : Ty m n} {p p' : Parser n} {r : Res n (Tree n)}
    (h : produce (Parser.ops ext) S md fuel t p = .ok r p') (hv : GoodView E (p.view ext)) : r.Good E := by
  have hs := produce_view ext S md fuel t p
  rw [h] at hs
  exact (run_of_produce S md fuel t _ _ _ hs).good hv

theorem produce_adv {ext : Fin n → Bool} {S : Schema m n} {md : Metadata (PId m n) n}
    {fuel : Nat} {t : Ty m n} {p p' : Parser n} {r : Res n (Tree n)}
    (h : produce (Parser.ops ext) S md fuel t p = .ok r p') : Adv (p.view ext) (p'.view ext) := by
  have hs := produce_view ext S md fuel t p
  rw [h] at hs
  exact (run_of_produce S md fuel t _ _ _ hs).adv

/-- Errors of `produce` are never about unrecognised input. -/
theorem produce_kinds {ext : Fin n → Bool} {S : Schema m n} {md : Metadata (PId m n) n}
    {fuel : Nat} {t : Ty m n} {p p' : Parser n} {r : Res n (Tree n)}
    (h : produce (Parser.ops ext) S md fuel t p = .ok r p') (e : Err n) (he : e ∈ r.errs) :
    e.kind ≠ .unexpectedCharacters := by
  have := produce_good (E := fun _ => True) h
    ⟨trivial, trivial, fun _ _ => ⟨trivial, trivial⟩, fun _ _ => ⟨trivial, trivial⟩⟩
  exact (this.errs e he).2

/-- The outcome of `parse_with_meta`. -/
theorem parseWithMeta_ok {ext : Fin n → Bool} {S : Schema m n} {md : Metadata (PId m n) n} {fuel : Nat}
    {t : Ty m n} {p p' : Parser n} {x : Option (Tree n)} (h : p.parseWithMeta ext S md fuel t = .ok x p') :
    ∃ r q, produce (Parser.ops ext) S md fuel t p = .ok r q ∧
      p' = { q with info := { q.info with errors := q.info.errors ++ r.errs } } ∧
      (x = none ↔ ∃ e, r = .panic e) ∧ ∀ y, x = some y ↔ ∃ e, r.Gives y e := by
  unfold Parser.parseWithMeta at h
  cases hp : produce (Parser.ops ext) S md fuel t p with
  | fuel => rw [hp] at h; cases h
  | crash => rw [hp] at h; cases h
  | ok r q =>
    rw [hp] at h
    cases r with
    | success y =>
      cases h
      refine ⟨_, _, rfl, by simp [Res.errs], by simp, fun z => ⟨?_, ?_⟩⟩
      · intro hz; cases hz; exact ⟨[], .success _⟩
      · rintro ⟨e, he⟩; cases he; rfl
    | recovered y e =>
      cases h
      refine ⟨_, _, rfl, by simp [Res.errs], by simp, fun z => ⟨?_, ?_⟩⟩
      · intro hz; cases hz; exact ⟨e, .recovered _ _⟩
      · rintro ⟨e, he⟩; cases he; rfl
    | panic e =>
      cases h
      refine ⟨_, _, rfl, by simp [Res.errs], by simp, fun z => ⟨?_, ?_⟩⟩
      · intro hz; cases hz
      · rintro ⟨e, he⟩; cases he

theorem parse_ok {ext : Fin n → Bool} {S : Schema m n} {fuel : Nat} {t : Ty m n} {p p' : Parser n}
    {r : Except (GErr (PId m n)) (Option (Tree n))} (h : p.parse ext S fuel t = .ok r p') :
    (∃ e, S.metadata fuel t = some (.error e) ∧ r = .error e ∧ p' = p) ∨
    (∃ md x, S.metadata fuel t = some (.ok md) ∧ r = .ok x ∧
      p.parseWithMeta ext S md fuel t = .ok x p') := by
  unfold Parser.parse at h
  cases hm : S.metadata fuel t with
  | none => rw [hm] at h; cases h
  | some x =>
    rw [hm] at h
    cases x with
    | error e => cases h; exact .inl ⟨e, rfl, rfl, rfl⟩
    | ok md =>
      simp only at h
      cases hp : p.parseWithMeta ext S md fuel t with
      | fuel => rw [hp] at h; cases h
      | crash => rw [hp] at h; cases h
      | ok x q =>
        rw [hp] at h
        cases h
        exact .inr ⟨md, x, rfl, rfl, hp⟩

theorem PInv.addErrors {ext : Fin n → Bool} {source : Str} {items done : List (Item n)} {p : Parser n}
    (h : PInv ext source items done p) (e : List (Err n)) (he : ∀ d ∈ e, d.kind ≠ .unexpectedCharacters) :
    PInv ext source items done { p with info := { p.info with errors := p.info.errors ++ e } } := by
  refine ⟨h.split, h.whole, h.src, h.extracted, h.stream, h.invalid, ?_, h.skipped⟩
  simp only [List.filter_append, h.errors]
  rw [List.filter_eq_nil_iff.2, List.append_nil]
  intro d hd
  simpa [Err.isChars] using he d hd

/-- All reachable states satisfy the invariant. -/
theorem Reached.inv {ext : Fin n → Bool} {source : Str} {items : List (Item n)} {p : Parser n}
    (h : Reached ext source items p) : PInv.Some ext source items p := by
  induction h with
  | new => exact ⟨[], .new ext source items⟩
  | peek _ ih => exact PInv.peek ih
  | consume _ ih => exact PInv.consume ih
  | apply sp sem _ ih => exact PInv.applySem ih sp sem
  | produce S md fuel t r _ hr ih => exact PInv.produce ih S md fuel t r hr
  | parse S fuel t r _ hr ih =>
    rcases parse_ok hr with ⟨e, _, _, rfl⟩ | ⟨md, x, _, _, hp⟩
    · exact ih
    · obtain ⟨r, q, hq, rfl, _, _⟩ := parseWithMeta_ok hp
      obtain ⟨done, hd⟩ := PInv.produce ih S md fuel t r hq
      exact ⟨done, hd.addErrors _ (produce_kinds hq)⟩

/-- Consumed and pending tokens are always the whole stream. -/
theorem PInv.total {ext : Fin n → Bool} {source : Str} {items done : List (Item n)} {p : Parser n}
    (h : PInv ext source items done p) :
    (p.view ext).cells.map (·.token) ++ (p.view ext).rest = streamOf ext items := by
  have := h.stream
  rw [h.split, streamOf_append, ← this]
  simp [Parser.view]

theorem tokensOf_mem {items : List (Item n)} {t : Token n} (h : t ∈ tokensOf items) : .token t ∈ items := by
  induction items with
  | nil => cases h
  | cons x l ih =>
    cases x with
    | token s =>
      simp only [tokensOf, List.mem_cons] at h
      rcases h with rfl | h
      · exact List.mem_cons_self ..
      · exact List.mem_cons_of_mem _ (ih h)
    | error sp => exact List.mem_cons_of_mem _ (ih h)

theorem tokensOf_pairwise {items : List (Item n)}
    (h : items.Pairwise (fun a b => a.span.hi ≤ b.span.lo)) :
    (tokensOf items).Pairwise (fun a b => a.span.hi ≤ b.span.lo) := by
  induction items with
  | nil => exact .nil
  | cons x l ih =>
    obtain ⟨h1, h2⟩ := List.pairwise_cons.1 h
    cases x with
    | token s => exact List.pairwise_cons.2 ⟨fun t ht => h1 _ (tokensOf_mem ht), ih h2⟩
    | error sp => exact ih h2

theorem ItemsWF.sorted {ext : Fin n → Bool} {source : Str} {items : List (Item n)}
    (h : ItemsWF source items) : SortedTokens (streamOf ext items) := by
  refine ⟨fun t ht => ?_, (tokensOf_pairwise h.2).filter _⟩
  exact (h.1 _ (tokensOf_mem ((List.mem_filter.1 ht).1))).1

theorem ItemsWF.inSource {ext : Fin n → Bool} {source : Str} {items : List (Item n)}
    (h : ItemsWF source items) (t : Token n) (ht : t ∈ streamOf ext items) : t.span.InSource source := by
  obtain ⟨h1, h2, h3, h4⟩ := h.1 _ (tokensOf_mem ((List.mem_filter.1 ht).1))
  exact ⟨⟨by simp only [Item.span] at h1 h2; omega, h3⟩, h2, h4⟩

theorem Reached.total {ext : Fin n → Bool} {source : Str} {items : List (Item n)} {p : Parser n}
    (h : Reached ext source items p) :
    p.info.tokens.map (·.token) ++ (p.view ext).rest = streamOf ext items := by
  obtain ⟨done, hd⟩ := h.inv
  exact hd.total

theorem Reached.source {ext : Fin n → Bool} {source : Str} {items : List (Item n)} {p : Parser n}
    (h : Reached ext source items p) : p.info.source = source := by
  obtain ⟨done, hd⟩ := h.inv
  exact hd.src

theorem Reached.inSource {ext : Fin n → Bool} {source : Str} {items : List (Item n)} {p : Parser n}
    (h : Reached ext source items p) (hw : ItemsWF source items) : InSource source (p.view ext) := by
  have ht := h.total
  refine ⟨h.source, Edge.zero _, ?_, ?_, ?_⟩
  · show Edge source p.info.source.length
    rw [h.source]; exact Edge.len _
  · intro t hm
    exact hw.inSource (ext := ext) t (by rw [← ht]; exact List.mem_append_left _ hm)
  · intro t hm
    exact hw.inSource (ext := ext) t (by rw [← ht]; exact List.mem_append_right _ hm)

theorem Reached.sorted {ext : Fin n → Bool} {source : Str} {items : List (Item n)} {p : Parser n}
    (h : Reached ext source items p) (hw : ItemsWF source items) : SortedStore p.info.tokens := by
  have hs := hw.sorted (ext := ext)
  rw [← h.total] at hs
  exact ⟨fun t ht => hs.1 t (List.mem_append_left _ ht), (List.pairwise_append.1 hs.2).1⟩

/-- Computations on a parser and on its stream. -/
theorem Sim.run {ext : Fin n → Bool} {α : Type} {x : M (Parser n) α} {y : M (View n) α}
    (h : ∀ p, y (p.view ext) = (x p).mapState (Parser.view ext)) {p : Parser n} {a : α} {v : View n}
    (hy : y (p.view ext) = .ok a v) : ∃ p', x p = .ok a p' ∧ p'.view ext = v := by
  rw [h p] at hy
  cases hx : x p with
  | fuel => rw [hx] at hy; cases hy
  | crash => rw [hx] at hy; cases hy
  | ok b q =>
    rw [hx] at hy
    cases hy
    exact ⟨q, rfl, rfl⟩

/-- `p'` has the errors of `p`, then only new errors about unrecognised input. -/
def Grows (p p' : Parser n) : Prop :=
  ∃ es, p'.info.errors = p.info.errors ++ es ∧ ∀ e ∈ es, e.kind = .unexpectedCharacters

theorem Grows.refl (p : Parser n) : Grows p p := ⟨[], by simp⟩

theorem Grows.trans {a b c : Parser n} (h1 : Grows a b) (h2 : Grows b c) : Grows a c := by
  obtain ⟨e1, q1, k1⟩ := h1
  obtain ⟨e2, q2, k2⟩ := h2
  refine ⟨e1 ++ e2, by rw [q2, q1, List.append_assoc], fun e he => ?_⟩
  rcases List.mem_append.1 he with he | he
  · exact k1 e he
  · exact k2 e he

theorem Grows.note (p : Parser n) (x : Option Span) (q : Parser n)
    (hq : q.info.errors = (Parser.noteInvalid p.info x).errors) : Grows p q := by
  refine ⟨x.toList.map fun sp => ⟨sp, .unexpectedCharacters⟩, by rw [hq, noteInvalid_errors], ?_⟩
  intro e he
  obtain ⟨sp, _, rfl⟩ := List.mem_map.1 he
  rfl

theorem readLoop_grows (ext : Fin n → Bool) (fuel : Nat) : ∀ p, Grows p (Parser.readLoop ext fuel p) := by
  induction fuel with
  | zero => exact Grows.refl
  | succ fuel ih =>
    intro p
    unfold Parser.readLoop
    rcases hn : p.lexer.next with ⟨⟨inv, tok⟩, lx⟩
    simp only
    cases tok with
    | none => exact .note p inv _ rfl
    | some t =>
      simp only
      split
      · exact Grows.trans (.note p inv _ rfl) (ih _)
      · exact .note p inv _ rfl

theorem fill_grows (ext : Fin n → Bool) (p : Parser n) : Grows p (p.fill ext) := by
  unfold Parser.fill
  cases p.peeked with
  | none => exact readLoop_grows ext _ p
  | some t => exact .refl p

theorem consume_grows (ext : Fin n → Bool) (p : Parser n) : Grows p (p.consume ext).2 := by
  unfold Parser.consume
  simp only
  cases hp : (p.fill ext).peeked with
  | none => exact fill_grows ext p
  | some t => exact fill_grows ext p

theorem produce_grows {ext : Fin n → Bool} {S : Schema m n} {md : Metadata (PId m n) n}
    {fuel : Nat} {t : Ty m n} {p p' : Parser n} {r : Res n (Tree n)}
    (h : produce (Parser.ops ext) S md fuel t p = .ok r p') : Grows p p' :=
  (pres_closed (Parser.ops ext) Grows .refl (fun _ _ _ => .trans) (fill_grows ext) (consume_grows ext)
    (fun p _ _ => ⟨[], by simp [Parser.ops, Parser.applySemantic], by simp⟩)).produce S md fuel t p r p' h

theorem Err.InSource.mono {source : Str} {l es : List (Err n)}
    (h : ∀ e ∈ l, e.kind ≠ .unexpectedCharacters → e.span.InSource source)
    (he : ∀ e ∈ es, e.kind = .unexpectedCharacters) :
    ∀ e ∈ l ++ es, e.kind ≠ .unexpectedCharacters → e.span.InSource source := by
  intro e hm hk
  rcases List.mem_append.1 hm with hm | hm
  · exact h e hm hk
  · exact absurd (he e hm) hk

theorem Reached.otherErrors {ext : Fin n → Bool} {source : Str} {items : List (Item n)} {p : Parser n}
    (h : Reached ext source items p) (hw : ItemsWF source items) :
    ∀ e ∈ p.info.errors, e.kind ≠ .unexpectedCharacters → e.span.InSource source := by
  induction h with
  | new => intro e he; cases he
  | @peek p _ ih =>
    obtain ⟨es, h1, h2⟩ := fill_grows ext p
    show ∀ e ∈ (p.fill ext).info.errors, _
    rw [h1]; exact Err.InSource.mono ih h2
  | @consume p _ ih =>
    obtain ⟨es, h1, h2⟩ := consume_grows ext p
    rw [h1]; exact Err.InSource.mono ih h2
  | apply sp sem _ ih => exact ih
  | produce S md fuel t r _ hr ih =>
    obtain ⟨es, h1, h2⟩ := produce_grows hr
    rw [h1]; exact Err.InSource.mono ih h2
  | parse S fuel t r hp hr ih =>
    rcases parse_ok hr with ⟨e, _, _, rfl⟩ | ⟨md, x, _, _, hq⟩
    · exact ih
    · obtain ⟨r, q, hq', rfl, _, _⟩ := parseWithMeta_ok hq
      obtain ⟨es, h1, h2⟩ := produce_grows hq'
      simp only
      intro e he hk
      rcases List.mem_append.1 he with he | he
      · rw [h1] at he
        exact Err.InSource.mono ih h2 e he hk
      · exact ((produce_good hq' (hp.inSource hw).good).errs e he).1

theorem mergeSpans_inSource {source : Str} {l : List Span} (h : ∀ sp ∈ l, sp.InSource source) :
    ∀ sp ∈ mergeSpans l, sp.InSource source := by
  intro sp hsp
  unfold mergeSpans at hsp
  split at hsp
  · rename_i a b ha hb
    cases hsp
    exact ⟨(h a (List.mem_of_head? ha)).1, (h b (List.mem_of_getLast? hb)).2⟩
  · cases hsp

theorem invalidRunsFrom_inSource {source : Str} (items : List (Item n)) :
    ∀ cur, (∀ sp ∈ cur, sp.InSource source) → (∀ i ∈ items, i.span.InSource source) →
      ∀ sp ∈ invalidRunsFrom cur items, sp.InSource source := by
  induction items with
  | nil =>
    intro cur hc _ sp hsp
    exact mergeSpans_inSource hc sp (by simpa [invalidRunsFrom] using hsp)
  | cons x l ih =>
    intro cur hc hi sp hsp
    cases x with
    | error s =>
      refine ih (cur ++ [s]) ?_ (fun i h => hi i (List.mem_cons_of_mem _ h)) sp hsp
      intro q hq
      rcases List.mem_append.1 hq with hq | hq
      · exact hc q hq
      · rw [List.mem_singleton.1 hq]; exact hi (.error s) (List.mem_cons_self ..)
    | token t =>
      rcases List.mem_append.1 hsp with h | h
      · exact mergeSpans_inSource hc sp (by simpa using h)
      · exact ih [] (by simp) (fun i h => hi i (List.mem_cons_of_mem _ h)) sp h

/-- All errors of a reachable parser are in the source. -/
theorem Reached.errorsInSource {ext : Fin n → Bool} {source : Str} {items : List (Item n)} {p : Parser n}
    (h : Reached ext source items p) (hw : ItemsWF source items) :
    ∀ e ∈ p.info.errors, e.span.InSource source := by
  intro e he
  by_cases hk : e.kind = .unexpectedCharacters
  · obtain ⟨done, hd⟩ := h.inv
    have hm : e ∈ p.info.errors.filter Err.isChars := List.mem_filter.2 ⟨he, by simp [Err.isChars, hk]⟩
    rw [hd.errors] at hm
    obtain ⟨sp, hsp, rfl⟩ := List.mem_map.1 hm
    refine invalidRunsFrom_inSource done [] (by simp) ?_ sp hsp
    intro i hi
    obtain ⟨h1, h2, h3, h4⟩ := hw.1 i (by rw [hd.split]; exact List.mem_append_left _ hi)
    exact ⟨⟨by omega, h3⟩, h2, h4⟩
  · exact h.otherErrors hw e he hk

end Teleparse
