import Verif.Proof.ErrOrder
import Verif.Props.ErrSpan
import Verif.Props.Delimited
import Verif.Props.Layout
/-
Property C88: the order in which errors are reported.
-/
namespace Teleparse
variable {m n : Nat}

/-! ## C88: errors are reported in the order of the source -/

/-- The errors of a result are in the order of the source. Missing for the full statement: elements of `Split` and
second types of `Recover` that can be repaired (false, see `C88_false_split` and `C88_false_recover`). -/
theorem C88_result_partial (ext : Fin n → Bool) (S : Schema m n) (md : Metadata (PId m n) n) (t : Ty m n)
    (hk : OrderKept S t) (source : Str) (items : List (Item n)) (hw : ItemsWF source items) (p p' : Parser n)
    (hp : Reached ext source items p) (r : Res n (Tree n)) (h : Yields ext S md t p r p') : InOrder r.errs :=
  (On.of_yields h).run.inOrder hk (hp.ready hw) .refl

/-- Calls of the API of a parser in which only types as in `C88_result_partial` are parsed. -/
inductive Orderly (ext : Fin n → Bool) (source : Str) (items : List (Item n)) : Parser n → Prop
  | new : Orderly ext source items (Parser.new source items)
  | peek {p} : Orderly ext source items p → Orderly ext source items (p.peek ext).2
  | consume {p} : Orderly ext source items p → Orderly ext source items (p.consume ext).2
  | apply {p} (sp sem) : Orderly ext source items p → Orderly ext source items (p.applySemantic sp sem)
  | parse {m : Nat} {p p'} (S : Schema m n) (fuel : Nat) (t : Ty m n) (r) : OrderKept S t →
      Orderly ext source items p → Parser.parse ext S fuel t p = .ok r p' → Orderly ext source items p'

theorem Orderly.reached {ext : Fin n → Bool} {source : Str} {items : List (Item n)} {p : Parser n}
    (h : Orderly ext source items p) : Reached ext source items p := by
  induction h with
  | new => exact .new
  | peek _ ih => exact .peek ih
  | consume _ ih => exact .consume ih
  | apply sp sem _ ih => exact .apply sp sem ih
  | parse S fuel t r _ _ h ih => exact .parse S fuel t r ih h

theorem syntaxErrors_grows {p p' : Parser n} (h : Grows p p') :
    syntaxErrors p'.info.errors = syntaxErrors p.info.errors := by
  obtain ⟨es, h1, h2⟩ := h
  rw [h1, syntaxErrors_append, syntaxErrors_chars h2, List.append_nil]

theorem Orderly.inv {ext : Fin n → Bool} {source : Str} {items : List (Item n)} (hw : ItemsWF source items)
    {p : Parser n} (h : Orderly ext source items p) :
    InOrder (syntaxErrors p.info.errors) ∧ UpTo (p.view ext) (syntaxErrors p.info.errors) := by
  induction h with
  | new => exact ⟨.nil, .nil⟩
  | @peek p _ ih =>
    have hg : Grows p (p.peek ext).2 := fill_grows ext p
    rw [syntaxErrors_grows hg, peek_view]
    exact ih
  | @consume p hp ih =>
    rw [syntaxErrors_grows (consume_grows ext p), (view_consume ext p).2]
    exact ⟨ih.1, ih.2.adv (hp.reached.ready hw) (.skip _)⟩
  | @apply p sp sem _ ih => exact ih
  | @parse m p p' S fuel t r hk hp hr ih =>
    rcases parse_ok hr with ⟨e, _, _, rfl⟩ | ⟨md, x, _, _, hq⟩
    · exact ih
    · obtain ⟨r, q, hq', rfl, _, _⟩ := parseWithMeta_ok hq
      have hready := hp.reached.ready hw
      have hrun := (On.of_yields ⟨_, hq'⟩).run
      have hadv := produce_adv hq'
      have hin := hrun.inOrder hk hready .refl
      have hup := hrun.upTo hready
      have hl := hrun.lateCur hready
      have hs : syntaxErrors (q.info.errors ++ r.errs) = syntaxErrors p.info.errors ++ syntaxErrors r.errs := by
        rw [syntaxErrors_append, syntaxErrors_grows (produce_grows hq')]
      have hsub : (syntaxErrors r.errs).Sublist r.errs := List.filter_sublist
      show InOrder (syntaxErrors (q.info.errors ++ r.errs)) ∧ UpTo (q.view ext) (syntaxErrors (q.info.errors ++ r.errs))
      rw [hs]
      exact ⟨ih.1.append ih.2 (List.Pairwise.sublist hsub hin) (fun e he => hl e (hsub.subset he)),
        (ih.2.adv hready hadv).append (fun e he => hup e (hsub.subset he))⟩

/-- The syntax errors recorded by a parser, over any number of parses, are in the order of the source. Missing for the
full statement: as for `C88_result_partial`. -/
theorem C88_recorded_partial (ext : Fin n → Bool) (source : Str) (items : List (Item n)) (hw : ItemsWF source items)
    (p : Parser n) (hp : Orderly ext source items p) : InOrder (syntaxErrors p.info.errors) :=
  (hp.inv hw).1

theorem Rising.runs_order : ∀ (items : List (Item n)) (cur : List Span), Rising (cur ++ items.map Item.span) →
    (invalidRunsFrom cur items).Pairwise (fun a b => a.lo ≤ b.lo) ∧
      ∀ sp ∈ invalidRunsFrom cur items, ∃ s ∈ cur ++ items.map Item.span, sp.lo = s.lo := by
  have merge : ∀ (cur : List Span), ∀ sp ∈ mergeSpans cur, ∃ s ∈ cur, sp.lo = s.lo := by
    intro cur sp hsp
    unfold mergeSpans at hsp
    split at hsp
    · rename_i a b ha hb
      cases hsp
      exact ⟨a, List.mem_of_mem_head? ha, rfl⟩
    · cases hsp
  intro items
  induction items with
  | nil =>
    intro cur h
    unfold invalidRunsFrom
    refine ⟨by cases mergeSpans cur <;> simp, ?_⟩
    intro sp hsp
    obtain ⟨s, h1, h2⟩ := merge cur sp (by simpa using hsp)
    exact ⟨s, by simp [h1], h2⟩
  | cons x l ih =>
    intro cur h
    cases x with
    | error s =>
      have := ih (cur ++ [s]) (by simpa [Item.span] using h)
      refine ⟨this.1, ?_⟩
      intro sp hsp
      obtain ⟨s', h1, h2⟩ := this.2 sp hsp
      exact ⟨s', by simpa [Item.span] using h1, h2⟩
    | token t =>
      have hr : Rising (l.map Item.span) :=
        ⟨fun s hs => h.1 s (List.mem_append_right _ (List.mem_cons_of_mem _ hs)),
          (List.pairwise_cons.1 (List.pairwise_append.1 h.2).2.1).2⟩
      have hi := ih [] (by simpa using hr)
      unfold invalidRunsFrom
      refine ⟨List.pairwise_append.2 ⟨by cases mergeSpans cur <;> simp, hi.1, ?_⟩, ?_⟩
      · intro a ha b hb
        obtain ⟨s, h1, h2⟩ := merge cur a (by simpa using ha)
        obtain ⟨s', h3, h4⟩ := hi.2 b hb
        have h5 := (List.pairwise_append.1 h.2).2.2 s h1 s' (List.mem_cons_of_mem _ (by simpa using h3))
        have h6 := h.1 s (List.mem_append_left _ h1)
        omega
      · intro sp hsp
        rcases List.mem_append.1 hsp with hsp | hsp
        · obtain ⟨s, h1, h2⟩ := merge cur sp (by simpa using hsp)
          exact ⟨s, by simp [h1], h2⟩
        · obtain ⟨s, h1, h2⟩ := hi.2 sp hsp
          exact ⟨s, List.mem_append_right _ (List.mem_cons_of_mem _ (by simpa using h1)), h2⟩

/-- The errors about unrecognised characters are in the order of the source, whatever was parsed. -/
theorem C88_characters (ext : Fin n → Bool) (source : Str) (items : List (Item n)) (hw : ItemsWF source items)
    (p : Parser n) (hp : Reached ext source items p) :
    InOrder (p.info.errors.filter fun e => decide (e.kind = .unexpectedCharacters)) := by
  obtain ⟨read, h1, _, h2, h3⟩ := C04_recorded ext source items p hp
  rw [h3, h2]
  have hr : Rising ([] ++ read.map Item.span) := by
    refine ⟨?_, ?_⟩
    · intro s hs
      obtain ⟨i, hi, rfl⟩ := List.mem_map.1 (by simpa using hs : s ∈ read.map Item.span)
      exact (hw.1 i (by rw [h1]; exact List.mem_append_left _ hi)).1
    · have := hw.2
      rw [h1] at this
      simpa [List.pairwise_map] using (List.pairwise_append.1 this).1
  exact List.pairwise_map.2 (Rising.runs_order read [] hr).1

/-- `Split<(word, Option<(num, num)>), "x">` on `a x 1 b 1 b`: the number after the `x` is skipped, and the next
element is repaired because a number is missing. -/
def eoT : Ty 0 3 := .split (.tup2 exWord (.option (.tup2 exNum exNum))) fxX
def eoMd : Metadata (PId 0 3) 3 := okOf ⟨[], [], []⟩ (exS.metadata 30 eoT)
def eoSource : Str := [97, 32, 120, 32, 49, 32, 98, 32, 49, 32, 98]
def eoItems : List (Item 3) := [.token ⟨⟨0, 1⟩, 0⟩, .token ⟨⟨2, 3⟩, 2⟩, .token ⟨⟨4, 5⟩, 1⟩, .token ⟨⟨6, 7⟩, 0⟩,
  .token ⟨⟨8, 9⟩, 1⟩, .token ⟨⟨10, 11⟩, 0⟩]

/-- The claim is false for `Split`: the error of the repaired element is reported before the error about the tokens
skipped before it. -/
theorem C88_false_split : exS.metadata 30 eoT = some (.ok eoMd) ∧ ItemsWF eoSource eoItems ∧
    ∃ x e p', Yields noExt exS eoMd eoT (Parser.new eoSource eoItems) (.recovered x e) p' ∧
      e.map (·.span) = [⟨10, 11⟩, ⟨4, 5⟩] := by
  refine ⟨by rfl, by unfold ItemsWF eoItems eoSource; decide, _, _, _, ⟨30, by rfl⟩, by rfl⟩

/-- `Recover<word, (num, Option<(word, word)>)>` on `a x 1 b 1` -/
def erT : Ty 0 3 := .recover exWord (.tup2 exNum (.option (.tup2 exWord exWord)))
def erMd : Metadata (PId 0 3) 3 := okOf ⟨[], [], []⟩ (exS.metadata 30 erT)
def erSource : Str := [97, 32, 120, 32, 49, 32, 98, 32, 49]
def erItems : List (Item 3) := [.token ⟨⟨0, 1⟩, 0⟩, .token ⟨⟨2, 3⟩, 2⟩, .token ⟨⟨4, 5⟩, 1⟩, .token ⟨⟨6, 7⟩, 0⟩,
  .token ⟨⟨8, 9⟩, 1⟩]

/-- The claim is false for `Recover`, for the same reason. -/
theorem C88_false_recover : exS.metadata 30 erT = some (.ok erMd) ∧ ItemsWF erSource erItems ∧
    ∃ x e p', Yields noExt exS erMd erT (Parser.new erSource erItems) (.recovered x e) p' ∧
      e.map (·.span) = [⟨8, 9⟩, ⟨2, 3⟩] := by
  refine ⟨by rfl, by unfold ItemsWF erItems erSource; decide, _, _, _, ⟨30, by rfl⟩, by rfl⟩

/-- Example: the same elements in a `Punct` list, whose errors are in order. -/
def eoT' : Ty 0 3 := .punct (.tup2 exWord (.option (.tup2 exNum exNum))) fxX
def eoMd' : Metadata (PId 0 3) 3 := okOf ⟨[], [], []⟩ (exS.metadata 30 eoT')

example : exS.metadata 30 eoT' = some (.ok eoMd') ∧ OrderKept exS eoT' ∧
    ∃ x e p', Yields noExt exS eoMd' eoT' (Parser.new eoSource eoItems) (.recovered x e) p' ∧
      e.map (·.span) = [⟨4, 5⟩, ⟨10, 11⟩] := by
  have hr : ∀ u, Reach exS.tyParts eoT' u → u ∈ [eoT', .tup2 exWord (.option (.tup2 exNum exNum)), fxX, exWord,
      .option (.tup2 exNum exNum), .tup2 exNum exNum, exNum] := by
    intro u h
    induction h with
    | refl => simp
    | step _ hj ih =>
      simp only [List.mem_cons, List.not_mem_nil, or_false] at ih
      rcases ih with rfl | rfl | rfl | rfl | rfl | rfl | rfl <;>
        simp [Schema.tyParts, eoT', fxX, exWord, exNum] at hj <;> simp [hj, fxX, exWord, exNum]
      all_goals rcases hj with rfl | rfl <;> simp
  refine ⟨by rfl, ⟨?_, ?_⟩, _, _, _, ⟨30, by rfl⟩, by rfl⟩
  · intro t p h
    simpa [eoT', fxX, exWord, exNum] using hr _ h
  · intro t p h
    simpa [eoT', fxX, exWord, exNum] using hr _ h

end Teleparse
