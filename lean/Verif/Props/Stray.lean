import Verif.Proof.Stray
import Verif.Props.Steps
import Verif.Props.Exact
/-
Properties of `Loop` on inputs with stray tokens: C105, and the other direction of C45.
-/
namespace Teleparse
variable {m n : Nat}

section
variable {ext : Fin n → Bool} {S : Schema m n} {fuel : Nat} {root : Ty m n} {md : Metadata (PId m n) n}
  {G : Grammar (PId m n) n} {source : Str} {items : List (Item n)}

/-! ## C45 -/

/-- The steps of `LoopSteps` are not only necessary (`C45_steps`): wherever there are such steps, `Loop<t>` returns,
with the elements and errors of these steps. -/
theorem C45_runs (hmd : S.metadata fuel root = some (.ok md)) (hG : S.IsGrammar root G) (hw : ItemsWF source items)
    (t : Ty m n) (hr : Reachable G root.pid (Ty.loop t).pid) (p : Parser n) (hp : Reached ext source items p)
    (steps : List (LoopStep n)) (stuck : Bool) (v' : View n) (h : LoopSteps S md G t (p.view ext) steps stuck v') :
    ∃ r p', Yields ext S md (.loop t) p r p' ∧ p'.view ext = v' ∧ r.errs = loopErrs steps stuck v' ∧
      r.tree? = some (.list (if loopTrees steps = [] then p'.emptySpan else spanOf (loopTrees steps))
        (loopTrees steps)) := by
  obtain ⟨f, hon⟩ := Stray.on_loop (loop_first hmd hG hr) (hp.ready hw) h
  obtain ⟨p', h1, h2⟩ := yields_of_view hon
  have hsp : p'.emptySpan = ⟨v'.pos, v'.pos⟩ := by rw [← h2]; rfl
  refine ⟨_, p', h1, h2, ?_, ?_⟩
  · cases loopErrs steps stuck v' <;> rfl
  · rw [hsp]
    cases loopErrs steps stuck v' <;> rfl

/-! ## C105: stray tokens do not hide good elements -/

/-- `Loop<t>`, from any reachable state, after any first steps - elements that are good, that are repaired, or that
fail, and skipped tokens - that lead to a place from where on the input is made of good elements and stray tokens:
all the good elements are in the tree, after the elements of the first steps, and there is one error for each run of
stray tokens, after the errors of the first steps. Nothing else is reported, and nothing is left. -/
theorem C105_produce (hmd : S.metadata fuel root = some (.ok md)) (hG : S.IsGrammar root G) (hsafe : SkipSafe G)
    (hpunct : ∀ t p, Reach S.tyParts root (.punct t p) → ∀ a tok, Beyond G a tok →
      ¬ EndsWith G a (Ty.punct t p).pid)
    (henum : ∀ k v vs, S k = .enum v vs → Reachable G root.pid (.user k) → Nullable G (.user k) →
      ∀ tok, ¬ FollowOf G root.pid (.user k) (some tok))
    (hsep : ∀ t p, Reach S.tyParts root (.split t p) → ¬ Nullable G p.pid)
    (hw : ItemsWF source items) (t : Ty m n) (ht : Reach S.tyParts root (.loop t)) (hl : LoopFree S t)
    (p : Parser n) (hp : Reached ext source items p) (pre : List (LoopStep n)) (v : View n)
    (hpre : LoopPath S md G t (p.view ext) pre v) (l : List (Chunk n)) (hc : Chunks S G source t (endOf 0 v.cells) l)
    (hrest : v.rest = l.flatMap Chunk.tokens) :
    ∃ r p', Yields ext S md (.loop t) p r p' ∧
      r.tree? = some (.list
        (if loopTrees pre ++ l.filterMap Chunk.tree? = [] then p'.emptySpan
          else spanOf (loopTrees pre ++ l.filterMap Chunk.tree?))
        (loopTrees pre ++ l.filterMap Chunk.tree?)) ∧
      r.errs = pre.flatMap LoopStep.errs ++ l.flatMap Chunk.errs ∧
      p'.info.tokens = v.cells ++ l.flatMap Chunk.cells ∧ (p'.view ext).rest = [] := by
  have E : Found S md root G := .of_ll1 hmd hG (metadata_ll1 hmd hG hsafe) hpunct henum hsep
  have hn : ¬ Null G t.pid := Calls.not_null hmd hG (reach_pid ht)
  have hadv : Adv (p.view ext) v := by
    clear hc hrest
    generalize p.view ext = u at hpre
    induction hpre with
    | here => exact .refl _
    | skip _ h _ _ _ ih => exact h.adv.trans ih
    | elem _ _ h _ _ _ ih => exact h.adv.trans ih
  have hv := (hp.ready hw).adv hadv
  have hsrc : v.source = source := hv.inSource.src
  have ev : v = ⟨source, v.cells, l.flatMap Chunk.tokens⟩ := by
    cases v
    simp only at hrest hsrc
    subst hrest hsrc
    rfl
  have hst := Stray.chunks_steps E ht hl hn hc v.cells rfl (by rw [← ev]; exact hv)
  rw [← ev] at hst
  obtain ⟨r, p', h1, h2, h3, h4⟩ := C45_runs hmd hG hw t ((reach_iff_schema hG _).2 (reach_pid ht)) p hp _ _ _
    (Stray.path_steps hpre hst)
  have etr : loopTrees (pre ++ l.map Stray.step) = loopTrees pre ++ l.filterMap Chunk.tree? := by
    rw [← Stray.step_trees]
    simp [loopTrees]
  have eer : loopErrs (pre ++ l.map Stray.step) false ⟨source, v.cells ++ l.flatMap Chunk.cells, []⟩ =
      pre.flatMap LoopStep.errs ++ l.flatMap Chunk.errs := by
    rw [← Stray.step_errs l ⟨source, v.cells ++ l.flatMap Chunk.cells, []⟩]
    simp [loopErrs]
  rw [etr] at h4
  rw [eer] at h3
  exact ⟨r, p', h1, h4, h3, congrArg View.cells h2, congrArg View.rest h2⟩

/-- Whole inputs, root `Loop<t>`. -/
theorem C105_parse (t : Ty m n) (hmd : S.metadata fuel (.loop t) = some (.ok md)) (hG : S.IsGrammar (.loop t) G)
    (hsafe : SkipSafe G)
    (hpunct : ∀ a p, Reach S.tyParts (.loop t) (.punct a p) → ∀ i tok, Beyond G i tok →
      ¬ EndsWith G i (Ty.punct a p).pid)
    (henum : ∀ k v vs, S k = .enum v vs → Reachable G (Ty.loop t).pid (.user k) → Nullable G (.user k) →
      ∀ tok, ¬ FollowOf G (Ty.loop t).pid (.user k) (some tok))
    (hsep : ∀ a p, Reach S.tyParts (.loop t) (.split a p) → ¬ Nullable G p.pid)
    (hl : LoopFree S t) (hw : ItemsWF source items) (l : List (Chunk n)) (hc : Chunks S G source t 0 l)
    (hin : streamOf ext items = l.flatMap Chunk.tokens) :
    ∃ sp p' N, (∀ fuel' ≥ N, rootParse ext S fuel' (.loop t) source items =
        .ok (.ok (some (.list sp (l.filterMap Chunk.tree?)))) p') ∧
      syntaxErrors p'.info.errors = l.flatMap Chunk.errs ∧
      p'.info.tokens = l.flatMap Chunk.cells ∧ (p'.view ext).rest = [] := by
  have hnew : Reached ext source items (Parser.new source items) := .new
  obtain ⟨r, q, ⟨f, hy⟩, h1, h2, h3, h4⟩ := C105_produce hmd hG hsafe hpunct henum hsep hw t .refl hl _ hnew [] _ .here l
    hc hin
  have hm := metadata_more hmd (Nat.le_max_left fuel f)
  have hq := produce_more hy (Nat.le_max_right fuel f)
  obtain ⟨y, p', hp⟩ := C48_defined ext S (max fuel f) (.loop t) _ _ md _ hm hq
  obtain ⟨md', r', q', g1, g2, -, g4, g5, g6⟩ := syntaxErrors_parse hp
  cases hm.symm.trans g1
  cases hq.symm.trans g2
  have hy : y = some _ := (g4 _).2 (by
    cases r with
    | success x => exact .inl (by cases h1; rfl)
    | recovered x e => exact .inr ⟨e, by cases h1; rfl⟩
    | panic e => cases h1)
  subst hy
  refine ⟨_, p', max fuel f, fun f' hf' => rootParse_more hp hf', g5.trans h2, ?_, ?_⟩
  · exact (congrArg View.cells g6).trans h3
  · rw [g6, h4]

end

/-! ### Examples -/

/-- `E = num | L`, `L = word E* "x"`, root `Loop<E>`, on `1 x x a x 2`: two stray tokens after the first element. -/
def srSource : Str := [49, 32, 120, 32, 120, 32, 97, 32, 120, 32, 50]
def srX : List (Token 3) := [⟨⟨2, 3⟩, 2⟩, ⟨⟨4, 5⟩, 2⟩]
def srItems : List (Item 3) := [.token ⟨⟨0, 1⟩, 1⟩, .token ⟨⟨2, 3⟩, 2⟩, .token ⟨⟨4, 5⟩, 2⟩, .token ⟨⟨6, 7⟩, 0⟩,
  .token ⟨⟨8, 9⟩, 2⟩, .token ⟨⟨10, 11⟩, 1⟩]
def srNum (t : Token 3) : Chunk 3 := .item [Cell.ofToken t] (.variant 0 (.tok t))
def srL : Chunk 3 := .item [⟨⟨⟨6, 7⟩, 0⟩, LSet.new.union (LSet.new.insert 2)⟩, ⟨⟨⟨8, 9⟩, 2⟩, LSet.new⟩]
  (.variant 1 (.seq ⟨6, 9⟩ [.tok ⟨⟨6, 7⟩, 0⟩, .list ⟨7, 7⟩ [], .tok ⟨⟨8, 9⟩, 2⟩]))
def srChunks : List (Chunk 3) := [srNum ⟨⟨0, 1⟩, 1⟩, .stray srX, srL, srNum ⟨⟨10, 11⟩, 1⟩]

theorem cx_first (i : PId 2 3) (w : TokenSrc 3) :
    FirstOf cxG i w ↔ (cxMd.first.get i).contains (some w) = true := (metadata_first cxMd_ok cxG_ok i (some w)).symm

theorem sr_num (t : Token 3) (ht : t.ty = 1) (pos : Nat) :
    Parses cxS srSource pos (.user 0) [Cell.ofToken t] (.variant 0 (.tok t)) :=
  Parses.enum (i := 0) (sem := none) (c := [Cell.ofToken t]) rfl rfl (.term ⟨ht, by simp⟩)

theorem sr_l : Parses cxS srSource 5 (.user 0)
    [⟨⟨⟨6, 7⟩, 0⟩, LSet.new.union (LSet.new.insert 2)⟩, ⟨⟨⟨8, 9⟩, 2⟩, LSet.new⟩]
    (.variant 1 (.seq ⟨6, 9⟩ [.tok ⟨⟨6, 7⟩, 0⟩, .list ⟨7, 7⟩ [], .tok ⟨⟨8, 9⟩, 2⟩])) := by
  have hs : ParsesSeq cxS srSource 5 [.term 0 ⟨0, none⟩, .star (.user 0), .term 2 ⟨2, some [120]⟩]
      [[Cell.ofToken ⟨⟨6, 7⟩, 0⟩], [], [Cell.ofToken ⟨⟨8, 9⟩, 2⟩]]
      [.tok ⟨⟨6, 7⟩, 0⟩, .list ⟨7, 7⟩ [], .tok ⟨⟨8, 9⟩, 2⟩] :=
    .cons (.term ⟨rfl, by simp⟩) (.cons .starNone (.cons (.term ⟨rfl, by decide⟩) .nil))
  have h1 : Parses cxS srSource 5 (.user 1) _ _ := Parses.struct (k := 1) (S := cxS) rfl hs
  exact Parses.enum (S := cxS) (k := 0) (i := 1) (sem := none) rfl rfl h1

theorem sr_calm : Calm cxS cxG (Ty.user 0 : Ty 2 3).pid := by
  have hnul : ∀ i, Null cxG i → (cxMd.first.get i).contains none = true :=
    fun i hi => (metadata_first cxMd_ok cxG_ok i none).2 hi.nullable
  constructor
  · intro t p h
    have := tail_of_check hnul (s := [.user 0, .term 1 ⟨1, none⟩, .user 1, .term 2 ⟨2, some [120]⟩]) (by decide +kernel)
      (by decide) h.tailOf
    simp [Ty.pid, Ty.prod, PId.id] at this
  · intro k v vs _ _ hn
    have h := (metadata_first cxMd_ok cxG_ok (.user k) none).2 hn
    have hno : ∀ k : Fin 2, (cxMd.first.get (.user k)).contains none = false := by decide +kernel
    rw [hno k] at h
    cases h

theorem sr_chunks : Chunks cxS cxG srSource (.user 0) 0 srChunks := by
  refine .item (sr_num _ rfl _) ?_ (.stray (by decide) ?_ ?_ (.item ?_ ?_ (.item (sr_num _ rfl _) ?_ .nil)))
  · intro w hw
    cases hw
    refine .inr ⟨sr_calm, ?_⟩
    rintro ⟨β, h⟩
    have := cxDerives h ⟨by decide, show (0 : Int) ≤ _ by decide⟩
    rw [List.append_cons, cxBal_append] at this
    obtain ⟨_, _, h5⟩ := this.1
    exact absurd (show (0 : Int) ≤ _ from h5) (by decide +kernel)
  · intro a ha
    rw [cx_first]
    simp only [srX, List.mem_cons, List.not_mem_nil, or_false] at ha
    rcases ha with rfl | rfl <;> decide +kernel
  · intro w hw
    cases hw
    rw [cx_first]
    decide +kernel
  · exact sr_l
  · intro w hw
    cases hw
    refine .inl ?_
    rw [cx_first]
    decide +kernel
  · intro w hw
    cases hw

/-- All three elements are found, and the two stray tokens are one error. -/
example : ∃ sp p' N, (∀ fuel' ≥ N, rootParse noExt cxS fuel' cxT srSource srItems =
      .ok (.ok (some (.list sp (srChunks.filterMap Chunk.tree?)))) p') ∧
    syntaxErrors p'.info.errors = [⟨⟨2, 5⟩, .unexpectedTokens⟩] ∧ p'.info.tokens = srChunks.flatMap Chunk.cells ∧
    (p'.view noExt).rest = [] :=
  C105_parse (.user 0) cxMd_ok cxG_ok cx_safe cx_punct cx_enum cx_sep
    (loopFree_of_check cxU (by decide) (by decide +kernel) (by decide +kernel))
    (by unfold ItemsWF srItems srSource; decide) srChunks sr_chunks rfl

/-- `Loop<(word, num)>` on `a b 1 x c 2`: the first element fails at `b`. -/
def brE : Ty 0 3 := .tup2 exWord exNum
def brSource : Str := [97, 32, 98, 32, 49, 32, 120, 32, 99, 32, 50]
def brItems : List (Item 3) := [.token ⟨⟨0, 1⟩, 0⟩, .token ⟨⟨2, 3⟩, 0⟩, .token ⟨⟨4, 5⟩, 1⟩, .token ⟨⟨6, 7⟩, 2⟩,
  .token ⟨⟨8, 9⟩, 0⟩, .token ⟨⟨10, 11⟩, 1⟩]
def brMd : Metadata (PId 0 3) 3 := okOf ⟨[], [], []⟩ (exS.metadata 30 (.loop brE))
def brG : Grammar (PId 0 3) 3 := (registerFrom exS.rule 30 (Ty.loop brE).pid).getD []
theorem brMd_ok : exS.metadata 30 (.loop brE) = some (.ok brMd) := rfl
theorem brG_ok : exS.IsGrammar (.loop brE) brG := .of_register (fuel := 30) rfl
theorem br_first (i : PId 0 3) (w : TokenSrc 3) :
    FirstOf brG i w ↔ (brMd.first.get i).contains (some w) = true := (metadata_first brMd_ok brG_ok i (some w)).symm
def brItem (a b : Token 3) : Chunk 3 := .item [Cell.ofToken a, Cell.ofToken b] (.seq ⟨a.span.lo, b.span.hi⟩ [.tok a, .tok b])
def brChunks : List (Chunk 3) := [brItem ⟨⟨2, 3⟩, 0⟩ ⟨⟨4, 5⟩, 1⟩, .stray [⟨⟨6, 7⟩, 2⟩], brItem ⟨⟨8, 9⟩, 0⟩ ⟨⟨10, 11⟩, 1⟩]

theorem br_item (a b : Token 3) (ha : a.ty = 0) (hb : b.ty = 1) (pos : Nat) :
    Parses exS brSource pos brE [Cell.ofToken a, Cell.ofToken b] (.seq ⟨a.span.lo, b.span.hi⟩ [.tok a, .tok b]) :=
  Parses.tuple (t := brE) (ts := [exWord, exNum]) (cs := [[Cell.ofToken a], [Cell.ofToken b]]) (l := [.tok a, .tok b])
    (.inl ⟨_, _, rfl, rfl⟩) (.cons (.term ⟨ha, by simp⟩) (.cons (.term ⟨hb, by simp⟩) .nil))

theorem br_reach {t : Ty 0 3} (h : Reach exS.tyParts (.loop brE) t) : t ∈ [.loop brE, brE, exWord, exNum] :=
  reach_of_check [.loop brE, brE, exWord, exNum] (by decide) (by decide +kernel) h

theorem br_calm : Calm exS brG brE.pid := by
  have hnul : ∀ i, Null brG i → (brMd.first.get i).contains none = true :=
    fun i hi => (metadata_first brMd_ok brG_ok i none).2 hi.nullable
  refine ⟨fun t p h => ?_, fun k => k.elim0⟩
  have := tail_of_check hnul (s := [brE.pid, exNum.pid]) (by decide +kernel) (by decide) h.tailOf
  simp [brE, exNum, Ty.pid, Ty.prod, PId.id] at this

theorem br_chunks : Chunks exS brG brSource brE 1 brChunks := by
  refine .item (br_item _ _ rfl rfl _) ?_ (.stray (by decide) ?_ ?_ (.item (br_item _ _ rfl rfl _) ?_ .nil))
  · intro w hw
    cases hw
    exact .inr ⟨br_calm, not_continues_of_check (by decide +kernel)⟩
  · intro a ha
    rw [br_first]
    cases List.mem_singleton.1 ha
    decide +kernel
  · intro w hw
    cases hw
    rw [br_first]
    decide +kernel
  · intro w hw
    cases hw

/-- The elements after the failed one are found, and the stray token is reported. -/
example : ∃ r p' e, Yields noExt exS brMd (.loop brE) (Parser.new brSource brItems) r p' ∧
    r.tree? = some (.list ⟨2, 11⟩ (brChunks.filterMap Chunk.tree?)) ∧
    r.errs = [⟨⟨2, 3⟩, e⟩, ⟨⟨6, 7⟩, .unexpectedTokens⟩] ∧ (p'.view noExt).rest = [] := by
  have hbad : ∃ e f, produce View.ops exS brMd 20 brE ((Parser.new brSource brItems).view noExt) =
      .ok (.panic [⟨⟨2, 3⟩, e⟩]) ⟨brSource, [Cell.ofToken ⟨⟨0, 1⟩, 0⟩], f⟩ ∧ f = brChunks.flatMap Chunk.tokens :=
    ⟨_, _, by rfl, by rfl⟩
  obtain ⟨e, f, hbad, rfl⟩ := hbad
  obtain ⟨r, p', h1, h2, h3, -, h5⟩ := C105_produce (ext := noExt) (source := brSource) (items := brItems) brMd_ok brG_ok
    (skipSafe_of_check brMd_ok brG_ok 4 (by decide +kernel))
    (fun t p h => by have := br_reach h; simp [brE, exWord, exNum] at this) (fun k => k.elim0)
    (fun t p h => by have := br_reach h; simp [brE, exWord, exNum] at this)
    (by unfold ItemsWF brItems brSource; decide) brE .refl
    (loopFree_of_check [brE, exWord, exNum] (by decide) (by decide +kernel) (by decide +kernel)) _ .new
    [.elem [⟨⟨0, 1⟩, 0⟩] (.panic [⟨⟨2, 3⟩, e⟩])] _
    (.elem rfl ((br_first _ _).2 (by decide +kernel)) ⟨20, hbad⟩ rfl (by simp) .here) brChunks br_chunks rfl
  exact ⟨r, p', e, h1, h2, h3, h5⟩

/-! ### What is not claimed -/

/-- A token that can belong to the element before it is not stray: `Loop<(word, num?)>` on `a 1`. -/
theorem C105_needs_stop : ∃ x p', rootParse noExt exS 60 (.loop (.tup2 exWord (.option exNum))) [97, 32, 49]
      [.token ⟨⟨0, 1⟩, 0⟩, .token ⟨⟨2, 3⟩, 1⟩] = .ok (.ok (some (.list ⟨0, 3⟩ [x]))) p' ∧ p'.info.errors = [] :=
  ⟨_, _, by rfl, by rfl⟩

/-- A `Punct` at the end of an element takes a stray token for a mistake of its own: `Loop<("x", Punct<word, num>)>` on
`x a 1 2 x a`. The match `x a 1` is not in the tree, there is an element up to the stray token instead. -/
theorem C105_needs_calm : ∃ x y p', rootParse noExt exS 60 (.loop (.tup2 fxX (.punct exWord exNum)))
      [120, 32, 97, 32, 49, 32, 50, 32, 120, 32, 97]
      [.token ⟨⟨0, 1⟩, 2⟩, .token ⟨⟨2, 3⟩, 0⟩, .token ⟨⟨4, 5⟩, 1⟩, .token ⟨⟨6, 7⟩, 1⟩, .token ⟨⟨8, 9⟩, 2⟩,
        .token ⟨⟨10, 11⟩, 0⟩] = .ok (.ok (some (.list ⟨0, 11⟩ [x, y]))) p' ∧ x.span = ⟨0, 7⟩ ∧
      p'.info.errors.length = 1 :=
  ⟨_, _, _, by rfl, by rfl, by rfl⟩

end Teleparse
