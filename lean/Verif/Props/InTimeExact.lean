import Verif.Proof.KeptAlarm
import Verif.Proof.KeptTwin
import Verif.Props.InTime
import Verif.Props.Alarm
import Verif.Props.FirstError
import Verif.Props.RepairRecover
/-
Property C132, continued: with the repairs the tree is the same, no error is false, and the first error is exactly
at the first wrong token.
-/
namespace Teleparse
variable {m n : Nat}

theorem YieldsKeep.unique {ext : Fin n → Bool} {S : Schema m n} {md : Metadata (PId m n) n} {t : Ty m n}
    {p p1 p2 : Parser n} {r1 r2 : Res n (Tree n)} (h1 : YieldsKeep ext S md t p r1 p1)
    (h2 : YieldsKeep ext S md t p r2 p2) : r1 = r2 ∧ p1 = p2 := by
  obtain ⟨f1, h1⟩ := h1
  obtain ⟨f2, h2⟩ := h2
  have g1 := produceKeep_mono (Parser.ops ext) S md (Nat.le_max_left f1 f2) t p (by rw [h1]; simp)
  have g2 := produceKeep_mono (Parser.ops ext) S md (Nat.le_max_right f1 f2) t p (by rw [h2]; simp)
  rw [h1] at g1
  rw [h2, g1] at g2
  cases g2
  exact ⟨rfl, rfl⟩

theorem keep_more {σ : Type} {o : Ops σ n} {S : Schema m n} {md : Metadata (PId m n) n} {t : Ty m n} {p p' : σ}
    {r : Res n (Tree n)} {f f' : Nat} (h : produceKeep o S md f t p = .ok r p') (hf : f ≤ f') :
    produceKeep o S md f' t p = .ok r p' := by
  rw [produceKeep_mono o S md hf t p (by rw [h]; simp), h]

/-! ## The same trees -/

/-- The repaired parser returns whenever the present one does, with the same tree, the same tokens consumed and
the same semantics applied; if it reports nothing, neither does the present one. -/
theorem C132_same (ext : Fin n → Bool) (S : Schema m n) (md : Metadata (PId m n) n) (t : Ty m n) (p p' : Parser n)
    (r : Res n (Tree n)) (h : Yields ext S md t p r p') :
    ∃ r', YieldsKeep ext S md t p r' p' ∧ r'.tree? = r.tree? ∧ (r'.errs = [] → r.errs = []) := by
  obtain ⟨fuel, h⟩ := h
  have ht := keep_twin (settled ext) S md fuel t p p rfl
  rw [h] at ht
  cases hk : produceKeep (Parser.ops ext) S md fuel t p with
  | fuel => rw [hk] at ht; cases ht
  | crash => rw [hk] at ht; cases ht
  | ok r' q =>
    rw [hk] at ht
    cases ht with
    | ok hr hs =>
      subst hs
      refine ⟨r', ⟨fuel, hk⟩, ?_, ?_⟩
      · cases hr <;> rfl
      · cases hr with
        | succ x => exact id
        | note x e => exact fun _ => rfl
        | mend x he => exact he
        | fail he => exact he

/-- And the other way around. -/
theorem C132_same_rev (ext : Fin n → Bool) (S : Schema m n) (md : Metadata (PId m n) n) (t : Ty m n)
    (p p' : Parser n) (r' : Res n (Tree n)) (h : YieldsKeep ext S md t p r' p') :
    ∃ r, Yields ext S md t p r p' ∧ r'.tree? = r.tree? ∧ (r'.errs = [] → r.errs = []) := by
  obtain ⟨fuel, h⟩ := h
  have ht := keep_twin (settled ext) S md fuel t p p rfl
  cases hk : produce (Parser.ops ext) S md fuel t p with
  | fuel => rw [hk, h] at ht; cases ht
  | crash => rw [hk, h] at ht; cases ht
  | ok r q =>
    have hy : Yields ext S md t p r q := ⟨fuel, hk⟩
    obtain ⟨r2, h1, h2, h3⟩ := C132_same ext S md t p q r hy
    obtain ⟨rfl, rfl⟩ := h1.unique ⟨fuel, h⟩
    exact ⟨r, hy, h2, h3⟩

theorem keep_of_fix {ext : Fin n → Bool} {S : Schema m n} {md : Metadata (PId m n) n} {t : Ty m n}
    {p p' : Parser n} {x : Tree n} (h : YieldsFix ext S md t p (.success x) p') :
    YieldsKeep ext S md t p (.success x) p' := by
  obtain ⟨fuel, h⟩ := h
  have ht := keep_fix_twin (settled ext) S md fuel t p p rfl
  rw [h] at ht
  cases hk : produceKeep (Parser.ops ext) S md fuel t p with
  | fuel => rw [hk] at ht; cases ht
  | crash => rw [hk] at ht; cases ht
  | ok r' q =>
    rw [hk] at ht
    cases ht with
    | ok hr hs =>
      subst hs
      cases hr
      exact ⟨fuel, hk⟩

theorem fix_of_keep {ext : Fin n → Bool} {S : Schema m n} {md : Metadata (PId m n) n} {t : Ty m n}
    {p p' : Parser n} {x : Tree n} (h : YieldsKeep ext S md t p (.success x) p') :
    YieldsFix ext S md t p (.success x) p' := by
  obtain ⟨fuel, h⟩ := h
  have ht := fix_keep_twin (settled ext) S md fuel t p p rfl
  rw [h] at ht
  cases hk : produceFix (Parser.ops ext) S md fuel t p with
  | fuel => rw [hk] at ht; cases ht
  | crash => rw [hk] at ht; cases ht
  | ok r' q =>
    rw [hk] at ht
    cases ht with
    | ok hr hs =>
      subst hs
      cases hr
      exact ⟨fuel, hk⟩

/-! ## No false alarm -/

theorem keep_alarm_fuel (ext : Fin n → Bool) (S : Schema m n) (md : Metadata (PId m n) n) (t : Ty m n)
    (common q1 q2 : Str) (items1 items2 : List (Item n)) (hw1 : ItemsWF (common ++ q1) items1)
    (hw2 : ItemsWF (common ++ q2) items2) (p1 p2 : Parser n)
    (h1 : Reached ext (common ++ q1) items1 p1) (h2 : Reached ext (common ++ q2) items2 p2)
    (u l1 l2 : List (Token n)) (ha : ∀ a ∈ u, a.span.hi ≤ common.length)
    (htok : p1.info.tokens = p2.info.tokens) (hs1 : (p1.view ext).rest = u ++ l1)
    (hs2 : (p2.view ext).rest = u ++ l2) {fuel : Nat} {r1 r2 : Res n (Tree n)} {p1' p2' : Parser n}
    (hy1 : produceKeep (Parser.ops ext) S md fuel t p1 = .ok r1 p1')
    (hy2 : produceKeep (Parser.ops ext) S md fuel t p2 = .ok r2 p2') (hc : r2.errs = []) :
    ∀ e ∈ r1.errs, beginOf (common ++ q1) l1 ≤ e.span.lo := by
  have hv1 := produceKeep_view ext S md fuel t p1
  rw [hy1] at hv1
  have hv1 : produceKeep View.ops S md fuel t (p1.view ext) = .ok r1 (p1'.view ext) := hv1
  have hv2 := produceKeep_view ext S md fuel t p2
  rw [hy2] at hv2
  have hv2 : produceKeep View.ops S md fuel t (p2.view ext) = .ok r2 (p2'.view ext) := hv2
  rw [← suffixPos_eq]
  by_cases hu : u = []
  · subst hu
    have hready := h1.ready hw1
    have hle : suffixPos (common ++ q1) l1 ≤ (p1.view ext).cur.lo := by
      unfold suffixPos View.cur
      rw [hs1, hready.inSource.src, List.nil_append]
      exact Nat.le_refl _
    exact (Kept.run_of_produce S md fuel t _ _ _ hv1).late ⟨hready, hle⟩
  · exact (Kept.produce_alarm (sameOn_common common q1 q2) S md fuel t _ _ _ _ _ _
      (lock_of ext common q1 q2 items1 items2 hw1 hw2 p1 p2 h1 h2 u l1 l2 hu ha htok hs1 hs2) hv1 hv2 hc).1

/-- Let two parsers have the same consumed tokens, with streams `u ++ l1` and `u ++ l2`, in sources that agree up
to the end of `u`. If the second one produces a type without errors, every error of the first one begins at the
first token of `l1` or later (or is at the end of the source). -/
theorem C132_alarm (ext : Fin n → Bool) (S : Schema m n) (md : Metadata (PId m n) n) (t : Ty m n)
    (common q1 q2 : Str) (items1 items2 : List (Item n)) (hw1 : ItemsWF (common ++ q1) items1)
    (hw2 : ItemsWF (common ++ q2) items2) (p1 p2 p1' p2' : Parser n)
    (h1 : Reached ext (common ++ q1) items1 p1) (h2 : Reached ext (common ++ q2) items2 p2)
    (u l1 l2 : List (Token n)) (ha : ∀ a ∈ u, a.span.hi ≤ common.length)
    (htok : p1.info.tokens = p2.info.tokens) (hs1 : (p1.view ext).rest = u ++ l1)
    (hs2 : (p2.view ext).rest = u ++ l2) (r1 r2 : Res n (Tree n)) (hy1 : YieldsKeep ext S md t p1 r1 p1')
    (hy2 : YieldsKeep ext S md t p2 r2 p2') (hc : r2.errs = []) :
    ∀ e ∈ r1.errs, beginOf (common ++ q1) l1 ≤ e.span.lo := by
  obtain ⟨f1, hy1⟩ := hy1
  obtain ⟨f2, hy2⟩ := hy2
  exact keep_alarm_fuel ext S md t common q1 q2 items1 items2 hw1 hw2 p1 p2 h1 h2 u l1 l2 ha htok hs1 hs2
    (keep_more hy1 (Nat.le_max_left f1 f2)) (keep_more hy2 (Nat.le_max_right f1 f2)) hc

/-! ## Exactly the first wrong token -/

/-- The general form, for tables with which sentences are found. -/
theorem keep_error_exact (ext : Fin n → Bool) (S : Schema m n) (root : Ty m n)
    (md : Metadata (PId m n) n) (G : Grammar (PId m n) n) (hG : S.IsGrammar root G)
    (hfind : ∀ source items, ItemsWF source items →
      Derives G [.nt root.pid] ((inputWords ext source items).map .tok) →
      ∃ r p', YieldsKeep ext S md root (Parser.new source items) r p' ∧ r.errs = [])
    (hprod : ∀ i, Reachable G root.pid i → Productive G i)
    (hspell : Spellable ext G) (source : Str) (hsrc : Joins source) (items : List (Item n))
    (hw : ItemsWF source items) (r : Res n (Tree n)) (p' : Parser n)
    (hy : YieldsKeep ext S md root (Parser.new source items) r p') (he : r.errs ≠ []) :
    FirstErrorExact G root.pid source (streamOf ext items) r.errs := by
  obtain ⟨ts, rest, ws, h0, h2, ⟨e, he1, he2⟩, h4⟩ :=
    C132_produce ext S md root G hG hprod source items hw _ _ .new r hy he
  have h1 : streamOf ext items = ts ++ rest := h0
  clear h0
  refine ⟨ts, rest, h1, h2, ⟨e, he1, he2⟩, ⟨ws, h4⟩, ?_⟩
  cases rest with
  | nil =>
    intro hd
    rw [List.append_nil] at h1
    obtain ⟨r2, p2, hy2, hc⟩ := hfind source items hw (by unfold inputWords; rw [h1]; exact hd)
    obtain ⟨rfl, -⟩ := hy.unique hy2
    exact he hc
  | cons a rest =>
    intro hb
    obtain ⟨common, q1, q2, pre, post1, post2, rfl, rfl, g3, g4, g5, g6, g7⟩ := begins_input hspell hsrc hw h1 hb
    obtain ⟨r2, p2, hy2, hc⟩ := hfind _ _ g6 g7
    have hle := C132_alarm ext S md root common q1 q2 _ _ hw g6 _ _ _ _ .new .new (streamOf ext pre)
      (streamOf ext post1) (streamOf ext post2) g5 rfl (streamOf_append ext pre post1)
      (streamOf_append ext pre post2) r r2 hy hy2 hc e he1
    rw [he2, g4] at hle
    have hmem : ∀ t ∈ streamOf ext (pre ++ post1), Item.token t ∈ pre ++ post1 := fun t ht => mem_of_streamOf ht
    have ha := hw.1 _ (hmem a (by rw [h1]; simp))
    have ha1 : a.span.lo < a.span.hi := ha.1
    have ha2 : a.span.hi ≤ (common ++ q1).length := ha.2.1
    have hb1 : beginOf (common ++ q1) (a :: rest) = a.span.lo := rfl
    rw [hb1] at hle
    cases rest with
    | nil =>
      have : beginOf (common ++ q1) ([] : List (Token n)) = (common ++ q1).length := rfl
      omega
    | cons b rest =>
      have hb2 : beginOf (common ++ q1) (b :: rest) = b.span.lo := rfl
      have hs : (streamOf ext (pre ++ post1)).Pairwise (fun a b => a.span.hi ≤ b.span.lo) :=
        ((Reached.new (ext := ext)).ready hw).sorted.tokens.2
      rw [h1] at hs
      have := (List.pairwise_cons.1 (List.pairwise_append.1 hs).2.1).1 b (by simp)
      omega

/-- With the repaired tables (`Schema.exactMetadata`) and the repairs of `Model/RepairKeep.lean`: if producing the
root has errors, the first one is exactly at the first token that cannot continue the tokens before it to a
sentence, or at the end if the input is only the beginning of a sentence. Unlike in `C126_exact_tables`, `Recover`
and the elements of `Split` and `Punct` can be anything. -/
theorem C132_exact (ext : Fin n → Bool) (S : Schema m n) (fuel : Nat) (root : Ty m n)
    (md : Metadata (PId m n) n) (G : Grammar (PId m n) n) (hmd : S.exactMetadata fuel root = some (.ok md))
    (hG : S.IsGrammar root G)
    (hsep : ∀ t p, Reach S.tyParts root (.split t p) → ¬ Nullable G p.pid) (hl : LoopTail S root)
    (hprod : ∀ i, Reachable G root.pid i → Productive G i)
    (hspell : Spellable ext G) (source : Str) (hsrc : Joins source) (items : List (Item n))
    (hw : ItemsWF source items) (r : Res n (Tree n)) (p' : Parser n)
    (hy : YieldsKeep ext S md root (Parser.new source items) r p') (he : r.errs ≠ []) :
    FirstErrorExact G root.pid source (streamOf ext items) r.errs := by
  refine keep_error_exact ext S root md G hG (fun s i h1 h2 => ?_) hprod hspell source hsrc items hw r p' hy he
  obtain ⟨x, c, q, h, -⟩ := C117_parse ext S fuel root md G hmd hG hsep hl s i h1 h2
  exact ⟨_, q, keep_of_fix h, rfl⟩

/-- A sentence is parsed without an error and with its tree. -/
theorem C132_parse (ext : Fin n → Bool) (S : Schema m n) (fuel : Nat) (root : Ty m n)
    (md : Metadata (PId m n) n) (G : Grammar (PId m n) n) (hmd : S.exactMetadata fuel root = some (.ok md))
    (hG : S.IsGrammar root G)
    (hsep : ∀ t p, Reach S.tyParts root (.split t p) → ¬ Nullable G p.pid) (hl : LoopTail S root)
    (source : Str) (items : List (Item n)) (hw : ItemsWF source items)
    (hs : Derives G [.nt root.pid] ((inputWords ext source items).map .tok)) :
    ∃ x c p', YieldsKeep ext S md root (Parser.new source items) (.success x) p' ∧
      Parses S source 0 root c x ∧ c.map (·.token) = streamOf ext items ∧ (p'.view ext).rest = [] := by
  obtain ⟨x, c, p', h1, h2, h3, -, h5⟩ := C117_parse ext S fuel root md G hmd hG hsep hl source items hw hs
  exact ⟨x, c, p', keep_of_fix h1, h2, h3, h5⟩

/-- Success with nothing left over means exactly that the input is a sentence. -/
theorem C132_accepts (ext : Fin n → Bool) (S : Schema m n) (fuel : Nat) (root : Ty m n)
    (md : Metadata (PId m n) n) (G : Grammar (PId m n) n) (hmd : S.exactMetadata fuel root = some (.ok md))
    (hG : S.IsGrammar root G)
    (hsep : ∀ t p, Reach S.tyParts root (.split t p) → ¬ Nullable G p.pid) (hl : LoopFree S root)
    (source : Str) (items : List (Item n)) (hw : ItemsWF source items) :
    (∃ x p', YieldsKeep ext S md root (Parser.new source items) (.success x) p' ∧ (p'.view ext).rest = []) ↔
    Derives G [.nt root.pid] ((inputWords ext source items).map .tok) := by
  rw [← C117_accepts ext S fuel root md G hmd hG hsep hl source items hw]
  exact ⟨fun ⟨x, p', h, hr⟩ => ⟨x, p', fix_of_keep h, hr⟩, fun ⟨x, p', h, hr⟩ => ⟨x, p', keep_of_fix h, hr⟩⟩

/-! ### Example -/

def vtXd : Metadata (PId 0 3) 3 := okOf ⟨[], [], []⟩ (exS.exactMetadata 40 vtT)

/-- The input of `C70_false`, where `C126_exact_tables` does not apply: the error is exactly at the second token. -/
example : ∃ r p', YieldsKeep noExt exS vtXd vtT (Parser.new vtSource vtItems) r p' ∧ r.errs.map (·.span.lo) = [2] ∧
    FirstErrorExact vtG vtT.pid vtSource (streamOf noExt vtItems) r.errs :=
  ⟨_, _, ⟨40, by rfl⟩, by rfl, C132_exact noExt exS 40 vtT vtXd vtG rfl vtG_ok
    (fun t p h => by
      have hu := reach_of_check [vtT, vtH, exWord, exNum, fxX] (by decide) (by decide +kernel) h
      simp [vtT, vtH, exWord, exNum, fxX] at hu)
    (.free (loopFree_of_check [vtT, vtH, exWord, exNum, fxX] (by decide) (by decide +kernel) (by decide +kernel)))
    (productive_of_check vtG_ok 6 (by decide +kernel)) (spellable_of_check (by decide +kernel)) vtSource
    (.inr ⟨97, _, rfl, .inl (by decide)⟩) vtItems (by unfold ItemsWF vtItems; decide) _ _ ⟨40, rfl⟩
    (by intro h; cases h)⟩

/-- `a x 1 b 1`, which has the same first token and no errors (`C132_alarm`, `C132_parse`). -/
def vtGood : Str := [97] ++ [32, 120, 32, 49, 32, 98, 32, 49]
def vtGoodItems : List (Item 3) := [.token ⟨⟨0, 1⟩, 0⟩] ++
  [.token ⟨⟨2, 3⟩, 2⟩, .token ⟨⟨4, 5⟩, 1⟩, .token ⟨⟨6, 7⟩, 0⟩, .token ⟨⟨8, 9⟩, 1⟩]

example : ItemsWF vtGood vtGoodItems ∧
    (∃ x p', YieldsKeep noExt exS vtXd vtT (Parser.new vtGood vtGoodItems) (.success x) p' ∧
      (p'.view noExt).rest = []) ∧
    Derives vtG [.nt vtT.pid] ((inputWords noExt vtGood vtGoodItems).map .tok) := by
  have hw : ItemsWF vtGood vtGoodItems := by unfold ItemsWF vtGoodItems; decide
  have hy : ∃ x p', YieldsKeep noExt exS vtXd vtT (Parser.new vtGood vtGoodItems) (.success x) p' ∧
    (p'.view noExt).rest = [] := ⟨_, _, ⟨40, by rfl⟩, by rfl⟩
  refine ⟨hw, hy, (C132_accepts noExt exS 40 vtT vtXd vtG rfl vtG_ok (fun t p h => ?_) ?_ vtGood vtGoodItems hw).1 hy⟩
  · have hu := reach_of_check [vtT, vtH, exWord, exNum, fxX] (by decide) (by decide +kernel) h
    simp [vtT, vtH, exWord, exNum, fxX] at hu
  · exact loopFree_of_check [vtT, vtH, exWord, exNum, fxX] (by decide) (by decide +kernel) (by decide +kernel)

end Teleparse
