import Verif.Spec.Stray
import Verif.Proof.Whole
import Verif.Proof.Calls
/-
Lemmas for C105: the steps of a `Loop` are what it does.
-/
namespace Teleparse
variable {m n : Nat}

namespace Stray
variable {S : Schema m n} {md : Metadata (PId m n) n} {G : Grammar (PId m n) n} {t : Ty m n} {source : Str}
  {first : TSet n} {root : Ty m n}

theorem peekSrc {v : View n} (hv : Ready source v) : (View.ops (n := n)).mPeekSrc v = .ok v.look v := by
  refine mPeekSrc_ok.2 ⟨rfl, rfl, fun x hx => ?_⟩
  have hx : x ∈ v.rest := List.mem_of_mem_head? hx
  have hs := get?_eq (hv.inSource.good.rest x hx) (hv.pos hx)
  have e : v.source = source := hv.inSource.src
  rw [e, hs]
  rfl

/-- Skipping tokens. -/
theorem skipLoop_of (hf : ∀ w, first.contains (some w) = true ↔ FirstOf G t.pid w) :
    ∀ (ts : List (Token n)) (k : Nat) (v v1 : View n) (hi : Nat), Ready source v → v.Passed ts v1 →
    (∀ x ∈ ts, ¬ FirstOf G t.pid (x.word v.source)) → (∀ w, v1.word = some w → FirstOf G t.pid w) → ts.length < k →
    skipLoop View.ops first k hi v = .ok ((ts.getLast?.map (·.span.hi)).getD hi, v1.rest ≠ []) v1 := by
  intro ts
  induction ts with
  | nil =>
    intro k v v1 hi hv hp hts hw hk
    obtain ⟨k, rfl⟩ : ∃ i, k = i + 1 := ⟨k - 1, by omega⟩
    have e : v1 = v := by
      cases v; cases v1
      obtain ⟨h1, h2, h3⟩ := hp
      simp at h1 h2 h3
      subst h1 h2 h3
      rfl
    subst e
    refine bind_ok.2 ⟨_, _, peekSrc hv, ?_⟩
    rw [hv.look]
    rw [if_neg]
    · refine pure_ok.2 ⟨?_, rfl⟩
      unfold View.word
      cases v1.rest <;> simp
    · simp only [Bool.and_eq_true, Bool.not_eq_true', not_and, Bool.not_eq_false]
      intro h
      obtain ⟨w, h⟩ := Option.isSome_iff_exists.1 h
      rw [h]
      exact (hf w).2 (hw w h)
  | cons x ts ih =>
    intro k v v1 hi hv hp hts hw hk
    obtain ⟨k, rfl⟩ : ∃ i, k = i + 1 := ⟨k - 1, by omega⟩
    have hr : v.rest = x :: (ts ++ v1.rest) := hp.rest
    have hsk := Passed.skip hr
    refine bind_ok.2 ⟨_, _, peekSrc hv, ?_⟩
    rw [hv.look, word_cons hr]
    rw [if_pos]
    · refine bind_ok.2 ⟨_, _, mCurrentSpan_ok.2 ⟨rfl, rfl⟩, bind_ok.2 ⟨_, _, mConsume_ok.2 ⟨rfl, rfl⟩, ?_⟩⟩
      have hp' : v.skip.Passed ts v1 := by
        refine ⟨hp.source.trans hsk.source.symm, ?_, ?_⟩
        · have := hsk.rest
          rw [hr] at this
          simpa using this.symm
        · rw [hp.cells, hsk.cells]
          simp
      rw [ih k v.skip v1 _ hv.skip hp' (by
        intro y hy
        rw [hsk.source]
        exact hts y (by simp [hy])) hw (by simp only [List.length_cons] at hk; omega)]
      cases ts with
      | nil => simp [View.cur, hr]
      | cons a b => simp [List.getLast?_cons]
    · simp only [Option.isSome_some, Bool.true_and, Bool.not_eq_true']
      rw [← Bool.not_eq_true, hf]
      exact hts x (by simp)

/-- After skipping, the loop is where it would be without the skipped tokens, with one more error. -/
theorem loopLoop_skip (hf : ∀ w, first.contains (some w) = true ↔ FirstOf G t.pid w) {p : P (View n) n}
    {x : Token n} {ts : List (Token n)} {k : Nat} {v v1 : View n} {out : List (Tree n)} {errs : List (Err n)}
    (hv : Ready source v) (hp : v.Passed (x :: ts) v1)
    (hts : ∀ y ∈ x :: ts, ¬ FirstOf G t.pid (y.word v.source)) (hw : ∀ w, v1.word = some w → FirstOf G t.pid w)
    (hk : ts.length < k) :
    loopLoop View.ops first p (k + 1) out errs v =
      loopLoop View.ops first p (k + 1) out (errs ++ LoopStep.errs (.skip (x :: ts))) v1 := by
  have hr : v.rest = x :: (ts ++ v1.rest) := hp.rest
  have hsk := Passed.skip hr
  have hp' : v.skip.Passed ts v1 := by
    refine ⟨hp.source.trans hsk.source.symm, ?_, ?_⟩
    · have := hsk.rest
      rw [hr] at this
      simpa using this.symm
    · rw [hp.cells, hsk.cells]
      simp
  have hv1 : Ready source v1 := hv.adv hp.adv
  have hc : first.contains (some (x.word v.source)) = false := by
    rw [← Bool.not_eq_true, hf]
    exact hts x (by simp)
  have hskip : loopSkip View.ops first k errs v =
      .ok (errs ++ LoopStep.errs (.skip (x :: ts)), decide (v1.rest ≠ [])) v1 := by
    refine bind_ok.2 ⟨_, _, mCurrentSpan_ok.2 ⟨rfl, rfl⟩, bind_ok.2 ⟨_, _, mConsume_ok.2 ⟨rfl, rfl⟩, ?_⟩⟩
    refine bind_ok.2 ⟨_, _, skipLoop_of hf ts k v.skip v1 _ hv.skip hp' (by
        intro y hy
        rw [hsk.source]
        exact hts y (by simp [hy])) hw hk, ?_⟩
    refine pure_ok.2 ⟨?_, rfl⟩
    congr 2
    simp only [LoopStep.errs]
    cases hl : ts.getLast? <;> simp [View.cur, hr]
  have e1 : loopLoop View.ops first p (k + 1) out errs v = _ :=
    show (M.bind _ _) v = _ from by
      unfold M.bind
      rw [peekSrc hv]
  rw [e1]
  dsimp only
  rw [hv.look, word_cons hr, hc]
  simp only [Option.isNone_some, Bool.false_eq_true, if_false, Bool.not_false, if_true]
  show (M.bind _ _) v = _
  unfold M.bind
  rw [hskip]
  dsimp only
  have e2 : loopLoop View.ops first p (k + 1) out (errs ++ LoopStep.errs (.skip (x :: ts))) v1 = _ :=
    show (M.bind _ _) v1 = _ from by
      unfold M.bind
      rw [peekSrc hv1]
  rw [e2]
  dsimp only
  rw [hv1.look]
  cases hl : v1.rest with
  | nil =>
    have : v1.word = none := by simp [View.word, hl]
    simp [this]
  | cons y l =>
    have := word_cons hl
    have hc1 := (hf _).2 (hw _ this)
    simp only [this, hc1, Option.isNone_some, Bool.false_eq_true, if_false, Bool.not_true, ne_eq,
      reduceCtorEq, not_false_eq_true, decide_true]
    rfl

theorem loopTrees_elem (ts : List (Token n)) (r : Res n (Tree n)) (steps : List (LoopStep n)) :
    loopTrees (.elem ts r :: steps) = r.tree?.toList ++ loopTrees steps := by
  simp only [loopTrees, List.filterMap_cons, LoopStep.tree?]
  cases r.tree? <;> simp

/-- An element, and then the rest of the loop if something was consumed. -/
theorem loopLoop_elem (hf : ∀ w, first.contains (some w) = true ↔ FirstOf G t.pid w) {p : P (View n) n}
    {k : Nat} {v v1 : View n} {w : TokenSrc n} {r : Res n (Tree n)} {out : List (Tree n)} {errs : List (Err n)}
    (hv : Ready source v) (hw : v.word = some w) (hfw : FirstOf G t.pid w) (hr : p v = .ok r v1) (ha : Adv v v1) :
    loopLoop View.ops first p (k + 1) out errs v =
      if v1.rest = v.rest then .ok (out ++ r.tree?.toList, errs ++ r.errs ++ [⟨v1.nextSpan, .noAdvance⟩]) v1
      else loopLoop View.ops first p k (out ++ r.tree?.toList) (errs ++ r.errs) v1 := by
  have hne : v.rest ≠ [] := by
    intro h
    simp [View.word, h] at hw
  have e1 : loopLoop View.ops first p (k + 1) out errs v = _ :=
    show (M.bind _ _) v = _ from by
      unfold M.bind
      rw [peekSrc hv]
  rw [e1]
  dsimp only
  rw [hv.look, hw, (hf w).2 hfw]
  simp only [Option.isNone_some, Bool.false_eq_true, if_false, Bool.not_true]
  show (M.bind _ _) v = _
  unfold M.bind
  show (M.bind (loopElem View.ops p out errs) _) v = _
  have helem : loopElem View.ops p out errs v =
      .ok (if v1.rest = v.rest then (false, out ++ r.tree?.toList, errs ++ r.errs ++ [⟨v1.nextSpan, .noAdvance⟩])
        else (true, out ++ r.tree?.toList, errs ++ r.errs)) v1 := by
    refine bind_ok.2 ⟨_, _, mCurrentSpan_ok.2 ⟨rfl, rfl⟩, bind_ok.2 ⟨_, _, hr, ?_⟩⟩
    refine bind_ok.2 ⟨_, _, mCurrentSpan_ok.2 ⟨rfl, rfl⟩, ?_⟩
    have hlo := hv.cur_lo ha hne
    rw [View.nextSpan_eq]
    by_cases h : v1.rest = v.rest
    · rw [if_pos (hlo.2 h), if_pos h]
      cases r <;> simp [Res.tree?, Res.errs] <;> rfl
    · rw [if_neg (fun he => h (hlo.1 he)), if_neg h]
      cases r <;> simp [Res.tree?, Res.errs] <;> rfl
  unfold M.bind
  rw [helem]
  by_cases h : v1.rest = v.rest
  · simp only [h, if_true]
    rfl
  · simp only [h, if_false, if_true]

/-- The steps of a loop are what it does. -/
theorem loopLoop_of (hf : ∀ w, first.contains (some w) = true ↔ FirstOf G t.pid w) {v v' : View n}
    {steps : List (LoopStep n)} {stuck : Bool} (h : LoopSteps S md G t v steps stuck v') : Ready source v →
    ∃ N, ∀ f ≥ N, ∀ k ≥ N, ∀ out errs,
      loopLoop View.ops first (produce View.ops S md f t) k out errs v =
        .ok (out ++ loopTrees steps, errs ++ loopErrs steps stuck v') v' := by
  induction h with
  | @done v h =>
    intro hv
    refine ⟨1, fun f _ k hk out errs => ?_⟩
    obtain ⟨k, rfl⟩ : ∃ i, k = i + 1 := ⟨k - 1, by omega⟩
    refine bind_ok.2 ⟨_, _, peekSrc hv, ?_⟩
    have : v.word = none := by simp [View.word, h]
    rw [hv.look, this]
    simp [loopTrees, loopErrs]
    rfl
  | @skip v ts v1 steps b v' hne hp hts hw h ih =>
    intro hv
    obtain ⟨N, hN⟩ := ih (hv.adv hp.adv)
    refine ⟨max N (ts.length + 1), fun f hf' k hk out errs => ?_⟩
    obtain ⟨k, rfl⟩ : ∃ i, k = i + 1 := ⟨k - 1, by omega⟩
    cases ts with
    | nil => exact absurd rfl hne
    | cons x ts =>
      rw [loopLoop_skip hf hv hp hts hw (by simp only [List.length_cons] at hk; omega),
        hN f (by omega) (k + 1) (by omega)]
      simp [loopTrees, loopErrs, LoopStep.tree?, List.filterMap_cons]
  | @elem v w ts r v1 steps b v' hw hfw hon hr hne h ih =>
    intro hv
    obtain ⟨N, hN⟩ := ih (hv.adv hon.adv)
    obtain ⟨f0, h0⟩ := id hon
    refine ⟨max (N + 1) f0, fun f hf' k hk out errs => ?_⟩
    obtain ⟨k, rfl⟩ : ∃ i, k = i + 1 := ⟨k - 1, by omega⟩
    rw [loopLoop_elem hf hv hw hfw (produce_more h0 (by omega)) hon.adv, if_neg, hN f (by omega) k (by omega),
      loopTrees_elem]
    · simp [loopErrs, LoopStep.errs]
    · intro he
      rw [he] at hr
      exact hne (List.append_left_eq_self.1 hr.symm)
  | @stuck v w r v1 hw hfw hon he =>
    intro hv
    obtain ⟨f0, h0⟩ := id hon
    refine ⟨max 1 f0, fun f hf' k hk out errs => ?_⟩
    obtain ⟨k, rfl⟩ : ∃ i, k = i + 1 := ⟨k - 1, by omega⟩
    rw [loopLoop_elem hf hv hw hfw (produce_more h0 (by omega)) hon.adv, if_pos he, loopTrees_elem]
    simp [loopErrs, LoopStep.errs, loopTrees]

/-- The result of a loop with these steps. -/
theorem on_loop (hf : ∀ w, (md.first.get (Ty.loop t).pid).contains (some w) = true ↔ FirstOf G t.pid w)
    {v v' : View n} {steps : List (LoopStep n)} {stuck : Bool} (hv : Ready source v)
    (h : LoopSteps S md G t v steps stuck v') :
    On S md (.loop t) v (Res.ofPair (.list (if loopTrees steps = [] then ⟨v'.pos, v'.pos⟩ else spanOf (loopTrees steps))
      (loopTrees steps)) (loopErrs steps stuck v')) v' := by
  obtain ⟨N, hN⟩ := loopLoop_of hf h hv
  refine ⟨N + 1, bind_ok.2 ⟨_, _, hN N (Nat.le_refl _) N (Nat.le_refl _) [] [], ?_⟩⟩
  simp only [List.nil_append]
  by_cases he : loopTrees steps = []
  · rw [he, if_pos rfl]
    exact bind_ok.2 ⟨_, _, mEmptySpan_ok.2 ⟨rfl, rfl⟩, rfl⟩
  · rw [if_neg he, if_neg (by simpa using he)]
    rfl

/-- First steps, and the rest of them. -/
theorem path_steps {v w v' : View n} {pre steps : List (LoopStep n)} {stuck : Bool} (h : LoopPath S md G t v pre w)
    (h' : LoopSteps S md G t w steps stuck v') : LoopSteps S md G t v (pre ++ steps) stuck v' := by
  induction h with
  | here => exact h'
  | skip h1 h2 h3 h4 _ ih => exact .skip h1 h2 h3 h4 (ih h')
  | elem h1 h2 h3 h4 h5 _ ih => exact .elem h1 h2 h3 h4 h5 (ih h')

/-- The step for a piece. -/
def step : Chunk n → LoopStep n
  | .item c x => .elem (c.map (·.token)) (.success x)
  | .stray ts => .skip ts

theorem step_trees (l : List (Chunk n)) : loopTrees (l.map step) = l.filterMap Chunk.tree? := by
  unfold loopTrees
  rw [List.filterMap_map]
  congr 1
  funext a
  cases a <;> rfl

theorem step_errs (l : List (Chunk n)) (v' : View n) : loopErrs (l.map step) false v' = l.flatMap Chunk.errs := by
  unfold loopErrs
  rw [if_neg (by simp), List.append_nil, List.flatMap_map]
  congr 1
  funext a
  cases a with
  | item c x => rfl
  | stray ts => cases ts <;> rfl

/-- Good elements and stray tokens are the steps of the loop. -/
theorem chunks_steps (E : Found S md root G) (ht : Reach S.tyParts root (.loop t)) (hl : LoopFree S t)
    (hn : ¬ Null G t.pid) {pos : Nat} {l : List (Chunk n)} (h : Chunks S G source t pos l) :
    ∀ d, endOf 0 d = pos → Ready source ⟨source, d, l.flatMap Chunk.tokens⟩ →
      LoopSteps S md G t ⟨source, d, l.flatMap Chunk.tokens⟩ (l.map step) false ⟨source, d ++ l.flatMap Chunk.cells, []⟩ := by
  have ht' : Reach S.tyParts root t := .step ht (by simp [Schema.tyParts])
  induction h with
  | nil =>
    intro d _ _
    simp only [List.flatMap_nil, List.append_nil, List.map_nil]
    exact .done rfl
  | @item pos c x l hx hnext h ih =>
    intro d hd hr
    have hw : Within S root root t := .of_reach ht'
    rcases E.part hl hw hx with ⟨-, h0⟩ | ⟨w, h1, h2, h3⟩
    · exact absurd h0 hn
    have hv : (⟨source, d, (Chunk.item c x :: l).flatMap Chunk.tokens⟩ : View n) =
        ⟨source, d, toks c ++ l.flatMap Chunk.tokens⟩ := by simp [Chunk.tokens, toks]
    rw [hv] at hr ⊢
    have hon : On S md t ⟨source, d, toks c ++ l.flatMap Chunk.tokens⟩ (.success x)
        ⟨source, d ++ c, l.flatMap Chunk.tokens⟩ := by
      have C : Comp S md source t root G := E.comp ht' hl
      have := C.finds (fx := false) hx d (l.flatMap Chunk.tokens) hd hr ⟨.refl, reach_pid ht'⟩ (by
        intro tok htok
        rcases hnext tok htok with hf | hf
        · refine .inl ?_
          have hi := E.reachable (reach_pid ht)
          refine FollowOf.between (t := .plus t.prod) (pre := []) (mid := []) (post := []) hi
            (b := .opt (.plus t.prod)) (E.mem (reach_pid ht)) (by simp) ?_
          have ho : PReach S root (.opt (.plus t.prod)) := (reach_pid ht).seq (rule_plus _) (by simp)
          exact .alt (E.mem ho) (List.mem_cons_self ..)
            (.seq (pre := []) (E.mem (reach_pid ht)) (by simp) (firstOf_iff.1 hf))
        · exact .inr hf)
      obtain ⟨N, o, g1, g2, g3⟩ := this
      have g1 := g1 N N (Nat.le_refl _) (Nat.le_refl _)
      cases o with
      | fuel => exact absurd rfl g2
      | crash => exact absurd g1 ((produce_safe S md N t _ hr.inSource).1)
      | ok r v =>
        obtain ⟨rfl, rfl⟩ := g3 r v rfl
        exact ⟨N, g1⟩
    have ih := ih (d ++ c) (by
      subst hd
      unfold endOf
      cases hc : c.getLast? <;> simp [List.getLast?_append, hc]) (hr.adv hon.adv)
    have e : d ++ (Chunk.item c x :: l).flatMap Chunk.cells = d ++ c ++ l.flatMap Chunk.cells := by simp [Chunk.cells]
    rw [e]
    refine .elem (w := w) ?_ (firstOf_iff.2 h1) hon rfl (by simpa [toks] using h2) ih
    exact h3 _
  | @stray pos ts l hne hts hnext h ih =>
    intro d hd hr
    have hp : (⟨source, d, (Chunk.stray ts :: l).flatMap Chunk.tokens⟩ : View n).Passed ts
        ⟨source, d ++ (Chunk.stray ts).cells, l.flatMap Chunk.tokens⟩ :=
      ⟨rfl, by simp [Chunk.tokens], rfl⟩
    have ih := ih (d ++ (Chunk.stray ts).cells) (by
      subst hd
      unfold endOf
      cases hc : (Chunk.stray ts).cells.getLast? <;> simp [List.getLast?_append, hc]) (hr.adv hp.adv)
    have e : d ++ (Chunk.stray ts :: l).flatMap Chunk.cells = d ++ (Chunk.stray ts).cells ++ l.flatMap Chunk.cells := by
      simp
    rw [e]
    exact .skip hne hp hts hnext ih

end Stray
end Teleparse
