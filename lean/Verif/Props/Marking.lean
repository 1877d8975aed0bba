import Verif.Proof.Marking
import Verif.Props.Cost
import Verif.Props.Depth
import Verif.Props.TokenStore
/-
Property C124: what semantic types cost.
-/
namespace Teleparse
variable {m n : Nat}

/-! ## C124: applying semantic types -/

/-- Counting does not change what is produced. -/
theorem C124_same (ext : Fin n → Bool) (S : Schema m n) (md : Metadata (PId m n) n) (fuel : Nat) (t : Ty m n)
    (p : Parser n) (k : Nat) :
    (produce (Parser.opsMarked ext) S md fuel t (p, k)).mapState Prod.fst = produce (Parser.ops ext) S md fuel t p :=
  ((unmark_closed (Parser.ops ext) _).produce S md fuel t p k).symm

/-- A run looks at a definite number of tokens for its semantic types. -/
theorem C124_defined (ext : Fin n → Bool) (S : Schema m n) (md : Metadata (PId m n) n) (t : Ty m n)
    (p p' : Parser n) (r : Res n (Tree n)) : Yields ext S md t p r p' ↔ ∃ k, MarksWith ext S md t p r p' k := by
  constructor
  · rintro ⟨fuel, h⟩
    have h1 := C124_same ext S md fuel t p 0
    rw [h] at h1
    cases h2 : produce (Parser.opsMarked ext) S md fuel t (p, 0) with
    | fuel => rw [h2] at h1; cases h1
    | crash => rw [h2] at h1; cases h1
    | ok x s =>
      rw [h2] at h1
      obtain ⟨q, k⟩ := s
      cases h1
      exact ⟨k, fuel, fun f hf => produce_more h2 hf⟩
  · rintro ⟨k, fuel, h⟩
    refine ⟨fuel, ?_⟩
    rw [← C124_same ext S md fuel t p 0, h fuel (Nat.le_refl _)]
    rfl

/-- The work for semantic types is at most the number of operations of the parser (C76) times the size of the token
store (and a logarithm). -/
theorem C124_bound (ext : Fin n → Bool) (S : Schema m n) (md : Metadata (PId m n) n) (t : Ty m n) (p p' : Parser n)
    (r : Res n (Tree n)) (k l : Nat) (hk : Takes ext S md t p r p' k) (hl : MarksWith ext S md t p r p' l) :
    l ≤ k * (p'.info.tokens.length + 2 * p'.info.tokens.length.log2 + 4) := by
  obtain ⟨f1, h1⟩ := hk
  obtain ⟨f2, h2⟩ := hl
  have a := (counted_view_closed ext).produce S md (max f1 f2) t p 0
  have b := (marked_view_closed ext).produce S md (max f1 f2) t p 0
  rw [h1 _ (by omega)] at a
  rw [h2 _ (by omega)] at b
  have h := within_closed.produce S md (max f1 f2) t (p.view ext) 0 0 (Nat.zero_le _)
  simp only [Nat.add_zero] at a b h
  rw [a, b] at h
  exact h.2.2

/-- For every type there is a number `K` such that parsing a text, whenever it returns, looks at no more than
`K * (N + 1) * (N + 2 log N + 4)` tokens for the semantic types, where `N` is the number of tokens of the text. -/
theorem C124_quadratic (S : Schema m n) (t : Ty m n) : ∃ K, ∀ (md : Metadata (PId m n) n) (ext : Fin n → Bool)
    (source : Str) (items : List (Item n)) (p' : Parser n) (r : Res n (Tree n)) (l : Nat),
    MarksWith ext S md t (Parser.new source items) r p' l →
      l ≤ K * ((streamOf ext items).length + 1) *
        ((streamOf ext items).length + 2 * (streamOf ext items).length.log2 + 4) := by
  obtain ⟨K, h⟩ := C76_text S t
  refine ⟨K, fun md ext source items p' r l hl => ?_⟩
  have hy := (C124_defined ext S md t _ p' r).2 ⟨l, hl⟩
  obtain ⟨k, hk⟩ := (C76_defined ext S md t _ p' r).1 hy
  refine Nat.le_trans (C124_bound ext S md t _ p' r k l hk hl) (Nat.mul_le_mul (h md ext source items p' r k hk)
    (markBound_mono ?_))
  have := consumed_le hy
  unfold Parser.consumedSince at this
  simpa [Parser.new] using this

/-- Under the conditions of C38 parsing returns, within this bound. -/
theorem C124_returns (S : Schema m n) (fuel : Nat) (root : Ty m n) (md : Metadata (PId m n) n)
    (G : Grammar (PId m n) n) (hmd : S.metadata fuel root = some (.ok md)) (hG : S.IsGrammar root G)
    (hleft : ∀ i, Reachable G root.pid i → ¬ LeftDerives G i i)
    (hneeds : ∀ i, Reachable G root.pid i → ¬ Needs G i i)
    (henum : ∀ k v vs, S k = .enum v vs → Nullable G (.user k) → ∀ i tok rest, Reachable G root.pid i →
      ¬ Derives G [.nt i] (.nt (.user k) :: .tok tok :: rest)) :
    ∃ K, ∀ (ext : Fin n → Bool) (source : Str) (items : List (Item n)), ItemsWF source items →
        ∃ r p' l, MarksWith ext S md root (Parser.new source items) r p' l ∧
          l ≤ K * ((streamOf ext items).length + 1) *
            ((streamOf ext items).length + 2 * (streamOf ext items).length.log2 + 4) := by
  obtain ⟨K, h⟩ := C76_text_returns S fuel root md G hmd hG hleft hneeds henum
  refine ⟨K, fun ext source items hw => ?_⟩
  obtain ⟨r, p', k, h1, h2⟩ := h ext source items hw
  have hy := (C76_defined ext S md root _ p' r).2 ⟨k, h1⟩
  obtain ⟨l, hl⟩ := (C124_defined ext S md root _ p' r).1 hy
  refine ⟨r, p', l, hl, Nat.le_trans (C124_bound ext S md root _ p' r k l h1 hl) ?_⟩
  obtain ⟨ts, h3, h4⟩ := hy.run.adv.cons
  have h3' : streamOf ext items = ts ++ (p'.view ext).rest := h3
  have h4' : p'.info.tokens.map (·.token) = [] ++ ts := h4
  have h6 := congrArg List.length h4'
  simp only [List.length_map, List.nil_append] at h6
  refine Nat.mul_le_mul h2 (markBound_mono ?_)
  rw [h3', List.length_append, h6]
  omega

/-- The example of C76. -/
example : ∃ K, ∀ (source : Str) (items : List (Item 3)), ItemsWF source items →
    ∃ r p' l, MarksWith exExt txS txMd txT (Parser.new source items) r p' l ∧
      l ≤ K * ((streamOf exExt items).length + 1) *
        ((streamOf exExt items).length + 2 * (streamOf exExt items).length.log2 + 4) := by
  obtain ⟨K, h⟩ := C124_returns txS 40 txT txMd txG txMd_ok txG_ok
    (fun _ => productive_left txMd_ok txG_ok (productive_of_check txG_ok 10 (by decide +kernel)))
    (fun i hi => (productive_of_check txG_ok 10 (by decide +kernel) i hi).not_needs txG_ok.1) (by
      intro k v vs hk hn
      have h := (metadata_first txMd_ok txG_ok (.user k) none).2 hn
      have hno : ∀ k : Fin 2, (txMd.first.get (.user k)).contains none = false := by decide +kernel
      rw [hno k] at h
      cases h)
  exact ⟨K, h exExt⟩

/-- For the programs that pass the check of C98 there are no further conditions. -/
theorem C124_plain {S : Schema m n} {fuel : Nat} {root : Ty m n} (hS : S.plain fuel root = true) :
    ∃ md K, S.metadata fuel root = some (.ok md) ∧
      ∀ (ext : Fin n → Bool) (source : Str) (items : List (Item n)), ItemsWF source items →
        ∃ r p' l, MarksWith ext S md root (Parser.new source items) r p' l ∧
          l ≤ K * ((streamOf ext items).length + 1) *
            ((streamOf ext items).length + 2 * (streamOf ext items).length.log2 + 4) := by
  obtain ⟨md, G, g⟩ := Plain.good hS
  obtain ⟨K, h⟩ := C124_returns S fuel root md G g.md g.gram
    (fun _ => productive_left g.md g.gram g.productive)
    (fun i hi => (g.productive i hi).not_needs g.gram.1)
    (fun k v vs hk hn => absurd hn (g.enum k v vs hk))
  exact ⟨md, K, g.md, h⟩

/-! ### The bound is reached -/

/-- `struct Words { head: word, #[teleparse(semantic(Tail))] tail: tp::Option<Box<Words>> }` -/
def mkSem : LSet 3 := LSet.new.insert 2
def mkS : Schema 1 3 := fun _ => .struct (wdWord, none) [(.option (.box (.user 0)), some mkSem)]
def mkMd : Metadata (PId 1 3) 3 := okOf ⟨[], [], []⟩ (mkS.metadata 40 (.user 0))
theorem mkMd_ok : mkS.metadata 40 (.user 0) = some (.ok mkMd) := rfl

/-- The counted abstract stream. -/
abbrev KO (n : Nat) : Ops (View n × Nat) n := (View.ops (n := n)).marked View.cells

theorem mk_term (d j : Nat) (s : Str) (c : TokenVec 3) (sp : Span) (r : List (Token 3)) :
    produce (KO 3) mkS mkMd (d + 1) wdWord (⟨s, c, ⟨sp, 0⟩ :: r⟩, j) =
      .ok (.success (.tok ⟨sp, 0⟩)) (⟨s, c.push ⟨sp, 0⟩, r⟩, j) := rfl

theorem mk_none (d j : Nat) (s : Str) (c : TokenVec 3) :
    produce (KO 3) mkS mkMd (d + 1) (.option (.box (.user 0))) (⟨s, c, []⟩, j) =
      .ok (.success (.optNone ⟨(View.mk s c []).pos, (View.mk s c []).pos⟩)) (⟨s, c, []⟩, j) := rfl

theorem mk_first : (mkMd.first.get (Ty.box (.user 0)).pid).contains (some ⟨0, [97]⟩) = true := by decide +kernel

theorem mk_peek (e k j : Nat) (c : TokenVec 3) (hk : k + 1 ≤ e) :
    (KO 3).mPeekSrc (⟨wdSource e, c, wdToks e (k + 1)⟩, j) =
      .ok (some ⟨0, [97]⟩) (⟨wdSource e, c, wdToks e (k + 1)⟩, j) := by
  have hg := wd_get e k hk
  simp only [Ops.mPeekSrc, Ops.mPeek, Ops.mGetSrc, Ops.mSource, bind, M.bind, Ops.marked, View.ops, wdToks, List.head?_cons,
    hg, pure, M.pure]

theorem mk_some {d e k j : Nat} {c : TokenVec 3} {t : Tree 3} {w : View 3 × Nat} (hk : k + 1 ≤ e)
    (h : produce (KO 3) mkS mkMd d (.user 0) (⟨wdSource e, c, wdToks e (k + 1)⟩, j) = .ok (.success t) w) :
    produce (KO 3) mkS mkMd (d + 2) (.option (.box (.user 0))) (⟨wdSource e, c, wdToks e (k + 1)⟩, j) =
      .ok (.success (.optSome t.span t)) w := by
  have h' : produce (KO 3) mkS mkMd (d + 1) (.box (.user 0)) (⟨wdSource e, c, wdToks e (k + 1)⟩, j) =
      .ok (.success t) w := h
  show produceOption (KO 3) _ (produce (KO 3) mkS mkMd (d + 1) (.box (.user 0))) _ _ = _
  simp only [produceOption, bind, M.bind, mk_peek e k j c hk, mk_first, Option.isSome_some, Bool.and_self, if_true, h']
  rfl

theorem mk_user {d j j' : Nat} {s : Str} {c : TokenVec 3} {sp : Span} {r : List (Token 3)} {t : Tree 3} {w : View 3}
    (h : produce (KO 3) mkS mkMd (d + 1) (.option (.box (.user 0))) (⟨s, c.push ⟨sp, 0⟩, r⟩, j) = .ok (.success t) (w, j')) :
    produce (KO 3) mkS mkMd (d + 2) (.user 0) (⟨s, c, ⟨sp, 0⟩ :: r⟩, j) =
      .ok (.success (.seq ⟨sp.lo, t.span.hi⟩ [.tok ⟨sp, 0⟩, t]))
        (⟨w.source, w.cells.applySemanticInside t.span mkSem, w.rest⟩,
          j' + (w.cells.applySemanticInsideT t.span mkSem).looks) := by
  show produceStruct (KO 3) [(produce (KO 3) mkS mkMd (d + 1) wdWord, none),
    (produce (KO 3) mkS mkMd (d + 1) (.option (.box (.user 0))), some mkSem)] _ = _
  simp only [produceStruct, seqLoop, List.map_cons, List.map_nil, bind, M.bind, mk_term, h]
  rfl

/-- The last words of the store lie inside the span of the tail. -/
theorem mk_inside (e : Nat) : ∀ j k, k ≤ j → j ≤ e →
    k ≤ ((wdToks e j).filter fun t => decide (t.span.Inside ⟨e - k, e⟩)).length
  | 0, k, hk, _ => by omega
  | j + 1, k, hk, hj => by
    by_cases h : k = j + 1
    · subst h
      have ih := mk_inside e j j (Nat.le_refl _) (by omega)
      have hsub : ((wdToks e j).filter fun t => decide (t.span.Inside ⟨e - j, e⟩)).length ≤
          ((wdToks e j).filter fun t => decide (t.span.Inside ⟨e - (j + 1), e⟩)).length := by
        rw [← List.countP_eq_length_filter, ← List.countP_eq_length_filter]
        refine List.countP_mono_left fun t _ ht => ?_
        have ht := of_decide_eq_true ht
        exact decide_eq_true ⟨Nat.le_trans (Nat.sub_le_sub_left (Nat.le_succ j) e) ht.1, ht.2⟩
      have hin : Span.Inside ⟨e - (j + 1), e - j⟩ ⟨e - (j + 1), e⟩ := ⟨Nat.le_refl _, Nat.sub_le _ _⟩
      rw [wdToks, List.filter_cons, if_pos (decide_eq_true hin), List.length_cons]
      exact Nat.succ_le_succ (Nat.le_trans ih hsub)
    · have ih := mk_inside e j k (by omega) (by omega)
      rw [wdToks, List.filter_cons]
      split
      · rw [List.length_cons]; omega
      · exact ih

theorem mk_sorted (e : Nat) (c : TokenVec 3) (hc : c.map (·.token) = wdToks e e) : SortedStore c := by
  unfold SortedStore
  rw [hc]
  exact ⟨fun t ht => (wd_spans e e (Nat.le_refl _) t ht).1, wd_ordered e e (Nat.le_refl _)⟩

/-- Marking the tail of `k` words costs at least `k`. -/
theorem mk_looks (e k : Nat) (hk : k ≤ e) (c : TokenVec 3) (hc : c.map (·.token) = wdToks e e) :
    k ≤ (c.applySemanticInsideT ⟨e - k, e⟩ mkSem).looks := by
  have hs := mk_sorted e c hc
  obtain ⟨h1, h2⟩ := C10_bounds hs ⟨e - k, e⟩
  have h3 := mk_inside e e k hk (Nat.le_refl _)
  rw [← hc, List.filter_map, List.length_map] at h3
  cases hb : c.insideBounds ⟨e - k, e⟩ with
  | none =>
    rw [List.filter_eq_nil_iff.2] at h3
    · simp at h3; omega
    · intro x hx
      simpa using h1.1 hb x hx
  | some b =>
    obtain ⟨lo, hi⟩ := b
    have h4 := c.applySemanticInsideT_ge ⟨e - k, e⟩ mkSem hb
    rw [(h2 lo hi hb).2.2] at h4
    exact Nat.le_trans h3 h4

theorem mk_run (e : Nat) : ∀ (k j : Nat) (c : TokenVec 3), k + 1 ≤ e →
    c.map (·.token) ++ wdToks e (k + 1) = wdToks e e →
    ∃ c' j', produce (KO 3) mkS mkMd (3 * k + 2) (.user 0) (⟨wdSource e, c, wdToks e (k + 1)⟩, j) =
      .ok (.success (wdTree e k)) (⟨wdSource e, c', []⟩, j') ∧ c'.map (·.token) = wdToks e e ∧
      2 * j + k * (k + 1) ≤ 2 * j' := by
  intro k
  induction k with
  | zero =>
    intro j c he hc
    have h := mk_user (sp := ⟨e - 1, e⟩) (mk_none 0 j (wdSource e) (c.push ⟨⟨e - 1, e⟩, 0⟩))
    rw [Depth.pos_push] at h
    refine ⟨_, _, h, ?_, by omega⟩
    rw [apply_tokens]
    rw [← hc]
    simp [TokenVec.push, Cell.ofToken, wdToks]
  | succ k ih =>
    intro j c he hc
    obtain ⟨c', j', h1, h2, h3⟩ := ih j (c.push ⟨⟨e - (k + 1 + 1), e - (k + 1)⟩, 0⟩) (by omega) (by
      rw [← hc]
      simp [TokenVec.push, Cell.ofToken, wdToks])
    have h := mk_user (mk_some (k := k) (by omega) h1)
    rw [wdTree_span] at h
    refine ⟨_, _, h, ?_, ?_⟩
    · rw [apply_tokens]; exact h2
    · have h4 := mk_looks e (k + 1) (by omega) c' h2
      have : (k + 1) * (k + 1 + 1) = k * (k + 1) + 2 * (k + 1) := by
        rw [show k + 1 + 1 = k + 2 from rfl, Nat.mul_add, Nat.mul_comm (k + 1) k, Nat.mul_comm (k + 1) 2]
      simp only [Tree.span]
      omega

/-- The bound cannot be made linear: this program is accepted, and for `k + 1` words `apply_semantic` looks at no fewer
than `k * (k + 1) / 2` tokens, because every word marks all the words after it once more. -/
theorem C124_nested (k : Nat) : mkS.plain 40 (.user 0) = true ∧ ItemsWF (wdSource (k + 1)) (wdItems k) ∧
    (streamOf noExt (wdItems k)).length = k + 1 ∧
    ∃ p' l, MarksWith noExt mkS mkMd (.user 0) (Parser.new (wdSource (k + 1)) (wdItems k)) (.success (wdTree (k + 1) k)) p' l ∧
      k * (k + 1) ≤ 2 * l := by
  have hv := wd_view k
  have hlen : (streamOf noExt (wdItems k)).length = k + 1 := by
    have h1 : streamOf noExt (wdItems k) = wdToks (k + 1) (k + 1) := congrArg View.rest hv
    have h2 : ∀ e j, (wdToks e j).length = j := fun e j => by
      induction j with
      | zero => rfl
      | succ j ih => simp [wdToks, ih]
    rw [h1, h2]
  refine ⟨by decide +kernel, wd_wf k, hlen, ?_⟩
  obtain ⟨c', l, h1, -, h3⟩ := mk_run (k + 1) k 0 [] (Nat.le_refl _) rfl
  have h4 := (marked_view_closed noExt).produce mkS mkMd (3 * k + 2) (.user 0) (Parser.new (wdSource (k + 1)) (wdItems k)) 0
  rw [hv, h1] at h4
  cases h5 : produce (Parser.opsMarked noExt) mkS mkMd (3 * k + 2) (.user 0)
      (Parser.new (wdSource (k + 1)) (wdItems k), 0) with
  | fuel => rw [h5] at h4; cases h4
  | crash => rw [h5] at h4; cases h4
  | ok x s =>
    rw [h5] at h4
    obtain ⟨q, l'⟩ := s
    simp only [Out.mapState, Out.ok.injEq, Prod.mk.injEq] at h4
    obtain ⟨hx, -, hl⟩ := h4
    subst hx
    subst hl
    exact ⟨q, l, ⟨3 * k + 2, fun f hf => produce_more h5 hf⟩, by omega⟩

example : ∃ md K, mkS.metadata 40 (.user 0) = some (.ok md) ∧
    ∀ (ext : Fin 3 → Bool) (source : Str) (items : List (Item 3)), ItemsWF source items →
      ∃ r p' l, MarksWith ext mkS md (.user 0) (Parser.new source items) r p' l ∧
        l ≤ K * ((streamOf ext items).length + 1) *
          ((streamOf ext items).length + 2 * (streamOf ext items).length.log2 + 4) :=
  C124_plain (by decide +kernel)

/-- Five words: 50 looks, namely 4 + 3 + 2 + 1 for the words of the tails and 40 for searching them. -/
example : (match produce (Parser.opsMarked noExt) mkS mkMd 14 (.user 0)
    (Parser.new (wdSource 5) (wdItems 4), 0) with
    | .ok _ s => some s.2
    | _ => none) = some 50 := by rfl

end Teleparse
