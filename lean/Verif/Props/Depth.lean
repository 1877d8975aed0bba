import Verif.Proof.Depth
import Verif.Props.Plain
import Verif.Props.Items
/-
C108: how deep the parser recurses. `produce` of a type calls `produce` of its parts, on the stack of the program.
-/
namespace Teleparse
open Depth
variable {m n : Nat}

/-- A stack with some room does not change what is parsed: a result is the result. -/
theorem C108_sound {ext : Fin n → Bool} {S : Schema m n} {md : Metadata (PId m n) n} {t : Ty m n} {d : Nat}
    {p p' : Parser n} {r : Res n (Tree n)} (h : FitsIn ext S md d t p r p') : Yields ext S md t p r p' := by
  obtain ⟨i, h⟩ := h
  exact ⟨i + d, by rw [nested_produce _ d (Nat.le_refl _) t p (by rw [h]; simp), h]⟩

/-- More room does not hurt. -/
theorem C108_more {ext : Fin n → Bool} {S : Schema m n} {md : Metadata (PId m n) n} {t : Ty m n} {d d' : Nat}
    {p p' : Parser n} {r : Res n (Tree n)} (h : FitsIn ext S md d t p r p') (hd : d ≤ d') : FitsIn ext S md d' t p r p' := by
  obtain ⟨i, h⟩ := h
  exact ⟨i, by rw [nested_more _ (Nat.le_refl i) hd t p (by rw [h]; simp), h]⟩

/-- The nesting is at most linear in the number of tokens: for every parse that returns, with or without errors, room
for `|T| * (tokens + 1)` calls is enough, where `T` is the list of the types written in the program and `tokens` is the
number of tokens still to be parsed. -/
theorem C108_linear {ext : Fin n → Bool} {S : Schema m n} {md : Metadata (PId m n) n} {t : Ty m n}
    {p p' : Parser n} {r : Res n (Tree n)} (h : Yields ext S md t p r p') :
    FitsIn ext S md ((S.written t).length * ((p.view ext).rest.length + 1)) t p r p' := by
  obtain ⟨f, h⟩ := h
  have h1 := produce_view ext S md f t p
  have hne : produce View.ops S md f t (p.view ext) ≠ .fuel := by rw [h1, h]; simp [Out.mapState]
  have h2 := deep (S := S) (md := md) (root := t) (i := f) _ (S.written t).length t (p.view ext) f [] rfl (written_root t)
    .nil (by simp) (by simp) (by simp) (by omega) hne
  have hne' : nested (Parser.ops ext) S md f ((S.written t).length * ((p.view ext).rest.length + 1)) t p ≠ .fuel := by
    intro h3
    have h4 := nested_sim (S := S) (md := md) ext f ((S.written t).length * ((p.view ext).rest.length + 1)) t p
    rw [h3, Nat.mul_succ, Nat.mul_comm, h2] at h4
    exact hne h4
  exact ⟨f, by rw [← nested_produce _ _ (Nat.le_refl _) t p hne', produce_more h (Nat.le_add_right _ _)]⟩

/-- If no type is inside of itself, the nesting does not depend on the input: room for as many calls as types are
written in the program is enough for every input. -/
theorem C108_flat {ext : Fin n → Bool} {S : Schema m n} {md : Metadata (PId m n) n} {t : Ty m n} (hS : S.Flat t)
    {p p' : Parser n} {r : Res n (Tree n)} (h : Yields ext S md t p r p') : FitsIn ext S md (S.written t).length t p r p' := by
  obtain ⟨f, h⟩ := h
  exact ⟨f, by
    rw [flat _ hS _ t p f [] .refl (written_root t) .nil (by simp) (by simp) (by simp) (by omega) (by rw [h]; simp), h]⟩

/-- A program that passes the check of C98 parses every input with room for `|T| * (bytes + 1)` calls. -/
theorem C108_parse (ext : Fin n → Bool) {S : Schema m n} {fuel : Nat} {root : Ty m n} (hS : S.plain fuel root = true) :
    ∃ md, S.metadata fuel root = some (.ok md) ∧ ∀ (source : Str) (items : List (Item n)), ItemsWF source items →
      ∃ r p', Yields ext S md root (Parser.new source items) r p' ∧
        FitsIn ext S md ((S.written root).length * (source.length + 1)) root (Parser.new source items) r p' := by
  obtain ⟨md, G, g⟩ := Plain.good hS
  refine ⟨md, g.md, fun source items hw => ?_⟩
  obtain ⟨r, p', h⟩ := C38_productive_partial ext S fuel root md G g.md g.gram g.productive
    (fun k v vs hk hn => absurd hn (g.enum k v vs hk)) source items hw _ .new
  exact ⟨r, p', h, C108_more (C108_linear h)
    (Nat.mul_le_mul_left _ (Nat.succ_le_succ (stream_length (ext := ext) hw)))⟩

/-! ### Recursive syntax has no limit -/

/-- `struct Words { head: word, tail: tp::Option<Box<Words>> }` -/
def wdWord : Ty 1 3 := .term 0 ⟨0, none⟩
def wdS : Schema 1 3 := fun _ => .struct (wdWord, none) [(.option (.box (.user 0)), none)]
def wdMd : Metadata (PId 1 3) 3 := okOf ⟨[], [], []⟩ (wdS.metadata 40 (.user 0))
theorem wdMd_ok : wdS.metadata 40 (.user 0) = some (.ok wdMd) := rfl

/-- `k` words, up to the end of a source of length `e`. -/
def wdToks (e : Nat) : Nat → List (Token 3)
  | 0 => []
  | k + 1 => ⟨⟨e - (k + 1), e - k⟩, 0⟩ :: wdToks e k

def wdSource (e : Nat) : Str := List.replicate e 97

theorem wd_boundary (e i : Nat) (h : i ≤ e) : isBoundary (wdSource e) i = true := by
  unfold isBoundary wdSource
  by_cases h1 : i = 0
  · rw [if_pos h1]
  · by_cases h2 : i = e
    · rw [if_neg h1, if_pos (by simpa using h2)]
    · rw [if_neg h1, if_neg (by simpa using h2), List.getElem?_replicate, if_pos (by omega)]
      decide

theorem wd_get (e k : Nat) (h : k + 1 ≤ e) : (⟨e - (k + 1), e - k⟩ : Span).get? (wdSource e) = some [97] := by
  rw [get?_eq]
  · have h1 : e - k - (e - (k + 1)) = 1 := by omega
    have h2 : e - (e - (k + 1)) = k + 1 := by omega
    simp [wdSource, h1, h2]
  · exact ⟨⟨by simp [wdSource], wd_boundary e _ (Nat.sub_le _ _)⟩, by simp [wdSource], wd_boundary e _ (Nat.sub_le _ _)⟩
  · simp only; omega

/-- The tree of `k + 1` words. -/
def wdTree (e : Nat) : Nat → Tree 3
  | 0 => .seq ⟨e - 1, e⟩ [.tok ⟨⟨e - 1, e⟩, 0⟩, .optNone ⟨e, e⟩]
  | k + 1 => .seq ⟨e - (k + 2), e⟩ [.tok ⟨⟨e - (k + 2), e - (k + 1)⟩, 0⟩, .optSome ⟨e - (k + 1), e⟩ (wdTree e k)]

theorem wdTree_span (e : Nat) : ∀ k, (wdTree e k).span = ⟨e - (k + 1), e⟩
  | 0 => rfl
  | _ + 1 => rfl

theorem wd_term (i d : Nat) (s : Str) (c : TokenVec 3) (sp : Span) (r : List (Token 3)) :
    nested View.ops wdS wdMd i (d + 1) wdWord ⟨s, c, ⟨sp, 0⟩ :: r⟩ =
      .ok (.success (.tok ⟨sp, 0⟩)) ⟨s, c.push ⟨sp, 0⟩, r⟩ := rfl

theorem wd_none (i d : Nat) (s : Str) (c : TokenVec 3) :
    nested View.ops wdS wdMd i (d + 1) (.option (.box (.user 0))) ⟨s, c, []⟩ =
      .ok (.success (.optNone ⟨(View.mk s c []).pos, (View.mk s c []).pos⟩)) ⟨s, c, []⟩ := rfl

theorem wd_first : (wdMd.first.get (Ty.box (.user 0)).pid).contains (some ⟨0, [97]⟩) = true := by decide +kernel

theorem wd_peek (e k : Nat) (c : TokenVec 3) (hk : k + 1 ≤ e) :
    (View.ops (n := 3)).mPeekSrc ⟨wdSource e, c, wdToks e (k + 1)⟩ =
      .ok (some ⟨0, [97]⟩) ⟨wdSource e, c, wdToks e (k + 1)⟩ := by
  have hg := wd_get e k hk
  simp only [Ops.mPeekSrc, Ops.mPeek, Ops.mGetSrc, Ops.mSource, bind, M.bind, View.ops, wdToks, List.head?_cons, hg, pure,
    M.pure]

theorem wd_some_fuel {i d e k : Nat} {c : TokenVec 3} (hk : k + 1 ≤ e)
    (h : nested View.ops wdS wdMd i d (.box (.user 0)) ⟨wdSource e, c, wdToks e (k + 1)⟩ = .fuel) :
    nested View.ops wdS wdMd i (d + 1) (.option (.box (.user 0))) ⟨wdSource e, c, wdToks e (k + 1)⟩ = .fuel := by
  show produceOption View.ops _ _ _ _ = _
  simp only [produceOption, bind, M.bind, wd_peek e k c hk, wd_first, Option.isSome_some, Bool.and_self, if_true, h]

theorem wd_some_ok {i d e k : Nat} {c : TokenVec 3} {t : Tree 3} {w : View 3} (hk : k + 1 ≤ e)
    (h : nested View.ops wdS wdMd i d (.box (.user 0)) ⟨wdSource e, c, wdToks e (k + 1)⟩ = .ok (.success t) w) :
    nested View.ops wdS wdMd i (d + 1) (.option (.box (.user 0))) ⟨wdSource e, c, wdToks e (k + 1)⟩ =
      .ok (.success (.optSome t.span t)) w := by
  show produceOption View.ops _ _ _ _ = _
  simp only [produceOption, bind, M.bind, wd_peek e k c hk, wd_first, Option.isSome_some, Bool.and_self, if_true, h]
  rfl

theorem wd_user_fuel {i d : Nat} {s : Str} {c : TokenVec 3} {sp : Span} {r : List (Token 3)}
    (h : nested View.ops wdS wdMd i (d + 1) (.option (.box (.user 0))) ⟨s, c.push ⟨sp, 0⟩, r⟩ = .fuel) :
    nested View.ops wdS wdMd i (d + 2) (.user 0) ⟨s, c, ⟨sp, 0⟩ :: r⟩ = .fuel := by
  show produceStruct View.ops [(nested View.ops wdS wdMd i (d + 1) wdWord, none),
    (nested View.ops wdS wdMd i (d + 1) (.option (.box (.user 0))), none)] _ = _
  simp only [produceStruct, seqLoop, List.map_cons, List.map_nil, bind, M.bind, wd_term, h]

theorem wd_user_ok {i d : Nat} {s : Str} {c : TokenVec 3} {sp : Span} {r : List (Token 3)} {t : Tree 3} {w : View 3}
    (h : nested View.ops wdS wdMd i (d + 1) (.option (.box (.user 0))) ⟨s, c.push ⟨sp, 0⟩, r⟩ = .ok (.success t) w) :
    nested View.ops wdS wdMd i (d + 2) (.user 0) ⟨s, c, ⟨sp, 0⟩ :: r⟩ =
      .ok (.success (.seq ⟨sp.lo, t.span.hi⟩ [.tok ⟨sp, 0⟩, t])) w := by
  show produceStruct View.ops [(nested View.ops wdS wdMd i (d + 1) wdWord, none),
    (nested View.ops wdS wdMd i (d + 1) (.option (.box (.user 0))), none)] _ = _
  simp only [produceStruct, seqLoop, List.map_cons, List.map_nil, bind, M.bind, wd_term, h]
  rfl

/-- Parsing `k + 1` words needs room for `3 * k + 2` calls, and succeeds with it. -/
theorem wd_run (i e : Nat) : ∀ (k d : Nat) (c : TokenVec 3), k + 1 ≤ e →
    (d < 3 * k + 2 → nested View.ops wdS wdMd i d (.user 0) ⟨wdSource e, c, wdToks e (k + 1)⟩ = .fuel) ∧
    (3 * k + 2 ≤ d → ∃ c', nested View.ops wdS wdMd i d (.user 0) ⟨wdSource e, c, wdToks e (k + 1)⟩ =
      .ok (.success (wdTree e k)) ⟨wdSource e, c', []⟩) := by
  intro k
  induction k with
  | zero =>
    intro d c he
    constructor
    · intro hd
      match d, hd with
      | 0, _ => rfl
      | 1, _ => rfl
    · intro hd
      obtain ⟨d, rfl⟩ : ∃ d', d = d' + 2 := ⟨d - 2, by omega⟩
      refine ⟨c.push ⟨⟨e - 1, e⟩, 0⟩, (wd_user_ok (wd_none i d _ _)).trans ?_⟩
      rw [pos_push]
      rfl
  | succ k ih =>
    intro d c he
    constructor
    · intro hd
      match d, hd with
      | 0, _ => rfl
      | 1, _ => rfl
      | 2, _ => exact wd_user_fuel (wd_some_fuel (k := k) (by omega) rfl)
      | d + 3, hd => exact wd_user_fuel (wd_some_fuel (k := k) (by omega) ((ih d _ (by omega)).1 (by omega)))
    · intro hd
      obtain ⟨d, rfl⟩ : ∃ d', d = d' + 3 := ⟨d - 3, by omega⟩
      obtain ⟨c', hc⟩ := (ih d (c.push ⟨⟨e - (k + 1 + 1), e - (k + 1)⟩, 0⟩) (by omega)).2 (by omega)
      refine ⟨c', (wd_user_ok (wd_some_ok (k := k) (by omega) hc)).trans ?_⟩
      rw [wdTree_span]
      rfl

def wdItems (k : Nat) : List (Item 3) := (wdToks (k + 1) (k + 1)).map .token

theorem wd_view (k : Nat) : (Parser.new (wdSource (k + 1)) (wdItems k)).view noExt =
    ⟨wdSource (k + 1), [], wdToks (k + 1) (k + 1)⟩ := by
  show View.mk _ _ ([] ++ streamOf noExt (wdItems k)) = _
  rw [List.nil_append, streamOf, wdItems, tokensOf_map]
  exact congrArg (View.mk _ _) (List.filter_eq_self.2 fun _ _ => rfl)

theorem wd_spans (e : Nat) : ∀ k ≤ e, ∀ t ∈ wdToks e k, t.span.lo < t.span.hi ∧ e - k ≤ t.span.lo ∧ t.span.hi ≤ e
  | 0, _, _, ht => by cases ht
  | k + 1, hk, t, ht => by
    rcases List.mem_cons.1 ht with rfl | ht
    · simp only; omega
    · have := wd_spans e k (by omega) t ht
      omega

theorem wd_ordered (e : Nat) : ∀ k ≤ e, (wdToks e k).Pairwise fun a b => a.span.hi ≤ b.span.lo
  | 0, _ => .nil
  | k + 1, hk => .cons (fun t ht => (wd_spans e k (by omega) t ht).2.1) (wd_ordered e k (by omega))

theorem wd_wf (k : Nat) : ItemsWF (wdSource (k + 1)) (wdItems k) := by
  refine ⟨fun i hi => ?_, ?_⟩
  · obtain ⟨t, ht, rfl⟩ := List.mem_map.1 hi
    obtain ⟨h1, h2, h3⟩ := wd_spans (k + 1) (k + 1) (Nat.le_refl _) t ht
    exact ⟨h1, by simpa [wdSource, Item.span] using h3, wd_boundary _ _ (by simp only [Item.span]; omega), wd_boundary _ _ h3⟩
  · exact List.pairwise_map.2 (wd_ordered (k + 1) (k + 1) (Nat.le_refl _))

/-- The nesting is not bounded: this program is accepted, `k + 1` words are parsed without errors and up to the end, and
room for `3 * k + 2` calls is needed for it. There is no limit after which the parser would stop with an error. -/
theorem C108_deep (k : Nat) : wdS.plain 40 (.user 0) = true ∧ ItemsWF (wdSource (k + 1)) (wdItems k) ∧
    (∃ p', Yields noExt wdS wdMd (.user 0) (Parser.new (wdSource (k + 1)) (wdItems k)) (.success (wdTree (k + 1) k)) p' ∧
      (p'.view noExt).rest = []) ∧
    ∀ d, (∃ r p', FitsIn noExt wdS wdMd d (.user 0) (Parser.new (wdSource (k + 1)) (wdItems k)) r p') ↔ 3 * k + 2 ≤ d := by
  have run := fun i d => wd_run i (k + 1) k d [] (Nat.le_refl _)
  have sim := fun i d => nested_sim (S := wdS) (md := wdMd) noExt i d (.user 0) (Parser.new (wdSource (k + 1)) (wdItems k))
  have ok : ∀ i d, 3 * k + 2 ≤ d → ∃ p', nested (Parser.ops noExt) wdS wdMd i d (.user 0)
      (Parser.new (wdSource (k + 1)) (wdItems k)) = .ok (.success (wdTree (k + 1) k)) p' ∧ (p'.view noExt).rest = [] := by
    intro i d hd
    obtain ⟨c', h⟩ := (run i d).2 hd
    have h2 := sim i d
    rw [wd_view, h] at h2
    cases h3 : nested (Parser.ops noExt) wdS wdMd i d (.user 0) (Parser.new (wdSource (k + 1)) (wdItems k)) with
    | fuel => rw [h3] at h2; cases h2
    | crash => rw [h3] at h2; cases h2
    | ok r p' =>
      rw [h3] at h2
      simp only [Out.mapState, Out.ok.injEq] at h2
      exact ⟨p', by rw [h2.1], by rw [← h2.2]⟩
  refine ⟨by decide +kernel, wd_wf k, ?_, fun d => ⟨?_, fun hd => ?_⟩⟩
  · obtain ⟨p', h1, h2⟩ := ok 0 (3 * k + 2) (Nat.le_refl _)
    exact ⟨p', C108_sound ⟨0, h1⟩, h2⟩
  · rintro ⟨r, p', i, h⟩
    refine Classical.byContradiction fun hd => ?_
    have h2 := sim i d
    rw [wd_view, (run i d).1 (by omega), h] at h2
    cases h2
  · obtain ⟨p', h1, -⟩ := ok 0 d hd
    exact ⟨_, p', 0, h1⟩

/-! ### Examples -/

/-- Two words need room for 5 calls (`C108_deep 1`), the bound of `C108_linear` is 15. -/
example : (wdS.written (.user 0)).length * (((Parser.new (wdSource 2) (wdItems 1)).view noExt).rest.length + 1) = 15 := by
  decide +kernel

/-- `Split<(word, num), "x">` is flat: the five types written are enough for any list, as the one of C107 with broken
elements. -/
example : ∃ r p', FitsIn noExt exS dlMd 5 dlT (Parser.new itSource itItems) r p' ∧ r.errs.map (·.span) = [⟨4, 5⟩, ⟨5, 7⟩] := by
  have hy : ∃ r p', Yields noExt exS dlMd dlT (Parser.new itSource itItems) r p' ∧ r.errs.map (·.span) = [⟨4, 5⟩, ⟨5, 7⟩] :=
    ⟨_, _, ⟨20, by rfl⟩, by rfl⟩
  obtain ⟨r, p', h1, h2⟩ := hy
  have reach : ∀ {t : Ty 0 3}, Reach exS.tyParts dlT t → t ∈ [dlT, dlE, exWord, exNum, fxX] := fun h =>
    reach_of_check [dlT, dlE, exWord, exNum, fxX] (by decide) (by decide +kernel) h
  refine ⟨r, p', C108_flat (flat_of_rank (fun t => if t = dlT then 2 else if t = dlE then 1 else 0) fun t ht a ha => ?_) h1, h2⟩
  have := reach ht
  simp only [List.mem_cons, List.not_mem_nil, or_false] at this
  rcases this with rfl | rfl | rfl | rfl | rfl <;> revert a <;> decide +kernel

end Teleparse
