import Verif.Proof.Collect
import Verif.Props.Items
/-
C109: `Plus` and `Star` with containers other than `Vec`.
-/
namespace Teleparse
open Collect
variable {m n : Nat} {V : Type}

/-- Containers that read the iterator up to its first `None`, as all of the standard library do: `Plus<V, T>` consumes the
same tokens, has the same span and the same errors as `Plus<Vec<T>, T>`, and its value is made of the same elements. -/
theorem C109_plus (ext : Fin n → Bool) (S : Schema m n) (md : Metadata (PId m n) n) (t : Ty m n)
    {c : Collector (Tree n) V} {f : List (Tree n) → V} (hc : c.Full f) (p p' : Parser n) (r : Res n (Span × V)) :
    YieldsPlus ext S md c t p r p' ↔
      ∃ r0, Yields ext S md (.plus t) p r0 p' ∧ r = r0.map fun x => (x.listOf.1, f x.listOf.2) := by
  constructor
  · rintro ⟨i, g, h⟩
    obtain ⟨g, r0, h1, h2⟩ := (plus_full hc _ _ p p' r).1 ⟨g, h⟩
    exact ⟨r0, plus_yields.2 ⟨i, g, h1⟩, h2⟩
  · rintro ⟨r0, h, h2⟩
    obtain ⟨i, g, h1⟩ := plus_yields.1 h
    obtain ⟨g, h3⟩ := (plus_full hc _ _ p p' r).2 ⟨g, r0, h1, h2⟩
    exact ⟨i, g, h3⟩

/-- The same for `Star<V, T>`; without elements its value is `V::default()`. -/
theorem C109_star (ext : Fin n → Bool) (S : Schema m n) (md : Metadata (PId m n) n) (t : Ty m n)
    {c : Collector (Tree n) V} {f : List (Tree n) → V} (hc : c.Full f) (d : V) (p p' : Parser n) (r : Res n (Span × V)) :
    YieldsStar ext S md c d t p r p' ↔
      ∃ r0, Yields ext S md (.star t) p r0 p' ∧
        r = r0.map fun x => (x.listOf.1, if x.listOf.2 = [] then d else f x.listOf.2) := by
  constructor
  · rintro ⟨i, g, h⟩
    obtain ⟨g, r0, h1, h2⟩ := (star_full hc _ _ p p' r).1 ⟨g, h⟩
    exact ⟨r0, star_yields.2 ⟨i, g, h1⟩, h2⟩
  · rintro ⟨r0, h, h2⟩
    obtain ⟨i, g, h1⟩ := star_yields.1 h
    obtain ⟨g, h3⟩ := (star_full hc _ _ p p' r).2 ⟨g, r0, h1, h2⟩
    exact ⟨i, g, h3⟩

/-- If the default is what the container makes of no items, the value is what the container makes of the elements. -/
theorem C109_star_default (ext : Fin n → Bool) (S : Schema m n) (md : Metadata (PId m n) n) (t : Ty m n)
    {c : Collector (Tree n) V} {f : List (Tree n) → V} (hc : c.Full f) (p p' : Parser n) (r : Res n (Span × V)) :
    YieldsStar ext S md c (f []) t p r p' ↔
      ∃ r0, Yields ext S md (.star t) p r0 p' ∧ r = r0.map fun x => (x.listOf.1, f x.listOf.2) := by
  rw [C109_star ext S md t hc (f [])]
  have : (fun x : Tree n => (x.listOf.1, if x.listOf.2 = [] then f [] else f x.listOf.2)) = fun x => (x.listOf.1, f x.listOf.2) := by
    funext x
    split
    · rename_i h
      rw [h]
    · rfl
  rw [this]

/-- Collecting to the end in the obvious way is such a container. -/
theorem C109_toEnd {α : Type} (f : List α → V) : (Collector.toEnd f).Full f := by
  have key : ∀ (l acc : List α), (Collector.toEnd f).Gets (acc, false) (l.map some ++ [none]) (f (acc ++ l)) := by
    intro l
    induction l with
    | nil => intro acc; exact .ask rfl (.done (by simp [Collector.toEnd]))
    | cons a l ih =>
      intro acc
      have := ih (acc ++ [a])
      rw [List.append_assoc] at this
      exact .ask rfl this
  exact fun l => key l []

section
variable {ext : Fin n → Bool} {S : Schema m n} {fuel : Nat} {root : Ty m n} {md : Metadata (PId m n) n}
  {G : Grammar (PId m n) n} {source : Str} {items : List (Item n)}

/-- Any container, whatever it does with the iterator: if the first element fails, so does `Plus`. Otherwise the container
gets the first element and then the answers of `Asks`, as many as it asks for. The tokens of elements it does not ask for
are not consumed. The errors are those of the first element and of the answers; the span ends where the last element ends
that was given to the container (or with the first, if the container does not take even that). -/
theorem C109_any (hmd : S.metadata fuel root = some (.ok md)) (hG : S.IsGrammar root G) (hw : ItemsWF source items)
    {t : Ty m n} (hr : Reachable G root.pid (Ty.plus t).pid) {c : Collector (Tree n) V} {p p' : Parser n}
    (hp : Reached ext source items p) {r : Res n (Span × V)} (h : YieldsPlus ext S md c t p r p') :
    (∃ e, Yields ext S md t p (.panic e) p' ∧ r = .panic e) ∨
    ∃ r0 x q answers l es hi v, Yields ext S md t p r0 q ∧ r0.tree? = some x ∧
      Asks S md G t (q.view ext) l es hi (p'.view ext) ∧ c.Gets c.init answers v ∧
      (answers = some x :: l ∨ answers = [] ∧ l = []) ∧
      r = Res.ofPair (⟨x.span.lo, hi.getD x.span.hi⟩, v) (r0.errs ++ es) := by
  obtain ⟨f, g, h⟩ := h
  simp only [plusInto, bind_ok] at h
  obtain ⟨r0, q, h1, h2⟩ := h
  have hy : Yields ext S md t p r0 q := ⟨f, h1⟩
  have rest : ∀ {x e}, r0.tree? = some x → r0.errs = e →
      plusRestInto (Parser.ops ext) c (md.first.get (Ty.plus t).pid) (produce (Parser.ops ext) S md f t) g x e q = .ok r p' →
      ∃ r0 x q answers l es hi v, Yields ext S md t p r0 q ∧ r0.tree? = some x ∧
      Asks S md G t (q.view ext) l es hi (p'.view ext) ∧ c.Gets c.init answers v ∧
      (answers = some x :: l ∨ answers = [] ∧ l = []) ∧
      r = Res.ofPair (⟨x.span.lo, hi.getD x.span.hi⟩, v) (r0.errs ++ es) := by
    intro x e hx he h3
    have h4 := sim_rest (sim_closed ext) c (md.first.get (Ty.plus t).pid) (p := produce (Parser.ops ext) S md f t)
      (p' := produce View.ops S md f t) (produce_view ext S md f t) g x e q
    rw [h3] at h4
    simp only [Out.mapState, plusRestInto, bind_ok, pure_ok] at h4
    obtain ⟨⟨v, es, hi⟩, w, h5, h6, h7⟩ := h4
    subst h7
    cases g with
    | zero => cases h5
    | succ g =>
      cases hs : c.step c.init with
      | inl y =>
        simp only [collectLoop, hs] at h5
        obtain ⟨h8, h9⟩ := pure_ok.1 h5
        cases h8
        refine ⟨r0, x, q, [], [], [], none, v, hy, hx, ?_, .done hs, .inr ⟨rfl, rfl⟩, ?_⟩
        · rw [← h9]; exact .nil
        · rw [← h6, List.append_nil, he]; rfl
      | inr k =>
        simp only [collectLoop, hs] at h5
        obtain ⟨l, es', hh, k1, k2, k3, k4⟩ := asks_of_collect hmd hG hr ((hy.reached hp).ready hw) h5
        refine ⟨r0, x, q, _, l, es', hh, v, hy, hx, k1, .ask hs k2, .inl rfl, ?_⟩
        rw [← h6, k3, k4, he]
  cases r0 with
  | success x => exact .inr (rest rfl rfl h2)
  | recovered x e => exact .inr (rest rfl rfl h2)
  | panic e =>
    obtain ⟨rfl, rfl⟩ := pure_ok.1 h2
    exact .inl ⟨e, hy, rfl⟩

/-- Once no element can begin, the iterator has ended for good: all further answers are `None`, and nothing happens. -/
theorem C109_ended {t : Ty m n} {v v' : View n} {l : List (Option (Tree n))} {es : List (Err n)} {hi : Option Nat}
    (hv : ∀ w, v.word = some w → ¬ FirstOf G t.pid w) (h : Asks S md G t v l es hi v') :
    (∀ a ∈ l, a = none) ∧ es = [] ∧ hi = none ∧ v' = v := by
  induction h with
  | nil => exact ⟨by simp, rfl, rfl, rfl⟩
  | elem h1 h2 => exact absurd h2 (hv _ h1)
  | fail h1 h2 => exact absurd h2 (hv _ h1)
  | stop _ _ ih =>
    obtain ⟨h1, h2, h3, h4⟩ := ih hv
    exact ⟨by simpa using h1, h2, h3, h4⟩

end

/-! ### Examples -/

/-- Asks `k` times, whatever the answers, and counts the items. -/
def asking (k : Nat) : Collector (Tree 3) Nat where
  St := Nat × Nat
  init := (0, 0)
  step s := if s.1 < k then .inr fun a => (s.1 + 1, s.2 + (if a.isSome then 1 else 0)) else .inl s.2

def cnMd : Metadata (PId 0 3) 3 := okOf ⟨[], [], []⟩ (exS.metadata 40 (.plus dlE))
theorem cnMd_ok : exS.metadata 40 (.plus dlE) = some (.ok cnMd) := rfl

/-- `a 1 b c 2` with elements `(word, num)`: the second one fails at the `c`. -/
def cnParser : Parser 3 := Parser.new [97, 49, 98, 99, 50] ([lnTok 0 0, lnTok 1 1, lnTok 2 0, lnTok 3 0, lnTok 4 1].map .token)

/-- A container that counts to the end (like a `Vec`) gets one element, and the tokens `c 2` are left. -/
example : ∃ e p', YieldsPlus noExt exS cnMd (Collector.toEnd List.length) dlE cnParser (.recovered (⟨0, 2⟩, 1) [e]) p' ∧
    (p'.view noExt).rest = [lnTok 3 0, lnTok 4 1] := by
  refine ⟨_, _, ⟨20, 20, by rfl⟩, by rfl⟩

/-- The iterator given to the container does not stop for good at an element that fails: a container that asks again
after `None` gets the elements after it, and the span ends with them. -/
theorem C109_goes_on : ∃ e p', YieldsPlus noExt exS cnMd (asking 3) dlE cnParser (.recovered (⟨0, 5⟩, 2) [e]) p' ∧
    (p'.view noExt).rest = [] := by
  refine ⟨_, _, ⟨20, 20, by rfl⟩, by rfl⟩

def cnG : Grammar (PId 0 3) 3 := (registerFrom exS.rule 40 (Ty.plus dlE).pid).getD []
theorem cnG_ok : exS.IsGrammar (.plus dlE) cnG := .of_register (fuel := 40) rfl

/-- The run of `C109_goes_on` as seen by `C109_any`. -/
example : ∃ r0 x q l es hi p', Yields noExt exS cnMd dlE cnParser r0 q ∧ r0.tree? = some x ∧
    Asks exS cnMd cnG dlE (q.view noExt) l es hi p' ∧ (asking 3).Gets (asking 3).init (some x :: l) 2 ∧ hi = some 5 := by
  obtain ⟨e, p', h, -⟩ := C109_goes_on
  rcases C109_any cnMd_ok cnG_ok (by unfold ItemsWF; decide) .refl .new h with
    ⟨_, _, h⟩ | ⟨r0, x, q, an, l, es, hi, v, h1, h2, h3, h4, h5, h6⟩
  · cases h
  · rcases h5 with rfl | ⟨rfl, -⟩
    · have h7 : hi.getD x.span.hi = 5 ∧ v = 2 ∧ x.span.lo = 0 := by
        unfold Res.ofPair at h6
        split at h6
        · cases h6
        · simp only [Res.recovered.injEq, Prod.mk.injEq, Span.mk.injEq] at h6
          exact ⟨h6.1.1.2.symm, h6.1.2.symm, h6.1.1.1.symm⟩
      obtain ⟨h7, rfl, -⟩ := h7
      refine ⟨r0, x, q, l, es, hi, _, h1, h2, h3, h4, ?_⟩
      have h8 : ∃ q, Yields noExt exS cnMd dlE cnParser (.success (.seq ⟨0, 2⟩ [.tok (lnTok 0 0), .tok (lnTok 1 1)])) q := ⟨_, 20, by rfl⟩
      obtain ⟨q', h8⟩ := h8
      obtain ⟨rfl, -⟩ := h1.unique h8
      cases h2
      cases hi with
      | none => cases h7
      | some k => exact congrArg some h7
    · cases h4 with
      | done h => exact absurd h (by simp [asking])

/-- A container that takes only some elements leaves the others to what comes after the `Plus`. -/
theorem C109_leaves : ∃ p', YieldsPlus noExt exS cnMd (asking 1) dlE (Parser.new [97, 49, 98, 50]
      ([lnTok 0 0, lnTok 1 1, lnTok 2 0, lnTok 3 1].map .token)) (.success (⟨0, 2⟩, 1)) p' ∧
    (p'.view noExt).rest = [lnTok 2 0, lnTok 3 1] := by
  refine ⟨_, ⟨20, 20, by rfl⟩, by rfl⟩

/-- The value of a `Star` without elements is the default even if that is not what the container makes of no items. -/
theorem C109_default : ∃ p', YieldsStar noExt exS cnMd (Collector.toEnd List.length) 7 dlE (Parser.new [] [])
    (.success (⟨0, 0⟩, 7)) p' := by
  refine ⟨_, ⟨20, 20, by rfl⟩⟩

end Teleparse
