import Verif.Spec.Collect
import Verif.Proof.Steps
import Verif.Proof.Yields
/-
`Plus` and `Star` with any container.
-/
namespace Teleparse
namespace Collect
variable {m n : Nat} {σ α V : Type} {o : Ops σ n}

/-- One more item, or the end: `f` is what the collector makes of the items it will get. -/
def Goes (c : Collector α V) (s : c.St) (f : List α → V) : Prop := ∀ l, c.Gets s (l.map some ++ [none]) (f l)

theorem Goes.step {c : Collector α V} {s : c.St} {f : List α → V} (h : Goes c s f) :
    ∃ k, c.step s = .inr k ∧ c.step (k none) = .inl (f []) ∧ ∀ a, Goes c (k (some a)) fun l => f (a :: l) := by
  cases h [] with
  | @ask _ k _ _ _ hk h1 =>
    cases h1 with
    | done h1 =>
      refine ⟨k, hk, h1, fun a l => ?_⟩
      cases h (a :: l) with
      | @ask _ k' _ _ _ hk' h2 =>
        rw [hk] at hk'
        cases hk'
        exact h2

/-- A step of the iterator of `Plus`. -/
theorem iterLoop_next (first : TSet n) (p : P σ n) (g : Nat) (acc : List (Tree n)) (errs : List (Err n)) (hi : Nat) (s s' : σ)
    (y : List (Tree n) × List (Err n) × Nat) :
    iterLoop o first p (g + 1) acc errs hi s = .ok y s' ↔
      ∃ x errs' hi' s1, iterNext o first p errs hi s = .ok (x, errs', hi') s1 ∧
        match x with
        | some a => iterLoop o first p g (acc ++ [a]) errs' hi' s1 = .ok y s'
        | none => y = (acc, errs', hi') ∧ s1 = s' := by
  simp only [iterLoop, iterNext, bind_ok]
  constructor
  · rintro ⟨tok, s1, h1, h2⟩
    cases tok with
    | none =>
      simp only [Option.isSome_none, Bool.false_and, Bool.false_eq_true, if_false, pure_ok] at h2
      exact ⟨none, errs, hi, s1, ⟨none, s1, h1, pure_ok.2 ⟨rfl, rfl⟩⟩, h2.1.symm, h2.2⟩
    | some tok =>
      simp only [Option.isSome_some, Bool.true_and] at h2
      cases hc : first.contains (some tok) with
      | false =>
        rw [if_neg (by simp [hc]), pure_ok] at h2
        exact ⟨none, errs, hi, s1, ⟨some tok, s1, h1, by dsimp only; rw [if_pos (by simp [hc]), pure_ok]; exact ⟨rfl, rfl⟩⟩, h2.1.symm, h2.2⟩
      | true =>
        rw [if_pos hc, bind_ok] at h2
        obtain ⟨r, s2, h2, h3⟩ := h2
        cases r with
        | success a =>
          exact ⟨some a, errs, a.span.hi, s2, ⟨some tok, s1, h1, by
            dsimp only; rw [if_neg (by simp [hc]), bind_ok]; exact ⟨_, _, h2, pure_ok.2 ⟨rfl, rfl⟩⟩⟩, h3⟩
        | recovered a e =>
          exact ⟨some a, errs ++ e, a.span.hi, s2, ⟨some tok, s1, h1, by
            dsimp only; rw [if_neg (by simp [hc]), bind_ok]; exact ⟨_, _, h2, pure_ok.2 ⟨rfl, rfl⟩⟩⟩, h3⟩
        | panic e =>
          have h3 := pure_ok.1 h3
          exact ⟨none, errs ++ e, hi, s2, ⟨some tok, s1, h1, by
            dsimp only; rw [if_neg (by simp [hc]), bind_ok]; exact ⟨_, _, h2, pure_ok.2 ⟨rfl, rfl⟩⟩⟩, h3.1.symm, h3.2⟩
  · rintro ⟨x, errs', hi', s1, ⟨tok, s2, h1, h2⟩, h3⟩
    refine ⟨tok, s2, h1, ?_⟩
    cases tok with
    | none =>
      obtain ⟨h4, rfl⟩ := pure_ok.1 h2
      cases h4
      obtain ⟨rfl, rfl⟩ := h3
      rw [if_neg (by simp), pure_ok]
      exact ⟨rfl, rfl⟩
    | some tok =>
      simp only [Option.isSome_some, Bool.true_and]
      cases hc : first.contains (some tok) with
      | false =>
        dsimp only at h2
        rw [if_pos (by simp [hc])] at h2
        obtain ⟨h4, rfl⟩ := pure_ok.1 h2
        cases h4
        obtain ⟨rfl, rfl⟩ := h3
        rw [if_neg (by simp), pure_ok]
        exact ⟨rfl, rfl⟩
      | true =>
        dsimp only at h2
        rw [if_neg (by simp [hc]), bind_ok] at h2
        obtain ⟨r, s3, h2, h5⟩ := h2
        rw [if_pos rfl, bind_ok]
        refine ⟨r, s3, h2, ?_⟩
        cases r with
        | success a =>
          obtain ⟨h4, rfl⟩ := pure_ok.1 h5
          cases h4
          exact h3
        | recovered a e =>
          obtain ⟨h4, rfl⟩ := pure_ok.1 h5
          cases h4
          exact h3
        | panic e =>
          obtain ⟨h4, rfl⟩ := pure_ok.1 h5
          cases h4
          obtain ⟨rfl, rfl⟩ := h3
          exact pure_ok.2 ⟨rfl, rfl⟩

theorem collect_iter {c : Collector (Tree n) V} (first : TSet n) (p : P σ n) : ∀ (g : Nat) {x : c.St} {acc : List (Tree n)}
    {f : List (Tree n) → V} (_ : Goes c x fun l => f (acc ++ l)) {errs : List (Err n)} {hi : Nat} {s s' : σ} {v : V}
    {errs' : List (Err n)} {hi' : Nat}, collectLoop o c first p g x none errs hi s = .ok (v, errs', hi') s' →
    ∃ l, iterLoop o first p g acc errs hi s = .ok (l, errs', hi') s' ∧ v = f l
  | 0, _, _, _, _, _, _, _, _, _, _, _, h => by cases h
  | g + 1, x, acc, f, hx, errs, hi, s, s', v, errs', hi', h => by
    obtain ⟨k, h1, h2, h3⟩ := hx.step
    simp only [collectLoop, h1, bind_ok] at h
    obtain ⟨⟨y, e1, hi1⟩, s1, h4, h5⟩ := h
    cases y with
    | some a =>
      obtain ⟨l, h6, h7⟩ := collect_iter first p g (acc := acc ++ [a]) (f := f)
        (by simpa [List.append_assoc] using h3 a) h5
      exact ⟨l, (iterLoop_next first p g acc errs hi s s' _).2 ⟨some a, e1, hi1, s1, h4, h6⟩, h7⟩
    | none =>
      cases g with
      | zero => cases h5
      | succ g =>
        simp only [collectLoop, h2] at h5
        obtain ⟨h6, rfl⟩ := pure_ok.1 h5
        cases h6
        refine ⟨acc, (iterLoop_next first p _ acc errs hi s s1 _).2 ⟨none, _, _, s1, h4, rfl, rfl⟩, by simp⟩

theorem iter_collect {c : Collector (Tree n) V} (first : TSet n) (p : P σ n) : ∀ (g : Nat) {x : c.St} {acc : List (Tree n)}
    {f : List (Tree n) → V} (_ : Goes c x fun l => f (acc ++ l)) {errs : List (Err n)} {hi : Nat} {s s' : σ}
    {l : List (Tree n)} {errs' : List (Err n)} {hi' : Nat}, iterLoop o first p g acc errs hi s = .ok (l, errs', hi') s' →
    collectLoop o c first p (g + 1) x none errs hi s = .ok (f l, errs', hi') s'
  | 0, _, _, _, _, _, _, _, _, _, _, _, h => by cases h
  | g + 1, x, acc, f, hx, errs, hi, s, s', l, errs', hi', h => by
    obtain ⟨k, h1, h2, h3⟩ := hx.step
    obtain ⟨y, e1, hi1, s1, h4, h5⟩ := (iterLoop_next first p g acc errs hi s s' _).1 h
    rw [collectLoop]
    simp only [h1, bind_ok]
    refine ⟨(y, e1, hi1), s1, h4, ?_⟩
    cases y with
    | some a => exact iter_collect first p g (acc := acc ++ [a]) (f := f) (by simpa [List.append_assoc] using h3 a) h5
    | none =>
      obtain ⟨h6, rfl⟩ := h5
      cases h6
      simp only [collectLoop, h2]
      exact pure_ok.2 ⟨by simp, rfl⟩

/-- What a container makes of a list. -/
def into (f : List (Tree n) → V) (x : Tree n) : Span × V := (x.listOf.1, f x.listOf.2)

theorem map_ofPair {α β : Type} (f : α → β) (a : α) (e : List (Err n)) : (Res.ofPair a e).map f = Res.ofPair (f a) e := by
  cases e <;> rfl

theorem rest_full {c : Collector (Tree n) V} {f : List (Tree n) → V} (hc : c.Full f) (first : TSet n) (p : P σ n)
    (t : Tree n) (errs : List (Err n)) (s s' : σ) (r : Res n (Span × V)) :
    (∃ g, plusRestInto o c first p g t errs s = .ok r s') ↔
      ∃ g r0, plusRest o first p g t errs s = .ok r0 s' ∧ r = r0.map (into f) := by
  obtain ⟨k, h1, h2, h3⟩ := Goes.step hc
  constructor
  · rintro ⟨g, h⟩
    simp only [plusRestInto, bind_ok, pure_ok] at h
    obtain ⟨⟨v, e1, hi1⟩, s1, h4, h5, rfl⟩ := h
    cases g with
    | zero => cases h4
    | succ g =>
      simp only [collectLoop, h1] at h4
      obtain ⟨l, h6, rfl⟩ := collect_iter first p g (acc := [t]) (f := f) (h3 t) h4
      refine ⟨g, Res.ofPair (.list ⟨t.span.lo, hi1⟩ l) e1, ?_, ?_⟩
      · simp only [plusRest, bind_ok, pure_ok]
        exact ⟨_, _, h6, rfl, rfl⟩
      · rw [← h5, map_ofPair]
        rfl
  · rintro ⟨g, r0, h, rfl⟩
    simp only [plusRest, bind_ok, pure_ok] at h
    obtain ⟨⟨l, e1, hi1⟩, s1, h4, rfl, rfl⟩ := h
    refine ⟨g + 2, ?_⟩
    simp only [plusRestInto, bind_ok, pure_ok]
    refine ⟨(f l, e1, hi1), s1, ?_, ?_, rfl⟩
    · rw [collectLoop]
      simp only [h1]
      exact iter_collect first p g (acc := [t]) (f := f) (h3 t) h4
    · rw [map_ofPair]
      rfl

theorem plus_full {c : Collector (Tree n) V} {f : List (Tree n) → V} (hc : c.Full f) (first : TSet n) (p : P σ n)
    (s s' : σ) (r : Res n (Span × V)) :
    (∃ g, plusInto o c first p g s = .ok r s') ↔
      ∃ g r0, producePlus o first p g s = .ok r0 s' ∧ r = r0.map (into f) := by
  simp only [plusInto, producePlus, bind_ok]
  constructor
  · rintro ⟨g, x, s1, h1, h2⟩
    cases x with
    | success t =>
      obtain ⟨g, r0, h3, h4⟩ := (rest_full hc first p t [] s1 s' r).1 ⟨g, h2⟩
      exact ⟨g, r0, ⟨_, _, h1, h3⟩, h4⟩
    | recovered t e =>
      obtain ⟨g, r0, h3, h4⟩ := (rest_full hc first p t e s1 s' r).1 ⟨g, h2⟩
      exact ⟨g, r0, ⟨_, _, h1, h3⟩, h4⟩
    | panic e =>
      obtain ⟨rfl, rfl⟩ := pure_ok.1 h2
      exact ⟨g, .panic e, ⟨_, _, h1, pure_ok.2 ⟨rfl, rfl⟩⟩, rfl⟩
  · rintro ⟨g, r0, ⟨x, s1, h1, h2⟩, h3⟩
    cases x with
    | success t =>
      obtain ⟨g, h4⟩ := (rest_full hc first p t [] s1 s' r).2 ⟨g, r0, h2, h3⟩
      exact ⟨g, _, _, h1, h4⟩
    | recovered t e =>
      obtain ⟨g, h4⟩ := (rest_full hc first p t e s1 s' r).2 ⟨g, r0, h2, h3⟩
      exact ⟨g, _, _, h1, h4⟩
    | panic e =>
      obtain ⟨rfl, rfl⟩ := pure_ok.1 h2
      exact ⟨g, _, _, h1, pure_ok.2 ⟨h3.symm, rfl⟩⟩

/-- The same fuel for the elements and the loop. -/
theorem plus_yields {ext : Fin n → Bool} {S : Schema m n} {md : Metadata (PId m n) n} {t : Ty m n} {p p' : Parser n}
    {r : Res n (Tree n)} : Yields ext S md (.plus t) p r p' ↔
      ∃ f g, producePlus (Parser.ops ext) (md.first.get (Ty.plus t).pid) (produce (Parser.ops ext) S md f t) g p = .ok r p' := by
  constructor
  · rintro ⟨f, h⟩
    cases f with
    | zero => cases h
    | succ f => exact ⟨f, f, h⟩
  · rintro ⟨f, g, h⟩
    refine ⟨max f g + 1, ?_⟩
    have h1 := (mono_closed (Parser.ops ext) (max f g - g)).core.plus (md.first.get (Ty.plus t).pid)
      (p := produce (Parser.ops ext) S md f t) (p' := produce (Parser.ops ext) S md (max f g) t)
      (fun s hs => produce_mono _ S md (Nat.le_max_left f g) t s hs) (f := g) (f' := max f g) (by omega) p (by rw [h]; simp)
    rw [h] at h1
    exact h1

theorem star_yields {ext : Fin n → Bool} {S : Schema m n} {md : Metadata (PId m n) n} {t : Ty m n} {p p' : Parser n}
    {r : Res n (Tree n)} : Yields ext S md (.star t) p r p' ↔
      ∃ f g, produceOption (Parser.ops ext) (md.first.get (Ty.plus t).pid)
        (producePlus (Parser.ops ext) (md.first.get (Ty.plus t).pid) (produce (Parser.ops ext) S md f t) g) mkStar p = .ok r p' := by
  constructor
  · rintro ⟨f, h⟩
    cases f with
    | zero => cases h
    | succ f => exact ⟨f, f, h⟩
  · rintro ⟨f, g, h⟩
    refine ⟨max f g + 1, ?_⟩
    have hc := mono_closed (Parser.ops ext) (max f g - g)
    have h1 := hc.core.option (md.first.get (Ty.plus t).pid) (hc.core.plus (md.first.get (Ty.plus t).pid)
      (p := produce (Parser.ops ext) S md f t) (p' := produce (Parser.ops ext) S md (max f g) t)
      (fun s hs => produce_mono _ S md (Nat.le_max_left f g) t s hs) (f := g) (f' := max f g) (by omega)) mkStar p (by rw [h]; simp)
    rw [h] at h1
    exact h1

/-- The elements of `Plus` are a list, and not none. -/
theorem iterLoop_ne {first : TSet n} {p : P σ n} : ∀ {g : Nat} {acc : List (Tree n)} {errs : List (Err n)} {hi : Nat} {s s' : σ}
    {y : List (Tree n) × List (Err n) × Nat}, iterLoop o first p g acc errs hi s = .ok y s' → acc ≠ [] → y.1 ≠ []
  | 0, _, _, _, _, _, _, h, _ => by cases h
  | g + 1, acc, errs, hi, s, s', y, h, ha => by
    obtain ⟨x, e1, hi1, s1, -, h5⟩ := (iterLoop_next first p g acc errs hi s s' y).1 h
    cases x with
    | some a => exact iterLoop_ne h5 (by simp)
    | none => rw [h5.1]; exact ha

theorem plus_list {first : TSet n} {p : P σ n} {g : Nat} {s s' : σ} {r : Res n (Tree n)} (h : producePlus o first p g s = .ok r s')
    {x : Tree n} (hx : r.tree? = some x) : ∃ sp l, x = .list sp l ∧ l ≠ [] := by
  have rest : ∀ {t errs s1}, plusRest o first p g t errs s1 = .ok r s' → ∃ sp l, x = .list sp l ∧ l ≠ [] := by
    intro t errs s1 h
    simp only [plusRest, bind_ok, pure_ok] at h
    obtain ⟨⟨l, e1, hi1⟩, s2, h4, rfl, rfl⟩ := h
    refine ⟨⟨t.span.lo, hi1⟩, l, ?_, iterLoop_ne h4 (by simp)⟩
    cases e1 <;> simp [Res.ofPair, Res.tree?] at hx <;> exact hx.symm
  simp only [producePlus, bind_ok] at h
  obtain ⟨x, s1, -, h2⟩ := h
  cases x with
  | success t => exact rest h2
  | recovered t e => exact rest h2
  | panic e =>
    obtain ⟨rfl, rfl⟩ := pure_ok.1 h2
    cases hx

/-- What a container makes of a `Star`. -/
def intoStar (d : V) (f : List (Tree n) → V) (x : Tree n) : Span × V :=
  (x.listOf.1, if x.listOf.2 = [] then d else f x.listOf.2)

theorem star_full {c : Collector (Tree n) V} {d : V} {f : List (Tree n) → V} (hc : c.Full f) (first : TSet n) (p : P σ n)
    (s s' : σ) (r : Res n (Span × V)) :
    (∃ g, starInto o c d first p g s = .ok r s') ↔
      ∃ g r0, produceOption o first (producePlus o first p g) mkStar s = .ok r0 s' ∧ r = r0.map (intoStar d f) := by
  simp only [starInto, produceOption, bind_ok]
  constructor
  · rintro ⟨g, tok, s1, h1, h2⟩
    split at h2
    · rename_i ht
      rw [bind_ok] at h2
      obtain ⟨x, s2, h2, h3⟩ := h2
      obtain ⟨g', r0, h4, h5⟩ := (plus_full hc first p s1 s2 x).1 ⟨g, h2⟩
      cases r0 with
      | success a =>
        obtain rfl : x = .success _ := h5
        obtain ⟨rfl, rfl⟩ := pure_ok.1 h3
        obtain ⟨sp, l, rfl, hl⟩ := plus_list h4 rfl
        refine ⟨g', .success (.list sp l), ⟨tok, s1, h1, ?_⟩, ?_⟩
        · rw [if_pos ht, bind_ok]
          exact ⟨_, _, h4, rfl⟩
        · simp [Res.map, into, intoStar, Tree.listOf, hl]
      | recovered a e =>
        obtain rfl : x = .recovered _ _ := h5
        obtain ⟨rfl, rfl⟩ := pure_ok.1 h3
        obtain ⟨sp, l, rfl, hl⟩ := plus_list h4 rfl
        refine ⟨g', .recovered (.list sp l) e, ⟨tok, s1, h1, ?_⟩, ?_⟩
        · rw [if_pos ht, bind_ok]
          exact ⟨_, _, h4, rfl⟩
        · simp [Res.map, into, intoStar, Tree.listOf, hl]
      | panic e =>
        obtain rfl : x = .panic e := h5
        simp only [bind_ok] at h3
        obtain ⟨sp, s3, h6, h7⟩ := h3
        obtain ⟨rfl, rfl⟩ := pure_ok.1 h7
        refine ⟨g', .recovered (.list sp []) e, ⟨tok, s1, h1, ?_⟩, ?_⟩
        · rw [if_pos ht, bind_ok]
          refine ⟨_, _, h4, ?_⟩
          simp only [bind_ok]
          exact ⟨_, _, h6, rfl⟩
        · simp [Res.map, intoStar, Tree.listOf]
    · rename_i ht
      simp only [bind_ok] at h2
      obtain ⟨sp, s3, h6, h7⟩ := h2
      obtain ⟨rfl, rfl⟩ := pure_ok.1 h7
      refine ⟨g, .success (.list sp []), ⟨tok, s1, h1, ?_⟩, ?_⟩
      · rw [if_neg ht]
        simp only [bind_ok]
        exact ⟨_, _, h6, rfl⟩
      · simp [Res.map, intoStar, Tree.listOf]
  · rintro ⟨g, r0, ⟨tok, s1, h1, h2⟩, rfl⟩
    split at h2
    · rename_i ht
      rw [bind_ok] at h2
      obtain ⟨x, s2, h2, h3⟩ := h2
      obtain ⟨g', h4⟩ := (plus_full hc first p s1 s2 (x.map (into f))).2 ⟨g, x, h2, rfl⟩
      refine ⟨g', tok, s1, h1, ?_⟩
      rw [if_pos ht, bind_ok]
      refine ⟨_, _, h4, ?_⟩
      cases x with
      | success a =>
        obtain ⟨sp, l, rfl, hl⟩ := plus_list h2 rfl
        obtain ⟨rfl, rfl⟩ := pure_ok.1 h3
        refine pure_ok.2 ⟨?_, rfl⟩
        simp [Res.map, into, intoStar, Tree.listOf, hl, mkStar]
      | recovered a e =>
        obtain ⟨sp, l, rfl, hl⟩ := plus_list h2 rfl
        obtain ⟨rfl, rfl⟩ := pure_ok.1 h3
        refine pure_ok.2 ⟨?_, rfl⟩
        simp [Res.map, into, intoStar, Tree.listOf, hl, mkStar]
      | panic e =>
        simp only [bind_ok] at h3
        obtain ⟨sp, s3, h6, h7⟩ := h3
        obtain ⟨rfl, rfl⟩ := pure_ok.1 h7
        simp only [Res.map, bind_ok]
        refine ⟨_, _, h6, pure_ok.2 ⟨?_, rfl⟩⟩
        simp [intoStar, Tree.listOf, mkStar]
    · rename_i ht
      simp only [bind_ok] at h2
      obtain ⟨sp, s3, h6, h7⟩ := h2
      obtain ⟨rfl, rfl⟩ := pure_ok.1 h7
      refine ⟨g, tok, s1, h1, ?_⟩
      rw [if_neg ht]
      simp only [bind_ok]
      refine ⟨_, _, h6, pure_ok.2 ⟨?_, rfl⟩⟩
      simp [Res.map, intoStar, Tree.listOf, mkStar]

/-! ### Any collector -/

theorem sim_iterNext {τ : Type} {o' : Ops τ n} {k : Nat} {C : ∀ {α : Type}, M σ α → M τ α → Prop} (h : Closed k C o o')
    (first : TSet n) {p : P σ n} {p' : P τ n} (hp : C p p') (errs : List (Err n)) (hi : Nat) :
    C (iterNext o first p errs hi) (iterNext o' first p' errs hi) := by
  refine h.bind h.peekSrc fun tok => ?_
  cases tok with
  | none => exact h.pure _
  | some tok =>
    dsimp only
    split
    · exact h.pure _
    · refine h.bind hp fun r => ?_
      cases r <;> exact h.pure _

theorem sim_collect {τ : Type} {o' : Ops τ n} {C : ∀ {α : Type}, M σ α → M τ α → Prop} (h : Closed 0 C o o')
    (c : Collector (Tree n) V) (first : TSet n) {p : P σ n} {p' : P τ n} (hp : C p p') : ∀ (g : Nat) (s : c.St)
    (once : Option (Tree n)) (errs : List (Err n)) (hi : Nat),
    C (collectLoop o c first p g s once errs hi) (collectLoop o' c first p' g s once errs hi)
  | 0, _, _, _, _ => h.fuel _ fun _ => rfl
  | g + 1, s, once, errs, hi => by
    simp only [collectLoop]
    cases c.step s with
    | inl v => exact h.pure _
    | inr k =>
      cases once with
      | some t => exact sim_collect h c first hp g _ _ _ _
      | none => exact h.bind (sim_iterNext h first hp errs hi) fun x => sim_collect h c first hp g _ _ _ _

theorem sim_rest {τ : Type} {o' : Ops τ n} {C : ∀ {α : Type}, M σ α → M τ α → Prop} (h : Closed 0 C o o')
    (c : Collector (Tree n) V) (first : TSet n) {p : P σ n} {p' : P τ n} (hp : C p p') (g : Nat) (t : Tree n)
    (errs : List (Err n)) : C (plusRestInto o c first p g t errs) (plusRestInto o' c first p' g t errs) :=
  h.bind (sim_collect h c first hp g _ _ _ _) fun _ => h.pure _

section
variable {S : Schema m n} {fuel : Nat} {root : Ty m n} {md : Metadata (PId m n) n} {G : Grammar (PId m n) n} {source : Str}

theorem asks_of_collect (hmd : S.metadata fuel root = some (.ok md)) (hG : S.IsGrammar root G) {t : Ty m n}
    (hr : Reachable G root.pid (Ty.plus t).pid) {f : Nat} {c : Collector (Tree n) V} : ∀ {g : Nat} {s : c.St}
    {errs : List (Err n)} {hi : Nat} {v v' : View n} {x : V} {errs' : List (Err n)} {hi' : Nat}, Ready source v →
    collectLoop View.ops c (md.first.get (Ty.plus t).pid) (produce View.ops S md f t) g s none errs hi v =
      .ok (x, errs', hi') v' →
    ∃ l es h, Asks S md G t v l es h v' ∧ c.Gets s l x ∧ errs' = errs ++ es ∧ hi' = h.getD hi
  | 0, _, _, _, _, _, _, _, _, _, h => by cases h
  | g + 1, s, errs, hi, v, v', x, errs', hi', hv, h => by
    have hfirst : ∀ w, (md.first.get (Ty.plus t).pid).contains (some w) = true ↔ FirstOf G t.pid w := loop_first hmd hG hr
    cases hs : c.step s with
    | inl y =>
      simp only [collectLoop, hs] at h
      obtain ⟨h1, rfl⟩ := pure_ok.1 h
      cases h1
      exact ⟨[], [], none, .nil, .done hs, by simp, rfl⟩
    | inr k =>
      simp only [collectLoop, hs, bind_ok] at h
      obtain ⟨⟨y, e1, hi1⟩, v1, h1, h2⟩ := h
      simp only [iterNext, bind_ok, mPeekSrc_ok] at h1
      obtain ⟨tok, v0, ⟨h6, h7, -⟩, h1⟩ := h1
      rw [h6, h7, hv.look] at h1
      cases hw : v.word with
      | none =>
        rw [hw] at h1
        obtain ⟨h3, rfl⟩ := pure_ok.1 h1
        cases h3
        obtain ⟨l, es, h, k1, k2, k3, k4⟩ := asks_of_collect hmd hG hr hv h2
        exact ⟨none :: l, es, h, .stop (by simp [hw]) k1, .ask hs k2, k3, k4⟩
      | some w =>
        rw [hw] at h1
        dsimp only at h1
        by_cases hf : FirstOf G t.pid w
        · rw [if_neg (by rw [Bool.not_eq_true']; exact fun h => by rw [(hfirst w).2 hf] at h; cases h), bind_ok] at h1
          obtain ⟨r, v2, h3, h4⟩ := h1
          have hon : On S md t v r v2 := ⟨f, h3⟩
          have hv2 := hv.adv hon.adv
          cases r with
          | success a =>
            obtain ⟨h5, rfl⟩ := pure_ok.1 h4
            cases h5
            obtain ⟨l, es, h, k1, k2, k3, k4⟩ := asks_of_collect hmd hG hr hv2 h2
            exact ⟨_, _, _, .elem hw hf hon rfl k1, .ask hs k2, by simp [k3, Res.errs], k4⟩
          | recovered a e =>
            obtain ⟨h5, rfl⟩ := pure_ok.1 h4
            cases h5
            obtain ⟨l, es, h, k1, k2, k3, k4⟩ := asks_of_collect hmd hG hr hv2 h2
            exact ⟨_, _, _, .elem hw hf hon rfl k1, .ask hs k2, by simp [k3, Res.errs], k4⟩
          | panic e =>
            obtain ⟨h5, rfl⟩ := pure_ok.1 h4
            cases h5
            obtain ⟨l, es, h, k1, k2, k3, k4⟩ := asks_of_collect hmd hG hr hv2 h2
            exact ⟨_, _, _, .fail hw hf hon k1, .ask hs k2, by simp [k3], k4⟩
        · rw [if_pos (by
            rw [Bool.not_eq_true']
            exact Bool.eq_false_iff.2 fun h => hf ((hfirst w).1 h))] at h1
          obtain ⟨h3, rfl⟩ := pure_ok.1 h1
          cases h3
          obtain ⟨l, es, h, k1, k2, k3, k4⟩ := asks_of_collect hmd hG hr hv h2
          exact ⟨none :: l, es, h, .stop (by rw [hw]; rintro _ ⟨⟩; exact hf) k1, .ask hs k2, k3, k4⟩

end

end Collect
end Teleparse
