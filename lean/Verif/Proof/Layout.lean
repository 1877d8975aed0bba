import Verif.Spec.Layout
import Verif.Proof.Steps
import Verif.Props.TokenStore
/-
Parses of inputs with the same tokens are the same up to the positions of the tokens.
-/
namespace Teleparse
variable {m n : Nat}

theorem Pointwise.append {α β : Type} {R : α → β → Prop} {a b c d} (h : Pointwise R a b) (h' : Pointwise R c d) :
    Pointwise R (a ++ c) (b ++ d) := by
  induction h with
  | nil => exact h'
  | cons h _ ih => exact .cons h ih

theorem Pointwise.length {α β : Type} {R : α → β → Prop} {a b} (h : Pointwise R a b) : a.length = b.length := by
  induction h with
  | nil => rfl
  | cons _ _ ih => simp [ih]

/-- Tokens in the source, in order, with the same words. -/
structure Twins (L L' : Layout n) : Prop where
  all : SortedTokens (L.before.map (·.token) ++ L.tokens)
  all' : SortedTokens (L'.before.map (·.token) ++ L'.tokens)
  inside : ∀ t ∈ L.before.map (·.token) ++ L.tokens, t.span.InSource L.source
  inside' : ∀ t ∈ L'.before.map (·.token) ++ L'.tokens, t.span.InSource L'.source
  words : L.words = L'.words

theorem SortedTokens.right {a b : List (Token n)} (h : SortedTokens (a ++ b)) : SortedTokens b :=
  ⟨fun t ht => h.1 t (List.mem_append_right _ ht), (List.pairwise_append.1 h.2).2.1⟩

theorem Twins.sorted {L L' : Layout n} (h : Twins L L') : SortedTokens L.tokens := h.all.right
theorem Twins.sorted' {L L' : Layout n} (h : Twins L L') : SortedTokens L'.tokens := h.all'.right
theorem Twins.edges {L L' : Layout n} (h : Twins L L') : ∀ t ∈ L.tokens, t.span.InSource L.source :=
  fun t ht => h.inside t (List.mem_append_right _ ht)
theorem Twins.edges' {L L' : Layout n} (h : Twins L L') : ∀ t ∈ L'.tokens, t.span.InSource L'.source :=
  fun t ht => h.inside' t (List.mem_append_right _ ht)

/-- The tokens to come begin after those in the store. -/
theorem Layout.start_le {L : Layout n} (h : SortedTokens (L.before.map (·.token) ++ L.tokens)) {t : Token n}
    (ht : t ∈ L.tokens) : L.start ≤ t.span.lo := by
  unfold Layout.start
  cases hc : L.before.getLast? with
  | none => exact Nat.zero_le _
  | some c =>
    exact (List.pairwise_append.1 h.2).2.2 _ (List.mem_map_of_mem (List.mem_of_getLast? hc)) _ ht

theorem Layout.start_edge {L : Layout n} (h : ∀ t ∈ L.before.map (·.token) ++ L.tokens, t.span.InSource L.source) :
    Edge L.source L.start := by
  unfold Layout.start
  cases hc : L.before.getLast? with
  | none => exact .zero _
  | some c =>
    exact (h c.token (List.mem_append_left _ (List.mem_map_of_mem (List.mem_of_getLast? hc)))).2

theorem SortedTokens.lt {ts : List (Token n)} (h : SortedTokens ts) {i j : Nat} {a b : Token n} (ha : ts[i]? = some a)
    (hb : ts[j]? = some b) (hij : i < j) : a.span.hi ≤ b.span.lo := by
  obtain ⟨hi, rfl⟩ := List.getElem?_eq_some_iff.1 ha
  obtain ⟨hj, rfl⟩ := List.getElem?_eq_some_iff.1 hb
  exact List.pairwise_iff_getElem.1 h.2 i j hi hj hij

theorem SortedTokens.ne {ts : List (Token n)} (h : SortedTokens ts) {i : Nat} {a : Token n} (ha : ts[i]? = some a) :
    a.span.lo < a.span.hi := h.1 a (List.mem_of_getElem? ha)

section
variable {L L' : Layout n}

theorem Twins.length (h : Twins L L') : L.tokens.length = L'.tokens.length := by
  have := congrArg List.length h.words
  simpa [Layout.words] using this

theorem Twins.at (h : Twins L L') {i : Nat} {t t' : Token n} (ht : L.tokens[i]? = some t) (ht' : L'.tokens[i]? = some t') :
    t.word L.source = t'.word L'.source := by
  have h1 : L.words[i]? = some (t.word L.source) := by simp [Layout.words, ht]
  have h2 : L'.words[i]? = some (t'.word L'.source) := by simp [Layout.words, ht']
  rw [h.words, h2] at h1
  exact (Option.some.inj h1).symm

/-- Positions in corresponding order. -/
theorem SamePlace.le_total (h : Twins L L') {x x' y y' : Nat} (hx : SamePlace L L' x x') (hy : SamePlace L L' y y') :
    (x ≤ y ∧ x' ≤ y') ∨ (y ≤ x ∧ y' ≤ x') := by
  have len : ∀ {i : Nat} {t : Token n}, L.tokens[i]? = some t → t.span.lo ≤ L.source.length ∧ t.span.hi ≤ L.source.length := by
    intro i t ht
    have := h.edges t (List.mem_of_getElem? ht)
    exact ⟨this.1.1, this.2.1⟩
  have len' : ∀ {i : Nat} {t : Token n}, L'.tokens[i]? = some t → t.span.lo ≤ L'.source.length ∧ t.span.hi ≤ L'.source.length := by
    intro i t ht
    have := h.edges' t (List.mem_of_getElem? ht)
    exact ⟨this.1.1, this.2.1⟩
  have st : ∀ {i : Nat} {t : Token n}, L.tokens[i]? = some t → L.start ≤ t.span.lo ∧ L.start ≤ t.span.hi := by
    intro i t ht
    have := Layout.start_le h.all (List.mem_of_getElem? ht)
    have := h.sorted.ne ht
    omega
  have st' : ∀ {i : Nat} {t : Token n}, L'.tokens[i]? = some t → L'.start ≤ t.span.lo ∧ L'.start ≤ t.span.hi := by
    intro i t ht
    have := Layout.start_le h.all' (List.mem_of_getElem? ht)
    have := h.sorted'.ne ht
    omega
  cases hx with
  | start =>
    refine .inl ?_
    cases hy with
    | start => exact ⟨Nat.le_refl _, Nat.le_refl _⟩
    | eof => exact ⟨(Layout.start_edge h.inside).1, (Layout.start_edge h.inside').1⟩
    | lo h1 h2 => exact ⟨(st h1).1, (st' h2).1⟩
    | hi h1 h2 => exact ⟨(st h1).2, (st' h2).2⟩
  | eof =>
    refine .inr ?_
    cases hy with
    | start => exact ⟨(Layout.start_edge h.inside).1, (Layout.start_edge h.inside').1⟩
    | eof => exact ⟨Nat.le_refl _, Nat.le_refl _⟩
    | lo h1 h2 => exact ⟨(len h1).1, (len' h2).1⟩
    | hi h1 h2 => exact ⟨(len h1).2, (len' h2).2⟩
  | @lo i t t' h1 h2 =>
    cases hy with
    | start => exact .inr ⟨(st h1).1, (st' h2).1⟩
    | eof => exact .inl ⟨(len h1).1, (len' h2).1⟩
    | @lo j u u' h3 h4 =>
      rcases Nat.lt_trichotomy i j with hij | rfl | hij
      · have := h.sorted.lt h1 h3 hij; have := h.sorted'.lt h2 h4 hij
        have := h.sorted.ne h1; have := h.sorted'.ne h2
        omega
      · rw [h1] at h3; rw [h2] at h4; cases h3; cases h4; exact .inl ⟨Nat.le_refl _, Nat.le_refl _⟩
      · have := h.sorted.lt h3 h1 hij; have := h.sorted'.lt h4 h2 hij
        have := h.sorted.ne h3; have := h.sorted'.ne h4
        omega
    | @hi j u u' h3 h4 =>
      rcases Nat.lt_trichotomy i j with hij | rfl | hij
      · have := h.sorted.lt h1 h3 hij; have := h.sorted'.lt h2 h4 hij
        have := h.sorted.ne h1; have := h.sorted'.ne h2
        have := h.sorted.ne h3; have := h.sorted'.ne h4
        omega
      · rw [h1] at h3; rw [h2] at h4; cases h3; cases h4
        have := h.sorted.ne h1; have := h.sorted'.ne h2
        omega
      · have := h.sorted.lt h3 h1 hij; have := h.sorted'.lt h4 h2 hij
        omega
  | @hi i t t' h1 h2 =>
    cases hy with
    | start => exact .inr ⟨(st h1).2, (st' h2).2⟩
    | eof => exact .inl ⟨(len h1).2, (len' h2).2⟩
    | @lo j u u' h3 h4 =>
      rcases Nat.lt_trichotomy i j with hij | rfl | hij
      · have := h.sorted.lt h1 h3 hij; have := h.sorted'.lt h2 h4 hij
        omega
      · rw [h1] at h3; rw [h2] at h4; cases h3; cases h4
        have := h.sorted.ne h1; have := h.sorted'.ne h2
        omega
      · have := h.sorted.lt h3 h1 hij; have := h.sorted'.lt h4 h2 hij
        have := h.sorted.ne h1; have := h.sorted'.ne h2
        have := h.sorted.ne h3; have := h.sorted'.ne h4
        omega
    | @hi j u u' h3 h4 =>
      rcases Nat.lt_trichotomy i j with hij | rfl | hij
      · have := h.sorted.lt h1 h3 hij; have := h.sorted'.lt h2 h4 hij
        have := h.sorted.ne h3; have := h.sorted'.ne h4
        omega
      · rw [h1] at h3; rw [h2] at h4; cases h3; cases h4; exact .inl ⟨Nat.le_refl _, Nat.le_refl _⟩
      · have := h.sorted.lt h3 h1 hij; have := h.sorted'.lt h4 h2 hij
        have := h.sorted.ne h1; have := h.sorted'.ne h2
        omega

theorem SamePlace.max (h : Twins L L') {x x' y y' : Nat} (hx : SamePlace L L' x x') (hy : SamePlace L L' y y') :
    SamePlace L L' (Max.max x y) (Max.max x' y') := by
  rcases hx.le_total h hy with ⟨h1, h2⟩ | ⟨h1, h2⟩
  · rw [Nat.max_eq_right h1, Nat.max_eq_right h2]; exact hy
  · rw [Nat.max_eq_left h1, Nat.max_eq_left h2]; exact hx

/-- Whether a token begins after a place, and ends before a place. -/
theorem SamePlace.le_lo (h : Twins L L') {x x' i : Nat} {t t' : Token n} (hx : SamePlace L L' x x')
    (ht : L.tokens[i]? = some t) (ht' : L'.tokens[i]? = some t') : x ≤ t.span.lo ↔ x' ≤ t'.span.lo := by
  have k1 := h.sorted.ne ht
  have k2 := h.sorted'.ne ht'
  have k3 := (h.edges t (List.mem_of_getElem? ht)).2.1
  have k4 := (h.edges' t' (List.mem_of_getElem? ht')).2.1
  have k5 := Layout.start_le h.all (List.mem_of_getElem? ht)
  have k6 := Layout.start_le h.all' (List.mem_of_getElem? ht')
  cases hx with
  | start => omega
  | eof => omega
  | @lo j u u' h3 h4 =>
    have := h.sorted.ne h3; have := h.sorted'.ne h4
    rcases Nat.lt_trichotomy i j with hij | rfl | hij
    · have := h.sorted.lt ht h3 hij; have := h.sorted'.lt ht' h4 hij
      omega
    · rw [ht] at h3; rw [ht'] at h4; cases h3; cases h4; simp
    · have := h.sorted.lt h3 ht hij; have := h.sorted'.lt h4 ht' hij
      omega
  | @hi j u u' h3 h4 =>
    have := h.sorted.ne h3; have := h.sorted'.ne h4
    rcases Nat.lt_trichotomy i j with hij | rfl | hij
    · have := h.sorted.lt ht h3 hij; have := h.sorted'.lt ht' h4 hij
      omega
    · rw [ht] at h3; rw [ht'] at h4; cases h3; cases h4; omega
    · have := h.sorted.lt h3 ht hij; have := h.sorted'.lt h4 ht' hij
      omega

theorem SamePlace.hi_le (h : Twins L L') {x x' i : Nat} {t t' : Token n} (hx : SamePlace L L' x x')
    (ht : L.tokens[i]? = some t) (ht' : L'.tokens[i]? = some t') : t.span.hi ≤ x ↔ t'.span.hi ≤ x' := by
  have k1 := h.sorted.ne ht
  have k2 := h.sorted'.ne ht'
  have k3 := (h.edges t (List.mem_of_getElem? ht)).2.1
  have k4 := (h.edges' t' (List.mem_of_getElem? ht')).2.1
  have k5 := Layout.start_le h.all (List.mem_of_getElem? ht)
  have k6 := Layout.start_le h.all' (List.mem_of_getElem? ht')
  cases hx with
  | start => omega
  | eof => omega
  | @lo j u u' h3 h4 =>
    have := h.sorted.ne h3; have := h.sorted'.ne h4
    rcases Nat.lt_trichotomy i j with hij | rfl | hij
    · have := h.sorted.lt ht h3 hij; have := h.sorted'.lt ht' h4 hij
      omega
    · rw [ht] at h3; rw [ht'] at h4; cases h3; cases h4; omega
    · have := h.sorted.lt h3 ht hij; have := h.sorted'.lt h4 ht' hij
      omega
  | @hi j u u' h3 h4 =>
    have := h.sorted.ne h3; have := h.sorted'.ne h4
    rcases Nat.lt_trichotomy i j with hij | rfl | hij
    · have := h.sorted.lt ht h3 hij; have := h.sorted'.lt ht' h4 hij
      omega
    · rw [ht] at h3; rw [ht'] at h4; cases h3; cases h4; simp
    · have := h.sorted.lt h3 ht hij; have := h.sorted'.lt h4 ht' hij
      omega

theorem SamePlace.edge (h : Twins L L') {x x' : Nat} (hx : SamePlace L L' x x') : Edge L.source x ∧ Edge L'.source x' := by
  cases hx with
  | start => exact ⟨Layout.start_edge h.inside, Layout.start_edge h.inside'⟩
  | eof => exact ⟨.len _, .len _⟩
  | lo h1 h2 =>
    exact ⟨(h.edges _ (List.mem_of_getElem? h1)).1, (h.edges' _ (List.mem_of_getElem? h2)).1⟩
  | hi h1 h2 =>
    exact ⟨(h.edges _ (List.mem_of_getElem? h1)).2, (h.edges' _ (List.mem_of_getElem? h2)).2⟩

theorem get?_edges {source : Str} {sp : Span} (h1 : Edge source sp.lo) (h2 : Edge source sp.hi) :
    sp.get? source = some (textOf source sp) := by
  by_cases hlt : sp.lo < sp.hi
  · exact get?_eq ⟨h1, h2⟩ hlt
  · unfold Span.get? textOf
    rw [if_pos (by omega)]
    have : sp.hi - sp.lo = 0 := by omega
    simp [this]

/-- The same token. -/
def TokAt (L L' : Layout n) (t t' : Token n) : Prop := ∃ i : Nat, L.tokens[i]? = some t ∧ L'.tokens[i]? = some t'

theorem TokAt.span {t t' : Token n} (h : TokAt L L' t t') : SameSpan L L' t.span t'.span := by
  obtain ⟨i, h1, h2⟩ := h
  exact ⟨.lo h1 h2, .hi h1 h2⟩

theorem TokAt.word {t t' : Token n} (hT : Twins L L') (h : TokAt L L' t t') : t.word L.source = t'.word L'.source := by
  obtain ⟨i, h1, h2⟩ := h
  exact hT.at h1 h2

/-- The span of the same token, or of the end. -/
def CurAt (L L' : Layout n) (s s' : Span) : Prop :=
  (s = ⟨L.source.length, L.source.length⟩ ∧ s' = ⟨L'.source.length, L'.source.length⟩) ∨
  ∃ t t', TokAt L L' t t' ∧ s = t.span ∧ s' = t'.span

theorem CurAt.span {s s' : Span} (h : CurAt L L' s s') : SameSpan L L' s s' := by
  rcases h with ⟨rfl, rfl⟩ | ⟨t, t', h, rfl, rfl⟩
  · exact ⟨.eof, .eof⟩
  · exact h.span

theorem CurAt.eq_iff (hT : Twins L L') {s s' u u' : Span} (h : CurAt L L' s s') (h' : CurAt L L' u u') :
    s.lo = u.lo ↔ s'.lo = u'.lo := by
  rcases h with ⟨rfl, rfl⟩ | ⟨t, t', ⟨i, h1, h2⟩, rfl, rfl⟩ <;> rcases h' with ⟨rfl, rfl⟩ | ⟨q, q', ⟨j, h3, h4⟩, rfl, rfl⟩
  · simp
  · have := hT.sorted.ne h3; have := hT.sorted'.ne h4
    have := (hT.edges q (List.mem_of_getElem? h3)).2.1
    have := (hT.edges' q' (List.mem_of_getElem? h4)).2.1
    simp only
    omega
  · have := hT.sorted.ne h1; have := hT.sorted'.ne h2
    have := (hT.edges t (List.mem_of_getElem? h1)).2.1
    have := (hT.edges' t' (List.mem_of_getElem? h2)).2.1
    simp only
    omega
  · have := hT.sorted.ne h1; have := hT.sorted'.ne h2
    have := hT.sorted.ne h3; have := hT.sorted'.ne h4
    rcases Nat.lt_trichotomy i j with hij | rfl | hij
    · have := hT.sorted.lt h1 h3 hij; have := hT.sorted'.lt h2 h4 hij
      omega
    · rw [h1] at h3; rw [h2] at h4; cases h3; cases h4; simp
    · have := hT.sorted.lt h3 h1 hij; have := hT.sorted'.lt h4 h2 hij
      omega

/-! ### Related computations -/

inductive OutRel (L L' : Layout n) {α β : Type} (R : α → β → Prop) : Out (View n) α → Out (View n) β → Prop
  | fuel : OutRel L L' R .fuel .fuel
  | crash : OutRel L L' R .crash .crash
  | ok {a b v v'} : R a b → Alike L L' v v' → OutRel L L' R (.ok a v) (.ok b v')

def MRel (L L' : Layout n) {α β : Type} (R : α → β → Prop) (x : M (View n) α) (y : M (View n) β) : Prop :=
  ∀ v v', Alike L L' v v' → OutRel L L' R (x v) (y v')

theorem MRel.pure {α β : Type} {R : α → β → Prop} {a b} (h : R a b) :
    MRel L L' R (Pure.pure a : M (View n) α) (Pure.pure b : M (View n) β) := fun _ _ hv => .ok h hv

theorem MRel.fuel {α β : Type} {R : α → β → Prop} : MRel L L' R (M.fuel : M (View n) α) (M.fuel : M (View n) β) :=
  fun _ _ _ => .fuel

theorem MRel.bind {α β γ δ : Type} {R : α → β → Prop} {Q : γ → δ → Prop} {x : M (View n) α} {y : M (View n) β}
    {f : α → M (View n) γ} {g : β → M (View n) δ} (h : MRel L L' R x y) (hf : ∀ a b, R a b → MRel L L' Q (f a) (g b)) :
    MRel L L' Q (x >>= f) (y >>= g) := by
  intro v v' hv
  have := h v v' hv
  show OutRel L L' Q (M.bind x f v) (M.bind y g v')
  unfold M.bind
  generalize hx : x v = o at this
  generalize hy : y v' = o' at this
  cases this with
  | fuel => exact .fuel
  | crash => exact .crash
  | ok hab hs => exact hf _ _ hab _ _ hs

theorem MRel.mono {α β : Type} {R Q : α → β → Prop} {x : M (View n) α} {y : M (View n) β} (h : MRel L L' R x y)
    (hq : ∀ a b, R a b → Q a b) : MRel L L' Q x y := by
  intro v v' hv
  have := h v v' hv
  generalize x v = o at this
  generalize y v' = o' at this
  cases this with
  | fuel => exact .fuel
  | crash => exact .crash
  | ok hab hs => exact .ok (hq _ _ hab) hs

inductive OptRel {α β : Type} (R : α → β → Prop) : Option α → Option β → Prop
  | none : OptRel R none none
  | some {a b} : R a b → OptRel R (some a) (some b)

theorem Alike.rest_length (hT : Twins L L') {v v' : View n} (h : Alike L L' v v') : v.rest.length = v'.rest.length := by
  obtain ⟨new, new', -, -, t1, t2, hs⟩ := h.toks
  have h1 := congrArg List.length t1
  have h2 := congrArg List.length t2
  have h3 := congrArg List.length hs
  have := hT.length
  simp only [List.length_append, List.length_map] at h1 h2 h3
  omega

theorem Alike.head {v v' : View n} (h : Alike L L' v v') {t t' : Token n} {l l' : List (Token n)} (hr : v.rest = t :: l)
    (hr' : v'.rest = t' :: l') : TokAt L L' t t' := by
  obtain ⟨new, new', -, -, t1, t2, hs⟩ := h.toks
  have h3 : new.length = new'.length := by simpa using congrArg List.length hs
  refine ⟨new.length, ?_, ?_⟩
  · rw [← t1, List.getElem?_append_right (by simp), hr]; simp
  · rw [h3, ← t2, List.getElem?_append_right (by simp), hr']; simp

theorem peek_rel (hT : Twins L L') : MRel L L' (OptRel (TokAt L L')) (View.ops (n := n)).mPeek View.ops.mPeek := by
  intro v v' hv
  refine .ok ?_ hv
  have hl := hv.rest_length hT
  show OptRel _ v.rest.head? v'.rest.head?
  cases hr : v.rest with
  | nil =>
    rw [hr] at hl
    rw [List.length_eq_zero_iff.1 hl.symm]
    exact .none
  | cons t l =>
    cases hr' : v'.rest with
    | nil => rw [hr, hr'] at hl; cases hl
    | cons t' l' => exact .some (hv.head hr hr')

theorem consume_rel (hT : Twins L L') : MRel L L' (fun _ _ => True) (View.ops (n := n)).mConsume View.ops.mConsume := by
  intro v v' hv
  have hl := hv.rest_length hT
  show OutRel L L' _ (.ok v.consume.1 v.consume.2) (.ok v'.consume.1 v'.consume.2)
  refine .ok trivial ?_
  unfold View.consume
  cases hr : v.rest with
  | nil =>
    rw [hr] at hl
    rw [List.length_eq_zero_iff.1 hl.symm]
    exact hv
  | cons t l =>
    cases hr' : v'.rest with
    | nil => rw [hr, hr'] at hl; cases hl
    | cons t' l' =>
      obtain ⟨new, new', c1, c2, t1, t2, hs⟩ := hv.toks
      rw [hr] at t1
      rw [hr'] at t2
      refine ⟨hv.src, hv.src', new ++ [.ofToken t], new' ++ [.ofToken t'], ?_, ?_, ?_, ?_, ?_⟩
      · simp [TokenVec.push, c1]
      · simp [TokenVec.push, c2]
      · simpa [Cell.ofToken] using t1
      · simpa [Cell.ofToken] using t2
      · simpa [Cell.ofToken] using hs

theorem source_rel : MRel L L' (fun a b => a = L.source ∧ b = L'.source) (View.ops (n := n)).mSource View.ops.mSource :=
  fun _ _ hv => .ok ⟨hv.src, hv.src'⟩ hv

theorem emptySpan_rel : MRel L L' (SameSpan L L') (View.ops (n := n)).mEmptySpan View.ops.mEmptySpan := by
  intro v v' hv
  refine .ok ?_ hv
  have key : SamePlace L L' v.pos v'.pos := by
    unfold View.pos
    obtain ⟨new, new', c1, c2, t1, t2, hs⟩ := hv.toks
    have hl : new.length = new'.length := by simpa using congrArg List.length hs
    rw [c1, c2]
    cases hc : new.getLast? with
    | none =>
      have : new = [] := by simpa using hc
      subst this
      rw [List.length_eq_zero_iff.1 hl.symm, List.append_nil, List.append_nil]
      exact .start
    | some c =>
      cases hc' : new'.getLast? with
      | none =>
        have : new' = [] := by simpa using hc'
        subst this
        rw [List.length_eq_zero_iff.1 hl] at hc
        cases hc
      | some c' =>
        rw [List.getLast?_append, List.getLast?_append, hc, hc']
        refine .hi (i := new.length - 1) (t := c.token) (t' := c'.token) ?_ ?_
        · rw [List.getLast?_eq_getElem?] at hc
          have hlt : new.length - 1 < new.length := (List.getElem?_eq_some_iff.1 hc).1
          rw [← t1, List.getElem?_append_left (by simpa using hlt), List.getElem?_map, hc]; rfl
        · rw [List.getLast?_eq_getElem?] at hc'
          have hlt : new'.length - 1 < new'.length := (List.getElem?_eq_some_iff.1 hc').1
          rw [hl, ← t2, List.getElem?_append_left (by simpa using hlt), List.getElem?_map, hc']; rfl
  exact ⟨key, key⟩

/-- Places are not before the tokens to come. -/
theorem SamePlace.start_le (h : Twins L L') {x x' : Nat} (hx : SamePlace L L' x x') : L.start ≤ x ∧ L'.start ≤ x' := by
  cases hx with
  | start => exact ⟨Nat.le_refl _, Nat.le_refl _⟩
  | eof => exact ⟨(Layout.start_edge h.inside).1, (Layout.start_edge h.inside').1⟩
  | lo h1 h2 => exact ⟨Layout.start_le h.all (List.mem_of_getElem? h1), Layout.start_le h.all' (List.mem_of_getElem? h2)⟩
  | hi h1 h2 =>
    have := Layout.start_le h.all (List.mem_of_getElem? h1)
    have := Layout.start_le h.all' (List.mem_of_getElem? h2)
    have := h.sorted.ne h1
    have := h.sorted'.ne h2
    omega

/-- Applying semantic types inside of a span that begins where the store ends leaves the store alone. -/
theorem apply_before {before new : TokenVec n} (hs : SortedStore (before ++ new)) {sp : Span} (sem : LSet n)
    (hsp : (before.getLast?.map (·.token.span.hi)).getD 0 ≤ sp.lo) :
    TokenVec.applySemanticInside (before ++ new) sp sem = before ++ new.map (addIfInside sp sem) := by
  rw [C14_apply hs, List.map_append]
  congr 1
  refine (List.map_congr_left fun c hc => ?_).trans (List.map_id _)
  unfold addIfInside
  refine if_neg fun hin => ?_
  have hhi : c.token.span.hi ≤ (before.getLast?.map (·.token.span.hi)).getD 0 := by
    cases hl : before.getLast? with
    | none => rw [List.getLast?_eq_none_iff.1 hl] at hc; cases hc
    | some d =>
      obtain ⟨init, hb⟩ := List.getLast?_eq_some_iff.1 hl
      subst hb
      rcases List.mem_append.1 hc with hc | hc
      · have h2 := hs.2
        rw [List.map_append, List.map_append, List.append_assoc] at h2
        have := (List.pairwise_append.1 h2).2.2 _ (List.mem_map_of_mem hc) d.token (by simp)
        have := hs.1 d.token (by simp)
        simp only [Option.map_some, Option.getD_some]
        omega
      · rw [List.mem_singleton.1 hc]; exact Nat.le_refl _
  have := hs.1 c.token (by rw [List.map_append]; exact List.mem_append_left _ (List.mem_map_of_mem hc))
  have := hin.1
  omega

theorem addIfInside_token (sp : Span) (sem : LSet n) (c : Cell n) : (addIfInside sp sem c).token = c.token := by
  unfold addIfInside; split <;> rfl

theorem apply_rel (hT : Twins L L') {sp sp' : Span} (h : SameSpan L L' sp sp') (sem : LSet n) :
    MRel L L' (fun _ _ => True) ((View.ops (n := n)).mApply sp sem) (View.ops.mApply sp' sem) := by
  intro v v' hv
  refine .ok trivial ?_
  obtain ⟨new, new', c1, c2, t1, t2, hs⟩ := hv.toks
  have s1 : SortedStore (L.before ++ new) := by
    have := hT.all
    rw [← t1, ← List.append_assoc, ← List.map_append] at this
    exact ⟨fun t ht => this.1 t (List.mem_append_left _ ht), (List.pairwise_append.1 this.2).1⟩
  have s2 : SortedStore (L'.before ++ new') := by
    have := hT.all'
    rw [← t2, ← List.append_assoc, ← List.map_append] at this
    exact ⟨fun t ht => this.1 t (List.mem_append_left _ ht), (List.pairwise_append.1 this.2).1⟩
  have e1 := apply_before s1 sem (h.lo.start_le hT).1
  have e2 := apply_before s2 sem (h.lo.start_le hT).2
  refine ⟨hv.src, hv.src', new.map (addIfInside sp sem), new'.map (addIfInside sp' sem), ?_, ?_, ?_, ?_, ?_⟩
  · show TokenVec.applySemanticInside v.cells sp sem = _
    rw [c1, e1]
  · show TokenVec.applySemanticInside v'.cells sp' sem = _
    rw [c2, e2]
  · rw [← t1, List.map_map]; congr 1; exact List.map_congr_left fun c _ => addIfInside_token ..
  · rw [← t2, List.map_map]; congr 1; exact List.map_congr_left fun c _ => addIfInside_token ..
  · rw [List.map_map, List.map_map]
    apply List.ext_getElem?
    intro i
    have hsem : (new.map (·.semantic))[i]? = (new'.map (·.semantic))[i]? := by rw [hs]
    simp only [List.getElem?_map] at hsem ⊢
    cases hc : new[i]? with
    | none =>
      rw [hc] at hsem
      have : new'[i]? = none := by simpa using hsem.symm
      rw [this]; rfl
    | some c =>
      rw [hc] at hsem
      obtain ⟨c', hc', he⟩ : ∃ c', new'[i]? = some c' ∧ c'.semantic = c.semantic := by
        cases hx : new'[i]? with
        | none => rw [hx] at hsem; cases hsem
        | some c' => rw [hx] at hsem; exact ⟨c', rfl, by simpa using hsem.symm⟩
      rw [hc']
      have ht : L.tokens[i]? = some c.token := by
        have hlt := (List.getElem?_eq_some_iff.1 hc).1
        rw [← t1, List.getElem?_append_left (by simpa using hlt), List.getElem?_map, hc]; rfl
      have ht' : L'.tokens[i]? = some c'.token := by
        have hlt := (List.getElem?_eq_some_iff.1 hc').1
        rw [← t2, List.getElem?_append_left (by simpa using hlt), List.getElem?_map, hc']; rfl
      have hin : c.token.span.Inside sp ↔ c'.token.span.Inside sp' := by
        unfold Span.Inside
        rw [h.lo.le_lo hT ht ht', h.hi.hi_le hT ht ht']
      simp only [Option.map_some, addIfInside, Function.comp]
      by_cases hi : c.token.span.Inside sp
      · rw [if_pos hi, if_pos (hin.1 hi), he]
      · rw [if_neg hi, if_neg (fun h => hi (hin.2 h)), he]

end
end Teleparse
