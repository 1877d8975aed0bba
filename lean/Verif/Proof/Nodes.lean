import Verif.Spec.Nodes
import Verif.Proof.Nest
import Verif.Proof.Tokens
import Verif.Proof.ErrSpan
import Verif.Props.TokenStore
/-
The tokens inside the span of a node are the tokens of the node.
-/
namespace Teleparse
variable {m n : Nat} {S : Schema m n}

theorem Tree.Nested.kid {x : Tree n} (h : x.Nested) {l : List (Tree n)} (hl : l ∈ x.kids) {y : Tree n} (hy : y ∈ l) :
    y.Nested ∧ y.span.Inside x.span := by
  cases h with
  | node _ h2 h3 => exact ⟨h2 l hl y hy, h3 l hl y hy⟩

theorem Span.Inside.trans {a b c : Span} (h : a.Inside b) (h' : b.Inside c) : a.Inside c := by
  unfold Span.Inside at *; omega

theorem Tree.Nested.nodes {x y : Tree n} (h : x.Nested) (hy : x.Node y) : y.Nested ∧ y.span.Inside x.span := by
  induction hy with
  | refl => exact ⟨h, Nat.le_refl _, Nat.le_refl _⟩
  | part hl hz _ ih =>
    obtain ⟨h1, h2⟩ := h.kid hl hz
    obtain ⟨h3, h4⟩ := ih h1
    exact ⟨h3, h4.trans h2⟩

theorem interleave_mem {α : Type} (a b : List α) (x : α) : x ∈ interleave a b → x ∈ a ∨ x ∈ b := by
  induction a, b using interleave.induct with
  | case1 b => intro h; simp [interleave] at h
  | case2 y xs ys ih =>
    rw [interleave_cons]
    intro h
    rcases List.mem_cons.1 h with rfl | h
    · exact .inl (.head _)
    · rcases ih h with h | h
      · exact .inr h
      · exact .inl (.tail _ h)

/-- The tokens of a match lie inside the span of its tree. -/
theorem Parses.covers {source : Str} {pos : Nat} {t : Ty m n} {c : List (Cell n)} {x : Tree n}
    (h : Parses S source pos t c x) : After pos c → ∀ d ∈ c.map (·.token), d.span.Inside x.span := by
  have wrap : ∀ {pos t} {cs : List (List (Cell n))} {l : List (Tree n)} {x : Tree n}, Parses S source pos t cs.flatten x →
      After pos cs.flatten → (∀ y ∈ l, ∃ k ∈ x.kids, y ∈ k) →
      (∀ d ∈ cs.flatten.map (·.token), ∃ y ∈ l, d.span.Inside y.span) →
      ∀ d ∈ cs.flatten.map (·.token), d.span.Inside x.span := by
    intro pos t cs l x hp ha hk h d hd
    obtain ⟨y, hy, hi⟩ := h d hd
    obtain ⟨k, hk, hy⟩ := hk y hy
    exact hi.trans ((hp.between ha).2.1.kid hk hy).2
  refine Parses.rec (S := S) (source := source)
    (motive_1 := fun pos t c x _ => After pos c → ∀ d ∈ c.map (·.token), d.span.Inside x.span)
    (motive_2 := fun pos ts cs l _ => After pos cs.flatten →
      ∀ d ∈ cs.flatten.map (·.token), ∃ y ∈ l, d.span.Inside y.span)
    ?term ?struct ?enum ?tuple ?box ?optNone ?optSome ?existNone ?existSome ?quote ?parse ?plus ?starNone
    ?starSome ?loopNone ?loopSome ?split ?punct ?recover ?nil ?cons h
  case term =>
    intro pos i k t _ _ d hd
    rw [List.mem_singleton.1 hd]
    exact ⟨Nat.le_refl _, Nat.le_refl _⟩
  case struct =>
    intro pos k f fs cs l hk hs ih ha
    have ht := addAll_tokens cs ((f :: fs).map (·.2)) (by rw [hs.lengths.1]; simp)
    have hb := ((Parses.struct hk hs).between ha).2.1
    intro d hd
    rw [ht] at hd
    obtain ⟨y, hy, hi⟩ := ih (ha.congr ht) d hd
    exact hi.trans (hb.kid (.head _) hy).2
  case enum =>
    intro pos k f fs i t sem c x hk hi _ ih ha d hd
    have ht := add_tokens sem c
    rw [ht] at hd
    exact ih (ha.congr ht) d hd
  case tuple => intro pos t ts cs l ht hs ih ha; exact wrap (.tuple ht hs) ha (fun y hy => ⟨l, .head _, hy⟩) (ih ha)
  case box => intro pos t c x _ ih ha; exact ih ha
  case optNone => intro pos t ha d hd; cases hd
  case optSome => intro pos t c x _ ih ha; exact ih ha
  case existNone => intro pos t ha d hd; cases hd
  case existSome => intro pos t c x _ ih ha; exact ih ha
  case quote => intro pos t c x _ ih ha; exact ih ha
  case parse => intro pos t c x _ ih ha; exact ih ha
  case plus => intro pos t k cs l hs ih ha; exact wrap (.plus hs) ha (fun y hy => ⟨l, .head _, hy⟩) (ih ha)
  case starNone => intro pos t ha d hd; cases hd
  case starSome => intro pos t k cs l hs ih ha; exact wrap (.starSome hs) ha (fun y hy => ⟨l, .head _, hy⟩) (ih ha)
  case loopNone => intro pos t ha d hd; cases hd
  case loopSome => intro pos t k cs l hs ih ha; exact wrap (.loopSome hs) ha (fun y hy => ⟨l, .head _, hy⟩) (ih ha)
  case split =>
    intro pos t p cs es ps hl hs ih ha
    refine wrap (.split hl hs) ha (fun y hy => ?_) (ih ha)
    rcases interleave_mem es ps y hy with h | h
    · exact ⟨es, .head _, h⟩
    · exact ⟨ps, .tail _ (.head _), h⟩
  case punct =>
    intro pos t p cs es ps he hl hs ih ha
    refine wrap (.punct he hl hs) ha (fun y hy => ?_) (ih ha)
    rcases interleave_mem es ps y hy with h | h
    · exact ⟨es, .head _, h⟩
    · exact ⟨ps, .tail _ (.head _), h⟩
  case recover =>
    intro pos t r cs x y hs ih ha d hd
    obtain ⟨z, hz, hi⟩ := ih ha d hd
    have hb := ((Parses.recover hs).between ha).2.1
    simp only [List.mem_cons, List.not_mem_nil, or_false] at hz
    rcases hz with rfl | rfl
    · exact hi.trans (hb.kid (.head _) (.head _)).2
    · exact hi.trans (hb.kid (.head _) (.tail _ (.head _))).2
  case nil => intro pos _ d hd; cases hd
  case cons =>
    intro pos t ts c cs x xs _ _ i1 i2 ha d hd
    rw [List.flatten_cons] at ha hd
    rw [List.map_append, List.mem_append] at hd
    rcases hd with hd | hd
    · exact ⟨x, .head _, i1 ha.left d hd⟩
    · obtain ⟨y, hy, hi⟩ := i2 ha.right d hd
      exact ⟨y, .tail _ hy, hi⟩

/-- Some of the cells are a match of a type in `P` whose tree is `y`. -/
def HasNode (S : Schema m n) (source : Str) (P : Ty m n → Prop) (pos : Nat) (c : List (Cell n)) (y : Tree n) : Prop :=
  ∃ (a c' d : List (Cell n)) (u : Ty m n), c.map (·.token) = (a ++ c' ++ d).map (·.token) ∧ Parses S source (endOf pos a) u c' y ∧ P u

theorem HasNode.mono {source : Str} {P Q : Ty m n → Prop} {pos c} {y : Tree n} (h : HasNode S source P pos c y)
    (hpq : ∀ u, P u → Q u) : HasNode S source Q pos c y := by
  obtain ⟨a, c', d, u, h1, h2, h3⟩ := h
  exact ⟨a, c', d, u, h1, h2, hpq u h3⟩

theorem HasNode.congr {source : Str} {P : Ty m n → Prop} {pos} {c c2 : List (Cell n)} {y : Tree n}
    (h : HasNode S source P pos c y) (hc : c2.map (·.token) = c.map (·.token)) : HasNode S source P pos c2 y := by
  obtain ⟨a, c', d, u, h1, h2, h3⟩ := h
  exact ⟨a, c', d, u, hc.trans h1, h2, h3⟩

theorem HasNode.left {source : Str} {P : Ty m n → Prop} {pos} {c e : List (Cell n)} {y : Tree n}
    (h : HasNode S source P pos c y) : HasNode S source P pos (c ++ e) y := by
  obtain ⟨a, c', d, u, h1, h2, h3⟩ := h
  exact ⟨a, c', d ++ e, u, by rw [List.map_append, h1]; simp, h2, h3⟩

theorem HasNode.right {source : Str} {P : Ty m n → Prop} {pos} {c e : List (Cell n)} {y : Tree n}
    (h : HasNode S source P (endOf pos c) e y) : HasNode S source P pos (c ++ e) y := by
  obtain ⟨a, c', d, u, h1, h2, h3⟩ := h
  exact ⟨c ++ a, c', d, u, by rw [List.map_append, h1]; simp, by rw [endOf_append]; exact h2, h3⟩

theorem Parses.here {source : Str} {pos : Nat} {t : Ty m n} {c : List (Cell n)} {x : Tree n}
    (h : Parses S source pos t c x) {P : Ty m n → Prop} (hp : P t) : HasNode S source P pos c x :=
  ⟨[], c, [], t, by simp, h, hp⟩

theorem Tree.Node.cases' {x y : Tree n} (h : x.Node y) : y = x ∨ ∃ l ∈ x.kids, ∃ z ∈ l, z.Node y := by
  cases h with
  | refl => exact .inl rfl
  | part h1 h2 h3 => exact .inr ⟨_, h1, _, h2, h3⟩

theorem Tree.Node.trans {x y z : Tree n} (h : x.Node y) (h' : y.Node z) : x.Node z := by
  induction h with
  | refl => exact h'
  | part h1 h2 _ ih => exact .part h1 h2 (ih h')

theorem Reach.cases_head {I : Type} {parts : I → List I} {a c : I} (h : Reach parts a c) :
    c = a ∨ ∃ b ∈ parts a, Reach parts b c := by
  induction h with
  | refl => exact .inl rfl
  | step _ hj ih =>
    rcases ih with rfl | ⟨b, hb, h⟩
    · exact .inr ⟨_, hj, .refl⟩
    · exact .inr ⟨b, hb, .step h hj⟩

theorem Inner.refl (t : Ty m n) : Inner S t t := .inl .refl

theorem Inner.head {t u v : Ty m n} (hu : u ∈ S.tyParts t) (h : Inner S u v) : Inner S t v := by
  rcases h with h | ⟨w, rfl, h⟩
  · exact .inl (.head hu h)
  · exact .inr ⟨w, rfl, .head hu h⟩

theorem Parses.node {source : Str} {pos : Nat} {t : Ty m n} {c : List (Cell n)} {x : Tree n}
    (h : Parses S source pos t c x) : ∀ y, x.Node y → HasNode S source (Inner S t) pos c y := by
  have lists : ∀ {pos t} {cs : List (List (Cell n))} {l : List (Tree n)} {x : Tree n} {ts : List (Ty m n)},
      Parses S source pos t cs.flatten x → x.kids = [l] → (∀ u ∈ ts, ∀ v, Inner S u v → Inner S t v) →
      (∀ z ∈ l, ∀ y, z.Node y → HasNode S source (fun v => ∃ u ∈ ts, Inner S u v) pos cs.flatten y) →
      ∀ y, x.Node y → HasNode S source (Inner S t) pos cs.flatten y := by
    intro pos t cs l x ts hp hk hts ih y hy
    rcases hy.cases' with rfl | ⟨l', hl, z, hz, hy⟩
    · exact hp.here (.refl t)
    · rw [hk] at hl
      rw [List.mem_singleton.1 hl] at hz
      exact (ih z hz y hy).mono fun v ⟨u, hu, hv⟩ => hts u hu v hv
  refine Parses.rec (S := S) (source := source)
    (motive_1 := fun pos t c x _ => ∀ y, x.Node y → HasNode S source (Inner S t) pos c y)
    (motive_2 := fun pos ts cs l _ => ∀ z ∈ l, ∀ y, z.Node y →
      HasNode S source (fun v => ∃ u ∈ ts, Inner S u v) pos cs.flatten y)
    ?term ?struct ?enum ?tuple ?box ?optNone ?optSome ?existNone ?existSome ?quote ?parse ?plus ?starNone
    ?starSome ?loopNone ?loopSome ?split ?punct ?recover ?nil ?cons h
  case term =>
    intro pos i k t hm y hy
    rcases hy.cases' with rfl | ⟨l, hl, _⟩
    · exact (Parses.term hm).here (.refl _)
    · cases hl
  case struct =>
    intro pos k f fs cs l hk hs ih y hy
    have ht := addAll_tokens cs ((f :: fs).map (·.2)) (by rw [hs.lengths.1]; simp)
    rcases hy.cases' with rfl | ⟨l', hl, z, hz, hy⟩
    · exact (Parses.struct hk hs).here (.refl _)
    · rw [List.mem_singleton.1 hl] at hz
      refine ((ih z hz y hy).mono fun v ⟨u, hu, hv⟩ => ?_).congr ht
      exact .head (by simp only [Schema.tyParts, hk]; exact hu) hv
  case enum =>
    intro pos k f fs i t sem c x hk hi hp ih y hy
    have ht := add_tokens sem c
    rcases hy.cases' with rfl | ⟨l', hl, z, hz, hy⟩
    · exact (Parses.enum hk hi hp).here (.refl _)
    · rw [List.mem_singleton.1 hl] at hz
      rw [List.mem_singleton.1 hz] at hy
      refine ((ih y hy).mono fun v hv => ?_).congr ht
      exact .head (by simp only [Schema.tyParts, hk]; exact List.mem_map.2 ⟨_, List.mem_of_getElem? hi, rfl⟩) hv
  case tuple =>
    intro pos t ts cs l ht hs ih
    exact lists (.tuple ht hs) rfl (fun u hu v hv => .head (by rw [isTuple_parts ht]; exact hu) hv) ih
  case box =>
    intro pos t c x hp ih y hy
    exact (ih y hy).mono fun v hv => .head (by simp [Schema.tyParts]) hv
  case optNone =>
    intro pos t y hy
    rcases hy.cases' with rfl | ⟨l, hl, _⟩
    · exact Parses.optNone.here (.refl _)
    · cases hl
  case optSome =>
    intro pos t c x hp ih y hy
    rcases hy.cases' with rfl | ⟨l, hl, z, hz, hy⟩
    · exact (Parses.optSome hp).here (.refl _)
    · rw [List.mem_singleton.1 hl] at hz
      rw [List.mem_singleton.1 hz] at hy
      exact (ih y hy).mono fun v hv => .head (by simp [Schema.tyParts]) hv
  case existNone =>
    intro pos t y hy
    rcases hy.cases' with rfl | ⟨l, hl, _⟩
    · exact Parses.existNone.here (.refl _)
    · cases hl
  case existSome =>
    intro pos t c x hp ih y hy
    rcases hy.cases' with rfl | ⟨l, hl, _⟩
    · exact (Parses.existSome hp).here (.refl _)
    · cases hl
  case quote =>
    intro pos t c x hp ih y hy
    rcases hy.cases' with rfl | ⟨l, hl, _⟩
    · exact (Parses.quote hp).here (.refl _)
    · cases hl
  case parse =>
    intro pos t c x hp ih y hy
    rcases hy.cases' with rfl | ⟨l, hl, _⟩
    · exact (Parses.parse hp).here (.refl _)
    · cases hl
  case plus =>
    intro pos t k cs l hs ih
    exact lists (.plus hs) rfl (fun u hu v hv => .head (by rw [(List.mem_replicate.1 hu).2]; simp [Schema.tyParts]) hv) ih
  case starNone =>
    intro pos t y hy
    rcases hy.cases' with rfl | ⟨l, hl, z, hz, _⟩
    · exact Parses.starNone.here (.refl _)
    · rw [List.mem_singleton.1 hl] at hz; cases hz
  case starSome =>
    intro pos t k cs l hs ih
    exact lists (.starSome hs) rfl (fun u hu v hv => .head (u := .plus t) (by simp [Schema.tyParts])
      (.head (by rw [(List.mem_replicate.1 hu).2]; simp [Schema.tyParts]) hv)) ih
  case loopNone =>
    intro pos t y hy
    rcases hy.cases' with rfl | ⟨l, hl, z, hz, _⟩
    · exact Parses.loopNone.here (.refl _)
    · rw [List.mem_singleton.1 hl] at hz; cases hz
  case loopSome =>
    intro pos t k cs l hs ih
    exact lists (.loopSome hs) rfl (fun u hu v hv => .head (by rw [(List.mem_replicate.1 hu).2]; simp [Schema.tyParts]) hv) ih
  case split =>
    intro pos t p cs es ps hl hs ih y hy
    rcases hy.cases' with rfl | ⟨l, hk, z, hz, hy⟩
    · exact (Parses.split hl hs).here (.refl _)
    · refine (ih z (mem_interleave es ps (.inl hl) z ?_) y hy).mono fun v ⟨u, hu, hv⟩ => ?_
      · simp only [Tree.kids, List.mem_cons, List.not_mem_nil, or_false] at hk
        rcases hk with rfl | rfl
        · exact .inl hz
        · exact .inr hz
      · exact .head (by rcases mem_alternate hu with rfl | rfl <;> simp [Schema.tyParts]) hv
  case punct =>
    intro pos t p cs es ps he hl hs ih y hy
    rcases hy.cases' with rfl | ⟨l, hk, z, hz, hy⟩
    · exact (Parses.punct he hl hs).here (.refl _)
    · refine (ih z (mem_interleave es ps hl z ?_) y hy).mono fun v ⟨u, hu, hv⟩ => ?_
      · simp only [Tree.kids, List.mem_cons, List.not_mem_nil, or_false] at hk
        rcases hk with rfl | rfl
        · exact .inl hz
        · exact .inr hz
      · exact .head (by rcases mem_alternate hu with rfl | rfl <;> simp [Schema.tyParts]) hv
  case recover =>
    intro pos t r cs x z hs ih y hy
    have inn : ∀ v, (∃ u ∈ [t, r], Inner S u v) → Inner S (.recover t r) v :=
      fun v ⟨u, hu, hv⟩ => .head (by simpa [Schema.tyParts] using hu) hv
    rcases hy.cases' with rfl | ⟨l, hk, w, hw, hy'⟩
    · exact (Parses.recover hs).here (.refl _)
    · rw [List.mem_singleton.1 hk] at hw
      simp only [List.mem_cons, List.not_mem_nil, or_false] at hw
      rcases hw with rfl | rfl
      · rcases hy'.cases' with rfl | ⟨l, hk, w, hw, hy⟩
        · cases hs with
          | cons h1 h2 =>
            rw [List.flatten_cons]
            refine HasNode.left ⟨[], _, [], .option t, by simp, .optSome h1, ?_⟩
            exact .inr ⟨t, rfl, .head (by simp [Schema.tyParts]) .refl⟩
        · rw [List.mem_singleton.1 hk] at hw
          rw [List.mem_singleton.1 hw] at hy
          exact (ih x (.head _) y hy).mono inn
      · exact (ih w (.tail _ (.head _)) y hy').mono inn
  case nil => intro pos z hz; cases hz
  case cons =>
    intro pos t ts c cs x xs hp _ i1 i2 z hz y hy
    rw [List.flatten_cons]
    rcases List.mem_cons.1 hz with rfl | hz
    · exact ((i1 y hy).mono fun v hv => ⟨t, .head _, hv⟩).left
    · exact ((i2 z hz y hy).mono fun v ⟨u, hu, hv⟩ => ⟨u, .tail _ hu, hv⟩).right

/-! ### The tokens of recovered trees -/

/-- A token of the input in the tree. -/
def Held (x : Tree n) (t : Token n) : Prop := x.Node (.tok t) ∧ t.span.lo < t.span.hi

def Cov (x : Tree n) : Prop := ∀ y, x.Node y → ∀ t, Held y t → t.span.Inside y.span

structure Bnd (v : View n) (x : Tree n) (v' : View n) : Prop where
  adv : Adv v v'
  lo : v.pos ≤ x.span.lo
  hi : v.pos ≤ x.span.hi
  next : ∀ t ∈ v'.rest, x.span.lo ≤ t.span.lo
  cov : Cov x
  held : ∀ t, Held x t → t ∈ v.rest ∧ t.span.hi ≤ v'.pos

theorem Bnd.inside {v v' : View n} {x : Tree n} (h : Bnd v x v') {t : Token n} (ht : Held x t) :
    t.span.Inside x.span := h.cov x .refl t ht

theorem Adv.rest_mem {v v' : View n} (h : Adv v v') {t : Token n} (ht : t ∈ v'.rest) : t ∈ v.rest := by
  obtain ⟨ts, h1, _⟩ := h.cons
  rw [h1]; exact List.mem_append_right _ ht

theorem Sorted.rest_ge {source : Str} {v : View n} (h : Sorted source v) {t : Token n} (ht : t ∈ v.rest) :
    v.pos ≤ t.span.lo := by
  unfold View.pos
  cases hc : v.cells.getLast? with
  | none => simp
  | some d =>
    exact (List.pairwise_append.1 h.tokens.2).2.2 d.token (List.mem_map_of_mem (List.mem_of_getLast? hc)) t ht

theorem Ready.pos_le {source : Str} {v v' : View n} (h : Ready source v) (ha : Adv v v') : v.pos ≤ v'.pos :=
  h.sorted.pos_le ha

theorem Ready.rest_ge {source : Str} {v : View n} (h : Ready source v) {t : Token n} (ht : t ∈ v.rest) :
    v.pos ≤ t.span.lo := h.sorted.rest_ge ht

theorem Bnd.weaken {source : Str} {v0 v v' v'' : View n} {x : Tree n} (hs : Ready source v0) (h0 : Adv v0 v)
    (h : Bnd v x v') (h1 : Adv v' v'') : Bnd v0 x v'' := by
  have p0 := hs.pos_le h0
  have p1 := (hs.adv (h0.trans h.adv)).pos_le h1
  exact ⟨(h0.trans h.adv).trans h1, Nat.le_trans p0 h.lo, Nat.le_trans p0 h.hi, fun t ht => h.next t (h1.rest_mem ht),
    h.cov, fun t ht => ⟨h0.rest_mem (h.held t ht).1, Nat.le_trans (h.held t ht).2 p1⟩⟩

theorem Held.cases' {x : Tree n} {t : Token n} (h : Held x t) :
    x = .tok t ∨ ∃ l ∈ x.kids, ∃ z ∈ l, Held z t := by
  rcases h.1.cases' with h1 | ⟨l, hl, z, hz, h1⟩
  · exact .inl h1.symm
  · exact .inr ⟨l, hl, z, hz, h1, h.2⟩

/-- A node made of parts. -/
theorem bnd_node {v v' : View n} {x : Tree n} (ha : Adv v v') (h1 : v.pos ≤ x.span.lo) (h2 : v.pos ≤ x.span.hi)
    (h3 : ∀ t ∈ v'.rest, x.span.lo ≤ t.span.lo) (hx : ∀ t, x ≠ .tok t)
    (hk : ∀ l ∈ x.kids, ∀ z ∈ l, Cov z ∧ ∀ t, Held z t → t.span.Inside x.span ∧ t ∈ v.rest ∧ t.span.hi ≤ v'.pos) :
    Bnd v x v' := by
  have held : ∀ t, Held x t → t.span.Inside x.span ∧ t ∈ v.rest ∧ t.span.hi ≤ v'.pos := by
    intro t ht
    rcases ht.cases' with rfl | ⟨l, hl, z, hz, ht⟩
    · exact absurd rfl (hx t)
    · exact (hk l hl z hz).2 t ht
  refine ⟨ha, h1, h2, h3, ?_, fun t ht => (held t ht).2⟩
  intro y hy t ht
  rcases hy.cases' with rfl | ⟨l, hl, z, hz, hy⟩
  · exact (held t ht).1
  · exact (hk l hl z hz).1 y hy t ht

theorem bnd_leaf {v v' : View n} {x : Tree n} {p : Nat} (ha : Adv v v') (hx : x.span = ⟨p, p⟩)
    (hk : ∀ l ∈ x.kids, l = []) (ht : ∀ t, x ≠ .tok t) (h1 : v.pos ≤ p) (h2 : ∀ t ∈ v'.rest, p ≤ t.span.lo) :
    Bnd v x v' := by
  refine bnd_node ha (by rw [hx]; exact h1) (by rw [hx]; exact h1) (by rw [hx]; exact h2) ht ?_
  intro l hl z hz
  rw [hk l hl] at hz; cases hz

theorem bnd_wrap {v v' : View n} {x y : Tree n} (h : Bnd v x v') (hs : y.span = x.span)
    (hk : y.kids = [] ∨ y.kids = [[]] ∨ y.kids = [[x]]) (ht : ∀ t, y ≠ .tok t) : Bnd v y v' := by
  refine bnd_node h.adv (by rw [hs]; exact h.lo) (by rw [hs]; exact h.hi) (by rw [hs]; exact h.next) ht ?_
  intro l hl z hz
  rcases hk with hk | hk | hk <;> rw [hk] at hl
  · cases hl
  · rw [List.mem_singleton.1 hl] at hz; cases hz
  · rw [List.mem_singleton.1 hl] at hz
    rw [List.mem_singleton.1 hz, hs]
    exact ⟨h.cov, fun t ht => ⟨h.inside ht, h.held t ht⟩⟩

/-- Trees one after the other. -/
inductive Row : View n → List (Tree n) → View n → Prop
  | nil {v v'} : Adv v v' → Row v [] v'
  | cons {v v1 v' x l} : Bnd v x v1 → Row v1 l v' → Row v (x :: l) v'

theorem Row.adv {v v' : View n} {l : List (Tree n)} (h : Row v l v') : Adv v v' := by
  induction h with
  | nil h => exact h
  | cons h _ ih => exact h.adv.trans ih

theorem Row.before {source : Str} {v0 v v' : View n} {l : List (Tree n)} (hs : Ready source v0) (h0 : Adv v0 v)
    (h : Row v l v') : Row v0 l v' := by
  cases h with
  | nil h => exact .nil (h0.trans h)
  | cons h h' => exact .cons (h.weaken hs h0 (.refl _)) h'

theorem Row.after {v v1 v' : View n} {l : List (Tree n)} (h : Row v l v1) (ha : Adv v1 v') : Row v l v' := by
  induction h with
  | nil h => exact .nil (h.trans ha)
  | cons h _ ih => exact .cons h (ih ha)

theorem Row.append {source : Str} {v v1 v' : View n} {l l' : List (Tree n)} (h : Row v l v1) (h' : Row v1 l' v') :
    Ready source v → Row v (l ++ l') v' := by
  induction h with
  | nil h => intro hs; exact h'.before hs h
  | cons h _ ih => intro hs; exact .cons h (ih h' (hs.adv h.adv))

theorem Bnd.one {v v' : View n} {x : Tree n} (h : Bnd v x v') : Row v [x] v' := .cons h (.nil (.refl _))

theorem Row.mem {source : Str} {v v' : View n} {l : List (Tree n)} (h : Row v l v') : Ready source v →
    ∀ z ∈ l, Bnd v z v' := by
  induction h with
  | nil => intro _ z hz; cases hz
  | cons h h' ih =>
    intro hs z hz
    rcases List.mem_cons.1 hz with rfl | hz
    · exact h.weaken hs (.refl _) h'.adv
    · exact (ih (hs.adv h.adv) z hz).weaken hs h.adv (.refl _)

/-- The end of the last of the trees. -/
def lastHi (l : List (Tree n)) (d : Nat) : Nat := (l.getLast?.map (·.span.hi)).getD d

theorem lastHi_cons (x : Tree n) (l : List (Tree n)) (d : Nat) : lastHi (x :: l) d = lastHi l x.span.hi := by
  unfold lastHi
  rw [List.getLast?_cons]
  cases l.getLast? <;> rfl

theorem Row.last {source : Str} {v v' : View n} {l : List (Tree n)} (h : Row v l v') : Ready source v →
    (∀ d, v.pos ≤ d → v.pos ≤ lastHi l d) ∧ ∀ z ∈ l, ∀ t, Held z t → ∀ d, t.span.hi ≤ lastHi l d := by
  induction h with
  | nil => intro _; exact ⟨fun d hd => hd, fun z hz => by cases hz⟩
  | @cons v v1 v' x l h h' ih =>
    intro hs
    obtain ⟨i1, i2⟩ := ih (hs.adv h.adv)
    have hp := hs.pos_le h.adv
    refine ⟨fun d _ => ?_, fun z hz t ht d => ?_⟩
    · rw [lastHi_cons]
      cases l with
      | nil => exact h.hi
      | cons y l =>
        rw [lastHi_cons]
        have := i1 v1.pos (Nat.le_refl _)
        rw [lastHi_cons] at this
        omega
    · rw [lastHi_cons]
      rcases List.mem_cons.1 hz with rfl | hz
      · cases l with
        | nil => exact (h.inside ht).2
        | cons y l =>
          have h1 := (h.held t ht).2
          have h2 := i1 v1.pos (Nat.le_refl _)
          rw [lastHi_cons] at h2 ⊢
          omega
      · exact i2 z hz t ht _

theorem Row.first {source : Str} {v v' : View n} {x : Tree n} {l : List (Tree n)} (h : Row v (x :: l) v')
    (hs : Ready source v) : (∀ t ∈ v'.rest, x.span.lo ≤ t.span.lo) ∧
      ∀ z ∈ x :: l, ∀ t, Held z t → x.span.lo ≤ t.span.lo := by
  cases h with
  | cons h h' =>
    refine ⟨fun t ht => h.next t (h'.adv.rest_mem ht), fun z hz t ht => ?_⟩
    rcases List.mem_cons.1 hz with rfl | hz
    · exact (h.inside ht).1
    · exact h.next t ((h'.mem (hs.adv h.adv) z hz).held t ht).1

theorem Row.node {source : Str} {v v' : View n} {l : List (Tree n)} (h : Row v l v') (hs : Ready source v) (hl : l ≠ [])
    {x : Tree n} (hx : x.span = spanOf l) (hk : x.kids = [l]) (ht : ∀ t, x ≠ .tok t) : Bnd v x v' := by
  cases l with
  | nil => exact absurd rfl hl
  | cons y l =>
    rw [← spanOf_last] at hx
    have hlast : ∀ d, lastHi (y :: l) d = x.span.hi := by
      intro d; rw [hx, lastHi_cons]; rfl
    obtain ⟨f1, f2⟩ := h.first hs
    obtain ⟨l1, l2⟩ := h.last hs
    have hy := h.mem hs y (.head _)
    refine bnd_node h.adv (by rw [hx]; exact hy.lo) ?_ (by rw [hx]; exact f1) ht ?_
    · rw [← hlast v.pos]; exact l1 _ (Nat.le_refl _)
    · intro l' hl' z hz
      rw [hk] at hl'
      rw [List.mem_singleton.1 hl'] at hz
      have hb := h.mem hs z hz
      refine ⟨hb.cov, fun t ht => ⟨⟨?_, ?_⟩, hb.held t ht⟩⟩
      · rw [hx]; exact f2 z hz t ht
      · rw [← hlast 0]; exact l2 z hz t ht 0

/-- The head of a `Recover` as a node. -/
def RHead.tree (h : RHead n) : Tree n :=
  match h.head with
  | some x => .optSome h.span x
  | none => .optNone h.span

def JBnd : Judg m n → Prop
  | .ty _ v r v' => ∀ x e, r.Gives x e → Bnd v x v'
  | .seq ts v acc _ (.ok (l, _)) v' => ∃ new, l = acc ++ new ∧ new.length = ts.length ∧ Row v new v'
  | .seq _ _ _ _ (.error _) _ => True
  | .iter _ v acc _ hi acc' _ hi' v' => ∃ new, acc' = acc ++ new ∧ Row v new v' ∧ hi' = lastHi new hi
  | .loop _ v out _ out' _ v' => ∃ new, out' = out ++ new ∧ Row v new v'
  | .inner _ q v a _ _ a' v' => (∃ x, a'.elems = a.elems ++ [x] ∧ a'.puncts = a.puncts ++ [q] ∧ Bnd v x v') ∨
      (a'.elems = a.elems ∧ a'.puncts = a.puncts)
  | .outer _ _ v a a' v' => ∃ es ps, a'.elems = a.elems ++ es ∧ a'.puncts = a.puncts ++ ps ∧
      Row v es v' ∧ Row v ps v' ∧ ∀ q ∈ ps, ∀ t, Held q t → ∀ d, t.span.hi ≤ lastHi es d
  | .pinner _ v a _ _ a' v' => ∃ es, a'.elems = a.elems ++ es ∧ a'.puncts = a.puncts ∧ Row v es v'
  | .pouter _ _ v a a' v' => ∃ es ps, a'.elems = a.elems ++ es ∧ a'.puncts = a.puncts ++ ps ∧
      Row v es v' ∧ Row v ps v'
  | .head _ v h v' => Bnd v h.tree v'
  | .tail _ v _ _ x _ _ v' => ∀ y, x = some y → Bnd v y v'

theorem Row.two {source : Str} {v v' : View n} {x : Tree n} {es ps : List (Tree n)} {hi : Nat} (hs : Ready source v)
    (he : Row v (x :: es) v') (hp : ∀ q ∈ ps, Bnd v q v') (hlo : ∀ q ∈ ps, ∀ t, Held q t → x.span.lo ≤ t.span.lo)
    (h1 : lastHi (x :: es) 0 ≤ hi) (h2 : ∀ q ∈ ps, ∀ t, Held q t → t.span.hi ≤ hi) :
    Bnd v (.split ⟨x.span.lo, hi⟩ (x :: es) ps) v' := by
  obtain ⟨f1, f2⟩ := he.first hs
  obtain ⟨l1, l2⟩ := he.last hs
  have hlast : ∀ d, lastHi (x :: es) d = lastHi (x :: es) 0 := by intro d; rw [lastHi_cons, lastHi_cons]
  refine bnd_node he.adv (he.mem hs x (.head _)).lo ?_ f1 (by intro t h; cases h) ?_
  · have := l1 _ (Nat.le_refl _)
    rw [hlast] at this
    exact Nat.le_trans this h1
  · intro l hl z hz
    simp only [Tree.kids, List.mem_cons, List.not_mem_nil, or_false] at hl
    rcases hl with rfl | rfl
    · have hb := he.mem hs z hz
      exact ⟨hb.cov, fun t ht => ⟨⟨f2 z hz t ht, Nat.le_trans (l2 z hz t ht 0) h1⟩, hb.held t ht⟩⟩
    · have hb := hp z hz
      exact ⟨hb.cov, fun t ht => ⟨⟨hlo z hz t ht, h2 z hz t ht⟩, hb.held t ht⟩⟩

theorem bnd_star {v v' : View n} {x : Tree n} (h : Bnd v x v') : Bnd v (mkStar x.span (some x)) v' := by
  unfold mkStar
  cases x
  case list => exact h
  all_goals exact bnd_wrap h rfl (.inr (.inl rfl)) (by intro t h; cases h)

theorem RunX.bnd {source : Str} {j : Judg m n} (h : Run S j) : Ready source j.pre → JBnd j := by
  induction h with
  | @tok i k v t l hr _ _ =>
    intro hv x e hg
    cases hg
    have hv : Ready source v := hv
    obtain ⟨h1, h2, h3⟩ := hv.sorted.head hr
    have hrest : v.skip.rest = l := by simp [View.skip, View.consume, hr]
    have hheld : ∀ y t', (Tree.tok t).Node y → Held y t' → y = .tok t ∧ t' = t := by
      intro y t' hy ht
      rcases hy.cases' with rfl | ⟨l, hl, _⟩
      · rcases ht.cases' with h | ⟨l, hl, _⟩
        · cases h; exact ⟨rfl, rfl⟩
        · cases hl
      · cases hl
    refine ⟨.skip v, h1, by show v.pos ≤ t.span.hi; omega, ?_, ?_, ?_⟩
    · intro t' ht'
      have := (hv.adv (Adv.skip v)).rest_ge ht'
      show t.span.lo ≤ _
      omega
    · intro y hy t' ht
      obtain ⟨rfl, rfl⟩ := hheld y t' hy ht
      exact ⟨Nat.le_refl _, Nat.le_refl _⟩
    · intro t' ht
      obtain ⟨-, rfl⟩ := hheld _ t' .refl ht
      exact ⟨by rw [hr]; exact .head _, by rw [h3]; exact Nat.le_refl _⟩
  | @tokRecovered i k v lit sp s _ hsp =>
    intro hv x e hg
    cases hg
    have hno : ∀ y t', (Tree.tok (⟨sp, k.ty⟩ : Token n)).Node y → ¬ Held y t' := by
      intro y t' hy ht
      have h0 : sp.lo = sp.hi := by rcases hsp with rfl | ⟨_, rfl⟩ <;> rfl
      rcases hy.cases' with rfl | ⟨l, hl, _⟩
      · rcases ht.cases' with h | ⟨l, hl, _⟩
        · cases h
          have := ht.2
          simp only at this
          omega
        · cases hl
      · cases hl
    have h1 : v.pos ≤ sp.lo ∧ v.pos ≤ sp.hi ∧ ∀ t ∈ v.rest, sp.lo ≤ t.span.lo := by
      rcases hsp with rfl | ⟨hr, rfl⟩
      · exact ⟨Nat.le_refl _, Nat.le_refl _, fun t ht => hv.rest_ge ht⟩
      · have h2 := Ready.pos_cur hv
        have h3 : (Judg.ty (.term i k) v (.recovered (.tok ⟨⟨v.source.length, v.source.length⟩, k.ty⟩)
          [⟨v.cur, .expecting s⟩]) v : Judg m n).pre = v := rfl
        rw [h3] at h2
        have h4 : v.cur.lo = v.source.length := by simp [View.cur, hr]
        rw [h4] at h2
        exact ⟨h2, h2, by rw [hr]; intro t ht; cases ht⟩
    exact ⟨.refl _, h1.1, h1.2.1, h1.2.2, fun y hy t ht => absurd ht (hno y t hy), fun t ht => absurd ht (hno _ t .refl)⟩
  | tokPanic => intro _ x e hg; cases hg
  | seqNil => intro hv; exact ⟨[], by simp, rfl, .nil (.refl _)⟩
  | @seqGive t ts v acc errs r x e v1 res v' h1 hg h2 i1 i2 =>
    intro hv
    have i1 := i1 hv x e hg
    have i2 := i2 (hv.adv h1.adv)
    match res with
    | .ok (l, _) =>
      obtain ⟨new, h3, h4, h5⟩ := i2
      exact ⟨x :: new, by simp [h3], by simp [h4], .cons i1 h5⟩
    | .error _ => trivial
  | seqPanic => intro _; trivial
  | @struct k f fs v l errs v1 _ h1 i1 =>
    intro hv x e hg
    obtain ⟨new, h3, h4, h5⟩ := i1 hv
    have hl : l = new := by simpa using h3
    subst hl
    rw [ofPair_gives hg]
    have hne : l ≠ [] := by rintro rfl; simp at h4
    exact (h5.node hv hne (x := .seq (spanOf l) l) rfl rfl (by intro t h; cases h)).weaken hv (.refl _) (.applyAll _ _)
  | structPanic => intro _ x e hg; cases hg
  | @tuple t ts v l errs v1 ht h1 i1 =>
    intro hv x e hg
    obtain ⟨new, h3, h4, h5⟩ := i1 hv
    have hl : l = new := by simpa using h3
    subst hl
    rw [ofPair_gives hg]
    have hne : l ≠ [] := by rintro rfl; cases ht <;> simp at h4
    exact h5.node hv hne (x := .seq (spanOf l) l) rfl rfl (by intro t h; cases h)
  | tuplePanic => intro _ x e hg; cases hg
  | enumSuccess _ _ h1 i1 =>
    intro hv x e hg
    cases hg
    exact (bnd_wrap (y := .variant _ _) (i1 hv _ _ (.success _)) rfl (.inr (.inr rfl)) (by intro t h; cases h)).weaken hv
      (.refl _) (.applyAll _ _)
  | enumRecovered _ _ h1 i1 =>
    intro hv x e hg
    cases hg
    exact (bnd_wrap (y := .variant _ _) (i1 hv _ _ (.recovered _ _)) rfl (.inr (.inr rfl)) (by intro t h; cases h)).weaken
      hv (.refl _) (.applyAll _ _)
  | enumPanic => intro _ x e hg; cases hg
  | enumNone => intro _ x e hg; cases hg
  | box _ i => exact i
  | @optNone t' t mk v ho =>
    intro hv x e hg
    cases hg
    have hn : ∀ t ∈ v.rest, v.pos ≤ t.span.lo := fun t ht => hv.rest_ge ht
    cases ho
    · exact bnd_leaf (.refl _) rfl (by intro l hl; cases hl) (by intro t h; cases h) (Nat.le_refl _) hn
    · exact bnd_leaf (.refl _) rfl (by intro l hl; cases hl) (by intro t h; cases h) (Nat.le_refl _) hn
    · exact bnd_leaf (.refl _) rfl (by simp [Tree.kids, mkStar]) (by intro t h; cases h) (Nat.le_refl _) hn
  | @optSuccess t' t mk v x v1 ho h1 i1 =>
    intro hv y e hg
    have := i1 hv _ _ (.success _)
    cases hg
    cases ho
    · exact bnd_wrap this rfl (.inr (.inr rfl)) (by intro t h; cases h)
    · exact bnd_wrap this rfl (.inl rfl) (by intro t h; cases h)
    · exact bnd_star this
  | @optRecovered t' t mk v x e v1 ho h1 i1 =>
    intro hv y e' hg
    have := i1 hv _ _ (.recovered _ _)
    cases hg
    cases ho
    · exact bnd_wrap this rfl (.inr (.inr rfl)) (by intro t h; cases h)
    · exact bnd_wrap this rfl (.inl rfl) (by intro t h; cases h)
    · exact bnd_star this
  | @optPanic t' t mk v e v1 ho h1 i1 =>
    intro hv y e' hg
    have hle := hv.pos_le h1.adv
    have hn : ∀ t ∈ v1.rest, v1.pos ≤ t.span.lo := fun t ht => (hv.adv h1.adv).rest_ge ht
    cases hg
    cases ho
    · exact bnd_leaf h1.adv rfl (by intro l hl; cases hl) (by intro t h; cases h) hle hn
    · exact bnd_leaf h1.adv rfl (by intro l hl; cases hl) (by intro t h; cases h) hle hn
    · exact bnd_leaf h1.adv rfl (by simp [Tree.kids, mkStar]) (by intro t h; cases h) hle hn
  | textSuccess _ _ _ i1 =>
    intro hv y e hg
    cases hg
    exact bnd_wrap (i1 hv _ _ (.success _)) rfl (.inl rfl) (by intro t h; cases h)
  | textRecovered _ _ _ i1 =>
    intro hv y e hg
    cases hg
    exact bnd_wrap (i1 hv _ _ (.recovered _ _)) rfl (.inl rfl) (by intro t h; cases h)
  | textPanic => intro _ x e hg; cases hg
  | @plus t v r x e v1 l errs hi v' h1 hg h2 i1 i2 =>
    intro hv y e' hy
    rw [ofPair_gives hy]
    obtain ⟨new, h3, h4, h5⟩ := i2 (hv.adv h1.adv)
    have h3' : l = x :: new := h3
    subst h3'
    refine (Row.cons (i1 hv x e hg) h4).node hv (by simp) ?_ rfl (by intro t h; cases h)
    rw [← spanOf_last, h5]; rfl
  | plusPanic => intro _ x e hg; cases hg
  | iterStop => intro hv; exact ⟨[], by simp, .nil (.refl _), rfl⟩
  | @iterGive t v acc errs hi r x e v1 acc' errs' hi' v' _ h1 hg h2 i1 i2 =>
    intro hv
    obtain ⟨new, h3, h4, h5⟩ := i2 (hv.adv h1.adv)
    exact ⟨x :: new, by simp [h3], .cons (i1 hv x e hg) h4, by rw [h5, lastHi_cons]⟩
  | iterPanic h1 _ => intro hv; exact ⟨[], by simp, .nil h1.adv, rfl⟩
  | @loopEmpty t v errs v' h1 _ =>
    intro hv y e' hy
    rw [ofPair_gives hy]
    exact bnd_leaf h1.adv rfl (by simp [Tree.kids]) (by intro t h; cases h) (hv.pos_le h1.adv)
      fun t ht => (hv.adv h1.adv).rest_ge ht
  | @loopList t v out errs v' h1 ho i1 =>
    intro hv y e' hy
    rw [ofPair_gives hy]
    obtain ⟨new, h3, h4⟩ := i1 hv
    have hl : out = new := by simpa using h3
    subst hl
    exact h4.node hv ho (x := .list (spanOf out) out) rfl rfl (by intro t h; cases h)
  | loopStop => intro hv; exact ⟨[], by simp, .nil (.refl _)⟩
  | loopSkip hsk _ i1 =>
    intro hv
    obtain ⟨new, h3, h4⟩ := i1 (hv.adv hsk.adv)
    exact ⟨new, h3, h4.before hv hsk.adv⟩
  | @loopGive t v out errs r x e v1 out' errs' v' h1 hg h2 i1 i2 =>
    intro hv
    obtain ⟨new, h3, h4⟩ := i2 (hv.adv h1.adv)
    exact ⟨x :: new, by simp [h3], .cons (i1 hv x e hg) h4⟩
  | loopPanic h1 _ _ i2 =>
    intro hv
    obtain ⟨new, h3, h4⟩ := i2 (hv.adv h1.adv)
    exact ⟨new, h3, h4.before hv h1.adv⟩
  | loopGiveStuck _ hg i1 => intro hv; exact ⟨[_], rfl, (i1 hv _ _ hg).one⟩
  | loopPanicStuck h1 _ => intro hv; exact ⟨[], by simp, .nil h1.adv⟩
  | @split t p v r x e v1 a v' h1 hg h2 i1 i2 =>
    intro hv y e' hy
    rw [ofPair_gives hy]
    have b := i1 hv x e hg
    have hv1 := hv.adv h1.adv
    obtain ⟨es, ps, h3, h4, h5, h6, h7⟩ := i2 hv1
    have h3' : a.elems = x :: es := h3
    have h4' : a.puncts = ps := by simpa using h4
    rw [h3', h4']
    have e1 : lastHi (x :: es) x.span.lo = lastHi (x :: es) 0 := by rw [lastHi_cons, lastHi_cons]
    refine Row.two hv (.cons b h5) (fun q hq => (h6.mem hv1 q hq).weaken hv h1.adv (.refl _)) (fun q hq t ht => ?_)
      (Nat.le_of_eq e1.symm) (fun q hq t ht => ?_)
    · exact b.next t ((h6.mem hv1 q hq).held t ht).1
    · show _ ≤ lastHi (x :: es) x.span.lo
      rw [lastHi_cons]; exact h7 q hq t ht _
  | splitPanic => intro _ x e hg; cases hg
  | outerStop => intro hv; exact ⟨[], [], by simp, by simp, .nil (.refl _), .nil (.refl _), by simp⟩
  | outerPanic h1 _ => intro hv; exact ⟨[], [], by simp, by simp, .nil h1.adv, .nil h1.adv, by simp⟩
  | @outerGo t p v a r q e v1 a1 v2 a' v' _ h1 hg h2 h3 i1 i2 i3 =>
    intro hv
    have b := i1 hv q e hg
    have hv1 := hv.adv h1.adv
    have hv2 := hv1.adv (RunX.adv h2)
    obtain ⟨es, ps, k1, k2, k3, k4, k5⟩ := i3 hv2
    rcases i2 hv1 with ⟨x, h4, h5, h6⟩ | ⟨h4, h5⟩
    · have hr : Row v1 (x :: es) v' := .cons h6 k3
      refine ⟨x :: es, q :: ps, by rw [k1, h4]; simp, by rw [k2, h5]; simp, hr.before hv h1.adv,
        .cons b (k4.before hv1 h2.adv), ?_⟩
      intro q' hq' t ht d
      rcases List.mem_cons.1 hq' with rfl | hq'
      · have g1 := (b.held t ht).2
        have g2 := (hr.last hv1).1 v1.pos (Nat.le_refl _)
        rw [lastHi_cons] at g2 ⊢
        omega
      · rw [lastHi_cons]; exact k5 q' hq' t ht _
    · have ha := h1.adv.trans h2.adv
      exact ⟨es, ps, by rw [k1, h4], by rw [k2, h5], k3.before hv ha, k4.before hv ha, k5⟩
  | @outerBreak t p v a r q e v1 a1 v2 _ h1 hg h2 i1 i2 =>
    intro hv
    have b := i1 hv q e hg
    have hv1 := hv.adv h1.adv
    rcases i2 hv1 with ⟨x, h4, h5, h6⟩ | ⟨h4, h5⟩
    · refine ⟨[x], [q], h4, h5, h6.one.before hv h1.adv, .cons b (.nil h2.adv), ?_⟩
      intro q' hq' t ht d
      rw [List.mem_singleton.1 hq'] at ht
      have g1 := (b.held t ht).2
      have g2 := h6.hi
      show _ ≤ x.span.hi
      omega
    · have ha := h1.adv.trans h2.adv
      exact ⟨[], [], by simpa using h4, by simpa using h5, .nil ha, .nil ha, by simp⟩
  | innerGive _ hg i1 => intro hv; exact .inl ⟨_, rfl, rfl, i1 hv _ _ hg⟩
  | innerFailLeave => intro hv; exact .inr ⟨rfl, rfl⟩
  | @innerFailGo t q v a panic e v1 go a' v' h1 h2 i1 i2 =>
    intro hv
    have ha : Adv v v1.skip := h1.adv.trans (.skip _)
    rcases i2 (hv.adv ha) with ⟨x, h4, h5, h6⟩ | h
    · exact .inl ⟨x, h4, h5, h6.weaken hv ha (.refl _)⟩
    · exact .inr h
  | innerNoteLeave => intro hv; exact .inr ⟨rfl, rfl⟩
  | @innerNoteGo t q v a panic panic1 go a' v' _ h2 i2 =>
    intro hv
    rcases i2 (hv.adv (.skip _)) with ⟨x, h4, h5, h6⟩ | h
    · exact .inl ⟨x, h4, h5, h6.weaken hv (.skip _) (.refl _)⟩
    · exact .inr h
  | @punct t p v r x e v1 a v' h1 hg h2 i1 i2 =>
    intro hv y e' hy
    rw [ofPair_gives hy]
    have b := i1 hv x e hg
    have hv1 := hv.adv h1.adv
    obtain ⟨es, ps, h3, h4, h5, h6⟩ := i2 hv1
    have h3' : a.elems = x :: es := h3
    have h4' : a.puncts = ps := by simpa using h4
    rw [h3', h4']
    have e1 : lastHi (x :: es) 0 = lastHi (x :: es) x.span.lo := by rw [lastHi_cons, lastHi_cons]
    refine Row.two hv (.cons b h5) (fun q hq => (h6.mem hv1 q hq).weaken hv h1.adv (.refl _)) (fun q hq t ht => ?_)
      (Nat.le_trans (Nat.le_of_eq e1) (Nat.le_max_left _ _)) (fun q hq t ht => ?_)
    · exact b.next t ((h6.mem hv1 q hq).held t ht).1
    · exact Nat.le_trans ((h6.last hv1).2 q hq t ht x.span.lo) (Nat.le_max_right _ _)
  | punctPanic => intro _ x e hg; cases hg
  | pouterStop => intro hv; exact ⟨[], [], by simp, by simp, .nil (.refl _), .nil (.refl _)⟩
  | pouterPanic h1 _ => intro hv; exact ⟨[], [], by simp, by simp, .nil h1.adv, .nil h1.adv⟩
  | @pouterGo t p v a r q e v1 a1 v2 a' v' _ h1 hg h2 h3 i1 i2 i3 =>
    intro hv
    have b := i1 hv q e hg
    have hv1 := hv.adv h1.adv
    obtain ⟨es, ps, k1, k2, k3, k4⟩ := i3 (hv1.adv (RunX.adv h2))
    obtain ⟨es1, g1, g2, g3⟩ := i2 hv1
    exact ⟨es1 ++ es, q :: ps, by rw [k1, g1]; simp, by rw [k2, g2]; simp,
      (g3.append k3 hv1).before hv h1.adv, .cons b (k4.before hv1 h2.adv)⟩
  | @pouterBreak t p v a r q e v1 a1 v2 _ h1 hg h2 i1 i2 =>
    intro hv
    have b := i1 hv q e hg
    obtain ⟨es1, g1, g2, g3⟩ := i2 (hv.adv h1.adv)
    exact ⟨es1, [q], by rw [g1], by rw [g2], g3.before hv h1.adv, .cons b (.nil h2.adv)⟩
  | pinnerGive _ hg i1 => intro hv; exact ⟨[_], rfl, rfl, (i1 hv _ _ hg).one⟩
  | pinnerStop => intro hv; exact ⟨[], by simp, rfl, .nil (.refl _)⟩
  | pinnerFailLeave h1 _ => intro hv; exact ⟨[], by simp, rfl, .nil h1.adv⟩
  | @pinnerFailGo t v a panic e v1 go a' v' h1 h2 i1 i2 =>
    intro hv
    have ha : Adv v v1.skip := h1.adv.trans (.skip _)
    obtain ⟨es, g1, g2, g3⟩ := i2 (hv.adv ha)
    exact ⟨es, g1, g2, g3.before hv ha⟩
  | pinnerNoteLeave => intro hv; exact ⟨[], by simp, rfl, .nil (.refl _)⟩
  | @pinnerNoteGo t v a panic panic1 go a' v' _ h2 i2 =>
    intro hv
    obtain ⟨es, g1, g2, g3⟩ := i2 (hv.adv (.skip _))
    exact ⟨es, g1, g2, g3.before hv (.skip _)⟩
  | @recover t r v h v1 x errs panic v' h1 h2 i1 i2 =>
    intro hv y e' hy
    rw [ofPair_gives hy]
    have hr : Row v [h.tree, x] v' := .cons (i1 hv) (i2 (hv.adv h1.adv) x rfl).one
    refine hr.node hv (by simp) ?_ ?_ ?_
    · unfold mkRecover RHead.tree
      cases h.head <;> rfl
    · unfold mkRecover RHead.tree
      cases h.head <;> rfl
    · unfold mkRecover
      cases h.head <;> (intro t h; cases h)
  | recoverPanic => intro _ x e hg; cases hg
  | headGive _ hg i1 =>
    intro hv
    exact bnd_wrap (i1 hv _ _ hg) rfl (.inr (.inr rfl)) (by intro t h; cases h)
  | @headPanic t v e v1 h1 _ =>
    intro hv
    exact bnd_leaf h1.adv rfl (by simp [Tree.kids, RHead.tree]) (by intro t h; cases h) (hv.pos_le h1.adv)
      fun t ht => (hv.adv h1.adv).rest_ge ht
  | headNone =>
    intro hv
    exact bnd_leaf (.refl _) rfl (by simp [Tree.kids, RHead.tree]) (by intro t h; cases h) (Nat.le_refl _)
      fun t ht => hv.rest_ge ht
  | tailGive _ hg i1 => intro hv y hy; cases hy; exact i1 hv _ _ hg
  | tailPanic => intro hv y hy; cases hy
  | tailNote h => cases h
  | tailStop => intro hv y hy; cases hy
  | @tailFail t v errs panic e v1 panic1 x errs' panic' v' _ h1 _ h2 i1 i2 =>
    intro hv y hy
    have ha : Adv v v1.skip := h1.adv.trans (.skip _)
    exact (i2 (hv.adv ha) y hy).weaken hv ha (.refl _)
  | tailSkip _ _ _ i2 =>
    intro hv y hy
    exact (i2 (hv.adv (.skip _)) y hy).weaken hv (.skip _) (.refl _)

/-! ### Looking up the span of a node in the store -/

theorem inside_node {source : Str} {pos : Nat} {t : Ty m n} {c pre post w : List (Cell n)} {y : Tree n}
    (h : Parses S source pos t c y) (hw : SortedStore w) (hpos : endOf 0 pre = pos)
    (he : w.map (·.token) = (pre ++ c ++ post).map (·.token)) :
    ∃ d, TokenVec.inside? w y.span = some d ∧ d.map (·.token) = c.map (·.token) := by
  have ha : After 0 (pre ++ c ++ post) := After.congr ⟨hw, fun _ _ => Nat.zero_le _⟩ he
  have hc : After pos c := by rw [← hpos]; exact ha.left.right
  have hp : After (endOf pos c) post := by
    have := ha.right; rw [endOf_append, hpos] at this; exact this
  obtain ⟨b1, -, b2⟩ := h.between hc
  refine ⟨_, C10_inside hw _, ?_⟩
  have hf : ∀ l : List (Cell n), (l.filter fun c => decide (c.token.span.Inside y.span)).map (·.token) =
      (l.map (·.token)).filter fun a => decide (a.span.Inside y.span) := by
    intro l; rw [List.filter_map]; rfl
  have none : ∀ l : List (Cell n), (∀ d ∈ l, ¬ d.token.span.Inside y.span) →
      l.filter (fun c => decide (c.token.span.Inside y.span)) = [] := by
    intro l hl
    rw [List.filter_eq_nil_iff]
    intro d hd; simpa using hl d hd
  rw [hf, he, ← hf, List.filter_append, List.filter_append, none pre, none post, List.nil_append, List.append_nil,
    List.filter_eq_self.2]
  · intro d hd
    simpa using h.covers hc _ (List.mem_map_of_mem hd)
  · intro d hd hi
    have h1 := hp.ge d hd
    have h2 := hp.sorted.1 _ (List.mem_map_of_mem hd)
    have := hi.2
    omega
  · intro d hd hi
    have h1 := ha.left.left.mem_le hd
    have h2 := ha.left.left.sorted.1 _ (List.mem_map_of_mem hd)
    have := hi.1
    omega

end Teleparse
