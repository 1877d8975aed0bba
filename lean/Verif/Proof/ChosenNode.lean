import Verif.Proof.ChosenCut
/-
The nodes of the tree of a predictive match are trees of predictive matches.
-/
namespace Teleparse
variable {m n : Nat}

section
variable {S : Schema m n} {md : Metadata (PId m n) n} {source : Str}

/-- Some of the cells are a predictive match of a type in `P` whose tree is the node `y` of `x`. -/
def HasPick (S : Schema m n) (md : Metadata (PId m n) n) (source : Str) (P : Ty m n → Prop) (pos : Nat)
    (c : List (Cell n)) (x y : Tree n) : Prop :=
  ∃ (a c' d : List (Cell n)) (u : Ty m n) (z : Tree n) (next : Option (TokenSrc n)),
    c.map (·.token) = (a ++ c' ++ d).map (·.token) ∧ Chosen S md source (.ty (endOf pos a) u c' z next) ∧ P u ∧
      Bare x y z

theorem Bare.up {x w y z : Tree n} (h : Bare w y z) (hx : x.Node w) : Bare x y z :=
  h.imp id fun ⟨v, h1, h2⟩ => ⟨v, hx.trans h1, h2⟩

theorem HasPick.mono {P Q : Ty m n → Prop} {pos c} {x w y : Tree n} (h : HasPick S md source P pos c w y)
    (hpq : ∀ u, P u → Q u) (hx : x.Node w) : HasPick S md source Q pos c x y := by
  obtain ⟨a, c', d, u, z, next, h1, h2, h3, h4⟩ := h
  exact ⟨a, c', d, u, z, next, h1, h2, hpq u h3, h4.up hx⟩

theorem HasPick.congr {P : Ty m n → Prop} {pos} {c c2 : List (Cell n)} {x y : Tree n}
    (h : HasPick S md source P pos c x y) (hc : c2.map (·.token) = c.map (·.token)) : HasPick S md source P pos c2 x y := by
  obtain ⟨a, c', d, u, z, next, h1, h2⟩ := h
  exact ⟨a, c', d, u, z, next, hc.trans h1, h2⟩

theorem HasPick.left {P : Ty m n → Prop} {pos} {c e : List (Cell n)} {x y : Tree n}
    (h : HasPick S md source P pos c x y) : HasPick S md source P pos (c ++ e) x y := by
  obtain ⟨a, c', d, u, z, next, h1, h2⟩ := h
  exact ⟨a, c', d ++ e, u, z, next, by rw [List.map_append, h1]; simp, h2⟩

theorem HasPick.right {P : Ty m n → Prop} {pos} {c e : List (Cell n)} {x y : Tree n}
    (h : HasPick S md source P (endOf pos c) e x y) : HasPick S md source P pos (c ++ e) x y := by
  obtain ⟨a, c', d, u, z, next, h1, h2⟩ := h
  exact ⟨c ++ a, c', d, u, z, next, by rw [List.map_append, h1]; simp, by rw [endOf_append]; exact h2⟩

theorem Chosen.here {pos : Nat} {t : Ty m n} {c : List (Cell n)} {x : Tree n} {next}
    (h : Chosen S md source (.ty pos t c x next)) {P : Ty m n → Prop} (hp : P t) : HasPick S md source P pos c x x :=
  ⟨[], c, [], t, x, next, by simp, h, hp, .inl rfl⟩

/-- For the nodes of a list of trees. -/
def Picks (S : Schema m n) (md : Metadata (PId m n) n) (source : Str) (P : Ty m n → Prop) (pos : Nat)
    (c : List (Cell n)) (xs : List (Tree n)) : Prop :=
  ∀ z ∈ xs, ∀ y, z.Node y → HasPick S md source P pos c z y

theorem Picks.nil {P : Ty m n → Prop} {pos c} : Picks S md source P pos c [] := fun _ h => nomatch h

theorem Picks.mono {P Q : Ty m n → Prop} {pos c} {xs : List (Tree n)} (h : Picks S md source P pos c xs)
    (hpq : ∀ u, P u → Q u) : Picks S md source Q pos c xs := fun z hz y hy => (h z hz y hy).mono hpq .refl

theorem Picks.cons {P : Ty m n → Prop} {pos} {c d : List (Cell n)} {x : Tree n} {xs : List (Tree n)}
    (h1 : ∀ y, x.Node y → HasPick S md source P pos c x y) (h2 : Picks S md source P (endOf pos c) d xs) :
    Picks S md source P pos (c ++ d) (x :: xs) := by
  intro z hz y hy
  rcases List.mem_cons.1 hz with rfl | hz
  · exact (h1 y hy).left
  · exact (h2 z hz y hy).right

theorem Picks.sub {P : Ty m n → Prop} {pos c} {xs ys : List (Tree n)} (h : Picks S md source P pos c xs)
    (hs : ∀ y ∈ ys, y ∈ xs) : Picks S md source P pos c ys := fun z hz => h z (hs z hz)

def Claim.Nodes (S : Schema m n) (md : Metadata (PId m n) n) (source : Str) : Claim m n → Prop
  | .ty pos t c x _ => ∀ y, x.Node y → HasPick S md source (Reach S.tyParts t) pos c x y
  | .seq pos ts cs xs _ => Picks S md source (fun v => ∃ u ∈ ts, Reach S.tyParts u v) pos cs.flatten xs
  | .more pos t cs xs _ => Picks S md source (Reach S.tyParts t) pos cs.flatten xs
  | .loop pos t cs xs => Picks S md source (Reach S.tyParts t) pos cs.flatten xs
  | .split pos t p cs ps es _ =>
      Picks S md source (fun v => Reach S.tyParts t v ∨ Reach S.tyParts p v) pos cs.flatten (ps ++ es)
  | .punct pos t p cs ps es _ =>
      Picks S md source (fun v => Reach S.tyParts t v ∨ Reach S.tyParts p v) pos cs.flatten (ps ++ es)

/-- The tree itself and the nodes of its parts. -/
theorem Picks.node {P : Ty m n → Prop} {pos} {t : Ty m n} {c : List (Cell n)} {x : Tree n} {next} {xs : List (Tree n)}
    (h : Picks S md source P pos c xs) (hx : Chosen S md source (.ty pos t c x next))
    (hk : ∀ l ∈ x.kids, ∀ z ∈ l, z ∈ xs) (hp : ∀ u, P u → Reach S.tyParts t u) :
    ∀ y, x.Node y → HasPick S md source (Reach S.tyParts t) pos c x y := by
  intro y hy
  rcases hy.cases' with rfl | ⟨l, hl, z, hz, hy⟩
  · exact hx.here .refl
  · exact (h z (hk l hl z hz) y hy).mono hp (.part hl hz .refl)

theorem Chosen.leaf {pos : Nat} {t : Ty m n} {c : List (Cell n)} {x : Tree n} {next}
    (h : Chosen S md source (.ty pos t c x next)) (hk : ∀ l ∈ x.kids, l = []) :
    ∀ y, x.Node y → HasPick S md source (Reach S.tyParts t) pos c x y :=
  (Picks.nil (P := fun _ => False) (S := S) (md := md)).node h (fun l hl z hz => by rw [hk l hl] at hz; cases hz)
    (fun _ h => h.elim)

theorem Picks.one {P : Ty m n → Prop} {pos c} {x : Tree n} (h : ∀ y, x.Node y → HasPick S md source P pos c x y) :
    Picks S md source P pos c [x] := by
  intro z hz
  rw [List.mem_singleton.1 hz]
  exact h

/-- **Every node of the tree of a predictive match is the tree of a predictive match** of some of its tokens. -/
theorem Chosen.nodes {j : Claim m n} (h : Chosen S md source j) : j.Nodes S md source := by
  induction h with
  | term hm => exact Chosen.leaf (Chosen.term (next := none) hm) (by simp [Tree.kids])
  | @struct pos k f fs cs l next hk h ih =>
    have hs : ParsesSeq _ _ _ _ _ _ := h.holds
    have ht := addAll_tokens cs ((f :: fs).map (·.2)) (by rw [hs.lengths.1]; simp)
    refine Picks.node (fun z hz y hy => (ih z hz y hy).congr ht) (.struct hk h) (by simp [Tree.kids]) ?_
    rintro v ⟨u, hu, hv⟩
    exact .head (by rw [Schema.tyParts, hk]; exact hu) hv
  | @enum pos k f fs i t sem c x next hk hi hl h ih =>
    have ht := add_tokens sem c
    refine Picks.node (Picks.one fun y hy => (ih y hy).congr ht) (.enum hk hi hl h) (by simp [Tree.kids]) ?_
    intro v hv
    exact .head (by simp only [Schema.tyParts, hk]; exact List.mem_map.2 ⟨_, List.mem_of_getElem? hi, rfl⟩) hv
  | @tuple pos t ts cs l next ht h ih =>
    refine Picks.node ih (.tuple ht h) (by simp [Tree.kids]) ?_
    rintro v ⟨u, hu, hv⟩
    exact .head (by rw [isTuple_parts ht]; exact hu) hv
  | box h ih => exact fun y hy => (ih y hy).mono (fun v hv => .head (by simp [Schema.tyParts]) hv) .refl
  | optNone hs => exact Chosen.leaf (.optNone hs) (by simp [Tree.kids])
  | optSome hs h ih =>
    exact Picks.node (.one ih) (.optSome hs h) (by simp [Tree.kids]) fun v hv => .head (by simp [Schema.tyParts]) hv
  | existNone hs => exact Chosen.leaf (.existNone hs) (by simp [Tree.kids])
  | existSome hs h _ => exact Chosen.leaf (.existSome hs h) (by simp [Tree.kids])
  | quote h _ => exact Chosen.leaf (.quote h) (by simp [Tree.kids])
  | parse h _ => exact Chosen.leaf (.parse h) (by simp [Tree.kids])
  | plus h1 h2 ih1 ih2 =>
    exact Picks.node (.cons ih1 ih2) (.plus h1 h2) (by simp [Tree.kids]) fun v hv => .head (by simp [Schema.tyParts]) hv
  | starNone hs => exact Chosen.leaf (.starNone hs) (by simp [Tree.kids])
  | @starSome pos t c x cs xs next hs h1 h2 ih1 ih2 =>
    exact Picks.node (.cons ih1 ih2) (.starSome hs h1 h2) (by simp [Tree.kids]) fun v hv =>
      .head (b := .plus t) (by simp [Schema.tyParts]) (.head (by simp [Schema.tyParts]) hv)
  | loopNone => exact Chosen.leaf .loopNone (by simp [Tree.kids])
  | loopSome hne h ih =>
    exact Picks.node ih (.loopSome hne h) (by simp [Tree.kids]) fun v hv => .head (by simp [Schema.tyParts]) hv
  | @split pos t p c x cs ps es next h1 h2 ih1 ih2 =>
    refine Picks.node (.cons (fun y hy => (ih1 y hy).mono (fun v hv => .inl hv) .refl) ih2) (.split h1 h2) ?_ ?_
    · simp only [Tree.kids, List.mem_cons, List.not_mem_nil, or_false]
      rintro l (rfl | rfl) z hz
      · rcases List.mem_cons.1 hz with rfl | hz
        · exact .inl rfl
        · exact .inr (List.mem_append_right _ hz)
      · exact .inr (List.mem_append_left _ hz)
    · rintro v (hv | hv)
      · exact .head (by simp [Schema.tyParts]) hv
      · exact .head (b := p) (by simp [Schema.tyParts]) hv
  | @punct pos t p c x cs ps es next h1 h2 ih1 ih2 =>
    refine Picks.node (.cons (fun y hy => (ih1 y hy).mono (fun v hv => .inl hv) .refl) ih2) (.punct h1 h2) ?_ ?_
    · simp only [Tree.kids, List.mem_cons, List.not_mem_nil, or_false]
      rintro l (rfl | rfl) z hz
      · rcases List.mem_cons.1 hz with rfl | hz
        · exact .inl rfl
        · exact .inr (List.mem_append_right _ hz)
      · exact .inr (List.mem_append_left _ hz)
    · rintro v (hv | hv)
      · exact .head (by simp [Schema.tyParts]) hv
      · exact .head (b := p) (by simp [Schema.tyParts]) hv
  | @recover pos t r c x d z next hs1 h1 hs2 h2 ih1 ih2 =>
    intro y hy
    have hx := Chosen.recover hs1 h1 hs2 h2
    have pt : ∀ v, Reach S.tyParts t v → Reach S.tyParts (.recover t r) v :=
      fun v hv => .head (by simp [Schema.tyParts]) hv
    have pr : ∀ v, Reach S.tyParts r v → Reach S.tyParts (.recover t r) v :=
      fun v hv => .head (b := r) (by simp [Schema.tyParts]) hv
    have nx : (Tree.recover x.span x z).Node (.optSome x.span x) := .part (.head _) (.head _) .refl
    rcases hy.cases' with rfl | ⟨l, hk, w, hw, hy'⟩
    · exact hx.here .refl
    · rw [List.mem_singleton.1 hk] at hw
      simp only [List.mem_cons, List.not_mem_nil, or_false] at hw
      rcases hw with rfl | rfl
      · rcases hy'.cases' with rfl | ⟨l, hk, w, hw, hy⟩
        · exact HasPick.left ⟨[], c, [], t, x, _, by simp, h1, pt t .refl, .inr ⟨z, .refl, rfl⟩⟩
        · rw [List.mem_singleton.1 hk] at hw
          rw [List.mem_singleton.1 hw] at hy
          exact ((ih1 y hy).mono pt (nx.trans (.part (.head _) (.head _) .refl))).left
      · exact ((ih2 y hy').mono pr (.part (.head _) (.tail _ (.head _)) .refl)).right
  | seqNil => exact .nil
  | seqCons h1 h2 ih1 ih2 =>
    exact .cons (fun y hy => (ih1 y hy).mono (fun v hv => ⟨_, .head _, hv⟩) .refl)
      (ih2.mono fun v ⟨u, hu, hv⟩ => ⟨u, .tail _ hu, hv⟩)
  | moreStop => exact .nil
  | moreGo _ h1 h2 ih1 ih2 => exact .cons ih1 ih2
  | loopStop => exact .nil
  | loopGo _ _ h1 h2 ih1 ih2 => exact .cons ih1 ih2
  | splitStop => exact .nil
  | @splitGo pos t p c q d x cs ps es next _ h1 _ h2 h3 ih1 ih2 ih3 =>
    refine Picks.sub (.cons (fun y hy => (ih1 y hy).mono (fun v hv => .inr hv) .refl)
      (.cons (fun y hy => (ih2 y hy).mono (fun v hv => .inl hv) .refl) ih3)) ?_
    intro y hy
    simp only [List.mem_cons, List.mem_append] at hy ⊢
    rcases hy with (hy | hy) | hy | hy <;> simp [hy]
  | punctStop => exact .nil
  | @punctTrail pos t p c q next _ h1 _ _ ih1 =>
    show Picks _ _ _ _ _ ([c].flatten) ([q] ++ [])
    rw [List.flatten_cons, List.flatten_nil, List.append_nil, List.append_nil]
    exact .one fun y hy => (ih1 y hy).mono (fun v hv => .inr hv) .refl
  | @punctGo pos t p c q d x cs ps es next _ h1 _ h2 h3 ih1 ih2 ih3 =>
    refine Picks.sub (.cons (fun y hy => (ih1 y hy).mono (fun v hv => .inr hv) .refl)
      (.cons (fun y hy => (ih2 y hy).mono (fun v hv => .inl hv) .refl) ih3)) ?_
    intro y hy
    simp only [List.mem_cons, List.mem_append] at hy ⊢
    rcases hy with (hy | hy) | hy | hy <;> simp [hy]

/-- A predictive match of some of the tokens of the input is one of all tokens of the piece of the input. -/
theorem Chosen.alone {ext : Fin n → Bool} {items : List (Item n)} (hw : ItemsWF source items)
    {pre c post : List (Cell n)} (hs : streamOf ext items = (pre ++ c ++ post).map (·.token)) {t : Ty m n} {y : Tree n}
    {next} (h : Chosen S md source (.ty (endOf 0 pre) t c y next)) {items' : List (Item n)}
    (hcut : Cut y.span items items') :
    ∃ c' y', y'.up y.span.lo = y ∧ c'.map (·.token) = streamOf ext items' ∧
      Chosen S md (textOf source y.span) (.ty 0 t c' y' next) := by
  have hp : Parses S source (endOf 0 pre) t c y := h.holds
  obtain ⟨-, c₁, -, h1, -, -, h2⟩ := hp.alone hw hs hcut
  have hsort : SortedStore (pre ++ c ++ post) := by
    have := hw.sorted (ext := ext)
    rw [hs] at this
    exact this
  have ha : After 0 (pre ++ c ++ post) := ⟨hsort, fun _ _ => Nat.zero_le _⟩
  have hc : After (endOf 0 pre) c := ha.left.right
  have hf := hp.fits hc
  have hend : endOf y.span.lo c = y.span.hi := by
    by_cases hn : c = []
    · rw [hf.hi, hn]; show y.span.lo = endOf 0 pre; exact hf.nil hn
    · rw [hf.hi]; exact endOf_pos hn _ _
  have h0 : Chosen S md source (.ty y.span.lo t c y next) := by
    rcases Nat.eq_or_lt_of_le hf.ge with e | e
    · rw [← e]; exact h
    · exact h.anywhere e _
  obtain ⟨c', y', h3, h4, h5⟩ := h0.cut (lo := y.span.lo) (hi := y.span.hi) ⟨hc.sorted, hf.le⟩ (Nat.le_of_eq hend) 0
    (by omega)
  refine ⟨c', y', h4, ?_, h5⟩
  rw [← h2]
  refine map_inj (f := Token.up y.span.lo) (fun _ _ => Token.up_inj) ?_
  have e : ∀ c : List (Cell n), (c.map (·.token)).map (Token.up y.span.lo) = (c.map (Cell.up y.span.lo)).map (·.token) := by
    intro c; rw [List.map_map, List.map_map]; rfl
  rw [e, e, h3, h1]

end

end Teleparse
