import Verif.Proof.Items
import Verif.Props.Delimited
import Verif.Props.Lines
import Verif.Props.Plain
/-
Properties of lists with separators among errors: C107.
-/
namespace Teleparse
variable {m n : Nat}

namespace Items
variable {S : Schema m n} {md : Metadata (PId m n) n} {G : Grammar (PId m n) n} {source : Str} {root : Ty m n}
  {k : Terminal n}

theorem sep_first (E : Rules S root G) {i : Nat} (hp : PReach S root (Ty.term i k : Ty m n).pid) (w : TokenSrc n) :
    FirstOf G (Ty.term i k : Ty m n).pid w ↔ k.Matches w := by
  rw [firstOf_iff]
  exact ⟨E.term_first rfl, fun h => .term (E.mem hp) h⟩

/-- A match is produced where it is. -/
theorem on_good (E : Found S md root G) {t : Ty m n} (hw : Within S root root t) (hc : Confined S k t)
    {c : List (Cell n)} {x : Tree n} {pos : Nat} {post : List (Token n)} (hx : Parses S source pos t c x) (hne : c ≠ [])
    (hpost : ∀ a, post.head? = some a → FollowOf G root.pid t.pid (some (a.word source))) {d : List (Cell n)}
    (hd : endOf 0 d = pos) (hv : Ready source ⟨source, d, toks c ++ post⟩) :
    On S md t ⟨source, d, toks c ++ post⟩ (.success x) ⟨source, d ++ c, post⟩ ∧
      ∃ w, (View.mk source d (toks c ++ post)).word = some w ∧ FirstOf G t.pid w := by
  have hl : LoopFree S t := by
    intro u hu a e
    subst e
    exact hc _ hu
  constructor
  · refine Lines.on_of_does hv ((E.comp hw.ty hl).finds (fx := false) hx d post hd hv ⟨.refl, hw.pid⟩ ?_)
    intro tok htok
    left
    cases hp : post.head? with
    | none => simp [la, hp] at htok
    | some a =>
      simp only [la, hp, Option.map_some, Option.some.injEq] at htok
      subst htok
      exact hpost a hp
  · rcases E.part hl hw hx with ⟨h, _⟩ | ⟨w, hf, _, hla⟩
    · exact absurd h hne
    · exact ⟨w, hla post, firstOf_iff.2 hf⟩

theorem filter_len {α β γ : Type} (f : α → Option β) (g : α → Option γ) (l : List α)
    (h : ∀ a ∈ l, (f a).isSome = (g a).isSome) : (l.filterMap f).length = (l.filterMap g).length := by
  induction l with
  | nil => rfl
  | cons a l ih =>
    have h1 := h a (by simp)
    have h2 := ih fun b hb => h b (by simp [hb])
    rw [List.filterMap_cons, List.filterMap_cons]
    cases hf : f a <;> cases hg : g a <;> simp_all

theorem filter_le {α β γ : Type} (f : α → Option β) (g : α → Option γ) (l : List α)
    (h : ∀ a ∈ l, (f a).isSome = true → (g a).isSome = true) : (l.filterMap f).length ≤ (l.filterMap g).length := by
  induction l with
  | nil => exact Nat.le_refl _
  | cons a l ih =>
    have h1 := h a (by simp)
    have h2 := ih fun b hb => h b (by simp [hb])
    rw [List.filterMap_cons, List.filterMap_cons]
    cases hf : f a <;> cases hg : g a <;> simp_all <;> omega

/-- Every step with an element has its separator. -/
theorem step_parts {p : Ty m n} {Gap} (hel : ∀ {v gs r v'}, Gap v gs (.elem r) v' → r.tree?.isSome = true) {v v' : View n} {steps}
    (h : DelimSteps S md G p Gap v steps v') : ∀ a ∈ steps, a.elem?.isSome = a.pair?.isSome ∧
      (a.elem?.isSome = true → a.sep?.isSome = true) := by
  induction h with
  | done => intro a ha; cases ha
  | sepFails =>
    intro a ha
    cases List.mem_singleton.1 ha
    exact ⟨rfl, fun h => by cases h⟩
  | elem _ _ _ ht h2 _ ih =>
    intro a ha
    rcases List.mem_cons.1 ha with rfl | ha
    · exact ⟨(hel h2).trans ht.symm, fun _ => ht⟩
    · exact ih a ha
  | again _ _ _ ht _ _ ih =>
    intro a ha
    rcases List.mem_cons.1 ha with rfl | ha
    · exact ⟨rfl, fun _ => ht⟩
    · exact ih a ha
  | last _ _ _ ht _ =>
    intro a ha
    cases List.mem_singleton.1 ha
    exact ⟨rfl, fun _ => ht⟩

theorem split_elem {t p : Ty m n} {stop} {v gs r v'} (h : SplitGap S md G t p stop v gs (.elem r) v') : r.tree?.isSome = true := by
  generalize e : GapEnd.elem r = o at h
  induction h with
  | found _ _ h => cases e; exact h
  | sep => cases e
  | ends => cases e
  | skip _ _ _ _ _ ih => exact ih e

theorem punct_elem {t p : Ty m n} {stop} {v gs r v'} (h : PunctGap S md G t p stop v gs (.elem r) v') : r.tree?.isSome = true := by
  generalize e : GapEnd.elem r = o at h
  induction h with
  | found _ _ _ h => cases e; exact h
  | trail => cases e
  | sep => cases e
  | ends => cases e
  | skip _ _ _ _ _ ih => exact ih e

theorem same_list {sp : Span} {a b c d : List (Tree n)} (h : a = b) (h' : c = d) :
    some (Tree.split sp a c) = some (Tree.split sp b d) := by rw [h, h']

theorem result_tree {sp : Span} {l seps : List (Tree n)} {e : List (Err n)} :
    (delimResult sp l seps e).tree? = some (.split sp l seps) ∧ (delimResult sp l seps e).errs = e := by
  unfold delimResult
  split
  · next h => exact ⟨rfl, h.symm⟩
  · exact ⟨rfl, rfl⟩

end Items

section
variable {ext : Fin n → Bool} {S : Schema m n} {fuel : Nat} {root : Ty m n} {md : Metadata (PId m n) n}
  {G : Grammar (PId m n) n} {source : Str} {items : List (Item n)}

/-! ## C107: broken elements of a list do not hide or damage the other ones -/

theorem Items.split_core (hmd : S.metadata fuel root = some (.ok md)) (hG : S.IsGrammar root G) (E : Found S md root G)
    (hw : ItemsWF source items) (t : Ty m n) (i : Nat) (k : Terminal n)
    (ht : Reach S.tyParts root (.split t (.term i k))) (hc : Confined S k t)
    (p p' : Parser n) (hp : Reached ext source items p) (r : Res n (Tree n))
    (h : Yields ext S md (.split t (.term i k)) p r p')
    (pre post : List (Token n)) (c : List (Cell n)) (x : Tree n) (s : Token n)
    (hrest : (p.view ext).rest = pre ++ s :: (c.map (·.token) ++ post)) (hs : s.Is source k)
    (hread : (p'.view ext).rest <:+ c.map (·.token) ++ post)
    (hx : Parses S source s.span.hi t c x) (hne : c ≠ [])
    (hpost : ∀ a, post.head? = some a → FollowOf G root.pid t.pid (some (a.word source))) :
    (∃ sp l1 l2 s1 s2, r.tree? = some (.split sp (l1 ++ x :: l2) (s1 ++ .tok s :: s2)) ∧ l1.length = s1.length + 1) ∧
      (∀ e ∈ r.errs, e.span.Outside s.span.hi (afterTokens s.span.hi (c.map (·.token)))) ∧
      ∃ d c', p'.info.tokens = d ++ (c ++ c') ∧
        d.map (·.token) = p.info.tokens.map (·.token) ++ (pre ++ [s]) := by
  have hv := hp.ready hw
  have hwt : Within S root root t := .of_reach (.step ht (by simp [Schema.tyParts]))
  have hws : Within S root root (.term i k) := .of_reach (.step ht (by simp [Schema.tyParts]))
  obtain ⟨stop, -, hall⟩ := C72_split hmd hG t (.term i k)
  rcases hall ext source items hw p p' hp r h with ⟨e, rfl, hon⟩ | ⟨r0, x0, v1, steps, hon, h0, hst, rfl, -, -⟩
  · exfalso
    obtain ⟨us, pre', -, e2⟩ := Items.stays_cut (Lines.stays hon.run hv hc) hrest hs
    have := hread.length_le
    rw [e2] at this
    simp at this
    omega
  · obtain ⟨us, pre', e1, e2⟩ := Items.stays_cut (Lines.stays hon.run hv hc) hrest hs
    have hv1 := hv.adv hon.adv
    obtain ⟨st1, st2, rfl, g2, g3, d, c', g4, g5⟩ := Items.item (t := t) (Gap := SplitGap S md G t (.term i k) stop)
      Items.gap_split hc (Items.sep_first ⟨hG⟩ hws.pid) (c := c) (x := x) hs
      (fun d gs o v' hr hg => by
        obtain ⟨k1, w, k2, k3⟩ := Items.on_good E hwt hc hx hne hpost (d := d ++ [Cell.ofToken s]) (by simp [endOf, Cell.ofToken]) hr
        exact Items.split_found hg k1 (by rw [k2]; exact k3)) hst pre' hv1 e2 hread.length_le
    have hlen := Items.step_parts Items.split_elem hst
    have hr0 : Lines.By s r0.errs := Items.upTo_by hv1 e2 (hon.run.upTo hv)
    unfold splitResult
    rw [Items.result_tree.1, Items.result_tree.2]
    have q1 : x0 :: (st1 ++ DelimStep.sep (.success (.tok s)) [] (some (.success x)) :: st2).filterMap DelimStep.elem? =
        (x0 :: st1.filterMap DelimStep.elem?) ++ x :: st2.filterMap DelimStep.elem? := by
      simp [List.filterMap_append, List.filterMap_cons, DelimStep.elem?, triedTree, Res.tree?]
    have q2 : (st1 ++ DelimStep.sep (.success (.tok s)) [] (some (.success x)) :: st2).filterMap DelimStep.pair? =
        st1.filterMap DelimStep.pair? ++ .tok s :: st2.filterMap DelimStep.pair? := by
      simp [List.filterMap_append, List.filterMap_cons, DelimStep.pair?, Res.tree?]
    refine ⟨⟨_, x0 :: st1.filterMap DelimStep.elem?, st2.filterMap DelimStep.elem?, st1.filterMap DelimStep.pair?,
      st2.filterMap DelimStep.pair?, Items.same_list q1 q2, ?_⟩, ?_, d, c', g4, ?_⟩
    · have := Items.filter_len _ _ st1 fun a ha => (hlen a (List.mem_append_left _ ha)).1
      simp [this]
    · intro e he
      rcases List.mem_append.1 he with he | he
      · exact .inl (hr0 e he)
      · rw [List.flatMap_append, List.flatMap_cons] at he
        rcases List.mem_append.1 he with he | he
        · obtain ⟨a, ha, he⟩ := List.mem_flatMap.1 he
          exact .inl (g2 e (List.mem_flatMap.2 ⟨a, ha, Items.split_errs a he⟩))
        · rcases List.mem_append.1 he with he | he
          · simp [DelimStep.splitErrs, Res.errs, triedErrs, gapErrs, joined] at he
          · obtain ⟨a, ha, he⟩ := List.mem_flatMap.1 he
            exact .inr (g3 e (List.mem_flatMap.2 ⟨a, ha, Items.split_errs a he⟩))
    · rw [g5]
      have := Lines.adv_tokens (us := us) hon.adv (by rw [e2, hrest, e1]; simp)
      rw [this, e1]
      simp [Parser.view]

theorem Items.punct_core (hmd : S.metadata fuel root = some (.ok md)) (hG : S.IsGrammar root G) (E : Found S md root G)
    (hw : ItemsWF source items) (t : Ty m n) (i : Nat) (k : Terminal n)
    (ht : Reach S.tyParts root (.punct t (.term i k))) (hc : Confined S k t)
    (p p' : Parser n) (hp : Reached ext source items p) (r : Res n (Tree n))
    (h : Yields ext S md (.punct t (.term i k)) p r p')
    (pre post : List (Token n)) (c : List (Cell n)) (x : Tree n) (s : Token n)
    (hrest : (p.view ext).rest = pre ++ s :: (c.map (·.token) ++ post)) (hs : s.Is source k)
    (hread : (p'.view ext).rest <:+ c.map (·.token) ++ post)
    (hx : Parses S source s.span.hi t c x) (hne : c ≠ [])
    (hpost : ∀ a, post.head? = some a → FollowOf G root.pid t.pid (some (a.word source))) :
    (∃ sp l1 l2 s1 s2, r.tree? = some (.split sp (l1 ++ x :: l2) (s1 ++ .tok s :: s2)) ∧ l1.length ≤ s1.length + 1) ∧
      (∀ e ∈ r.errs, e.span.Outside s.span.hi (afterTokens s.span.hi (c.map (·.token)))) ∧
      ∃ d c', p'.info.tokens = d ++ (c ++ c') ∧
        d.map (·.token) = p.info.tokens.map (·.token) ++ (pre ++ [s]) := by
  have hv := hp.ready hw
  have hwt : Within S root root t := .of_reach (.step ht (by simp [Schema.tyParts]))
  have hws : Within S root root (.term i k) := .of_reach (.step ht (by simp [Schema.tyParts]))
  obtain ⟨stop, -, hall⟩ := C72_punct hmd hG t (.term i k)
  rcases hall ext source items hw p p' hp r h with ⟨e, rfl, hon⟩ | ⟨r0, x0, v1, steps, hon, h0, hst, rfl, -, -⟩
  · exfalso
    obtain ⟨us, pre', -, e2⟩ := Items.stays_cut (Lines.stays hon.run hv hc) hrest hs
    have := hread.length_le
    rw [e2] at this
    simp at this
    omega
  · obtain ⟨us, pre', e1, e2⟩ := Items.stays_cut (Lines.stays hon.run hv hc) hrest hs
    have hv1 := hv.adv hon.adv
    obtain ⟨st1, st2, rfl, g2, g3, d, c', g4, g5⟩ := Items.item (t := t) (Gap := PunctGap S md G t (.term i k) stop)
      Items.gap_punct hc (Items.sep_first ⟨hG⟩ hws.pid) (c := c) (x := x) hs
      (fun d gs o v' hr hg => by
        obtain ⟨k1, w, k2, k3⟩ := Items.on_good E hwt hc hx hne hpost (d := d ++ [Cell.ofToken s]) (by simp [endOf, Cell.ofToken]) hr
        exact Items.punct_found hg k1 k2 k3) hst pre' hv1 e2 hread.length_le
    have hlen := Items.step_parts Items.punct_elem hst
    have hr0 : Lines.By s r0.errs := Items.upTo_by hv1 e2 (hon.run.upTo hv)
    unfold punctResult
    rw [Items.result_tree.1, Items.result_tree.2]
    have q1 : x0 :: (st1 ++ DelimStep.sep (.success (.tok s)) [] (some (.success x)) :: st2).filterMap DelimStep.elem? =
        (x0 :: st1.filterMap DelimStep.elem?) ++ x :: st2.filterMap DelimStep.elem? := by
      simp [List.filterMap_append, List.filterMap_cons, DelimStep.elem?, triedTree, Res.tree?]
    have q2 : (st1 ++ DelimStep.sep (.success (.tok s)) [] (some (.success x)) :: st2).filterMap DelimStep.sep? =
        st1.filterMap DelimStep.sep? ++ .tok s :: st2.filterMap DelimStep.sep? := by
      simp [List.filterMap_append, List.filterMap_cons, DelimStep.sep?, Res.tree?]
    refine ⟨⟨_, x0 :: st1.filterMap DelimStep.elem?, st2.filterMap DelimStep.elem?, st1.filterMap DelimStep.sep?,
      st2.filterMap DelimStep.sep?, Items.same_list q1 q2, ?_⟩, ?_, d, c', g4, ?_⟩
    · have := Items.filter_le _ _ st1 fun a ha => (hlen a (List.mem_append_left _ ha)).2
      simp [this]
    · intro e he
      rcases List.mem_append.1 he with he | he
      · exact .inl (hr0 e he)
      · rw [List.flatMap_append, List.flatMap_cons] at he
        rcases List.mem_append.1 he with he | he
        · obtain ⟨a, ha, he⟩ := List.mem_flatMap.1 he
          exact .inl (g2 e (List.mem_flatMap.2 ⟨a, ha, Items.punct_errs a he⟩))
        · rcases List.mem_append.1 he with he | he
          · simp [DelimStep.punctErrs, Res.errs, triedErrs, gapErrs, joined] at he
          · obtain ⟨a, ha, he⟩ := List.mem_flatMap.1 he
            exact .inr (g3 e (List.mem_flatMap.2 ⟨a, ha, Items.punct_errs a he⟩))
    · rw [g5]
      have := Lines.adv_tokens (us := us) hon.adv (by rw [e2, hrest, e1]; simp)
      rw [this, e1]
      simp [Parser.view]

/-- `parse` is one call of `produce`. -/
theorem Items.root_parse (hmd : S.metadata fuel root = some (.ok md)) {fuel' : Nat} {a} {p' : Parser n}
    (h : rootParse ext S fuel' root source items = .ok a p') :
    ∃ r q, Yields ext S md root (Parser.new source items) r q ∧ (∀ y, r.tree? = some y → a = .ok (some y)) ∧
      (p'.view ext).rest = (q.view ext).rest ∧ syntaxErrors p'.info.errors = r.errs ∧ p'.info.tokens = q.info.tokens := by
  cases a with
  | error e =>
    exfalso
    have h1 := ((C48_grammar_error ext S fuel' _ _ p' e).1 h).1
    have h2 := metadata_any h1 (Nat.le_max_left fuel' fuel)
    rw [metadata_any hmd (Nat.le_max_right fuel' fuel)] at h2
    cases h2
  | ok y =>
    obtain ⟨md', r, q, g1, g2, -, g4, g5, g6⟩ := syntaxErrors_parse h
    have hmd' : md' = md := by
      have h1 := metadata_more g1 (Nat.le_max_left fuel' fuel)
      have h2 := metadata_more hmd (Nat.le_max_right fuel' fuel)
      rw [h1] at h2
      cases h2
      rfl
    subst hmd'
    refine ⟨r, q, ⟨_, g2⟩, fun x hx => ?_, congrArg View.rest g6, g5, congrArg View.cells g6⟩
    have : y = some x := (g4 x).2 (by
      cases r with
      | success z => exact .inl (by cases hx; rfl)
      | recovered z e => exact .inr ⟨e, by cases hx; rfl⟩
      | panic e => cases hx)
    rw [this]

theorem Items.follow_split {t p : Ty m n} (E : Rules S root G) (h : Reach S.tyParts root (.split t p)) {w : TokenSrc n}
    (hf : FirstI G p.pid w) : FollowOf G root.pid t.pid (some w) := by
  have h1 := reach_pid h
  have h2 : PReach S root (.opt (.plus (.tup2 p.prod t.prod))) :=
    h1.part (by simp [Ty.pid, Ty.prod, PId.id, Schema.rule, Rule.parts])
  have h3 : PReach S root (.plus (.tup2 p.prod t.prod)) := h2.part (by simp [PId.id, Schema.rule, Rule.parts])
  have h4 : PReach S root (.tup2 p.prod t.prod) := h3.part (by simp [PId.id, Schema.rule, Rule.parts])
  have f4 : FirstI G (.tup2 p.prod t.prod) w :=
    FirstI.seq (pre := []) (j := p.pid) (post := [t.pid]) (E.mem h4) (by simp) hf
  have f3 : FirstI G (.plus (.tup2 p.prod t.prod)) w :=
    FirstI.seq (pre := []) (j := PId.id (.tup2 p.prod t.prod)) (post := [PId.opt (.plus (.tup2 p.prod t.prod))]) (E.mem h3) (by simp) f4
  exact FollowOf.between (pre := []) (mid := []) (post := []) ((reach_iff_schema E.gram _).2 h1) (E.mem h1) (by simp)
    (E.opt_some h2 f3)

theorem Items.follow_punct {t p : Ty m n} (E : Rules S root G) (h : Reach S.tyParts root (.punct t p)) {w : TokenSrc n}
    (hf : FirstI G p.pid w) : FollowOf G root.pid t.pid (some w) := by
  have h1 := reach_pid h
  have h2 : PReach S root (.opt (.tup2 p.prod (.opt (.punct t.prod p.prod)))) :=
    h1.part (by simp [Ty.pid, Ty.prod, PId.id, Schema.rule, Rule.parts])
  have h3 : PReach S root (.tup2 p.prod (.opt (.punct t.prod p.prod))) :=
    h2.part (by simp [PId.id, Schema.rule, Rule.parts])
  exact FollowOf.between (pre := []) (mid := []) (post := []) ((reach_iff_schema E.gram _).2 h1) (E.mem h1) (by simp)
    (E.opt_some h2
      (FirstI.seq (pre := []) (j := p.pid) (post := [.opt (.punct t.prod p.prod)]) (E.mem h3) (by simp) hf))

/-- `Split<t, k>`, from any reachable state. Any match of `t` that comes after a separator that the list read, and that is
followed by a token that can come after an element, such as a separator, or by the end: whatever the other tokens
are, it is among the elements, its separator is at the same place among the separators, no error lies in it, and its
tokens are in the store with the semantic types they should have. -/
theorem C107_split (hmd : S.metadata fuel root = some (.ok md)) (hG : S.IsGrammar root G) (hsafe : SkipSafe G)
    (hpunct : ∀ t p, Reach S.tyParts root (.punct t p) → ∀ a tok, Beyond G a tok →
      ¬ EndsWith G a (Ty.punct t p).pid)
    (henum : ∀ k v vs, S k = .enum v vs → Reachable G root.pid (.user k) → Nullable G (.user k) →
      ∀ tok, ¬ FollowOf G root.pid (.user k) (some tok))
    (hsep : ∀ t p, Reach S.tyParts root (.split t p) → ¬ Nullable G p.pid)
    (hw : ItemsWF source items) (t : Ty m n) (i : Nat) (k : Terminal n)
    (ht : Reach S.tyParts root (.split t (.term i k))) (hc : Confined S k t)
    (p p' : Parser n) (hp : Reached ext source items p) (r : Res n (Tree n))
    (h : Yields ext S md (.split t (.term i k)) p r p')
    (pre post : List (Token n)) (c : List (Cell n)) (x : Tree n) (s : Token n)
    (hrest : (p.view ext).rest = pre ++ s :: (c.map (·.token) ++ post)) (hs : s.Is source k)
    (hread : (p'.view ext).rest <:+ c.map (·.token) ++ post)
    (hx : Parses S source s.span.hi t c x) (hne : c ≠ [])
    (hpost : ∀ a, post.head? = some a → FollowOf G root.pid t.pid (some (a.word source))) :
    (∃ sp l1 l2 s1 s2, r.tree? = some (.split sp (l1 ++ x :: l2) (s1 ++ .tok s :: s2)) ∧ l1.length = s1.length + 1) ∧
      (∀ e ∈ r.errs, e.span.Outside s.span.hi (afterTokens s.span.hi (c.map (·.token)))) ∧
      ∃ d c', p'.info.tokens = d ++ (c ++ c') ∧
        d.map (·.token) = p.info.tokens.map (·.token) ++ (pre ++ [s]) :=
  Items.split_core hmd hG (.of_ll1 hmd hG (metadata_ll1 hmd hG hsafe) hpunct henum hsep) hw t i k ht hc p p' hp r h pre post c x s
    hrest hs hread hx hne hpost

/-- The same for `Punct<t, k>`; there may be separators before which an element is missing. -/
theorem C107_punct (hmd : S.metadata fuel root = some (.ok md)) (hG : S.IsGrammar root G) (hsafe : SkipSafe G)
    (hpunct : ∀ t p, Reach S.tyParts root (.punct t p) → ∀ a tok, Beyond G a tok →
      ¬ EndsWith G a (Ty.punct t p).pid)
    (henum : ∀ k v vs, S k = .enum v vs → Reachable G root.pid (.user k) → Nullable G (.user k) →
      ∀ tok, ¬ FollowOf G root.pid (.user k) (some tok))
    (hsep : ∀ t p, Reach S.tyParts root (.split t p) → ¬ Nullable G p.pid)
    (hw : ItemsWF source items) (t : Ty m n) (i : Nat) (k : Terminal n)
    (ht : Reach S.tyParts root (.punct t (.term i k))) (hc : Confined S k t)
    (p p' : Parser n) (hp : Reached ext source items p) (r : Res n (Tree n))
    (h : Yields ext S md (.punct t (.term i k)) p r p')
    (pre post : List (Token n)) (c : List (Cell n)) (x : Tree n) (s : Token n)
    (hrest : (p.view ext).rest = pre ++ s :: (c.map (·.token) ++ post)) (hs : s.Is source k)
    (hread : (p'.view ext).rest <:+ c.map (·.token) ++ post)
    (hx : Parses S source s.span.hi t c x) (hne : c ≠ [])
    (hpost : ∀ a, post.head? = some a → FollowOf G root.pid t.pid (some (a.word source))) :
    (∃ sp l1 l2 s1 s2, r.tree? = some (.split sp (l1 ++ x :: l2) (s1 ++ .tok s :: s2)) ∧ l1.length ≤ s1.length + 1) ∧
      (∀ e ∈ r.errs, e.span.Outside s.span.hi (afterTokens s.span.hi (c.map (·.token)))) ∧
      ∃ d c', p'.info.tokens = d ++ (c ++ c') ∧
        d.map (·.token) = p.info.tokens.map (·.token) ++ (pre ++ [s]) :=
  Items.punct_core hmd hG (.of_ll1 hmd hG (metadata_ll1 hmd hG hsafe) hpunct henum hsep) hw t i k ht hc p p' hp r h pre post c x s
    hrest hs hread hx hne hpost

/-- `parse` of a root `Split<t, k>` that passes the check: only separators or the end after the match are asked for. -/
theorem C107_parse_split (t : Ty m n) (i : Nat) (k : Terminal n) (hplain : S.plain fuel (.split t (.term i k)) = true)
    (hc : Confined S k t) (hw : ItemsWF source items) (fuel' : Nat) (a) (p' : Parser n)
    (h : rootParse ext S fuel' (.split t (.term i k)) source items = .ok a p')
    (pre post : List (Token n)) (c : List (Cell n)) (x : Tree n) (s : Token n)
    (hin : streamOf ext items = pre ++ s :: (c.map (·.token) ++ post)) (hs : s.Is source k)
    (hread : (p'.view ext).rest <:+ c.map (·.token) ++ post)
    (hx : Parses S source s.span.hi t c x) (hne : c ≠ []) (hpost : ∀ b, post.head? = some b → b.Is source k) :
    (∃ sp l1 l2 s1 s2, a = .ok (some (.split sp (l1 ++ x :: l2) (s1 ++ .tok s :: s2))) ∧ l1.length = s1.length + 1) ∧
      (∀ e ∈ syntaxErrors p'.info.errors,
        e.span.Outside s.span.hi (afterTokens s.span.hi (c.map (·.token)))) ∧
      ∃ d c', p'.info.tokens = d ++ (c ++ c') ∧ d.map (·.token) = pre ++ [s] := by
  obtain ⟨md, G, g⟩ := Plain.good hplain
  obtain ⟨r, q, g2, g3, g5⟩ := Items.root_parse g.md h
  have hws : PReach S (.split t (.term i k)) (Ty.term i k : Ty m n).pid := reach_pid (.step .refl (by simp [Schema.tyParts]))
  obtain ⟨⟨sp, l1, l2, s1, s2, k1, k2⟩, k3, k4⟩ := Items.split_core g.md g.gram g.found hw t i k .refl hc _ q .new r g2 pre post
    c x s hin hs (by rw [← g5.1]; exact hread) hx hne
    (fun b hb => Items.follow_split ⟨g.gram⟩ .refl (firstOf_iff.1 ((Items.sep_first ⟨g.gram⟩ hws _).2 (hpost b hb))))
  refine ⟨⟨sp, l1, l2, s1, s2, g3 _ k1, k2⟩, ?_, ?_⟩
  · rw [g5.2.1]
    exact k3
  · rw [g5.2.2]
    exact k4

/-- The same for `Punct<t, k>`. -/
theorem C107_parse_punct (t : Ty m n) (i : Nat) (k : Terminal n) (hplain : S.plain fuel (.punct t (.term i k)) = true)
    (hc : Confined S k t) (hw : ItemsWF source items) (fuel' : Nat) (a) (p' : Parser n)
    (h : rootParse ext S fuel' (.punct t (.term i k)) source items = .ok a p')
    (pre post : List (Token n)) (c : List (Cell n)) (x : Tree n) (s : Token n)
    (hin : streamOf ext items = pre ++ s :: (c.map (·.token) ++ post)) (hs : s.Is source k)
    (hread : (p'.view ext).rest <:+ c.map (·.token) ++ post)
    (hx : Parses S source s.span.hi t c x) (hne : c ≠ []) (hpost : ∀ b, post.head? = some b → b.Is source k) :
    (∃ sp l1 l2 s1 s2, a = .ok (some (.split sp (l1 ++ x :: l2) (s1 ++ .tok s :: s2))) ∧ l1.length ≤ s1.length + 1) ∧
      (∀ e ∈ syntaxErrors p'.info.errors,
        e.span.Outside s.span.hi (afterTokens s.span.hi (c.map (·.token)))) ∧
      ∃ d c', p'.info.tokens = d ++ (c ++ c') ∧ d.map (·.token) = pre ++ [s] := by
  obtain ⟨md, G, g⟩ := Plain.good hplain
  obtain ⟨r, q, g2, g3, g5⟩ := Items.root_parse g.md h
  have hws : PReach S (.punct t (.term i k)) (Ty.term i k : Ty m n).pid := reach_pid (.step .refl (by simp [Schema.tyParts]))
  obtain ⟨⟨sp, l1, l2, s1, s2, k1, k2⟩, k3, k4⟩ := Items.punct_core g.md g.gram g.found hw t i k .refl hc _ q .new r g2 pre post
    c x s hin hs (by rw [← g5.1]; exact hread) hx hne
    (fun b hb => Items.follow_punct ⟨g.gram⟩ .refl (firstOf_iff.1 ((Items.sep_first ⟨g.gram⟩ hws _).2 (hpost b hb))))
  refine ⟨⟨sp, l1, l2, s1, s2, g3 _ k1, k2⟩, ?_, ?_⟩
  · rw [g5.2.1]
    exact k3
  · rw [g5.2.2]
    exact k4

end

/-! ### Examples -/

/-- `Split<(word, num), "x">` on `a 1 x b x 2 x c 3 x d 4`: the second element has no number, the third no word. -/
def itSource : Str := [97, 49, 120, 98, 120, 50, 120, 99, 51, 120, 100, 52]
def itToks : List (Token 3) := [lnTok 0 0, lnTok 1 1, lnTok 2 2, lnTok 3 0, lnTok 4 2, lnTok 5 1, lnTok 6 2, lnTok 7 0,
  lnTok 8 1, lnTok 9 2, lnTok 10 0, lnTok 11 1]
def itItems : List (Item 3) := itToks.map .token
def itTree : Tree 3 := .seq ⟨7, 9⟩ [.tok (lnTok 7 0), .tok (lnTok 8 1)]

theorem it_parses : Parses exS itSource 7 dlE [Cell.ofToken (lnTok 7 0), Cell.ofToken (lnTok 8 1)] itTree :=
  Parses.tuple (t := dlE) (ts := [exWord, exNum]) (cs := [[Cell.ofToken (lnTok 7 0)], [Cell.ofToken (lnTok 8 1)]])
    (l := [.tok (lnTok 7 0), .tok (lnTok 8 1)])
    (.inl ⟨_, _, rfl, rfl⟩) (.cons (.term ⟨rfl, by simp⟩) (.cons (.term ⟨rfl, by simp⟩) .nil))

theorem dlMd_ok : exS.metadata 30 dlT = some (.ok dlMd) := rfl
theorem dlG_ok : exS.IsGrammar dlT dlG := .of_register (fuel := 30) rfl

/-- The element `c 3` is found. -/
example : ∃ r p' sp l1 l2 s1 s2, Yields noExt exS dlMd dlT (Parser.new itSource itItems) r p' ∧
    r.tree? = some (.split sp (l1 ++ itTree :: l2) (s1 ++ .tok (lnTok 6 2) :: s2)) ∧ l1.length = s1.length + 1 ∧
    (∀ e ∈ r.errs, e.span.Outside 7 9) ∧ r.errs.map (·.span) = [⟨4, 5⟩, ⟨5, 7⟩] := by
  have hy : ∃ r p', Yields noExt exS dlMd dlT (Parser.new itSource itItems) r p' ∧ p'.lookahead noExt = none ∧
      (p'.view noExt).rest = [] ∧ r.errs.map (·.span) = [⟨4, 5⟩, ⟨5, 7⟩] := ⟨_, _, ⟨20, by rfl⟩, by rfl, by rfl, by rfl⟩
  obtain ⟨r, p', h1, -, h2, h3⟩ := hy
  have reach : ∀ {t : Ty 0 3}, Reach exS.tyParts dlT t → t ∈ [dlT, dlE, exWord, exNum, fxX] := fun h =>
    reach_of_check [dlT, dlE, exWord, exNum, fxX] (by decide) (by decide +kernel) h
  obtain ⟨⟨sp, l1, l2, s1, s2, g1, g2⟩, g3, -⟩ := C107_split (ext := noExt) dlMd_ok dlG_ok
    (skipSafe_of_check dlMd_ok dlG_ok 4 (by decide +kernel))
    (fun t p h => by have := reach h; simp [dlT, dlE, exWord, exNum, fxX] at this) (fun k => k.elim0)
    (fun t p h hn => by
      have := reach h
      simp [dlT, dlE, exWord, exNum, fxX] at this
      obtain ⟨-, rfl⟩ := this
      exact absurd ((metadata_first dlMd_ok dlG_ok _ none).2 hn) (by decide +kernel))
    (by unfold ItemsWF itItems itSource; decide) dlE 2 lnK .refl ln_confined _ p' .new r h1
    [lnTok 0 0, lnTok 1 1, lnTok 2 2, lnTok 3 0, lnTok 4 2, lnTok 5 1] [lnTok 9 2, lnTok 10 0, lnTok 11 1] _ _ (lnTok 6 2) rfl
    ⟨rfl, by intro s hs; cases hs; decide⟩ (by rw [h2]; exact List.nil_suffix) it_parses (by simp)
    (by
      intro a ha
      cases ha
      exact (metadata_stops dlMd_ok dlG_ok _).1 _ (by decide +kernel))
  exact ⟨r, p', sp, l1, l2, s1, s2, h1, g1, g2, g3, h3⟩

/-- `Punct<(word, num), "x">` passes the check. -/
theorem it_punct_plain : exS.plain 40 (.punct dlE fxX) = true := by decide +kernel

/-- The same input: the element `c 3` is found. -/
example : ∃ a p' sp l1 l2 s1 s2, rootParse noExt exS 60 (.punct dlE fxX) itSource itItems = .ok a p' ∧
    a = .ok (some (.split sp (l1 ++ itTree :: l2) (s1 ++ .tok (lnTok 6 2) :: s2))) ∧
    (∀ e ∈ syntaxErrors p'.info.errors, e.span.Outside 7 9) ∧ p'.info.errors.map (·.span) = [⟨4, 5⟩, ⟨5, 7⟩] := by
  have hy : ∃ a p', rootParse noExt exS 60 (.punct dlE fxX) itSource itItems = .ok a p' ∧
      (p'.view noExt).rest = [] ∧ p'.info.errors.map (·.span) = [⟨4, 5⟩, ⟨5, 7⟩] := ⟨_, _, by rfl, by rfl, by rfl⟩
  obtain ⟨a, p', h1, h2, h3⟩ := hy
  obtain ⟨⟨sp, l1, l2, s1, s2, g1, -⟩, g3, -⟩ := C107_parse_punct (ext := noExt) dlE 2 lnK it_punct_plain ln_confined
    (by unfold ItemsWF itItems itSource; decide) 60 a p' h1
    [lnTok 0 0, lnTok 1 1, lnTok 2 2, lnTok 3 0, lnTok 4 2, lnTok 5 1] [lnTok 9 2, lnTok 10 0, lnTok 11 1] _ _ (lnTok 6 2) rfl
    ⟨rfl, by intro s hs; cases hs; decide⟩ (by rw [h2]; exact List.nil_suffix) it_parses (by simp)
    (by
      intro a ha
      cases ha
      exact ⟨rfl, by intro s hs; cases hs; decide⟩)
  exact ⟨a, p', sp, l1, l2, s1, s2, h1, g1, g3, h3⟩

/-! ### What is not claimed -/

/-- A token too many after a complete element ends the list: `Split<word, "x">` on `a x b 1 x c` stops at the `1`, and
the `c` is not among the elements. -/
theorem C107_needs_read : ∃ p', Yields noExt exS dfMd dfL (Parser.new [97, 120, 98, 49, 120, 99]
      ([lnTok 0 0, lnTok 1 2, lnTok 2 0, lnTok 3 1, lnTok 4 2, lnTok 5 0].map .token))
      (.success (.split ⟨0, 3⟩ [.tok (lnTok 0 0), .tok (lnTok 2 0)] [.tok (lnTok 1 2)])) p' ∧
      (p'.view noExt).rest = [lnTok 3 1, lnTok 4 2, lnTok 5 0] :=
  ⟨_, ⟨20, by rfl⟩, by rfl⟩

end Teleparse
