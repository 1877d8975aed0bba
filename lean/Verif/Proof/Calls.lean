import Verif.Proof.Idle
import Verif.Proof.Parts
import Verif.Proof.Steps
import Verif.Props.Parts
import Verif.Props.Documented
import Verif.Props.Soundness
import Verif.Spec.Calls
/-
Repeated calls of `Parser::parse` and repetitions.
-/
namespace Teleparse
variable {m n : Nat}

/-! ### Every type peeks first -/

namespace Peeky
variable {σ α β : Type} {o : Ops σ n} {s : σ}

/-- Peeking first does not matter. -/
def At (o : Ops σ n) (s : σ) (x : M σ α) : Prop := x (o.peek s).2 = x s

theorem bind {x : M σ α} (h : At o s x) (f : α → M σ β) : At o s (x >>= f) := by
  show M.bind x f _ = M.bind x f s
  unfold M.bind
  rw [show x (o.peek s).2 = x s from h]

variable (hs : o.peek (o.peek s).2 = o.peek s)
include hs

theorem peek : At o s o.mPeek := by
  show Out.ok _ _ = Out.ok _ _
  rw [hs]

theorem peekSrc : At o s o.mPeekSrc := bind (peek hs) _
theorem currentSpan : At o s o.mCurrentSpan := bind (peek hs) _

theorem term (t : Terminal n) (fol : TSet n) : At o s (produceTerm o t fol) := by
  unfold produceTerm
  cases t.lit with
  | none => exact bind (bind (peek hs) _) _
  | some lit => exact bind (bind (peek hs) _) _

omit hs in
theorem tuple {p : P σ n} (h : At o s p) (ps : List (P σ n)) : At o s (produceTuple (p :: ps)) := bind (bind h _) _

theorem step {S : Schema m n} {md : Metadata (PId m n) n} {fuel : Nat} {rec : Ty m n → P σ n}
    (h : ∀ t, At o s (rec t)) : ∀ t : Ty m n, At o s (produceStep o S md fuel rec t) := by
  intro t
  cases t with
  | term k t => exact (term hs t _)
  | user k =>
    simp only [produceStep]
    cases S k with
    | struct f fs => exact bind (bind (h f.1) _) _
    | enum v vs => exact bind (peekSrc hs) _
  | box t => exact (h t)
  | option t => exact (bind (peekSrc hs) _)
  | exist t => exact (bind (peekSrc hs) _)
  | quote t => exact (bind (h t) _)
  | parse t => exact (bind (h t) _)
  | plus t => exact (bind (h t) _)
  | star t => exact (bind (peekSrc hs) _)
  | loop t =>
    cases fuel with
    | zero => exact (rfl : (_ >>= _ : P σ n) _ = _)
    | succ f => exact (bind (bind (peekSrc hs) _) _)
  | split t p => exact (bind (h t) _)
  | punct t p => exact (bind (h t) _)
  | recover t r => exact (bind (bind (peekSrc hs) _) _)
  | tup2 a b => exact (tuple (h a) _)
  | tup3 a b c => exact (tuple (h a) _)
  | tup4 a b c d => exact (tuple (h a) _)
  | tup5 a b c d e => exact (tuple (h a) _)

theorem produce (S : Schema m n) (md : Metadata (PId m n) n) : ∀ (fuel : Nat) (t : Ty m n),
    At o s (produce o S md fuel t)
  | 0, _ => rfl
  | fuel + 1, t => step hs (fun t => produce S md fuel t) t

end Peeky

/-! ### Calls -/

namespace Calls
variable {ext : Fin n → Bool} {S : Schema m n} {t : Ty m n} {source : Str} {items : List (Item n)} {p p2 : Parser n}
  {xs : List (Tree n)}

theorem reached (h : Calls ext S t p xs p2) (hp : Reached ext source items p) : Reached ext source items p2 := by
  induction h with
  | stop => exact hp
  | call _ h1 _ ih => exact ih (.parse S _ t _ hp h1)

theorem errs (h : Calls ext S t p xs p2) : ∃ e, syntaxErrors p2.info.errors = syntaxErrors p.info.errors ++ e := by
  induction h with
  | stop => exact ⟨[], by simp⟩
  | call _ h1 _ ih =>
    obtain ⟨e2, h2⟩ := ih
    obtain ⟨e1, h1, -⟩ := parse_clean h1
    exact ⟨e1 ++ e2, by rw [h2, h1, List.append_assoc]⟩

/-- Calls without a syntax error, with the tables of a root. -/
inductive Clean (ext : Fin n → Bool) (S : Schema m n) (md : Metadata (PId m n) n) (t : Ty m n) (N : Nat) :
    Parser n → List (Tree n) → Parser n → Prop
  | stop (q) : Clean ext S md t N q [] q
  | call {q q1 q2 : Parser n} {r : Res n (Tree n)} {x : Tree n} {l : List (Tree n)} : q.lookahead ext ≠ none →
      r.Gives x [] → (∀ f ≥ N, produce (Parser.ops ext) S md f t q = .ok r q1) → Clean ext S md t N q1 l q2 →
      Clean ext S md t N q (x :: l) q2

theorem Clean.more {md : Metadata (PId m n) n} {N N' : Nat} (h : Clean ext S md t N p xs p2) (hN : N ≤ N') :
    Clean ext S md t N' p xs p2 := by
  induction h with
  | stop => exact .stop _
  | call h1 hg h2 _ ih => exact .call h1 hg (fun f hf => h2 f (by omega)) ih

theorem Clean.reached {md : Metadata (PId m n) n} {N : Nat} (h : Clean ext S md t N p xs p2)
    (hp : Reached ext source items p) : Reached ext source items p2 := by
  induction h with
  | stop => exact hp
  | call _ _ h1 _ ih => exact ih (.produce S md _ t _ hp (h1 N (Nat.le_refl _)))

theorem clean {root : Ty m n} {fuel : Nat} {md : Metadata (PId m n) n} (hmd : S.metadata fuel root = some (.ok md))
    (ht : Reach S.tyParts root t) (h : Calls ext S t p xs p2) :
    syntaxErrors p2.info.errors = syntaxErrors p.info.errors → ∃ N, Clean ext S md t N p xs p2 := by
  induction h with
  | stop => intro _; exact ⟨0, .stop _⟩
  | @call p p1 p2 f x xs hl h1 h2 ih =>
    intro he
    obtain ⟨e1, s1, md1, r1, q1, m1, y1, rfl, k1, g1⟩ := parse_clean h1
    obtain ⟨e2, s2⟩ := errs h2
    have hlen : (r1.errs ++ e2).length = 0 := by
      have := congrArg List.length he
      rw [s2, s1] at this
      simp only [List.length_append] at this ⊢
      omega
    obtain ⟨c1, c2⟩ := List.append_eq_nil_iff.1 (List.eq_nil_of_length_eq_zero hlen)
    obtain ⟨N2, z2⟩ := ih (by rw [s2, c2, List.append_nil])
    have hr : r1.Gives x [] := by
      obtain ⟨e, hg⟩ := (g1 x).1 rfl
      cases hg with
      | success => exact .success _
      | recovered _ e =>
        have hc : e = [] := c1
        subst hc
        exact .recovered _ _
    cases k1 c1
    obtain ⟨N1, z1⟩ := C78_context ext S fuel f root t md md1 hmd ht m1 p p1 r1 c1 ⟨f, y1⟩
    exact ⟨max N1 N2, .call hl hr (fun f hf => produce_more z1 (by omega)) (z2.more (by omega))⟩

theorem Gives.clean {r : Res n (Tree n)} {x : Tree n} (h : r.Gives x []) : r.errs = [] ∧ r.tree?.isSome = true :=
  Idle.gives_clean h rfl

theorem peek_peek (hp : Reached ext source items p) : (Parser.ops ext).peek ((Parser.ops ext).peek p).2 =
    (Parser.ops ext).peek p := by
  have h := C04_idempotent ext source items p hp
  show (p.peek ext).2.peek ext = p.peek ext
  show (((p.fill ext).fill ext).peeked, (p.fill ext).fill ext) = ((p.fill ext).peeked, p.fill ext)
  have h : (p.fill ext).fill ext = p.fill ext := h
  rw [h]

theorem produce_peek (hp : Reached ext source items p) (md : Metadata (PId m n) n) (f : Nat) :
    produce (Parser.ops ext) S md f t (p.peek ext).2 = produce (Parser.ops ext) S md f t p :=
  Peeky.produce (peek_peek hp) S md f t

/-- Where a type is produced without an error, and tokens are left, it can begin; and a token is read. -/
theorem begins {root : Ty m n} {md : Metadata (PId m n) n} {G : Grammar (PId m n) n} (E : Quiet.Tabs S md root G)
    (ht : PReach S root t.pid) (hn : ¬ Null G t.pid) (hw : ItemsWF source items) (hp : Reached ext source items p)
    {f : Nat} {r : Res n (Tree n)} {p' : Parser n} (h : produce (Parser.ops ext) S md f t p = .ok r p')
    (hl : p.lookahead ext ≠ none) (he : r.errs = []) (hr : r.tree?.isSome = true) :
    FirstAt G t.pid (p.view ext) ∧ (p'.view ext).len < (p.view ext).len := by
  have hv := produce_view ext S md f t p
  rw [h] at hv
  have hlook : (p.view ext).look ≠ none := by rw [hp.look hw]; exact hl
  constructor
  · refine Classical.byContradiction fun hf => ?_
    exact hn (((E.quiet f t ht _ _ _ hv).2 ⟨hlook, hf⟩ he).2 hr)
  · refine Nat.lt_of_not_le fun hle => ?_
    refine hn (Idle.run E.toRules (run_of_produce S md f t _ _ _ hv) ht ⟨?_, hle⟩ he hr)
    intro hnil
    exact hlook (by simp [View.look, hnil])

theorem canStart (hw : ItemsWF source items) (hp : Reached ext source items p) {root : Ty m n}
    {md : Metadata (PId m n) n} {G : Grammar (PId m n) n} (E : Quiet.Tabs S md root G) {i : PId m n}
    (h : FirstAt G i (p.view ext)) : p.canStart ext (md.first.get i) = true := by
  have := E.firstAt.2 h
  rw [hp.look hw] at this
  exact this

/-- The loop of `Plus` over clean calls. -/
theorem Clean.iter {root : Ty m n} {md : Metadata (PId m n) n} {G : Grammar (PId m n) n} (E : Quiet.Tabs S md root G)
    (hr : PReach S root (Ty.plus t).pid) (hn : ¬ Null G t.pid) (hw : ItemsWF source items) {N f : Nat}
    (hf : N ≤ f) (h : Clean ext S md t N p xs p2) : Reached ext source items p →
    p2.canStart ext (md.first.get (Ty.plus t).pid) = false → ∀ k > xs.length, ∀ acc hi,
    iterLoop (Parser.ops ext) (md.first.get (Ty.plus t).pid) (produce (Parser.ops ext) S md f t) k acc [] hi p =
      .ok (acc ++ xs, [], (xs.getLast?.map (·.span.hi)).getD hi) (p2.peek ext).2 := by
  have ht : PReach S root t.pid := hr.seq (rule_plus _) (by simp [Ty.pid])
  induction h with
  | stop p =>
    intro hp hc k hk acc hi
    obtain ⟨k, rfl⟩ : ∃ i, k = i + 1 := ⟨k - 1, by omega⟩
    refine bind_ok.2 ⟨_, _, hp.peekSrc hw, ?_⟩
    rw [if_neg (by unfold Parser.canStart at hc; rw [hc]; simp)]
    simp
    rfl
  | @call p p1 p2 r x xs hl hg h1 h2 ih =>
    intro hp hc k hk acc hi
    obtain ⟨k, rfl⟩ : ∃ i, k = i + 1 := ⟨k - 1, by omega⟩
    have h1 := h1 f hf
    have hb := (begins E ht hn hw hp h1 hl (Gives.clean hg).1 (Gives.clean hg).2).1
    have hcan : p.canStart ext (md.first.get (Ty.plus t).pid) = true :=
      canStart hw hp E (hb.imp fun tok hf => E.plus_some hr hf)
    refine bind_ok.2 ⟨_, _, hp.peekSrc hw, ?_⟩
    unfold Parser.canStart at hcan
    rw [if_pos hcan]
    refine bind_ok.2 ⟨r, p1, (produce_peek hp md f).trans h1, ?_⟩
    have := ih (.produce S md _ t _ hp h1) hc k (by simp only [List.length_cons] at hk; omega) (acc ++ [x]) x.span.hi
    have hgl : ((x :: xs).getLast?.map (·.span.hi)).getD hi = (xs.getLast?.map (·.span.hi)).getD x.span.hi := by
      cases xs with
      | nil => rfl
      | cons y ys => rw [List.getLast?_cons_cons]; cases h : (y :: ys).getLast? with
        | none => simp at h
        | some z => rfl
    rw [hgl]
    rw [List.append_assoc] at this
    cases hg with
    | success => exact this
    | recovered => exact this

theorem currentSpan_eq (p : Parser n) : (Parser.ops ext).mCurrentSpan p = .ok (p.nextSpan ext) (p.peek ext).2 := by
  obtain ⟨h1, h2⟩ := view_fill ext p
  unfold Ops.mCurrentSpan
  refine bind_ok.2 ⟨(p.view ext).rest.head?, p.fill ext, by simp [Ops.mPeek, Parser.ops, Parser.peek, h2], ?_⟩
  unfold Parser.nextSpan
  cases hr : (p.view ext).rest with
  | cons t l => rfl
  | nil =>
    have hsrc : (p.fill ext).info.source = p.info.source := congrArg View.source h1
    refine bind_ok.2 ⟨p.info.source, p.fill ext, ?_, rfl⟩
    rw [← hsrc]
    rfl

/-- The loop of `Loop` over clean calls. -/
theorem Clean.loop {root : Ty m n} {md : Metadata (PId m n) n} {G : Grammar (PId m n) n} (E : Quiet.Tabs S md root G)
    (hr : PReach S root (Ty.loop t).pid) (hn : ¬ Null G t.pid) (hw : ItemsWF source items) {N f : Nat}
    (hf : N ≤ f) (h : Clean ext S md t N p xs p2) : Reached ext source items p →
    p2.lookahead ext = none → ∀ k > xs.length, ∀ out,
    loopLoop (Parser.ops ext) (md.first.get (Ty.loop t).pid) (produce (Parser.ops ext) S md f t) k out [] p =
      .ok (out ++ xs, []) (p2.peek ext).2 := by
  have ht : PReach S root t.pid := hr.seq (rule_plus _) (by simp [Ty.pid])
  induction h with
  | stop p =>
    intro hp hc k hk acc
    obtain ⟨k, rfl⟩ : ∃ i, k = i + 1 := ⟨k - 1, by omega⟩
    refine bind_ok.2 ⟨_, _, hp.peekSrc hw, ?_⟩
    dsimp only
    rw [if_pos (by rw [hc]; rfl)]
    simp
    rfl
  | @call p p1 p2 r x xs hl hg h1 h2 ih =>
    intro hp hc k hk acc
    obtain ⟨k, rfl⟩ : ∃ i, k = i + 1 := ⟨k - 1, by omega⟩
    have h1 := h1 f hf
    have hp1 : Reached ext source items p1 := .produce S md _ t _ hp h1
    obtain ⟨hb, hlt⟩ := begins E ht hn hw hp h1 hl (Gives.clean hg).1 (Gives.clean hg).2
    have hcan : p.canStart ext (md.first.get (Ty.loop t).pid) = true :=
      canStart hw hp E (hb.imp fun tok hf => E.plus_some hr hf)
    refine bind_ok.2 ⟨_, _, hp.peekSrc hw, ?_⟩
    dsimp only
    unfold Parser.canStart at hcan
    rw [Bool.and_eq_true] at hcan
    rw [if_neg (by rw [Option.isNone_iff_eq_none]; exact hl), if_neg (by rw [hcan.2]; simp)]
    refine bind_ok.2 ⟨_, _, rfl, ?_⟩
    dsimp only
    rw [if_neg (by simp)]
    have this := ih hp1 hc k (by simp only [List.length_cons] at hk; omega) (acc ++ [x])
    rw [List.append_assoc] at this
    have hne : ¬ (p.nextSpan ext).lo = (p1.nextSpan ext).lo := by
      rw [nextSpan_eq, nextSpan_eq, (hp.ready hw).cur_lo (produce_adv h1) (by
        intro hnil
        exact hl (by simp [Parser.lookahead, hnil]))]
      intro he
      unfold View.len at hlt
      rw [he] at hlt
      omega
    have helem : loopElem (Parser.ops ext) (produce (Parser.ops ext) S md f t) acc [] (p.peek ext).2 =
        .ok (true, acc ++ [x], []) (p1.peek ext).2 := by
      refine bind_ok.2 ⟨_, _, (Peeky.currentSpan (peek_peek hp)).trans (currentSpan_eq p), ?_⟩
      refine bind_ok.2 ⟨r, p1, (produce_peek hp md f).trans h1, ?_⟩
      refine bind_ok.2 ⟨_, _, currentSpan_eq p1, ?_⟩
      rw [if_neg hne]
      cases hg with
      | success => rfl
      | recovered => rfl
    refine bind_ok.2 ⟨_, _, helem, ?_⟩
    dsimp only
    rw [if_pos rfl]
    refine Eq.trans ?_ this
    cases k with
    | zero => rfl
    | succ k => exact Peeky.bind (Peeky.peekSrc (peek_peek hp1)) _

theorem tabs {root : Ty m n} {fuel : Nat} {md : Metadata (PId m n) n} {G : Grammar (PId m n) n}
    (hmd : S.metadata fuel root = some (.ok md)) (hG : S.IsGrammar root G) : Quiet.Tabs S md root G :=
  { gram := hG, starts := metadata_first hmd hG }

/-- Elements of repetitions are not empty. -/
theorem not_null {root : Ty m n} {fuel : Nat} {md : Metadata (PId m n) n} {G : Grammar (PId m n) n}
    (hmd : S.metadata fuel root = some (.ok md)) (hG : S.IsGrammar root G) (hr : PReach S root (.plus t.prod)) :
    ¬ Null G t.pid := fun h =>
  no_nullable_opt (i := .plus t.prod) hG (hr.part (by simp [Schema.rule, Rule.parts])) (null_plus hG hr (nullable_iff.2 h)) hmd

/-- What can begin a repetition can begin an element, if elements are not empty. -/
theorem first_plus {root : Ty m n} {G : Grammar (PId m n) n} (E : Rules S root G) (hr : PReach S root (.plus t.prod))
    (hn : ¬ Null G t.pid) {tok : TokenSrc n} : FirstI G (.plus t.prod) tok ↔ FirstI G t.pid tok := by
  refine ⟨fun h => ?_, fun h => E.plus_some hr h⟩
  cases h with
  | term hm _ => exact nomatch (E.rule hm).trans (rule_plus _)
  | alt hm _ _ => exact nomatch (E.rule hm).trans (rule_plus _)
  | @seq _ pre j post _ hm hp hf =>
    have he := (E.rule hm).trans (rule_plus _)
    cases pre with
    | nil =>
      cases he
      exact hf
    | cons k pre =>
      injection he with he
      injection he with he _
      subst he
      exact absurd (hp t.pid (.head _)) hn

theorem stop_iff {root : Ty m n} {md : Metadata (PId m n) n} {G : Grammar (PId m n) n} (E : Quiet.Tabs S md root G)
    (hr : PReach S root (.plus t.prod)) (hn : ¬ Null G t.pid) :
    p.canStart ext (md.first.get (.plus t.prod)) = false ↔ ∀ w, p.lookahead ext = some w → ¬ FirstOf G t.pid w := by
  unfold Parser.canStart
  cases hl : p.lookahead ext with
  | none => simp
  | some w =>
    have h1 : (md.first.get (.plus t.prod)).contains (some w) = true ↔ FirstOf G t.pid w := by
      rw [E.starts]
      show FirstOf G _ w ↔ _
      rw [firstOf_iff, firstOf_iff, first_plus E.toRules hr hn]
    rw [Option.isSome_some, Bool.true_and, ← Bool.not_eq_true, h1]
    exact ⟨fun h w' he => by cases he; exact h, fun h => h w rfl⟩

/-- From a result without errors to `Parser::parse`. -/
theorem parse_of {root : Ty m n} {fuel N : Nat} {md : Metadata (PId m n) n} {r : Res n (Tree n)} {p' : Parser n}
    (hmd : S.metadata fuel root = some (.ok md)) (he : r.errs = [])
    (h : ∀ f ≥ N, produce (Parser.ops ext) S md f root p = .ok r p') {f : Nat} (hf : f ≥ max fuel N) :
    p.parse ext S f root = .ok (.ok r.tree?) p' := by
  unfold Parser.parse Parser.parseWithMeta
  rw [metadata_more hmd (show fuel ≤ f by omega)]
  simp only [h f (by omega)]
  cases r with
  | success x => rfl
  | recovered x e =>
    have he : e = [] := he
    subst he
    simp [Res.tree?]
  | panic e =>
    have he : e = [] := he
    subst he
    simp [Res.tree?]

theorem spanOf_cons (x : Tree n) (xs : List (Tree n)) :
    spanOf (x :: xs) = ⟨x.span.lo, (xs.getLast?.map (·.span.hi)).getD x.span.hi⟩ := by
  unfold spanOf
  cases xs with
  | nil => rfl
  | cons y ys =>
    rw [List.getLast?_cons_cons]
    cases h : (y :: ys).getLast? with
    | none => simp at h
    | some z => rfl

theorem Clean.plus {root : Ty m n} {md : Metadata (PId m n) n} {G : Grammar (PId m n) n} (E : Quiet.Tabs S md root G)
    (hr : PReach S root (Ty.plus t).pid) (hn : ¬ Null G t.pid) (hw : ItemsWF source items) {N : Nat}
    (h : Clean ext S md t N p xs p2) (hx : xs ≠ []) (hp : Reached ext source items p)
    (hc : p2.canStart ext (md.first.get (Ty.plus t).pid) = false) {f k : Nat} (hf : N ≤ f) (hk : xs.length ≤ k) :
    producePlus (Parser.ops ext) (md.first.get (Ty.plus t).pid) (produce (Parser.ops ext) S md f t) k p =
      .ok (.success (.list (spanOf xs) xs)) (p2.peek ext).2 := by
  cases h with
  | stop => exact absurd rfl hx
  | @call _ p1 _ r x xs hl hg h1 h2 =>
    have h1 := h1 f hf
    have := h2.iter E hr hn hw hf (.produce S md _ t _ hp h1) hc k
      (by simp only [List.length_cons] at hk; omega) [x] x.span.hi
    have rest : plusRest (Parser.ops ext) (md.first.get (Ty.plus t).pid) (produce (Parser.ops ext) S md f t) k x [] p1 =
        .ok (.success (.list (spanOf (x :: xs)) (x :: xs))) (p2.peek ext).2 := by
      refine bind_ok.2 ⟨_, _, this, ?_⟩
      rw [spanOf_cons]
      rfl
    refine bind_ok.2 ⟨r, p1, h1, ?_⟩
    cases hg with
    | success => exact rest
    | recovered => exact rest

/-! ### From a list to calls -/

/-- Results without errors carry over to another root. -/
def Alone (ext : Fin n → Bool) (S : Schema m n) (md md' : Metadata (PId m n) n) (t : Ty m n) : Prop :=
  ∀ (p p' : Parser n) (r : Res n (Tree n)), r.errs = [] → Yields ext S md t p r p' → Yields ext S md' t p r p'

theorem one {md md' : Metadata (PId m n) n} (ha : Alone ext S md md' t) {fuel : Nat}
    (hmd : S.metadata fuel t = some (.ok md')) {f : Nat} {r : Res n (Tree n)} {p' : Parser n}
    (h : produce (Parser.ops ext) S md f t p = .ok r p') (he : r.errs = []) :
    ∃ f, p.parse ext S f t = .ok (.ok r.tree?) p' ∧ syntaxErrors p'.info.errors = syntaxErrors p.info.errors := by
  obtain ⟨N, hN⟩ := ha _ _ _ he ⟨f, h⟩
  have hg := parse_of hmd he (N := N) (fun f hf => produce_more hN hf) (Nat.le_refl _)
  refine ⟨_, hg, ?_⟩
  obtain ⟨e1, s1, md1, r1, q1, m1, y1, rfl, k1, g1⟩ := parse_clean hg
  cases (metadata_more hmd (Nat.le_max_left _ _)).symm.trans m1
  cases (produce_more hN (Nat.le_max_right _ _)).symm.trans y1
  rw [s1, he, List.append_nil]

theorem iter_errs {σ : Type} {o : Ops σ n} {first : TSet n} {prod : P σ n} : ∀ (k : Nat) {acc l : List (Tree n)}
    {errs e : List (Err n)} {hi hi' : Nat} {s s' : σ}, iterLoop o first prod k acc errs hi s = .ok (l, e, hi') s' →
    ∃ e', e = errs ++ e'
  | 0, _, _, _, _, _, _, _, _, h => nomatch h
  | k + 1, acc, l, errs, e, hi, hi', s, s', h => by
    obtain ⟨tok, s1, h1, h⟩ := bind_ok.1 h
    split at h
    · obtain ⟨r, s2, h2, h⟩ := bind_ok.1 h
      cases r with
      | success x => exact iter_errs k h
      | recovered x d =>
        obtain ⟨e', he⟩ := iter_errs k h
        exact ⟨d ++ e', by rw [he, List.append_assoc]⟩
      | panic d => obtain ⟨h, rfl⟩ := pure_ok.1 h; cases h; exact ⟨d, rfl⟩
    · obtain ⟨h, rfl⟩ := pure_ok.1 h; cases h; exact ⟨[], by simp⟩

/-- How the calls end: the next token cannot begin an element, or one more call returns nothing. -/
def Ends (ext : Fin n → Bool) (S : Schema m n) (t : Ty m n) (first : TSet n) (p2 p' : Parser n) : Prop :=
  (p2.canStart ext first = false ∧ p' = (p2.peek ext).2) ∨ (p2.canStart ext first = true ∧
    ∃ f, p2.parse ext S f t = .ok (.ok none) p' ∧ syntaxErrors p'.info.errors = syntaxErrors p2.info.errors)

theorem iter_back {md md' : Metadata (PId m n) n} (ha : Alone ext S md md' t) {fuel : Nat}
    (hmd : S.metadata fuel t = some (.ok md')) (hw : ItemsWF source items) {first : TSet n} {f : Nat} :
    ∀ (k : Nat) {acc l : List (Tree n)} {hi hi' : Nat} {p p' : Parser n}, Reached ext source items p →
    iterLoop (Parser.ops ext) first (produce (Parser.ops ext) S md f t) k acc [] hi p = .ok (l, [], hi') p' →
    ∃ xs p2, l = acc ++ xs ∧ hi' = (xs.getLast?.map (·.span.hi)).getD hi ∧ Calls ext S t p xs p2 ∧
      syntaxErrors p2.info.errors = syntaxErrors p.info.errors ∧ Ends ext S t first p2 p'
  | 0, _, _, _, _, _, _, _, h => nomatch h
  | k + 1, acc, l, hi, hi', p, p', hp, h => by
    obtain ⟨tok, s1, h1, h⟩ := bind_ok.1 h
    cases (hp.peekSrc hw).symm.trans h1
    by_cases hc : p.canStart ext first = true
    · have hc' := hc
      unfold Parser.canStart at hc'
      rw [if_pos hc'] at h
      obtain ⟨r, q, h2, h⟩ := bind_ok.1 h
      have h2 := (produce_peek hp md f).symm.trans h2
      have hl : p.lookahead ext ≠ none := by
        intro hn
        rw [hn] at hc'
        exact nomatch hc'
      have step : ∀ x : Tree n, r.errs = [] → r.tree? = some x →
          iterLoop (Parser.ops ext) first (produce (Parser.ops ext) S md f t) k (acc ++ [x]) [] x.span.hi q =
            .ok (l, [], hi') p' → ∃ xs p2, l = acc ++ xs ∧ hi' = (xs.getLast?.map (·.span.hi)).getD hi ∧ Calls ext S t p xs p2 ∧
            syntaxErrors p2.info.errors = syntaxErrors p.info.errors ∧ Ends ext S t first p2 p' := by
        intro x he hx h
        obtain ⟨xs, p2, g1, g2, g3, g4, g5⟩ := iter_back ha hmd hw k (.produce S md _ t _ hp h2) h
        obtain ⟨f', c1, c2⟩ := one ha hmd h2 he
        rw [hx] at c1
        have hgl : ((x :: xs).getLast?.map (·.span.hi)).getD hi = (xs.getLast?.map (·.span.hi)).getD x.span.hi := by
          cases xs with
          | nil => rfl
          | cons y ys => rw [List.getLast?_cons_cons]; cases h : (y :: ys).getLast? with
            | none => simp at h
            | some z => rfl
        exact ⟨x :: xs, p2, by rw [g1]; simp, by rw [g2, hgl], .call hl c1 g3, by rw [g4, c2], g5⟩
      cases r with
      | success x => exact step x rfl rfl h
      | recovered x d =>
        obtain ⟨e', he⟩ := iter_errs k h
        have hd : d = [] := by simp at he; exact he.1
        subst hd
        exact step x rfl rfl h
      | panic d =>
        have hd : d = [] := by
          have := pure_ok.1 h
          simp at this
          exact this.1.2.1
        subst hd
        obtain ⟨h, rfl⟩ := pure_ok.1 h
        cases h
        obtain ⟨f', c1, c2⟩ := one ha hmd h2 rfl
        exact ⟨[], p, by simp, rfl, .stop _, rfl, .inr ⟨hc, f', c1, c2⟩⟩
    · have hc' := hc
      unfold Parser.canStart at hc'
      rw [if_neg hc'] at h
      obtain ⟨h, rfl⟩ := pure_ok.1 h
      cases h
      exact ⟨[], p, by simp, rfl, .stop _, rfl, .inl ⟨by simpa using hc, rfl⟩⟩

theorem ofPair_errs {α : Type} (x : α) (e : List (Err n)) : (Res.ofPair x e).errs = e := by
  cases e <;> rfl

theorem plus_back {md md' : Metadata (PId m n) n} (ha : Alone ext S md md' t) {fuel : Nat}
    (hmd : S.metadata fuel t = some (.ok md')) (hw : ItemsWF source items) {first : TSet n} {f k : Nat}
    {p p' : Parser n} {r : Res n (Tree n)} {x : Tree n} (hp : Reached ext source items p)
    (h : producePlus (Parser.ops ext) first (produce (Parser.ops ext) S md f t) k p = .ok r p') (he : r.errs = [])
    (hl : p.lookahead ext ≠ none) (hx : r.tree? = some x) :
    ∃ xs p2, x = .list (spanOf xs) xs ∧ xs ≠ [] ∧ Calls ext S t p xs p2 ∧
      syntaxErrors p2.info.errors = syntaxErrors p.info.errors ∧ Ends ext S t first p2 p' := by
  obtain ⟨r1, q, h1, h⟩ := bind_ok.1 h
  have step : ∀ y : Tree n, r1.errs = [] → r1.tree? = some y →
      plusRest (Parser.ops ext) first (produce (Parser.ops ext) S md f t) k y [] q = .ok r p' →
      ∃ xs p2, x = .list (spanOf xs) xs ∧ xs ≠ [] ∧ Calls ext S t p xs p2 ∧
      syntaxErrors p2.info.errors = syntaxErrors p.info.errors ∧ Ends ext S t first p2 p' := by
    intro y he1 hy h
    obtain ⟨⟨l, e, hi⟩, q2, h2, h⟩ := bind_ok.1 h
    obtain ⟨rfl, rfl⟩ := pure_ok.1 h
    rw [ofPair_errs] at he
    subst he
    obtain ⟨xs, p2, g1, g2, g3, g4, g5⟩ := iter_back ha hmd hw k (.produce S md _ t _ hp h1) h2
    obtain ⟨f', c1, c2⟩ := one ha hmd h1 he1
    rw [hy] at c1
    refine ⟨y :: xs, p2, ?_, by simp, .call hl c1 g3, by rw [g4, c2], g5⟩
    have hx : some (Tree.list ⟨y.span.lo, hi⟩ l) = some x := hx
    cases hx
    rw [spanOf_cons, g1, g2]
    rfl
  cases r1 with
  | success y => exact step y rfl rfl h
  | recovered y d =>
    have hd : d = [] := by
      obtain ⟨⟨l, e, hi⟩, q2, h2, h⟩ := bind_ok.1 h
      obtain ⟨rfl, rfl⟩ := pure_ok.1 h
      rw [ofPair_errs] at he
      subst he
      obtain ⟨e', he⟩ := iter_errs k h2
      simp at he
      exact he.1
    subst hd
    exact step y rfl rfl h
  | panic d => obtain ⟨rfl, rfl⟩ := pure_ok.1 h; cases hx

theorem skip_errs {σ : Type} {o : Ops σ n} {first : TSet n} {k : Nat} {errs e : List (Err n)} {b : Bool} {s s' : σ}
    (h : loopSkip o first k errs s = .ok (e, b) s') : ∃ x e', e = errs ++ x :: e' := by
  obtain ⟨sp, s1, -, h⟩ := bind_ok.1 h
  obtain ⟨_, s2, -, h⟩ := bind_ok.1 h
  obtain ⟨⟨hi, more⟩, s3, -, h⟩ := bind_ok.1 h
  obtain ⟨h, rfl⟩ := pure_ok.1 h
  cases h
  exact ⟨_, [], rfl⟩

theorem elem_errs {σ : Type} {o : Ops σ n} {prod : P σ n} {out l : List (Tree n)} {errs e : List (Err n)} {b : Bool}
    {s s' : σ} (h : loopElem o prod out errs s = .ok (b, l, e) s') : ∃ e', e = errs ++ e' ∧ (b = false → e' ≠ []) := by
  obtain ⟨sp, s1, -, h⟩ := bind_ok.1 h
  obtain ⟨r, s2, -, h⟩ := bind_ok.1 h
  obtain ⟨sp2, s3, -, h⟩ := bind_ok.1 h
  cases r with
  | success x => split at h <;> (obtain ⟨h, rfl⟩ := pure_ok.1 h; cases h)
                 · exact ⟨_, rfl, by simp⟩
                 · exact ⟨[], by simp, by simp⟩
  | recovered x d => split at h <;> (obtain ⟨h, rfl⟩ := pure_ok.1 h; cases h)
                     · exact ⟨_, List.append_assoc .., by simp⟩
                     · exact ⟨d, rfl, by simp⟩
  | panic d => split at h <;> (obtain ⟨h, rfl⟩ := pure_ok.1 h; cases h)
               · exact ⟨_, List.append_assoc .., by simp⟩
               · exact ⟨d, rfl, by simp⟩

theorem loop_errs {σ : Type} {o : Ops σ n} {first : TSet n} {prod : P σ n} : ∀ (k : Nat) {out l : List (Tree n)}
    {errs e : List (Err n)} {s s' : σ}, loopLoop o first prod k out errs s = .ok (l, e) s' → ∃ e', e = errs ++ e'
  | 0, _, _, _, _, _, _, h => nomatch h
  | k + 1, out, l, errs, e, s, s', h => by
    obtain ⟨tok, s1, h1, h⟩ := bind_ok.1 h
    dsimp only at h
    split at h
    · obtain ⟨h, rfl⟩ := pure_ok.1 h; cases h; exact ⟨[], by simp⟩
    · obtain ⟨⟨e1, more⟩, s2, h2, h⟩ := bind_ok.1 h
      have he1 : ∃ e', e1 = errs ++ e' := by
        split at h2
        · obtain ⟨x, e', he⟩ := skip_errs h2; exact ⟨_, he⟩
        · obtain ⟨h2, rfl⟩ := pure_ok.1 h2; cases h2; exact ⟨[], by simp⟩
      obtain ⟨e1', rfl⟩ := he1
      dsimp only at h
      split at h
      · obtain ⟨h, rfl⟩ := pure_ok.1 h; cases h; exact ⟨_, rfl⟩
      · obtain ⟨⟨go, l2, e2⟩, s3, h3, h⟩ := bind_ok.1 h
        obtain ⟨e2', rfl, -⟩ := elem_errs h3
        dsimp only at h
        split at h
        · obtain ⟨e3, he⟩ := loop_errs k h
          exact ⟨e1' ++ e2' ++ e3, by rw [he]; simp⟩
        · obtain ⟨h, rfl⟩ := pure_ok.1 h; cases h; exact ⟨e1' ++ e2', by simp⟩

/-- How calls end that go on up to the end of input. -/
def EndsAll (ext : Fin n → Bool) (S : Schema m n) (t : Ty m n) (p2 p' : Parser n) : Prop :=
  p'.lookahead ext = none ∧ (p' = (p2.peek ext).2 ∨ (p2.lookahead ext ≠ none ∧ ∃ f q,
    p2.parse ext S f t = .ok (.ok none) q ∧ p' = (q.peek ext).2))

theorem look_peek (p : Parser n) : (p.peek ext).2.lookahead ext = p.lookahead ext := by
  have hv := peek_view ext p
  unfold Parser.lookahead
  rw [hv, show (p.peek ext).2.info.source = p.info.source from congrArg View.source hv]

theorem loop_back {md md' : Metadata (PId m n) n} (ha : Alone ext S md md' t) {fuel : Nat}
    (hmd : S.metadata fuel t = some (.ok md')) (hw : ItemsWF source items) {first : TSet n} {f : Nat} :
    ∀ (k : Nat) {out l : List (Tree n)} {p p' : Parser n}, Reached ext source items p →
    loopLoop (Parser.ops ext) first (produce (Parser.ops ext) S md f t) k out [] p = .ok (l, []) p' →
    ∃ xs p2, l = out ++ xs ∧ Calls ext S t p xs p2 ∧
      syntaxErrors p2.info.errors = syntaxErrors p.info.errors ∧ EndsAll ext S t p2 p'
  | 0, _, _, _, _, _, h => nomatch h
  | k + 1, out, l, p, p', hp, h => by
    obtain ⟨tok, s1, h1, h⟩ := bind_ok.1 h
    cases (hp.peekSrc hw).symm.trans h1
    dsimp only at h
    split at h
    · rename_i hnone
      rw [Option.isNone_iff_eq_none] at hnone
      obtain ⟨h, rfl⟩ := pure_ok.1 h
      cases h
      exact ⟨[], p, by simp, .stop _, rfl, (look_peek p).trans hnone, .inl rfl⟩
    · rename_i hsome
      rw [Option.isNone_iff_eq_none] at hsome
      obtain ⟨⟨e1, more⟩, s2, h2, h⟩ := bind_ok.1 h
      dsimp only at h
      have hstart : e1 = [] ∧ more = true ∧ s2 = (p.peek ext).2 := by
        split at h2
        · obtain ⟨x, e', rfl⟩ := skip_errs h2
          exfalso
          split at h
          · cases (pure_ok.1 h).1
          · obtain ⟨⟨go, l2, e2⟩, s3, h3, h⟩ := bind_ok.1 h
            obtain ⟨e2', rfl, -⟩ := elem_errs h3
            dsimp only at h
            split at h
            · obtain ⟨e3, he⟩ := loop_errs k h
              simp at he
            · cases (pure_ok.1 h).1
        · obtain ⟨h2, rfl⟩ := pure_ok.1 h2
          cases h2
          exact ⟨rfl, rfl, rfl⟩
      obtain ⟨rfl, rfl, rfl⟩ := hstart
      rw [if_neg (by simp)] at h
      obtain ⟨⟨go, l2, e2⟩, s3, h3, h⟩ := bind_ok.1 h
      dsimp only at h
      obtain ⟨sp, u1, c1, h3⟩ := bind_ok.1 h3
      cases ((Peeky.currentSpan (peek_peek hp)).trans (currentSpan_eq p)).symm.trans c1
      obtain ⟨r, q, c2, h3⟩ := bind_ok.1 h3
      have c2 := (produce_peek hp md f).symm.trans c2
      obtain ⟨sp2, u2, c3, h3⟩ := bind_ok.1 h3
      cases (currentSpan_eq q).symm.trans c3
      have hq : Reached ext source items q := .produce S md _ t _ hp c2
      have hgo : go = true := by
        cases go with
        | true => rfl
        | false =>
          exfalso
          rw [if_neg (by simp)] at h
          obtain ⟨h, rfl⟩ := pure_ok.1 h
          cases h
          split at h3
          · have := (pure_ok.1 h3).1
            simp at this
          · have := (pure_ok.1 h3).1
            simp at this
      subst hgo
      rw [if_pos rfl] at h
      obtain ⟨e3, he3⟩ := loop_errs k h
      simp only [List.nil_eq_append_iff] at he3
      obtain ⟨rfl, -⟩ := he3
      split at h3
      · have := (pure_ok.1 h3).1
        simp at this
      · obtain ⟨h4, rfl⟩ := pure_ok.1 h3
        have hpk : loopLoop (Parser.ops ext) first (produce (Parser.ops ext) S md f t) k l2 [] (q.peek ext).2 =
            loopLoop (Parser.ops ext) first (produce (Parser.ops ext) S md f t) k l2 [] q := by
          cases k with
          | zero => rfl
          | succ k => exact Peeky.bind (Peeky.peekSrc (peek_peek hq)) _
        have h := hpk.symm.trans h
        have step : ∀ x : Tree n, r.errs = [] → r.tree? = some x → l2 = out ++ [x] → ∃ xs p2, l = out ++ xs ∧
            Calls ext S t p xs p2 ∧ syntaxErrors p2.info.errors = syntaxErrors p.info.errors ∧ EndsAll ext S t p2 p' := by
          intro x he hx hl2
          obtain ⟨xs, p2, g1, g3, g4, g5⟩ := loop_back ha hmd hw k hq h
          obtain ⟨f', c1, c2⟩ := one ha hmd c2 he
          rw [hx] at c1
          exact ⟨x :: xs, p2, by rw [g1, hl2]; simp, .call hsome c1 g3, by rw [g4, c2], g5⟩
        cases r with
        | success x => cases h4; exact step x rfl rfl rfl
        | recovered x d =>
          have hd : d = [] := by simpa using congrArg (·.2.2) h4
          subst hd
          cases h4
          exact step x rfl rfl rfl
        | panic d =>
          have hd : d = [] := by simpa using congrArg (·.2.2) h4
          subst hd
          cases h4
          have hend := C37_end_partial ext S md t p q ⟨f, c2⟩
          obtain ⟨f', c1, c2⟩ := one ha hmd c2 rfl
          cases k with
          | zero => exact nomatch h
          | succ k =>
            obtain ⟨tok, s1, d1, h⟩ := bind_ok.1 h
            cases (hq.peekSrc hw).symm.trans d1
            dsimp only at h
            rw [if_pos (by rw [hend]; rfl)] at h
            obtain ⟨h, rfl⟩ := pure_ok.1 h
            cases h
            exact ⟨[], p, by simp, .stop _, rfl, (look_peek q).trans hend, .inr ⟨hsome, f', q, c1, rfl⟩⟩

end Calls

end Teleparse
