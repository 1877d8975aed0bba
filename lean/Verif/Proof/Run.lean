import Verif.Proof.Parser
/-
A big-step description of what `produce` can do on an abstract stream. Guards (tests of the lookahead)
are left out, so it describes more than what happens; it is used to prove facts about all results. The
main lemma is `run_of_produce`.
-/
namespace Teleparse
variable {m n : Nat}

theorem bind_ok {σ α β : Type} {x : M σ α} {f : α → M σ β} {s s' : σ} {b : β} :
    (x >>= f) s = .ok b s' ↔ ∃ a s1, x s = .ok a s1 ∧ f a s1 = .ok b s' := by
  show M.bind x f s = _ ↔ _
  unfold M.bind
  cases x s with
  | fuel => simp
  | crash => simp
  | ok a s1 =>
    constructor
    · intro h; exact ⟨a, s1, rfl, h⟩
    · rintro ⟨_, _, h1, h2⟩; cases h1; exact h2

theorem pure_ok {σ α : Type} {a b : α} {s s' : σ} :
    (pure a : M σ α) s = .ok b s' ↔ a = b ∧ s = s' := by
  show (Out.ok a s : Out σ α) = _ ↔ _
  simp

/-- Span of the next token, or the end of the source. -/
def View.cur (v : View n) : Span :=
  match v.rest with
  | t :: _ => t.span
  | [] => ⟨v.source.length, v.source.length⟩

/-- Skipping a token (nothing at the end). -/
def View.skip (v : View n) : View n := v.consume.2

def View.apply (v : View n) (sp : Span) (sem : LSet n) : View n :=
  { v with cells := v.cells.applySemanticInside sp sem }

def View.applyAll (v : View n) : List (Tree n × Option (LSet n)) → View n
  | [] => v
  | (_, none) :: l => v.applyAll l
  | (t, some sem) :: l => (v.apply t.span sem).applyAll l

/-- What `peek_token_src` reads. -/
def View.look (v : View n) : Option (TokenSrc n) :=
  v.rest.head?.map fun t => t.toSrc v.source

section ops
variable {v v' : View n}

theorem mPeek_ok {x : Option (Token n)} :
    (View.ops (n := n)).mPeek v = .ok x v' ↔ x = v.rest.head? ∧ v' = v := by
  simp [Ops.mPeek, View.ops, eq_comm]

theorem mConsume_ok {x : Option (Token n)} :
    (View.ops (n := n)).mConsume v = .ok x v' ↔ x = v.rest.head? ∧ v' = v.skip := by
  unfold Ops.mConsume View.skip
  simp only [View.ops, View.consume]
  cases v.rest <;> simp [eq_comm]

theorem mSource_ok {x : Str} :
    (View.ops (n := n)).mSource v = .ok x v' ↔ x = v.source ∧ v' = v := by
  simp [Ops.mSource, View.ops, eq_comm]

theorem mEmptySpan_ok {x : Span} :
    (View.ops (n := n)).mEmptySpan v = .ok x v' ↔ x = ⟨v.pos, v.pos⟩ ∧ v' = v := by
  simp [Ops.mEmptySpan, View.ops, eq_comm]

theorem mApply_ok {sp : Span} {sem : LSet n} {x : Unit} :
    (View.ops (n := n)).mApply sp sem v = .ok x v' ↔ v' = v.apply sp sem := by
  simp [Ops.mApply, View.ops, View.apply, eq_comm]

theorem mGetSrc_ok {sp : Span} {x : Str} :
    (View.ops (n := n)).mGetSrc sp v = .ok x v' ↔ sp.get? v.source = some x ∧ v' = v := by
  unfold Ops.mGetSrc
  simp only [bind_ok, mSource_ok]
  constructor
  · rintro ⟨a, s1, ⟨rfl, rfl⟩, h⟩
    cases hg : sp.get? s1.source with
    | none => rw [hg] at h; cases h
    | some s =>
      rw [hg] at h
      rw [pure_ok] at h
      exact ⟨by rw [h.1], h.2.symm⟩
  · rintro ⟨h, rfl⟩
    refine ⟨_, _, ⟨rfl, rfl⟩, ?_⟩
    rw [h]; rfl

theorem mPeekSrc_ok {x : Option (TokenSrc n)} :
    (View.ops (n := n)).mPeekSrc v = .ok x v' ↔
      x = v.look ∧ v' = v ∧ ∀ t ∈ v.rest.head?, (t.span.get? v.source).isSome = true := by
  unfold Ops.mPeekSrc
  simp only [bind_ok, mPeek_ok]
  constructor
  · rintro ⟨a, s1, ⟨rfl, rfl⟩, h⟩
    cases hr : s1.rest.head? with
    | none =>
      rw [hr] at h
      rw [pure_ok] at h
      obtain ⟨rfl, rfl⟩ := h
      simp [View.look, hr]
    | some t =>
      rw [hr] at h
      simp only [bind_ok, mGetSrc_ok, pure_ok] at h
      obtain ⟨s, _, ⟨h1, rfl⟩, h2, rfl⟩ := h
      refine ⟨?_, rfl, ?_⟩
      · simp [View.look, hr, ← h2, Token.toSrc, Token.src, Span.get, h1]
      · intro t' ht'
        cases ht'
        simp [h1]
  · rintro ⟨rfl, rfl, h⟩
    refine ⟨_, _, ⟨rfl, rfl⟩, ?_⟩
    cases hr : v'.rest.head? with
    | none => simp [View.look, hr, pure_ok]
    | some t =>
      simp only [bind_ok, mGetSrc_ok, pure_ok]
      have := h t (by rw [hr]; rfl)
      obtain ⟨s, hs⟩ := Option.isSome_iff_exists.1 this
      exact ⟨s, v', ⟨hs, rfl⟩, by simp [View.look, hr, Token.toSrc, Token.src, Span.get, hs], rfl⟩

theorem mCurrentSpan_ok {x : Span} :
    (View.ops (n := n)).mCurrentSpan v = .ok x v' ↔ x = v.cur ∧ v' = v := by
  unfold Ops.mCurrentSpan
  simp only [bind_ok, mPeek_ok]
  constructor
  · rintro ⟨a, s1, ⟨rfl, rfl⟩, h⟩
    cases hr : s1.rest with
    | nil =>
      simp only [hr, List.head?_nil, bind_ok, mSource_ok, pure_ok] at h
      obtain ⟨a, b, ⟨rfl, rfl⟩, rfl, rfl⟩ := h
      simp [View.cur, hr]
    | cons t l =>
      simp only [hr, List.head?_cons, pure_ok] at h
      obtain ⟨rfl, rfl⟩ := h
      simp [View.cur, hr]
  · rintro ⟨rfl, rfl⟩
    refine ⟨_, _, ⟨rfl, rfl⟩, ?_⟩
    cases hr : v'.rest with
    | nil =>
      simp only [List.head?_nil, bind_ok, mSource_ok, pure_ok]
      exact ⟨_, _, ⟨rfl, rfl⟩, by simp [View.cur, hr], rfl⟩
    | cons t l => simp [View.cur, hr, pure_ok]

theorem mExpecting_ok {s : TSet n} {x : Err n} :
    (View.ops (n := n)).mExpecting s v = .ok x v' ↔ x = ⟨v.cur, .expecting s⟩ ∧ v' = v := by
  unfold Ops.mExpecting
  simp only [bind_ok, mCurrentSpan_ok, pure_ok]
  constructor
  · rintro ⟨a, b, ⟨rfl, rfl⟩, rfl, rfl⟩; exact ⟨rfl, rfl⟩
  · rintro ⟨rfl, rfl⟩; exact ⟨_, _, ⟨rfl, rfl⟩, rfl, rfl⟩

theorem mUnexpectedEof_ok {x : Err n} :
    (View.ops (n := n)).mUnexpectedEof v = .ok x v' ↔ x = ⟨v.cur, .unexpectedEof⟩ ∧ v' = v := by
  unfold Ops.mUnexpectedEof
  simp only [bind_ok, mCurrentSpan_ok, pure_ok]
  constructor
  · rintro ⟨a, b, ⟨rfl, rfl⟩, rfl, rfl⟩; exact ⟨rfl, rfl⟩
  · rintro ⟨rfl, rfl⟩; exact ⟨_, _, ⟨rfl, rfl⟩, rfl, rfl⟩

theorem applyFields_ok {l : List (Tree n × Option (LSet n))} {x : Unit} :
    applyFields View.ops l v = .ok x v' ↔ v' = v.applyAll l := by
  induction l generalizing v with
  | nil => simp [applyFields, View.applyAll, pure_ok, eq_comm]
  | cons a l ih =>
    obtain ⟨t, sem⟩ := a
    cases sem with
    | none => simp [applyFields, View.applyAll, ih]
    | some sem =>
      simp only [applyFields, View.applyAll, bind_ok, mApply_ok, ih]
      constructor
      · rintro ⟨_, _, rfl, rfl⟩; rfl
      · rintro rfl; exact ⟨(), _, rfl, rfl⟩

end ops

/-- The result has a tree `x` and errors `e`. -/
inductive Res.Gives {α : Type} : Res n α → α → List (Err n) → Prop
  | success (x) : Res.Gives (.success x) x []
  | recovered (x e) : Res.Gives (.recovered x e) x e

/-- One or more tokens are skipped. -/
inductive Skips : View n → View n → Prop
  | one {v} : v.rest ≠ [] → Skips v v.skip
  | more {v w} : Skips v w → w.rest ≠ [] → Skips v w.skip

/-- The pending error before a token is skipped. -/
inductive Note : View n → Option (Err n) → Option (Err n) → Prop
  | new (v s) : Note v none (some ⟨v.cur, .expecting s⟩)
  | ext (v p) : Note v (some p) (some { p with span := { p.span with hi := v.cur.hi } })

/-- Types implemented with `produce_option`. -/
inductive OptLike : Ty m n → Ty m n → (Span → Option (Tree n) → Tree n) → Prop
  | option (t) : OptLike (.option t) t mkOption
  | exist (t) : OptLike (.exist t) t mkExists
  | star (t) : OptLike (.star t) (.plus t) mkStar

inductive TextLike : Ty m n → Ty m n → Prop
  | quote (t) : TextLike (.quote t) t
  | parse (t) : TextLike (.parse t) t

inductive TupLike : Ty m n → List (Ty m n) → Prop
  | tup2 (a b) : TupLike (.tup2 a b) [a, b]
  | tup3 (a b c) : TupLike (.tup3 a b c) [a, b, c]
  | tup4 (a b c d) : TupLike (.tup4 a b c d) [a, b, c, d]
  | tup5 (a b c d e) : TupLike (.tup5 a b c d e) [a, b, c, d, e]

/-- What is described. -/
inductive Judg (m n : Nat) where
  | ty (t : Ty m n) (v : View n) (r : Res n (Tree n)) (v' : View n)
  | seq (ts : List (Ty m n)) (v : View n) (acc : List (Tree n)) (errs : List (Err n))
      (r : Except (List (Err n)) (List (Tree n) × List (Err n))) (v' : View n)
  | iter (t : Ty m n) (v : View n) (acc : List (Tree n)) (errs : List (Err n)) (hi : Nat)
      (acc' : List (Tree n)) (errs' : List (Err n)) (hi' : Nat) (v' : View n)
  | loop (t : Ty m n) (v : View n) (out : List (Tree n)) (errs : List (Err n)) (out' : List (Tree n))
      (errs' : List (Err n)) (v' : View n)
  | inner (t : Ty m n) (q : Tree n) (v : View n) (a : Acc n) (panic : Option (Err n)) (go : Bool)
      (a' : Acc n) (v' : View n)
  | outer (t p : Ty m n) (v : View n) (a a' : Acc n) (v' : View n)
  | pinner (t : Ty m n) (v : View n) (a : Acc n) (panic : Option (Err n)) (go : Bool) (a' : Acc n)
      (v' : View n)
  | pouter (t p : Ty m n) (v : View n) (a a' : Acc n) (v' : View n)
  | head (t : Ty m n) (v : View n) (h : RHead n) (v' : View n)
  | tail (r : Ty m n) (v : View n) (errs : List (Err n)) (panic : Option (Err n))
      (x : Option (Tree n)) (errs' : List (Err n)) (panic' : Option (Err n)) (v' : View n)

inductive RunX (fx : Bool) (S : Schema m n) : Judg m n → Prop
  -- terminals
  | tok {i k v t l} : v.rest = t :: l → t.ty = k.ty →
      (∀ lit, k.lit = some lit → t.span.get? v.source = some lit) →
      RunX fx S (.ty (.term i k) v (.success (.tok t)) v.skip)
  | tokRecovered {i k v lit sp s} : k.lit = some lit →
      (sp = ⟨v.pos, v.pos⟩ ∨ (v.rest = [] ∧ sp = ⟨v.source.length, v.source.length⟩)) →
      RunX fx S (.ty (.term i k) v (.recovered (.tok ⟨sp, k.ty⟩) [⟨v.cur, .expecting s⟩]) v)
  | tokPanic {i k v} {e : ErrKind n} : e ≠ .unexpectedCharacters →
      RunX fx S (.ty (.term i k) v (.panic [⟨v.cur, e⟩]) v)
  -- sequences
  | seqNil {v acc errs} : RunX fx S (.seq [] v acc errs (.ok (acc, errs)) v)
  | seqGive {t ts v acc errs r x e v1 res v'} : RunX fx S (.ty t v r v1) → r.Gives x e →
      RunX fx S (.seq ts v1 (acc ++ [x]) (errs ++ e) res v') → RunX fx S (.seq (t :: ts) v acc errs res v')
  | seqPanic {t ts v acc errs e v1} : RunX fx S (.ty t v (.panic e) v1) →
      RunX fx S (.seq (t :: ts) v acc errs (.error (errs ++ e)) v1)
  | struct {k f fs v l errs v1} : S k = .struct f fs →
      RunX fx S (.seq ((f :: fs).map (·.1)) v [] [] (.ok (l, errs)) v1) →
      RunX fx S (.ty (.user k) v (Res.ofPair (.seq (spanOf l) l) errs)
        (v1.applyAll (l.zip ((f :: fs).map (·.2)))))
  | structPanic {k f fs v e v1} : S k = .struct f fs →
      RunX fx S (.seq ((f :: fs).map (·.1)) v [] [] (.error e) v1) → RunX fx S (.ty (.user k) v (.panic e) v1)
  | tuple {t ts v l errs v1} : TupLike t ts → RunX fx S (.seq ts v [] [] (.ok (l, errs)) v1) →
      RunX fx S (.ty t v (Res.ofPair (.seq (spanOf l) l) errs) v1)
  | tuplePanic {t ts v e v1} : TupLike t ts → RunX fx S (.seq ts v [] [] (.error e) v1) →
      RunX fx S (.ty t v (.panic e) v1)
  -- enums
  | enumSuccess {k f fs i t sem v x v1} : S k = .enum f fs → (f :: fs)[(i : Nat)]? = some (t, sem) →
      RunX fx S (.ty t v (.success x) v1) →
      RunX fx S (.ty (.user k) v (.success (.variant i x)) (v1.applyAll [(x, sem)]))
  | enumRecovered {k f fs i t sem v x e v1} : S k = .enum f fs →
      (f :: fs)[(i : Nat)]? = some (t, sem) → RunX fx S (.ty t v (.recovered x e) v1) →
      RunX fx S (.ty (.user k) v (.recovered (.variant i x) e) (v1.applyAll [(x, sem)]))
  | enumPanic {k f fs i t sem v e v1} : S k = .enum f fs → (f :: fs)[(i : Nat)]? = some (t, sem) →
      RunX fx S (.ty t v (.panic e) v1) → RunX fx S (.ty (.user k) v (.panic e) v1)
  | enumNone {k f fs v s} : S k = .enum f fs →
      RunX fx S (.ty (.user k) v (.panic [⟨v.cur, .expecting s⟩]) v)
  -- wrappers
  | box {t v r v1} : RunX fx S (.ty t v r v1) → RunX fx S (.ty (.box t) v r v1)
  | optNone {t' t mk v} : OptLike t' t mk → RunX fx S (.ty t' v (.success (mk ⟨v.pos, v.pos⟩ none)) v)
  | optSuccess {t' t mk v x v1} : OptLike t' t mk → RunX fx S (.ty t v (.success x) v1) →
      RunX fx S (.ty t' v (.success (mk x.span (some x))) v1)
  | optRecovered {t' t mk v x e v1} : OptLike t' t mk → RunX fx S (.ty t v (.recovered x e) v1) →
      RunX fx S (.ty t' v (.recovered (mk x.span (some x)) e) v1)
  | optPanic {t' t mk v e v1} : OptLike t' t mk → RunX fx S (.ty t v (.panic e) v1) →
      RunX fx S (.ty t' v (.recovered (mk ⟨v1.pos, v1.pos⟩ none) e) v1)
  | textSuccess {t' t v x s v1} : TextLike t' t → RunX fx S (.ty t v (.success x) v1) →
      x.span.get? v1.source = some s → RunX fx S (.ty t' v (.success (.text x.span s)) v1)
  | textRecovered {t' t v x s e v1} : TextLike t' t → RunX fx S (.ty t v (.recovered x e) v1) →
      x.span.get? v1.source = some s → RunX fx S (.ty t' v (.recovered (.text x.span s) e) v1)
  | textPanic {t' t v e v1} : TextLike t' t → RunX fx S (.ty t v (.panic e) v1) →
      RunX fx S (.ty t' v (.panic e) v1)
  -- one or more
  | plus {t v r x e v1 l errs hi v'} : RunX fx S (.ty t v r v1) → r.Gives x e →
      RunX fx S (.iter t v1 [x] e x.span.hi l errs hi v') →
      RunX fx S (.ty (.plus t) v (Res.ofPair (.list ⟨x.span.lo, hi⟩ l) errs) v')
  | plusPanic {t v e v1} : RunX fx S (.ty t v (.panic e) v1) → RunX fx S (.ty (.plus t) v (.panic e) v1)
  | iterStop {t v acc errs hi} : RunX fx S (.iter t v acc errs hi acc errs hi v)
  | iterGive {t v acc errs hi r x e v1 acc' errs' hi' v'} : v.rest ≠ [] → RunX fx S (.ty t v r v1) →
      r.Gives x e → RunX fx S (.iter t v1 (acc ++ [x]) (errs ++ e) x.span.hi acc' errs' hi' v') →
      RunX fx S (.iter t v acc errs hi acc' errs' hi' v')
  | iterPanic {t v acc errs hi e v1} : RunX fx S (.ty t v (.panic e) v1) →
      RunX fx S (.iter t v acc errs hi acc (errs ++ e) hi v1)
  -- loop
  | loopEmpty {t v errs v'} : RunX fx S (.loop t v [] [] [] errs v') →
      RunX fx S (.ty (.loop t) v (Res.ofPair (.list ⟨v'.pos, v'.pos⟩ []) errs) v')
  | loopList {t v out errs v'} : RunX fx S (.loop t v [] [] out errs v') → out ≠ [] →
      RunX fx S (.ty (.loop t) v (Res.ofPair (.list (spanOf out) out) errs) v')
  | loopStop {t v out errs} : v.rest = [] → RunX fx S (.loop t v out errs out errs v)
  | loopSkip {t v out errs v1 out' errs' v'} : Skips v v1 →
      RunX fx S (.loop t v1 out (errs ++ [⟨⟨v.cur.lo, v1.pos⟩, .unexpectedTokens⟩]) out' errs' v') →
      RunX fx S (.loop t v out errs out' errs' v')
  | loopGive {t v out errs r x e v1 out' errs' v'} : RunX fx S (.ty t v r v1) → r.Gives x e →
      RunX fx S (.loop t v1 (out ++ [x]) (errs ++ e) out' errs' v') →
      RunX fx S (.loop t v out errs out' errs' v')
  | loopPanic {t v out errs e v1 out' errs' v'} : RunX fx S (.ty t v (.panic e) v1) →
      RunX fx S (.loop t v1 out (errs ++ e) out' errs' v') →
      RunX fx S (.loop t v out errs out' errs' v')
  | loopGiveStuck {t v out errs r x e v1} : RunX fx S (.ty t v r v1) → r.Gives x e →
      RunX fx S (.loop t v out errs (out ++ [x]) (errs ++ e ++ [⟨v1.cur, .noAdvance⟩]) v1)
  | loopPanicStuck {t v out errs e v1} : RunX fx S (.ty t v (.panic e) v1) →
      RunX fx S (.loop t v out errs out (errs ++ e ++ [⟨v1.cur, .noAdvance⟩]) v1)
  -- split
  | split {t p v r x e v1 a v'} : RunX fx S (.ty t v r v1) → r.Gives x e →
      RunX fx S (.outer t p v1 ⟨[x], [], e⟩ a v') → RunX fx S (.ty (.split t p) v (splitDone x.span.lo a) v')
  | splitPanic {t p v e v1} : RunX fx S (.ty t v (.panic e) v1) →
      RunX fx S (.ty (.split t p) v (.panic e) v1)
  | outerStop {t p v a} : RunX fx S (.outer t p v a a v)
  | outerPanic {t p v a e v1} : RunX fx S (.ty p v (.panic e) v1) →
      RunX fx S (.outer t p v a { a with errs := a.errs ++ e } v1)
  | outerGo {t p v a r q e v1 a1 v2 a' v'} : v.rest ≠ [] → RunX fx S (.ty p v r v1) → r.Gives q e →
      RunX fx S (.inner t q v1 { a with errs := a.errs ++ e } none true a1 v2) →
      RunX fx S (.outer t p v2 a1 a' v') → RunX fx S (.outer t p v a a' v')
  | outerBreak {t p v a r q e v1 a1 v2} : v.rest ≠ [] → RunX fx S (.ty p v r v1) → r.Gives q e →
      RunX fx S (.inner t q v1 { a with errs := a.errs ++ e } none false a1 v2) →
      RunX fx S (.outer t p v a a1 v2)
  | innerGive {t q v a panic r x e v1} : RunX fx S (.ty t v r v1) → r.Gives x e →
      RunX fx S (.inner t q v a panic true
        ⟨a.elems ++ [x], a.puncts ++ [q], a.errs ++ e ++ panic.toList⟩ v1)
  | innerFailLeave {t q v a panic e v1 go} : RunX fx S (.ty t v (.panic e) v1) →
      RunX fx S (.inner t q v a panic go { a with errs := a.errs ++ (mergePanic panic e).toList } v1)
  | innerFailGo {t q v a panic e v1 go a' v'} : RunX fx S (.ty t v (.panic e) v1) →
      RunX fx S (.inner t q v1.skip a (mergePanic panic e) go a' v') →
      RunX fx S (.inner t q v a panic go a' v')
  | innerNoteLeave {t q v a panic panic1 go} : Note v panic panic1 →
      RunX fx S (.inner t q v a panic go { a with errs := a.errs ++ panic1.toList } v)
  | innerNoteGo {t q v a panic panic1 go a' v'} : Note v panic panic1 →
      RunX fx S (.inner t q v.skip a panic1 go a' v') → RunX fx S (.inner t q v a panic go a' v')
  -- punct
  | punct {t p v r x e v1 a v'} : RunX fx S (.ty t v r v1) → r.Gives x e →
      RunX fx S (.pouter t p v1 ⟨[x], [], e⟩ a v') → RunX fx S (.ty (.punct t p) v (punctDone x.span.lo a) v')
  | punctPanic {t p v e v1} : RunX fx S (.ty t v (.panic e) v1) →
      RunX fx S (.ty (.punct t p) v (.panic e) v1)
  | pouterStop {t p v a} : RunX fx S (.pouter t p v a a v)
  | pouterPanic {t p v a e v1} : RunX fx S (.ty p v (.panic e) v1) →
      RunX fx S (.pouter t p v a { a with errs := a.errs ++ e } v1)
  | pouterGo {t p v a r q e v1 a1 v2 a' v'} : v.rest ≠ [] → RunX fx S (.ty p v r v1) → r.Gives q e →
      RunX fx S (.pinner t v1 ⟨a.elems, a.puncts ++ [q], a.errs ++ e⟩ none true a1 v2) →
      RunX fx S (.pouter t p v2 a1 a' v') → RunX fx S (.pouter t p v a a' v')
  | pouterBreak {t p v a r q e v1 a1 v2} : v.rest ≠ [] → RunX fx S (.ty p v r v1) → r.Gives q e →
      RunX fx S (.pinner t v1 ⟨a.elems, a.puncts ++ [q], a.errs ++ e⟩ none false a1 v2) →
      RunX fx S (.pouter t p v a a1 v2)
  | pinnerGive {t v a panic r x e v1} : RunX fx S (.ty t v r v1) → r.Gives x e →
      RunX fx S (.pinner t v a panic true ⟨a.elems ++ [x], a.puncts, a.errs ++ panic.toList ++ e⟩ v1)
  | pinnerStop {t v a panic} :
      RunX fx S (.pinner t v a panic false { a with errs := a.errs ++ panic.toList } v)
  | pinnerFailLeave {t v a panic e v1 go} : RunX fx S (.ty t v (.panic e) v1) →
      RunX fx S (.pinner t v a panic go { a with errs := a.errs ++ (mergePanic panic e).toList } v1)
  | pinnerFailGo {t v a panic e v1 go a' v'} : RunX fx S (.ty t v (.panic e) v1) →
      RunX fx S (.pinner t v1.skip a (mergePanic panic e) go a' v') →
      RunX fx S (.pinner t v a panic go a' v')
  | pinnerNoteLeave {t v a panic panic1 go} : Note v panic panic1 →
      RunX fx S (.pinner t v a panic go { a with errs := a.errs ++ panic1.toList } v)
  | pinnerNoteGo {t v a panic panic1 go a' v'} : Note v panic panic1 →
      RunX fx S (.pinner t v.skip a panic1 go a' v') → RunX fx S (.pinner t v a panic go a' v')
  -- recover
  | recover {t r v h v1 x errs panic v'} : RunX fx S (.head t v h v1) →
      RunX fx S (.tail r v1 h.errs h.panic (some x) errs panic v') →
      RunX fx S (.ty (.recover t r) v (Res.ofPair (mkRecover h x) (errs ++ panic.toList)) v')
  | recoverPanic {t r v h v1 errs panic v'} : RunX fx S (.head t v h v1) →
      RunX fx S (.tail r v1 h.errs h.panic none errs panic v') →
      RunX fx S (.ty (.recover t r) v (.panic (errs ++ panic.toList)) v')
  | headGive {t v r x e v1} : RunX fx S (.ty t v r v1) → r.Gives x e →
      RunX fx S (.head t v ⟨e, none, x.span, some x⟩ v1)
  | headPanic {t v e v1} : RunX fx S (.ty t v (.panic e) v1) →
      RunX fx S (.head t v ⟨[], e.getLast?, ⟨v1.pos, v1.pos⟩, none⟩ v1)
  | headNone {t v s} :
      RunX fx S (.head t v ⟨[], some ⟨v.cur, .expecting s⟩, ⟨v.pos, v.pos⟩, none⟩ v)
  | tailGive {t v errs panic r x e v1} : RunX fx S (.ty t v r v1) → r.Gives x e →
      RunX fx S (.tail t v errs panic (some x) (errs ++ e) panic v1)
  | tailPanic {t v errs panic e v1} : v.rest = [] → RunX fx S (.ty t v (.panic e) v1) →
      RunX fx S (.tail t v errs panic none errs (mergePanic panic e) v1)
  | tailStop {t v errs panic} : v.rest = [] → (fx = true → panic ≠ none) →
      RunX fx S (.tail t v errs panic none errs panic v)
  | tailNote {t v errs s} : fx = true → v.rest = [] →
      RunX fx S (.tail t v errs none none errs (some ⟨v.cur, .expecting s⟩) v)
  | tailFail {t v errs panic e v1 panic1 x errs' panic' v'} : v.rest ≠ [] →
      RunX fx S (.ty t v (.panic e) v1) →
      Note v1 (mergePanic panic e) panic1 → RunX fx S (.tail t v1.skip errs panic1 x errs' panic' v') →
      RunX fx S (.tail t v errs panic x errs' panic' v')
  | tailSkip {t v errs panic panic1 x errs' panic' v'} : v.rest ≠ [] → Note v panic panic1 →
      RunX fx S (.tail t v.skip errs panic1 x errs' panic' v') →
      RunX fx S (.tail t v errs panic x errs' panic' v')

/-- Of the code as it is. -/
abbrev Run (S : Schema m n) : Judg m n → Prop := RunX false S

section
variable {fx : Bool} {S : Schema m n} {v v' : View n}

/-- All results of a computation for a type are described. -/
def DescX (fx : Bool) (S : Schema m n) (p : P (View n) n) (t : Ty m n) : Prop :=
  ∀ v r v', p v = .ok r v' → RunX fx S (.ty t v r v')

abbrev Desc (S : Schema m n) (p : P (View n) n) (t : Ty m n) : Prop := DescX false S p t

theorem desc_term (i : Nat) (k : Terminal n) (follow : TSet n) :
    DescX fx S (produceTerm View.ops k follow) (.term i k) := by
  intro v r v' h
  unfold produceTerm at h
  cases hl : k.lit with
  | none =>
    simp only [hl, bind_ok, pure_ok] at h
    obtain ⟨r1, v1, h, rfl, rfl⟩ := h
    unfold Ops.parseToken at h
    simp only [bind_ok, mPeek_ok] at h
    obtain ⟨x, _, ⟨rfl, rfl⟩, h⟩ := h
    rename_i v
    cases hr : v.rest with
    | nil =>
      simp only [hr, List.head?_nil, bind_ok, mExpecting_ok, pure_ok] at h
      obtain ⟨e, _, ⟨rfl, rfl⟩, rfl, rfl⟩ := h
      exact .tokPanic (by simp)
    | cons t l =>
      simp only [hr, List.head?_cons] at h
      split at h
      · rename_i ht
        simp only [bind_ok, mConsume_ok, pure_ok] at h
        obtain ⟨_, _, ⟨rfl, rfl⟩, rfl, rfl⟩ := h
        exact .tok hr ht (by simp [hl])
      · simp only [bind_ok, mExpecting_ok, pure_ok] at h
        obtain ⟨e, _, ⟨rfl, rfl⟩, rfl, rfl⟩ := h
        exact .tokPanic (by simp)
  | some lit =>
    simp only [hl, bind_ok, pure_ok] at h
    obtain ⟨r1, v1, h, rfl, rfl⟩ := h
    unfold Ops.parseTokenLit at h
    simp only [bind_ok, mPeek_ok] at h
    obtain ⟨x, _, ⟨rfl, rfl⟩, h⟩ := h
    rename_i v
    cases hr : v.rest with
    | nil =>
      simp only [hr, List.head?_nil] at h
      split at h
      · simp only [bind_ok, mCurrentSpan_ok, mExpecting_ok, pure_ok] at h
        obtain ⟨_, _, ⟨rfl, rfl⟩, e, _, ⟨rfl, rfl⟩, rfl, rfl⟩ := h
        exact .tokRecovered hl (.inr ⟨hr, by simp [View.cur, hr]⟩)
      · simp only [bind_ok, mUnexpectedEof_ok, pure_ok] at h
        obtain ⟨e, _, ⟨rfl, rfl⟩, rfl, rfl⟩ := h
        exact .tokPanic (by simp)
    | cons t l =>
      simp only [hr, List.head?_cons, bind_ok, mGetSrc_ok] at h
      obtain ⟨src, _, ⟨hs, rfl⟩, h⟩ := h
      split at h
      · rename_i ht
        simp only [bind_ok, mConsume_ok, pure_ok] at h
        obtain ⟨_, _, ⟨rfl, rfl⟩, rfl, rfl⟩ := h
        refine .tok hr ht.1 ?_
        intro lit' hl'
        rw [hl] at hl'
        cases hl'
        rw [hs, ht.2]
      · split at h
        · simp only [bind_ok, mEmptySpan_ok, mExpecting_ok, pure_ok] at h
          obtain ⟨_, _, ⟨rfl, rfl⟩, e, _, ⟨rfl, rfl⟩, rfl, rfl⟩ := h
          exact .tokRecovered hl (.inl rfl)
        · simp only [bind_ok, mExpecting_ok, pure_ok] at h
          obtain ⟨e, _, ⟨rfl, rfl⟩, rfl, rfl⟩ := h
          exact .tokPanic (by simp)

theorem run_seq {α : Type} (f : α → P (View n) n) (g : α → Ty m n) (l : List α)
    (h : ∀ a ∈ l, DescX fx S (f a) (g a)) :
    ∀ (v : View n) acc errs r v', seqLoop (l.map f) acc errs v = .ok r v' →
      RunX fx S (.seq (l.map g) v acc errs r v') := by
  induction l with
  | nil =>
    intro v acc errs r v' hr
    simp only [List.map_nil, seqLoop, pure_ok] at hr
    obtain ⟨rfl, rfl⟩ := hr
    exact .seqNil
  | cons a l ih =>
    intro v acc errs r v' hr
    simp only [List.map_cons, seqLoop, bind_ok] at hr
    obtain ⟨r1, v1, h1, h2⟩ := hr
    have hd := h a (List.mem_cons_self ..) _ _ _ h1
    have ih := ih (fun b hb => h b (List.mem_cons_of_mem _ hb))
    cases r1 with
    | success x =>
      have := ih _ _ _ _ _ h2
      exact .seqGive hd (.success x) (by simpa using this)
    | recovered x e => exact .seqGive hd (.recovered x e) (ih _ _ _ _ _ h2)
    | panic e =>
      simp only [pure_ok] at h2
      obtain ⟨rfl, rfl⟩ := h2
      exact .seqPanic hd

theorem desc_tuple {t : Ty m n} {ts : List (Ty m n)} (ht : TupLike t ts) {f : Ty m n → P (View n) n}
    (h : ∀ t, DescX fx S (f t) t) : DescX fx S (produceTuple (ts.map f)) t := by
  intro v r v' hr
  simp only [produceTuple, bind_ok] at hr
  obtain ⟨r1, v1, h1, h2⟩ := hr
  have hs := run_seq f id ts (fun a _ => h a) _ _ _ _ _ h1
  rw [List.map_id] at hs
  cases r1 with
  | error e =>
    simp only [pure_ok] at h2
    obtain ⟨rfl, rfl⟩ := h2
    exact .tuplePanic ht hs
  | ok p =>
    simp only [pure_ok] at h2
    obtain ⟨rfl, rfl⟩ := h2
    exact .tuple ht hs

theorem desc_struct {k : Fin m} {fd : Field m n} {fs : List (Field m n)} (hk : S k = .struct fd fs)
    {f : Ty m n → P (View n) n} (h : ∀ t, DescX fx S (f t) t) :
    DescX fx S (produceStruct View.ops ((fd :: fs).map fun x => (f x.1, x.2))) (.user k) := by
  intro v r v' hr
  simp only [produceStruct, bind_ok, List.map_map] at hr
  obtain ⟨r1, v1, h1, h2⟩ := hr
  have hs := run_seq (fun x : Field m n => f x.1) (fun x => x.1) (fd :: fs) (fun a _ => h a.1) _ _ _ _ _
    (by simpa [Function.comp_def] using h1)
  cases r1 with
  | error e =>
    simp only [pure_ok] at h2
    obtain ⟨rfl, rfl⟩ := h2
    exact .structPanic hk hs
  | ok p =>
    obtain ⟨l, errs⟩ := p
    simp only [bind_ok, applyFields_ok, pure_ok] at h2
    obtain ⟨_, _, rfl, rfl, rfl⟩ := h2
    exact .struct hk hs

theorem desc_enum {k : Fin m} {fd : Field m n} {fs : List (Field m n)} (hk : S k = .enum fd fs)
    {f : Ty m n → P (View n) n} (h : ∀ t, DescX fx S (f t) t) (look : Option (TokenSrc n) → Option Nat)
    (first : TSet n) :
    DescX fx S (produceEnum View.ops look first ((fd :: fs).map fun x => (f x.1, x.2))) (.user k) := by
  intro v r v' hr
  simp only [produceEnum, bind_ok, mPeekSrc_ok] at hr
  obtain ⟨tok, _, ⟨rfl, rfl, -⟩, hr⟩ := hr
  rename_i v
  cases hl : look v.look with
  | none =>
    simp only [hl, bind_ok, mExpecting_ok, pure_ok] at hr
    obtain ⟨_, _, ⟨rfl, rfl⟩, rfl, rfl⟩ := hr
    exact .enumNone hk
  | some i =>
    simp only [hl] at hr
    rw [List.getElem?_map] at hr
    cases hi : (fd :: fs)[i]? with
    | none =>
      simp only [hi, Option.map_none, bind_ok, mExpecting_ok, pure_ok] at hr
      obtain ⟨_, _, ⟨rfl, rfl⟩, rfl, rfl⟩ := hr
      exact .enumNone hk
    | some x =>
      obtain ⟨t, sem⟩ := x
      simp only [hi, Option.map_some, bind_ok] at hr
      obtain ⟨r1, v1, h1, h2⟩ := hr
      have hd := h t _ _ _ h1
      cases r1 with
      | success x =>
        simp only [mapVariant, bind_ok, applyFields_ok, pure_ok] at h2
        obtain ⟨_, _, rfl, rfl, rfl⟩ := h2
        exact .enumSuccess hk hi hd
      | recovered x e =>
        simp only [mapVariant, bind_ok, applyFields_ok, pure_ok] at h2
        obtain ⟨_, _, rfl, rfl, rfl⟩ := h2
        exact .enumRecovered hk hi hd
      | panic e =>
        simp only [mapVariant, pure_ok] at h2
        obtain ⟨rfl, rfl⟩ := h2
        exact .enumPanic hk hi hd

theorem desc_option {t' t : Ty m n} {mk : Span → Option (Tree n) → Tree n} (ho : OptLike t' t mk)
    {p : P (View n) n} (h : DescX fx S p t) (first : TSet n) :
    DescX fx S (produceOption View.ops first p mk) t' := by
  intro v r v' hr
  simp only [produceOption, bind_ok, mPeekSrc_ok] at hr
  obtain ⟨tok, _, ⟨rfl, rfl, -⟩, hr⟩ := hr
  rename_i v
  split at hr
  · simp only [bind_ok] at hr
    obtain ⟨r1, v1, h1, h2⟩ := hr
    have hd := h _ _ _ h1
    cases r1 with
    | success x =>
      simp only [pure_ok] at h2
      obtain ⟨rfl, rfl⟩ := h2
      exact .optSuccess ho hd
    | recovered x e =>
      simp only [pure_ok] at h2
      obtain ⟨rfl, rfl⟩ := h2
      exact .optRecovered ho hd
    | panic e =>
      simp only [bind_ok, mEmptySpan_ok, pure_ok] at h2
      obtain ⟨_, _, ⟨rfl, rfl⟩, rfl, rfl⟩ := h2
      exact .optPanic ho hd
  · simp only [bind_ok, mEmptySpan_ok, pure_ok] at hr
    obtain ⟨_, _, ⟨rfl, rfl⟩, rfl, rfl⟩ := hr
    exact .optNone ho

theorem desc_text {t' t : Ty m n} (ho : TextLike t' t) {p : P (View n) n} (h : DescX fx S p t) :
    DescX fx S (produceText View.ops p) t' := by
  intro v r v' hr
  simp only [produceText, bind_ok] at hr
  obtain ⟨r1, v1, h1, h2⟩ := hr
  have hd := h _ _ _ h1
  cases r1 with
  | success x =>
    simp only [bind_ok, mGetSrc_ok, pure_ok] at h2
    obtain ⟨_, _, ⟨hs, rfl⟩, rfl, rfl⟩ := h2
    exact .textSuccess ho hd hs
  | recovered x e =>
    simp only [bind_ok, mGetSrc_ok, pure_ok] at h2
    obtain ⟨_, _, ⟨hs, rfl⟩, rfl, rfl⟩ := h2
    exact .textRecovered ho hd hs
  | panic e =>
    simp only [pure_ok] at h2
    obtain ⟨rfl, rfl⟩ := h2
    exact .textPanic ho hd

theorem look_isSome (v : View n) : v.look.isSome = true ↔ v.rest ≠ [] := by
  unfold View.look
  cases v.rest <;> simp

theorem run_iter {t : Ty m n} {p : P (View n) n} (h : DescX fx S p t) (first : TSet n) :
    ∀ (fuel : Nat) (v : View n) acc errs hi r v', iterLoop View.ops first p fuel acc errs hi v = .ok r v' →
      RunX fx S (.iter t v acc errs hi r.1 r.2.1 r.2.2 v') := by
  intro fuel
  induction fuel with
  | zero => intro v acc errs hi r v' hr; cases hr
  | succ fuel ih =>
    intro v acc errs hi r v' hr
    simp only [iterLoop, bind_ok, mPeekSrc_ok] at hr
    obtain ⟨tok, _, ⟨rfl, rfl, -⟩, hr⟩ := hr
    rename_i v
    split at hr
    · rename_i hc
      have hne : v.rest ≠ [] := (look_isSome v).1 (by simp only [Bool.and_eq_true] at hc; exact hc.1)
      simp only [bind_ok] at hr
      obtain ⟨r1, v1, h1, h2⟩ := hr
      have hd := h _ _ _ h1
      cases r1 with
      | success x => exact .iterGive hne hd (.success x) (by simpa using ih _ _ _ _ _ _ h2)
      | recovered x e => exact .iterGive hne hd (.recovered x e) (ih _ _ _ _ _ _ h2)
      | panic e =>
        simp only [pure_ok] at h2
        obtain ⟨rfl, rfl⟩ := h2
        exact .iterPanic hd
    · simp only [pure_ok] at hr
      obtain ⟨rfl, rfl⟩ := hr
      exact .iterStop

theorem desc_plus {t : Ty m n} {p : P (View n) n} (h : DescX fx S p t) (first : TSet n) (fuel : Nat) :
    DescX fx S (producePlus View.ops first p fuel) (.plus t) := by
  intro v r v' hr
  simp only [producePlus, bind_ok] at hr
  obtain ⟨r1, v1, h1, h2⟩ := hr
  have hd := h _ _ _ h1
  cases r1 with
  | success x =>
    simp only [plusRest, bind_ok, pure_ok] at h2
    obtain ⟨⟨l, errs, hi⟩, v2, h2, rfl, rfl⟩ := h2
    exact .plus hd (.success x) (run_iter h _ _ _ _ _ _ _ _ h2)
  | recovered x e =>
    simp only [plusRest, bind_ok, pure_ok] at h2
    obtain ⟨⟨l, errs, hi⟩, v2, h2, rfl, rfl⟩ := h2
    exact .plus hd (.recovered x e) (run_iter h _ _ _ _ _ _ _ _ h2)
  | panic e =>
    simp only [pure_ok] at h2
    obtain ⟨rfl, rfl⟩ := h2
    exact .plusPanic hd

theorem look_isNone (v : View n) : v.look.isNone = true ↔ v.rest = [] := by
  unfold View.look
  cases v.rest <;> simp

theorem skip_pos (v : View n) (h : v.rest ≠ []) : v.skip.pos = v.cur.hi := by
  cases hr : v.rest with
  | nil => exact absurd hr h
  | cons t l => simp [View.skip, View.consume, View.cur, View.pos, hr, TokenVec.push, Cell.ofToken]

theorem skipLoop_ok (first : TSet n) : ∀ (fuel : Nat) (v0 v : View n) hi r v', Skips v0 v → hi = v.pos →
    skipLoop View.ops first fuel hi v = .ok r v' →
    Skips v0 v' ∧ r.1 = v'.pos ∧ (r.2 = true ↔ v'.rest ≠ []) := by
  intro fuel
  induction fuel with
  | zero => intro v0 v hi r v' _ _ hr; cases hr
  | succ fuel ih =>
    intro v0 v hi r v' hs hp hr
    simp only [skipLoop, bind_ok, mPeekSrc_ok] at hr
    obtain ⟨tok, _, ⟨rfl, rfl, -⟩, hr⟩ := hr
    rename_i v
    split at hr
    · rename_i hc
      simp only [Bool.and_eq_true, look_isSome] at hc
      simp only [bind_ok, mCurrentSpan_ok, mConsume_ok] at hr
      obtain ⟨_, _, ⟨rfl, rfl⟩, _, _, ⟨rfl, rfl⟩, hr⟩ := hr
      exact ih v0 _ _ _ _ (.more hs hc.1) (skip_pos _ hc.1).symm hr
    · simp only [pure_ok] at hr
      obtain ⟨rfl, rfl⟩ := hr
      exact ⟨hs, hp, look_isSome v⟩

theorem loopElem_ok {t : Ty m n} {p : P (View n) n} (h : DescX fx S p t) {v v' : View n} {out errs r}
    (hr : loopElem View.ops p out errs v = .ok r v') :
    (r.1 = false ∧ RunX fx S (.loop t v out errs r.2.1 r.2.2 v')) ∨
    (r.1 = true ∧ ∀ out' errs' v2, RunX fx S (.loop t v' r.2.1 r.2.2 out' errs' v2) →
      RunX fx S (.loop t v out errs out' errs' v2)) := by
  simp only [loopElem, bind_ok, mCurrentSpan_ok] at hr
  obtain ⟨_, _, ⟨rfl, rfl⟩, r1, v1, h1, _, _, ⟨rfl, rfl⟩, hr⟩ := hr
  have hd := h _ _ _ h1
  split at hr
  · simp only [pure_ok] at hr
    obtain ⟨rfl, rfl⟩ := hr
    refine .inl ⟨rfl, ?_⟩
    cases r1 with
    | success x => simpa using RunX.loopGiveStuck hd (.success x) (out := out) (errs := errs)
    | recovered x e => exact .loopGiveStuck hd (.recovered x e)
    | panic e => exact .loopPanicStuck hd
  · simp only [pure_ok] at hr
    obtain ⟨rfl, rfl⟩ := hr
    refine .inr ⟨rfl, fun out' errs' v2 hl => ?_⟩
    cases r1 with
    | success x => exact .loopGive hd (.success x) (by simpa using hl)
    | recovered x e => exact .loopGive hd (.recovered x e) hl
    | panic e => exact .loopPanic hd hl

theorem run_loop {t : Ty m n} {p : P (View n) n} (h : DescX fx S p t) (first : TSet n) :
    ∀ (fuel : Nat) (v : View n) out errs r v', loopLoop View.ops first p fuel out errs v = .ok r v' →
      RunX fx S (.loop t v out errs r.1 r.2 v') := by
  intro fuel
  induction fuel with
  | zero => intro v out errs r v' hr; cases hr
  | succ fuel ih =>
    intro v out errs r v' hr
    simp only [loopLoop, bind_ok, mPeekSrc_ok] at hr
    obtain ⟨tok, _, ⟨rfl, rfl, -⟩, hr⟩ := hr
    rename_i v
    split at hr
    · rename_i hn
      simp only [pure_ok] at hr
      obtain ⟨rfl, rfl⟩ := hr
      exact .loopStop ((look_isNone _).1 hn)
    · rename_i hn
      have hne : v.rest ≠ [] := fun h => hn ((look_isNone _).2 h)
      simp only [bind_ok] at hr
      obtain ⟨⟨errs1, more⟩, v1, h1, hr⟩ := hr
      have key : (more = false → v1.rest = []) ∧
          ∀ out' errs' v2, RunX fx S (.loop t v1 out errs1 out' errs' v2) →
          RunX fx S (.loop t v out errs out' errs' v2) := by
        split at h1
        · simp only [loopSkip, bind_ok, mCurrentSpan_ok, mConsume_ok, pure_ok] at h1
          obtain ⟨_, _, ⟨rfl, rfl⟩, _, _, ⟨rfl, rfl⟩, ⟨hi, more'⟩, v2, h2, h3, rfl⟩ := h1
          obtain ⟨hs, hp, hm⟩ := skipLoop_ok first _ _ _ _ _ _ (.one hne) (skip_pos _ hne).symm h2
          simp only [Prod.mk.injEq] at h3
          obtain ⟨rfl, rfl⟩ := h3
          simp only at hp hm
          subst hp
          refine ⟨fun hf => ?_, fun out' errs' v3 hl => .loopSkip hs hl⟩
          rw [hf] at hm
          cases hr2 : v2.rest with
          | nil => rfl
          | cons a l => exact absurd (hm.2 (by simp [hr2])) (by simp)
        · simp only [pure_ok, Prod.mk.injEq] at h1
          obtain ⟨⟨rfl, rfl⟩, rfl⟩ := h1
          exact ⟨(by intro h; cases h), fun _ _ _ hl => hl⟩
      split at hr
      · rename_i hm
        simp only [pure_ok] at hr
        obtain ⟨rfl, rfl⟩ := hr
        refine key.2 _ _ _ (.loopStop (key.1 ?_))
        simpa using hm
      · simp only [bind_ok] at hr
        obtain ⟨⟨go, out2, errs2⟩, v2, h2, hr⟩ := hr
        rcases loopElem_ok h h2 with ⟨hg, hl⟩ | ⟨hg, hl⟩
        · simp only at hg
          subst hg
          simp only [Bool.false_eq_true, if_false, pure_ok] at hr
          obtain ⟨rfl, rfl⟩ := hr
          exact key.2 _ _ _ hl
        · simp only at hg
          subst hg
          simp only [if_true] at hr
          exact key.2 _ _ _ (hl _ _ _ (ih _ _ _ _ _ hr))

theorem desc_loop {t : Ty m n} {p : P (View n) n} (h : DescX fx S p t) (first : TSet n) (fuel : Nat) :
    DescX fx S (produceLoop View.ops first p fuel) (.loop t) := by
  intro v r v' hr
  simp only [produceLoop, bind_ok] at hr
  obtain ⟨⟨out, errs⟩, v1, h1, hr⟩ := hr
  have hl := run_loop h _ _ _ _ _ _ _ h1
  split at hr
  · rename_i he
    simp only [bind_ok, mEmptySpan_ok, pure_ok] at hr
    obtain ⟨_, _, ⟨rfl, rfl⟩, rfl, rfl⟩ := hr
    have : out = [] := by simpa using he
    subst this
    exact .loopEmpty hl
  · rename_i he
    simp only [pure_ok] at hr
    obtain ⟨rfl, rfl⟩ := hr
    exact .loopList hl (by simpa using he)

theorem extendPanic_ok {p : Err n} {v v' : View n} {r} :
    extendPanic View.ops p v = .ok r v' ↔
      r = { p with span := { p.span with hi := v.cur.hi } } ∧ v' = v := by
  simp only [extendPanic, bind_ok, mCurrentSpan_ok, pure_ok]
  constructor
  · rintro ⟨_, _, ⟨rfl, rfl⟩, rfl, rfl⟩; exact ⟨rfl, rfl⟩
  · rintro ⟨rfl, rfl⟩; exact ⟨_, _, ⟨rfl, rfl⟩, rfl, rfl⟩

/-- What the first part of an inner loop does if the element is not produced. -/
inductive TryX (fx : Bool) (S : Schema m n) (t : Ty m n) : View n → Option (Err n) → Option (Err n) → View n → Prop
  | fail {v panic e v1} : RunX fx S (.ty t v (.panic e) v1) → TryX fx S t v panic (mergePanic panic e) v1
  | note {v panic panic1} : Note v panic panic1 → TryX fx S t v panic panic1 v

abbrev Try (S : Schema m n) (t : Ty m n) (v : View n) (panic panic1 : Option (Err n)) (v' : View n) : Prop :=
  TryX false S t v panic panic1 v'

theorem splitTry_ok {t : Ty m n} {p : P (View n) n} (h : DescX fx S p t) {ef : TSet n} {q : Tree n} {a : Acc n}
    {panic : Option (Err n)} {v v' : View n} {r}
    (hr : splitTry View.ops ef p q a panic v = .ok r v') :
    (∃ a', r = .error a' ∧ RunX fx S (.inner t q v a panic true a' v')) ∨
    (∃ panic1, r = .ok (v'.look, panic1) ∧ TryX fx S t v panic panic1 v') := by
  simp only [splitTry, bind_ok, mPeekSrc_ok] at hr
  obtain ⟨tok, _, ⟨rfl, rfl, -⟩, hr⟩ := hr
  rename_i v
  split at hr
  · simp only [bind_ok] at hr
    obtain ⟨r1, v1, h1, h2⟩ := hr
    have hd := h _ _ _ h1
    cases r1 with
    | success x =>
      simp only [pure_ok] at h2
      obtain ⟨rfl, rfl⟩ := h2
      exact .inl ⟨_, rfl, by simpa using RunX.innerGive hd (.success x) (q := q) (a := a) (panic := panic)⟩
    | recovered x e =>
      simp only [pure_ok] at h2
      obtain ⟨rfl, rfl⟩ := h2
      exact .inl ⟨_, rfl, .innerGive hd (.recovered x e)⟩
    | panic e =>
      simp only [bind_ok, mPeekSrc_ok, pure_ok] at h2
      obtain ⟨_, _, ⟨rfl, rfl, -⟩, rfl, rfl⟩ := h2
      exact .inr ⟨_, rfl, .fail hd⟩
  · cases panic with
    | some p =>
      simp only [bind_ok, extendPanic_ok, pure_ok] at hr
      obtain ⟨_, _, ⟨rfl, rfl⟩, rfl, rfl⟩ := hr
      exact .inr ⟨_, rfl, .note (.ext _ _)⟩
    | none =>
      simp only [bind_ok, mExpecting_ok, pure_ok] at hr
      obtain ⟨_, _, ⟨rfl, rfl⟩, rfl, rfl⟩ := hr
      exact .inr ⟨_, rfl, .note (.new _ _)⟩

theorem run_inner {t : Ty m n} {p : P (View n) n} (h : DescX fx S p t) (ef pf fol : TSet n) (q : Tree n) :
    ∀ (fuel : Nat) (v : View n) a panic r v',
      splitInner View.ops ef pf fol p q fuel a panic v = .ok r v' →
      RunX fx S (.inner t q v a panic r.1 r.2 v') := by
  intro fuel
  induction fuel with
  | zero => intro v a panic r v' hr; cases hr
  | succ fuel ih =>
    intro v a panic r v' hr
    simp only [splitInner, bind_ok] at hr
    obtain ⟨r1, v1, h1, hr⟩ := hr
    rcases splitTry_ok h h1 with ⟨a', rfl, hi⟩ | ⟨panic1, rfl, ht⟩
    · simp only [pure_ok] at hr
      obtain ⟨rfl, rfl⟩ := hr
      exact hi
    · have leave : ∀ go, RunX fx S (.inner t q v a panic go { a with errs := a.errs ++ panic1.toList } v1) := by
        intro go
        cases ht with
        | fail hd => exact .innerFailLeave hd
        | note hn => exact .innerNoteLeave hn
      simp only at hr
      split at hr
      · simp only [pure_ok] at hr
        obtain ⟨rfl, rfl⟩ := hr
        exact leave true
      · split at hr
        · simp only [pure_ok] at hr
          obtain ⟨rfl, rfl⟩ := hr
          exact leave false
        · simp only [bind_ok, mConsume_ok] at hr
          obtain ⟨_, _, ⟨rfl, rfl⟩, hr⟩ := hr
          have hi := ih _ _ _ _ _ hr
          cases ht with
          | fail hd => exact .innerFailGo hd hi
          | note hn => exact .innerNoteGo hn hi

theorem run_outer {t u : Ty m n} {pt pp : P (View n) n} (ht : DescX fx S pt t) (hu : DescX fx S pp u)
    (ef pf fol : TSet n) : ∀ (fuel : Nat) (v : View n) a r v',
      splitOuter View.ops ef pf fol pt pp fuel a v = .ok r v' → RunX fx S (.outer t u v a r v') := by
  intro fuel
  induction fuel with
  | zero => intro v a r v' hr; cases hr
  | succ fuel ih =>
    intro v a r v' hr
    simp only [splitOuter, bind_ok, mPeekSrc_ok] at hr
    obtain ⟨tok, _, ⟨rfl, rfl, -⟩, hr⟩ := hr
    rename_i v
    split at hr
    · rename_i hc
      have hne : v.rest ≠ [] := (look_isSome v).1 (by simp only [Bool.and_eq_true] at hc; exact hc.1)
      simp only [bind_ok] at hr
      obtain ⟨r1, v1, h1, h2⟩ := hr
      have hd := hu _ _ _ h1
      cases r1 with
      | panic e =>
        simp only [pure_ok] at h2
        obtain ⟨rfl, rfl⟩ := h2
        exact .outerPanic hd
      | success q =>
        simp only [bind_ok] at h2
        obtain ⟨⟨go, a1⟩, v2, h2, h3⟩ := h2
        have hi := run_inner ht _ _ _ _ _ _ _ _ _ _ h2
        cases go with
        | true =>
          simp only [if_true] at h3
          exact .outerGo hne hd (.success q) (by simpa using hi) (ih _ _ _ _ h3)
        | false =>
          simp only [Bool.false_eq_true, if_false, pure_ok] at h3
          obtain ⟨rfl, rfl⟩ := h3
          exact .outerBreak hne hd (.success q) (by simpa using hi)
      | recovered q e =>
        simp only [bind_ok] at h2
        obtain ⟨⟨go, a1⟩, v2, h2, h3⟩ := h2
        have hi := run_inner ht _ _ _ _ _ _ _ _ _ _ h2
        cases go with
        | true =>
          simp only [if_true] at h3
          exact .outerGo hne hd (.recovered q e) hi (ih _ _ _ _ h3)
        | false =>
          simp only [Bool.false_eq_true, if_false, pure_ok] at h3
          obtain ⟨rfl, rfl⟩ := h3
          exact .outerBreak hne hd (.recovered q e) hi
    · simp only [pure_ok] at hr
      obtain ⟨rfl, rfl⟩ := hr
      exact .outerStop

theorem desc_split {t u : Ty m n} {pt pp : P (View n) n} (ht : DescX fx S pt t) (hu : DescX fx S pp u)
    (ef pf fol : TSet n) (fuel : Nat) :
    DescX fx S (produceSplit View.ops ef pf fol pt pp fuel) (.split t u) := by
  intro v r v' hr
  simp only [produceSplit, bind_ok] at hr
  obtain ⟨r1, v1, h1, h2⟩ := hr
  have hd := ht _ _ _ h1
  cases r1 with
  | success x =>
    simp only [bind_ok, pure_ok] at h2
    obtain ⟨a, v2, h2, rfl, rfl⟩ := h2
    exact .split hd (.success x) (run_outer ht hu _ _ _ _ _ _ _ _ h2)
  | recovered x e =>
    simp only [bind_ok, pure_ok] at h2
    obtain ⟨a, v2, h2, rfl, rfl⟩ := h2
    exact .split hd (.recovered x e) (run_outer ht hu _ _ _ _ _ _ _ _ h2)
  | panic e =>
    simp only [pure_ok] at h2
    obtain ⟨rfl, rfl⟩ := h2
    exact .splitPanic hd

theorem punctTry_ok {t : Ty m n} {p : P (View n) n} (h : DescX fx S p t) {ef fol : TSet n} {a : Acc n}
    {panic : Option (Err n)} {v v' : View n} {r}
    (hr : punctTry View.ops ef fol p a panic v = .ok r v') :
    (∃ b, r = .error b ∧ RunX fx S (.pinner t v a panic b.1 b.2 v')) ∨
    (∃ panic1, r = .ok panic1 ∧ TryX fx S t v panic panic1 v') := by
  simp only [punctTry, bind_ok, mPeekSrc_ok] at hr
  obtain ⟨tok, _, ⟨rfl, rfl, -⟩, hr⟩ := hr
  rename_i v
  split at hr
  · simp only [pure_ok] at hr
    obtain ⟨rfl, rfl⟩ := hr
    exact .inl ⟨_, rfl, .pinnerStop⟩
  split at hr
  · simp only [bind_ok] at hr
    obtain ⟨r1, v1, h1, h2⟩ := hr
    have hd := h _ _ _ h1
    cases r1 with
    | success x =>
      simp only [pure_ok] at h2
      obtain ⟨rfl, rfl⟩ := h2
      exact .inl ⟨_, rfl, by simpa using RunX.pinnerGive hd (.success x) (a := a) (panic := panic)⟩
    | recovered x e =>
      simp only [pure_ok] at h2
      obtain ⟨rfl, rfl⟩ := h2
      exact .inl ⟨_, rfl, .pinnerGive hd (.recovered x e)⟩
    | panic e =>
      simp only [pure_ok] at h2
      obtain ⟨rfl, rfl⟩ := h2
      exact .inr ⟨_, rfl, .fail hd⟩
  split at hr
  · simp only [pure_ok] at hr
    obtain ⟨rfl, rfl⟩ := hr
    exact .inl ⟨_, rfl, .pinnerStop⟩
  · cases panic with
    | some p =>
      simp only [bind_ok, extendPanic_ok, pure_ok] at hr
      obtain ⟨_, _, ⟨rfl, rfl⟩, rfl, rfl⟩ := hr
      exact .inr ⟨_, rfl, .note (.ext _ _)⟩
    | none =>
      simp only [bind_ok, mCurrentSpan_ok, pure_ok] at hr
      obtain ⟨_, _, ⟨rfl, rfl⟩, rfl, rfl⟩ := hr
      exact .inr ⟨_, rfl, .note (.new _ _)⟩

theorem run_pinner {t : Ty m n} {p : P (View n) n} (h : DescX fx S p t) (ef pf fol : TSet n) :
    ∀ (fuel : Nat) (v : View n) a panic r v',
      punctInner View.ops ef pf fol p fuel a panic v = .ok r v' →
      RunX fx S (.pinner t v a panic r.1 r.2 v') := by
  intro fuel
  induction fuel with
  | zero => intro v a panic r v' hr; cases hr
  | succ fuel ih =>
    intro v a panic r v' hr
    simp only [punctInner, bind_ok] at hr
    obtain ⟨r1, v1, h1, hr⟩ := hr
    rcases punctTry_ok h h1 with ⟨b, rfl, hi⟩ | ⟨panic1, rfl, ht⟩
    · simp only [pure_ok] at hr
      obtain ⟨rfl, rfl⟩ := hr
      exact hi
    · have leave : ∀ go, RunX fx S (.pinner t v a panic go { a with errs := a.errs ++ panic1.toList } v1) := by
        intro go
        cases ht with
        | fail hd => exact .pinnerFailLeave hd
        | note hn => exact .pinnerNoteLeave hn
      simp only [bind_ok, mPeekSrc_ok] at hr
      obtain ⟨_, _, ⟨rfl, rfl, -⟩, hr⟩ := hr
      split at hr
      · simp only [pure_ok] at hr
        obtain ⟨rfl, rfl⟩ := hr
        exact leave true
      · split at hr
        · simp only [pure_ok] at hr
          obtain ⟨rfl, rfl⟩ := hr
          exact leave false
        · simp only [bind_ok, mConsume_ok] at hr
          obtain ⟨_, _, ⟨rfl, rfl⟩, hr⟩ := hr
          have hi := ih _ _ _ _ _ hr
          cases ht with
          | fail hd => exact .pinnerFailGo hd hi
          | note hn => exact .pinnerNoteGo hn hi

theorem run_pouter {t u : Ty m n} {pt pp : P (View n) n} (ht : DescX fx S pt t) (hu : DescX fx S pp u)
    (ef pf fol : TSet n) : ∀ (fuel : Nat) (v : View n) a r v',
      punctOuter View.ops ef pf fol pt pp fuel a v = .ok r v' → RunX fx S (.pouter t u v a r v') := by
  intro fuel
  induction fuel with
  | zero => intro v a r v' hr; cases hr
  | succ fuel ih =>
    intro v a r v' hr
    simp only [punctOuter, bind_ok, mPeekSrc_ok] at hr
    obtain ⟨tok, _, ⟨rfl, rfl, -⟩, hr⟩ := hr
    rename_i v
    split at hr
    · rename_i hc
      have hne : v.rest ≠ [] := (look_isSome v).1 (by simp only [Bool.and_eq_true] at hc; exact hc.1)
      simp only [bind_ok] at hr
      obtain ⟨r1, v1, h1, h2⟩ := hr
      have hd := hu _ _ _ h1
      cases r1 with
      | panic e =>
        simp only [pure_ok] at h2
        obtain ⟨rfl, rfl⟩ := h2
        exact .pouterPanic hd
      | success q =>
        simp only [bind_ok] at h2
        obtain ⟨⟨go, a1⟩, v2, h2, h3⟩ := h2
        have hi := run_pinner ht _ _ _ _ _ _ _ _ _ h2
        cases go with
        | true =>
          simp only [if_true] at h3
          exact .pouterGo hne hd (.success q) (by simpa using hi) (ih _ _ _ _ h3)
        | false =>
          simp only [Bool.false_eq_true, if_false, pure_ok] at h3
          obtain ⟨rfl, rfl⟩ := h3
          exact .pouterBreak hne hd (.success q) (by simpa using hi)
      | recovered q e =>
        simp only [bind_ok] at h2
        obtain ⟨⟨go, a1⟩, v2, h2, h3⟩ := h2
        have hi := run_pinner ht _ _ _ _ _ _ _ _ _ h2
        cases go with
        | true =>
          simp only [if_true] at h3
          exact .pouterGo hne hd (.recovered q e) hi (ih _ _ _ _ h3)
        | false =>
          simp only [Bool.false_eq_true, if_false, pure_ok] at h3
          obtain ⟨rfl, rfl⟩ := h3
          exact .pouterBreak hne hd (.recovered q e) hi
    · simp only [pure_ok] at hr
      obtain ⟨rfl, rfl⟩ := hr
      exact .pouterStop

theorem desc_punct {t u : Ty m n} {pt pp : P (View n) n} (ht : DescX fx S pt t) (hu : DescX fx S pp u)
    (ef pf fol : TSet n) (fuel : Nat) :
    DescX fx S (producePunct View.ops ef pf fol pt pp fuel) (.punct t u) := by
  intro v r v' hr
  simp only [producePunct, bind_ok] at hr
  obtain ⟨r1, v1, h1, h2⟩ := hr
  have hd := ht _ _ _ h1
  cases r1 with
  | success x =>
    simp only [bind_ok, pure_ok] at h2
    obtain ⟨a, v2, h2, rfl, rfl⟩ := h2
    exact .punct hd (.success x) (run_pouter ht hu _ _ _ _ _ _ _ _ h2)
  | recovered x e =>
    simp only [bind_ok, pure_ok] at h2
    obtain ⟨a, v2, h2, rfl, rfl⟩ := h2
    exact .punct hd (.recovered x e) (run_pouter ht hu _ _ _ _ _ _ _ _ h2)
  | panic e =>
    simp only [pure_ok] at h2
    obtain ⟨rfl, rfl⟩ := h2
    exact .punctPanic hd

theorem run_head {t : Ty m n} {p : P (View n) n} (h : DescX fx S p t) {hf : TSet n} {v v' : View n} {r}
    (hr : recoverHead View.ops hf p v = .ok r v') : RunX fx S (.head t v r v') := by
  simp only [recoverHead, bind_ok, mPeekSrc_ok] at hr
  obtain ⟨tok, _, ⟨rfl, rfl, -⟩, hr⟩ := hr
  rename_i v
  split at hr
  · simp only [bind_ok] at hr
    obtain ⟨r1, v1, h1, h2⟩ := hr
    have hd := h _ _ _ h1
    cases r1 with
    | success x =>
      simp only [pure_ok] at h2
      obtain ⟨rfl, rfl⟩ := h2
      exact .headGive hd (.success x)
    | recovered x e =>
      simp only [pure_ok] at h2
      obtain ⟨rfl, rfl⟩ := h2
      exact .headGive hd (.recovered x e)
    | panic e =>
      simp only [bind_ok, mEmptySpan_ok, pure_ok] at h2
      obtain ⟨_, _, ⟨rfl, rfl⟩, rfl, rfl⟩ := h2
      exact .headPanic hd
  · simp only [bind_ok, mEmptySpan_ok, mExpecting_ok, pure_ok] at hr
    obtain ⟨_, _, ⟨rfl, rfl⟩, _, _, ⟨rfl, rfl⟩, rfl, rfl⟩ := hr
    exact .headNone

theorem recoverSkip_ok {tf : TSet n} {panic : Option (Err n)} {v v' : View n} {r}
    (hr : recoverSkip View.ops tf panic v = .ok r v') : Note v panic r ∧ v' = v.skip := by
  cases panic with
  | some p =>
    simp only [recoverSkip, bind_ok, extendPanic_ok, mConsume_ok, pure_ok] at hr
    obtain ⟨_, _, ⟨rfl, rfl⟩, _, _, ⟨rfl, rfl⟩, rfl, rfl⟩ := hr
    exact ⟨.ext _ _, rfl⟩
  | none =>
    simp only [recoverSkip, bind_ok, mExpecting_ok, mConsume_ok, pure_ok] at hr
    obtain ⟨_, _, ⟨rfl, rfl⟩, _, _, ⟨rfl, rfl⟩, rfl, rfl⟩ := hr
    exact ⟨.new _ _, rfl⟩

theorem run_tail {t : Ty m n} {p : P (View n) n} (h : DescX false S p t) (tf : TSet n) :
    ∀ (fuel : Nat) (v : View n) errs panic r v',
      recoverLoop View.ops tf p fuel errs panic v = .ok r v' →
      RunX false S (.tail t v errs panic r.1 r.2.1 r.2.2 v') := by
  intro fuel
  induction fuel with
  | zero => intro v errs panic r v' hr; cases hr
  | succ fuel ih =>
    intro v errs panic r v' hr
    simp only [recoverLoop, bind_ok, mPeekSrc_ok] at hr
    obtain ⟨tok, _, ⟨rfl, rfl, -⟩, hr⟩ := hr
    rename_i v
    split at hr
    · rename_i hn
      have hnil := (look_isNone _).1 hn
      split at hr
      · simp only [bind_ok] at hr
        obtain ⟨r1, v1, h1, h2⟩ := hr
        have hd := h _ _ _ h1
        cases r1 with
        | success x =>
          simp only [pure_ok] at h2
          obtain ⟨rfl, rfl⟩ := h2
          simpa using RunX.tailGive hd (.success x) (errs := errs) (panic := panic)
        | recovered x e =>
          simp only [pure_ok] at h2
          obtain ⟨rfl, rfl⟩ := h2
          exact .tailGive hd (.recovered x e)
        | panic e =>
          simp only [pure_ok] at h2
          obtain ⟨rfl, rfl⟩ := h2
          exact .tailPanic hnil hd
      · simp only [pure_ok] at hr
        obtain ⟨rfl, rfl⟩ := hr
        exact .tailStop hnil (by simp)
    · rename_i hn
      have hne : v.rest ≠ [] := fun h => hn ((look_isNone _).2 h)
      split at hr
      · simp only [bind_ok] at hr
        obtain ⟨r1, v1, h1, h2⟩ := hr
        have hd := h _ _ _ h1
        cases r1 with
        | success x =>
          simp only [pure_ok] at h2
          obtain ⟨rfl, rfl⟩ := h2
          simpa using RunX.tailGive hd (.success x) (errs := errs) (panic := panic)
        | recovered x e =>
          simp only [pure_ok] at h2
          obtain ⟨rfl, rfl⟩ := h2
          exact .tailGive hd (.recovered x e)
        | panic e =>
          simp only [bind_ok] at h2
          obtain ⟨p1, v2, h2, h3⟩ := h2
          obtain ⟨hn, rfl⟩ := recoverSkip_ok h2
          exact .tailFail hne hd hn (ih _ _ _ _ _ h3)
      · simp only [bind_ok] at hr
        obtain ⟨p1, v2, h2, h3⟩ := hr
        obtain ⟨hn, rfl⟩ := recoverSkip_ok h2
        exact .tailSkip hne hn (ih _ _ _ _ _ h3)

theorem desc_recover {t u : Ty m n} {pt pp : P (View n) n} (ht : DescX false S pt t) (hu : DescX false S pp u)
    (hf tf : TSet n) (fuel : Nat) :
    DescX false S (produceRecover View.ops hf tf pt pp fuel) (.recover t u) := by
  intro v r v' hr
  simp only [produceRecover, bind_ok] at hr
  obtain ⟨h, v1, h1, ⟨tl, errs, panic⟩, v2, h2, h3⟩ := hr
  have hh := run_head ht h1
  have ht := run_tail hu _ _ _ _ _ _ _ h2
  cases tl with
  | some x =>
    simp only [pure_ok] at h3
    obtain ⟨rfl, rfl⟩ := h3
    exact .recover hh ht
  | none =>
    simp only [pure_ok] at h3
    obtain ⟨rfl, rfl⟩ := h3
    exact .recoverPanic hh ht

/-- Every result of `produce` is described. -/
theorem run_of_produce (S : Schema m n) (md : Metadata (PId m n) n) :
    ∀ (fuel : Nat) (t : Ty m n), DescX false S (produce View.ops S md fuel t) t := by
  intro fuel
  induction fuel with
  | zero => intro t v r v' h; cases h
  | succ fuel ih =>
    intro t
    show DescX false S (produceStep View.ops S md fuel (produce View.ops S md fuel) t) t
    cases t with
    | term i k => exact desc_term i k _
    | user k =>
      cases hS : S k with
      | struct f fs => simp only [produceStep, hS]; exact desc_struct hS ih
      | enum f fs => simp only [produceStep, hS]; exact desc_enum hS ih _ _
    | box t => exact fun v r v' h => .box (ih t v r v' h)
    | option t => exact desc_option (.option t) (ih t) _
    | exist t => exact desc_option (.exist t) (ih t) _
    | quote t => exact desc_text (.quote t) (ih t)
    | parse t => exact desc_text (.parse t) (ih t)
    | plus t => exact desc_plus (ih t) _ _
    | star t => exact desc_option (.star t) (desc_plus (ih t) _ _) _
    | loop t => exact desc_loop (ih t) _ _
    | split t p => exact desc_split (ih t) (ih p) _ _ _ _
    | punct t p => exact desc_punct (ih t) (ih p) _ _ _ _
    | recover t r => exact desc_recover (ih t) (ih r) _ _ _
    | tup2 a b => exact desc_tuple (.tup2 a b) ih
    | tup3 a b c => exact desc_tuple (.tup3 a b c) ih
    | tup4 a b c d => exact desc_tuple (.tup4 a b c d) ih
    | tup5 a b c d e => exact desc_tuple (.tup5 a b c d e) ih

end
end Teleparse
