import Verif.Proof.Run
import Verif.Spec.Tree
/-
Facts about every result of `produce`: the stream is conserved, spans lie in the source, no crash.
-/
namespace Teleparse
variable {m n : Nat} {S : Schema m n}

/-- `v'` is `v` after consuming tokens; semantic types may have changed. -/
structure Adv (v v' : View n) : Prop where
  src : v'.source = v.source
  cons : ∃ ts, v.rest = ts ++ v'.rest ∧ v'.cells.map (·.token) = v.cells.map (·.token) ++ ts

theorem Adv.refl (v : View n) : Adv v v := ⟨rfl, [], by simp⟩

theorem Adv.trans {a b c : View n} (h1 : Adv a b) (h2 : Adv b c) : Adv a c := by
  obtain ⟨t1, r1, c1⟩ := h1.cons
  obtain ⟨t2, r2, c2⟩ := h2.cons
  exact ⟨h2.src.trans h1.src, t1 ++ t2, by simp [r1, r2], by simp [c1, c2]⟩

theorem Adv.skip (v : View n) : Adv v v.skip := by
  unfold View.skip View.consume
  cases hr : v.rest with
  | nil => exact .refl v
  | cons t l => exact ⟨rfl, [t], by simp [hr], by simp [TokenVec.push, Cell.ofToken]⟩

theorem Adv.apply (v : View n) (sp : Span) (sem : LSet n) : Adv v (v.apply sp sem) :=
  ⟨rfl, [], by simp [View.apply], by simp [View.apply, apply_tokens]⟩

theorem Adv.applyAll (l : List (Tree n × Option (LSet n))) : ∀ v : View n, Adv v (v.applyAll l) := by
  induction l with
  | nil => intro v; exact .refl v
  | cons a l ih =>
    intro v
    obtain ⟨t, sem⟩ := a
    cases sem with
    | none => exact ih v
    | some sem => exact (Adv.apply v _ _).trans (ih _)

theorem Skips.adv {v w : View n} (h : Skips v w) : Adv v w := by
  induction h with
  | one _ => exact .skip _
  | more _ _ ih => exact ih.trans (.skip _)

def Judg.pre : Judg m n → View n
  | .ty _ v _ _ => v
  | .seq _ v _ _ _ _ => v
  | .iter _ v _ _ _ _ _ _ _ => v
  | .loop _ v _ _ _ _ _ => v
  | .inner _ _ v _ _ _ _ _ => v
  | .outer _ _ v _ _ _ => v
  | .pinner _ v _ _ _ _ _ => v
  | .pouter _ _ v _ _ _ => v
  | .head _ v _ _ => v
  | .tail _ v _ _ _ _ _ _ => v

def Judg.post : Judg m n → View n
  | .ty _ _ _ v => v
  | .seq _ _ _ _ _ v => v
  | .iter _ _ _ _ _ _ _ _ v => v
  | .loop _ _ _ _ _ _ v => v
  | .inner _ _ _ _ _ _ _ v => v
  | .outer _ _ _ _ _ v => v
  | .pinner _ _ _ _ _ _ v => v
  | .pouter _ _ _ _ _ v => v
  | .head _ _ _ v => v
  | .tail _ _ _ _ _ _ _ v => v

theorem RunX.adv {j : Judg m n} {fx : Bool} (h : RunX fx S j) : Adv j.pre j.post := by
  induction h with
  | tok => exact .skip _
  | tokRecovered => exact .refl _
  | tokPanic => exact .refl _
  | seqNil => exact .refl _
  | seqGive _ _ _ i1 i2 => exact i1.trans i2
  | seqPanic _ i => exact i
  | struct _ _ i => exact i.trans (.applyAll _ _)
  | structPanic _ _ i => exact i
  | tuple _ _ i => exact i
  | tuplePanic _ _ i => exact i
  | enumSuccess _ _ _ i => exact i.trans (.applyAll _ _)
  | enumRecovered _ _ _ i => exact i.trans (.applyAll _ _)
  | enumPanic _ _ _ i => exact i
  | enumNone => exact .refl _
  | box _ i => exact i
  | optNone => exact .refl _
  | optSuccess _ _ i => exact i
  | optRecovered _ _ i => exact i
  | optPanic _ _ i => exact i
  | textSuccess _ _ _ i => exact i
  | textRecovered _ _ _ i => exact i
  | textPanic _ _ i => exact i
  | plus _ _ _ i1 i2 => exact i1.trans i2
  | plusPanic _ i => exact i
  | iterStop => exact .refl _
  | iterGive _ _ _ _ i1 i2 => exact i1.trans i2
  | iterPanic _ i => exact i
  | loopEmpty _ i => exact i
  | loopList _ _ i => exact i
  | loopStop => exact .refl _
  | loopSkip hs _ i => exact hs.adv.trans i
  | loopGive _ _ _ i1 i2 => exact i1.trans i2
  | loopPanic _ _ i1 i2 => exact i1.trans i2
  | loopGiveStuck _ _ i => exact i
  | loopPanicStuck _ i => exact i
  | split _ _ _ i1 i2 => exact i1.trans i2
  | splitPanic _ i => exact i
  | outerStop => exact .refl _
  | outerPanic _ i => exact i
  | outerGo _ _ _ _ _ i1 i2 i3 => exact (i1.trans i2).trans i3
  | outerBreak _ _ _ _ i1 i2 => exact i1.trans i2
  | innerGive _ _ i => exact i
  | innerFailLeave _ i => exact i
  | innerFailGo _ _ i1 i2 => exact (i1.trans (.skip _)).trans i2
  | innerNoteLeave => exact .refl _
  | innerNoteGo _ _ i => exact (Adv.skip _).trans i
  | punct _ _ _ i1 i2 => exact i1.trans i2
  | punctPanic _ i => exact i
  | pouterStop => exact .refl _
  | pouterPanic _ i => exact i
  | pouterGo _ _ _ _ _ i1 i2 i3 => exact (i1.trans i2).trans i3
  | pouterBreak _ _ _ _ i1 i2 => exact i1.trans i2
  | pinnerGive _ _ i => exact i
  | pinnerStop => exact .refl _
  | pinnerFailLeave _ i => exact i
  | pinnerFailGo _ _ i1 i2 => exact (i1.trans (.skip _)).trans i2
  | pinnerNoteLeave => exact .refl _
  | pinnerNoteGo _ _ i => exact (Adv.skip _).trans i
  | recover _ _ i1 i2 => exact i1.trans i2
  | recoverPanic _ _ i1 i2 => exact i1.trans i2
  | headGive _ _ i => exact i
  | headPanic _ i => exact i
  | headNone => exact .refl _
  | tailGive _ _ i => exact i
  | tailPanic _ _ i => exact i
  | tailNote => exact .refl _
  | tailStop => exact .refl _
  | tailFail _ _ _ _ i1 i2 => exact (i1.trans (.skip _)).trans i2
  | tailSkip _ _ _ i => exact (Adv.skip _).trans i

/-! ### Spans in the source -/

/-- An end of a span. -/
def Edge (source : Str) (x : Nat) : Prop := x ≤ source.length ∧ isBoundary source x = true

theorem Edge.zero (source : Str) : Edge source 0 := ⟨by omega, by simp [isBoundary]⟩

theorem Edge.len (source : Str) : Edge source source.length := by
  refine ⟨Nat.le_refl _, ?_⟩
  unfold isBoundary
  split <;> simp

theorem inSource_iff (source : Str) (sp : Span) :
    sp.InSource source ↔ Edge source sp.lo ∧ Edge source sp.hi := Iff.rfl

/-- Both ends of a span satisfy `E`. -/
def Span.OnEdges (E : Nat → Prop) (sp : Span) : Prop := E sp.lo ∧ E sp.hi

/-- All tokens lie on edges, and so do the start and the end of the source. -/
structure GoodView (E : Nat → Prop) (v : View n) : Prop where
  zero : E 0
  len : E v.source.length
  cells : ∀ t ∈ v.cells.map (·.token), t.span.OnEdges E
  rest : ∀ t ∈ v.rest, t.span.OnEdges E

theorem GoodView.adv {E : Nat → Prop} {v v' : View n} (h : GoodView E v) (ha : Adv v v') :
    GoodView E v' := by
  obtain ⟨ts, h1, h2⟩ := ha.cons
  refine ⟨h.zero, by rw [ha.src]; exact h.len, ?_, ?_⟩
  · intro t ht
    rw [h2] at ht
    rcases List.mem_append.1 ht with ht | ht
    · exact h.cells t ht
    · exact h.rest t (by rw [h1]; exact List.mem_append_left _ ht)
  · intro t ht
    exact h.rest t (by rw [h1]; exact List.mem_append_right _ ht)

theorem GoodView.cur {E : Nat → Prop} {v : View n} (h : GoodView E v) : v.cur.OnEdges E := by
  unfold View.cur
  cases hr : v.rest with
  | nil => exact ⟨h.len, h.len⟩
  | cons t l => exact h.rest t (by simp [hr])

theorem GoodView.pos {E : Nat → Prop} {v : View n} (h : GoodView E v) : E v.pos := by
  unfold View.pos
  cases hl : v.cells.getLast? with
  | none => exact h.zero
  | some c =>
    exact (h.cells c.token (List.mem_map.2 ⟨c, List.mem_of_getLast? hl, rfl⟩)).2

/-- The tokens consumed so far and the next one (or the end of the source) lie on edges. -/
structure Near (E : Nat → Prop) (v : View n) : Prop where
  zero : E 0
  cells : ∀ t ∈ v.cells.map (·.token), t.span.OnEdges E
  cur : v.cur.OnEdges E

theorem GoodView.near {E : Nat → Prop} {v : View n} (h : GoodView E v) : Near E v := ⟨h.zero, h.cells, h.cur⟩

theorem Near.back {E : Nat → Prop} {v v' : View n} (h : Near E v') (ha : Adv v v') : Near E v := by
  obtain ⟨ts, h1, h2⟩ := ha.cons
  refine ⟨h.zero, fun t ht => h.cells t (by rw [h2]; exact List.mem_append_left _ ht), ?_⟩
  cases ts with
  | nil =>
    have : v.cur = v'.cur := by
      unfold View.cur
      rw [h1, List.nil_append, ha.src]
    rw [this]
    exact h.cur
  | cons t ts =>
    have : v.cur = t.span := by
      unfold View.cur
      rw [h1]
      rfl
    rw [this]
    exact h.cells t (by rw [h2]; simp)

theorem Near.pos {E : Nat → Prop} {v : View n} (h : Near E v) : E v.pos := by
  unfold View.pos
  cases hl : v.cells.getLast? with
  | none => exact h.zero
  | some c =>
    exact (h.cells c.token (List.mem_map.2 ⟨c, List.mem_of_getLast? hl, rfl⟩)).2

/-- A reported error: in the source, and not about unrecognised input. -/
def GoodErr (E : Nat → Prop) (e : Err n) : Prop :=
  e.span.OnEdges E ∧ e.kind ≠ .unexpectedCharacters

def GoodTree (E : Nat → Prop) (x : Tree n) : Prop := x.AllSpans (Span.OnEdges E)

theorem Tree.AllSpans.self {P : Span → Prop} {x : Tree n} (h : x.AllSpans P) : P x.span := by
  induction h with
  | tok h => exact h
  | seq h _ => exact h
  | variant _ ih => exact ih
  | optSome h _ => exact h
  | optNone h => exact h
  | exist h => exact h
  | text h => exact h
  | list h _ => exact h
  | split h _ _ => exact h
  | recover _ h _ _ => exact h
  | recoverNone _ h _ => exact h

theorem GoodTree.lo {E : Nat → Prop} {x : Tree n} (h : GoodTree E x) : E x.span.lo := h.self.1
theorem GoodTree.hi {E : Nat → Prop} {x : Tree n} (h : GoodTree E x) : E x.span.hi := h.self.2

def GoodL (E : Nat → Prop) (l : List (Tree n)) : Prop := ∀ x ∈ l, GoodTree E x
def GoodE (E : Nat → Prop) (l : List (Err n)) : Prop := ∀ x ∈ l, GoodErr E x
def Res.Good (E : Nat → Prop) : Res n (Tree n) → Prop
  | .success x => GoodTree E x
  | .recovered x e => GoodTree E x ∧ GoodE E e
  | .panic e => GoodE E e

def GoodA (E : Nat → Prop) (a : Acc n) : Prop :=
  a.elems ≠ [] ∧ GoodL E a.elems ∧ GoodL E a.puncts ∧ GoodE E a.errs

theorem GoodL.append {E : Nat → Prop} {a b : List (Tree n)} (h1 : GoodL E a) (h2 : GoodL E b) :
    GoodL E (a ++ b) := by
  intro x hx
  rcases List.mem_append.1 hx with h | h
  · exact h1 x h
  · exact h2 x h

theorem GoodL.one {E : Nat → Prop} {x : Tree n} (h : GoodTree E x) : GoodL E [x] := by
  intro y hy; rw [List.mem_singleton.1 hy]; exact h

theorem GoodE.append {E : Nat → Prop} {a b : List (Err n)} (h1 : GoodE E a) (h2 : GoodE E b) :
    GoodE E (a ++ b) := by
  intro x hx
  rcases List.mem_append.1 hx with h | h
  · exact h1 x h
  · exact h2 x h

theorem GoodE.one {E : Nat → Prop} {x : Err n} (h : GoodErr E x) : GoodE E [x] := by
  intro y hy; rw [List.mem_singleton.1 hy]; exact h

theorem GoodE.nil {E : Nat → Prop} : GoodE E ([] : List (Err n)) := by intro y hy; cases hy

theorem GoodL.last {E : Nat → Prop} {l : List (Tree n)} (h : GoodL E l) (d : Nat) (hd : E d) :
    E ((l.getLast?.map (·.span.hi)).getD d) := by
  cases hl : l.getLast? with
  | none => exact hd
  | some x => exact (h x (List.mem_of_getLast? hl)).hi

theorem GoodL.spanOf {E : Nat → Prop} {l : List (Tree n)} (h : GoodL E l) (hE0 : E 0) :
    (spanOf l).OnEdges E := by
  refine ⟨?_, h.last 0 (hE0)⟩
  show E ((l.head?.map (·.span.lo)).getD 0)
  cases hl : l.head? with
  | none => exact hE0
  | some x => exact (h x (List.mem_of_head? hl)).lo

theorem ofPair_good {E : Nat → Prop} {x : Tree n} {e : List (Err n)} (hx : GoodTree E x)
    (he : GoodE E e) : (Res.ofPair x e).Good E := by
  unfold Res.ofPair
  split
  · exact hx
  · exact ⟨hx, he⟩

theorem Res.Gives.good {E : Nat → Prop} {r : Res n (Tree n)} {x : Tree n} {e : List (Err n)}
    (h : r.Gives x e) (hr : r.Good E) : GoodTree E x ∧ GoodE E e := by
  cases h with
  | success => exact ⟨hr, .nil⟩
  | recovered => exact hr

theorem Note.good {E : Nat → Prop} {v : View n} {p p' : Option (Err n)} (h : Note v p p')
    (hv : Near E v) (hp : GoodE E p.toList) : GoodE E p'.toList := by
  cases h with
  | new => exact .one ⟨hv.cur, by simp⟩
  | ext q =>
    have := hp q (by simp)
    exact .one ⟨⟨this.1.1, hv.cur.2⟩, this.2⟩

theorem mergePanic_good {E : Nat → Prop} {p : Option (Err n)} {e : List (Err n)}
    (hp : GoodE E p.toList) (he : GoodE E e) : GoodE E (mergePanic p e).toList := by
  unfold mergePanic
  cases hl : e.getLast? with
  | none => exact hp
  | some d =>
    have hd := he d (List.mem_of_getLast? hl)
    cases p with
    | none => exact .one hd
    | some q =>
      have hq := hp q (by simp)
      exact .one ⟨⟨hq.1.1, hd.1.2⟩, hq.2⟩

theorem optLike_good {E : Nat → Prop} {t' t : Ty m n} {mk : Span → Option (Tree n) → Tree n}
    (h : OptLike t' t mk) {sp : Span} {x : Option (Tree n)} (hsp : sp.OnEdges E)
    (hx : ∀ y ∈ x, GoodTree E y) : GoodTree E (mk sp x) := by
  cases h with
  | option =>
    cases x with
    | none => exact .optNone hsp
    | some y => exact .optSome hsp (hx y rfl)
  | exist => exact .exist hsp
  | star =>
    unfold mkStar
    split
    · rename_i sp' l
      exact hx _ rfl
    · exact .list hsp (by simp)

/-- What holds for a judgement if all tokens lie in the source. -/
def Judg.Good (E : Nat → Prop) : Judg m n → Prop
  | .ty _ _ r _ => r.Good E
  | .seq _ _ acc errs r _ => GoodL E acc → GoodE E errs →
      match r with
      | .error e => GoodE E e
      | .ok (l, e) => GoodL E l ∧ GoodE E e
  | .iter _ _ acc errs hi acc' errs' hi' _ => GoodL E acc → GoodE E errs → E hi →
      GoodL E acc' ∧ GoodE E errs' ∧ E hi'
  | .loop _ _ out errs out' errs' _ => GoodL E out → GoodE E errs →
      GoodL E out' ∧ GoodE E errs'
  | .inner _ q _ a panic _ a' _ => GoodTree E q → GoodA E a → GoodE E panic.toList →
      GoodA E a'
  | .outer _ _ _ a a' _ => GoodA E a → GoodA E a'
  | .pinner _ _ a panic _ a' _ => GoodA E a → GoodE E panic.toList → GoodA E a'
  | .pouter _ _ _ a a' _ => GoodA E a → GoodA E a'
  | .head _ _ h _ => GoodE E h.errs ∧ GoodE E h.panic.toList ∧ h.span.OnEdges E ∧
      ∀ x ∈ h.head, GoodTree E x
  | .tail _ _ errs panic x errs' panic' _ => GoodE E errs → GoodE E panic.toList →
      (∀ y ∈ x, GoodTree E y) ∧ GoodE E errs' ∧ GoodE E panic'.toList

theorem RunX.near {fx : Bool} {E : Nat → Prop} {j : Judg m n} (h : RunX fx S j) :
    Near E j.post → j.Good E := by
  induction h with
  | @tok i k v t l hr _ _ =>
    intro hv
    have hv := (hv.back (.skip v)).cur
    unfold View.cur at hv
    rw [hr] at hv
    exact .tok hv
  | @tokRecovered i k v lit sp s _ hsp =>
    intro hv
    have hv : Near E v := hv
    refine ⟨.tok ?_, GoodE.one ⟨hv.cur, by simp⟩⟩
    rcases hsp with rfl | ⟨hnil, rfl⟩
    · exact ⟨hv.pos, hv.pos⟩
    · have hc : v.cur.OnEdges E := hv.cur
      rw [show v.cur = ⟨v.source.length, v.source.length⟩ by simp [View.cur, hnil]] at hc
      exact hc
  | tokPanic hk => intro hv; exact GoodE.one ⟨hv.cur, hk⟩
  | seqNil => intro hv ha he; exact ⟨ha, he⟩
  | seqGive _ hg h2 i1 i2 =>
    intro hv ha he
    obtain ⟨hx, hx'⟩ := hg.good (i1 (hv.back h2.adv))
    exact i2 hv (ha.append (.one hx)) (he.append hx')
  | seqPanic h1 i => intro hv ha he; exact he.append (i hv)
  | struct _ h1 i =>
    intro hv
    have hv := hv.back (.applyAll _ _)
    obtain ⟨hl, he⟩ := i hv (by intro x hx; cases hx) .nil
    exact ofPair_good (.seq (hl.spanOf hv.zero) hl) he
  | structPanic _ _ i => intro hv; exact i hv (by intro x hx; cases hx) .nil
  | tuple _ _ i =>
    intro hv
    obtain ⟨hl, he⟩ := i hv (by intro x hx; cases hx) .nil
    exact ofPair_good (.seq (hl.spanOf hv.zero) hl) he
  | tuplePanic _ _ i => intro hv; exact i hv (by intro x hx; cases hx) .nil
  | enumSuccess _ _ _ i => intro hv; exact .variant (i (hv.back (.applyAll _ _)))
  | enumRecovered _ _ _ i =>
    intro hv
    have hv := hv.back (.applyAll _ _)
    exact ⟨.variant (i hv).1, (i hv).2⟩
  | enumPanic _ _ _ i => intro hv; exact i hv
  | enumNone => intro hv; exact GoodE.one ⟨hv.cur, by simp⟩
  | box _ i => exact i
  | optNone ho => intro hv; exact optLike_good ho ⟨hv.pos, hv.pos⟩ (by intro y hy; cases hy)
  | optSuccess ho _ i =>
    intro hv
    have hx := i hv
    exact optLike_good ho (Tree.AllSpans.self hx) (by intro y hy; cases hy; exact hx)
  | optRecovered ho _ i =>
    intro hv
    obtain ⟨hx, he⟩ := i hv
    exact ⟨optLike_good ho (Tree.AllSpans.self hx) (by intro y hy; cases hy; exact hx), he⟩
  | optPanic ho _ i =>
    intro hv
    have := hv.pos
    exact ⟨optLike_good ho ⟨this, this⟩ (by intro y hy; cases hy), i hv⟩
  | textSuccess _ _ _ i => intro hv; exact .text (Tree.AllSpans.self (i hv))
  | textRecovered _ _ _ i => intro hv; exact ⟨.text (Tree.AllSpans.self (i hv).1), (i hv).2⟩
  | textPanic _ _ i => exact i
  | plus _ hg h2 i1 i2 =>
    intro hv
    obtain ⟨hx, he⟩ := hg.good (i1 (hv.back h2.adv))
    obtain ⟨hl, he', hh⟩ := i2 hv (.one hx) he hx.hi
    exact ofPair_good (.list ⟨hx.lo, hh⟩ hl) he'
  | plusPanic _ i => exact i
  | iterStop => intro hv h1 h2 h3; exact ⟨h1, h2, h3⟩
  | iterGive _ _ hg h2 i1 i2 =>
    intro hv ha he hh
    obtain ⟨hx, he1⟩ := hg.good (i1 (hv.back h2.adv))
    exact i2 hv (ha.append (.one hx)) (he.append he1) hx.hi
  | iterPanic _ i => intro hv ha he hh; exact ⟨ha, he.append (i hv), hh⟩
  | loopEmpty _ i =>
    intro hv
    obtain ⟨_, he⟩ := i hv (by intro x hx; cases hx) .nil
    have := hv.pos
    exact ofPair_good (.list ⟨this, this⟩ (by simp)) he
  | loopList _ _ i =>
    intro hv
    obtain ⟨hl, he⟩ := i hv (by intro x hx; cases hx) .nil
    exact ofPair_good (.list (hl.spanOf hv.zero) hl) he
  | loopStop => intro hv ha he; exact ⟨ha, he⟩
  | loopSkip hs h2 i =>
    intro hv ha he
    have hv1 := hv.back h2.adv
    exact i hv ha (he.append (.one ⟨⟨(hv1.back hs.adv).cur.1, hv1.pos⟩, by simp⟩))
  | loopGive _ hg h2 i1 i2 =>
    intro hv ha he
    obtain ⟨hx, he1⟩ := hg.good (i1 (hv.back h2.adv))
    exact i2 hv (ha.append (.one hx)) (he.append he1)
  | loopPanic _ h2 i1 i2 =>
    intro hv ha he
    exact i2 hv ha (he.append (i1 (hv.back h2.adv)))
  | loopGiveStuck _ hg i1 =>
    intro hv ha he
    obtain ⟨hx, he1⟩ := hg.good (i1 hv)
    exact ⟨ha.append (.one hx), (he.append he1).append (.one ⟨hv.cur, by simp⟩)⟩
  | loopPanicStuck _ i1 =>
    intro hv ha he
    exact ⟨ha, (he.append (i1 hv)).append (.one ⟨hv.cur, by simp⟩)⟩
  | split _ hg h2 i1 i2 =>
    intro hv
    obtain ⟨hx, he⟩ := hg.good (i1 (hv.back h2.adv))
    obtain ⟨_, h2, h3, h4⟩ := i2 hv ⟨by simp, .one hx, (by intro x hx; cases hx), he⟩
    exact ofPair_good (.split ⟨hx.lo, h2.last _ hx.lo⟩ h2 h3) h4
  | splitPanic _ i => exact i
  | outerStop => intro hv ha; exact ha
  | outerPanic _ i => intro hv ha; exact ⟨ha.1, ha.2.1, ha.2.2.1, ha.2.2.2.append (i hv)⟩
  | outerGo _ _ hg h2 h3 i1 i2 i3 =>
    intro hv ha
    have hv2 := hv.back h3.adv
    obtain ⟨hq, he⟩ := hg.good (i1 (hv2.back h2.adv))
    exact i3 hv (i2 hv2 hq ⟨ha.1, ha.2.1, ha.2.2.1, ha.2.2.2.append he⟩ .nil)
  | outerBreak _ _ hg h2 i1 i2 =>
    intro hv ha
    obtain ⟨hq, he⟩ := hg.good (i1 (hv.back h2.adv))
    exact i2 hv hq ⟨ha.1, ha.2.1, ha.2.2.1, ha.2.2.2.append he⟩ .nil
  | innerGive _ hg i =>
    intro hv hq ha hp
    obtain ⟨hx, he⟩ := hg.good (i hv)
    exact ⟨by simp, ha.2.1.append (.one hx), ha.2.2.1.append (.one hq), (ha.2.2.2.append he).append hp⟩
  | innerFailLeave _ i =>
    intro hv hq ha hp
    exact ⟨ha.1, ha.2.1, ha.2.2.1, ha.2.2.2.append (mergePanic_good hp (i hv))⟩
  | innerFailGo _ h2 i1 i2 =>
    intro hv hq ha hp
    exact i2 hv hq ha (mergePanic_good hp (i1 ((hv.back h2.adv).back (.skip _))))
  | innerNoteLeave hn =>
    intro hv hq ha hp
    exact ⟨ha.1, ha.2.1, ha.2.2.1, ha.2.2.2.append (hn.good hv hp)⟩
  | innerNoteGo hn h2 i =>
    intro hv hq ha hp
    exact i hv hq ha (hn.good ((hv.back h2.adv).back (.skip _)) hp)
  | punct _ hg h2 i1 i2 =>
    intro hv
    obtain ⟨hx, he⟩ := hg.good (i1 (hv.back h2.adv))
    obtain ⟨_, h2, h3, h4⟩ := i2 hv ⟨by simp, .one hx, (by intro x hx; cases hx), he⟩
    refine ofPair_good (.split ⟨hx.lo, ?_⟩ h2 h3) h4
    show E (max _ _)
    rcases Nat.le_total ((List.getLast? _).map (fun x : Tree _ => x.span.hi) |>.getD _)
      ((List.getLast? _).map (fun x : Tree _ => x.span.hi) |>.getD _) with h | h
    · rw [Nat.max_eq_right h]; exact h3.last _ hx.lo
    · rw [Nat.max_eq_left h]; exact h2.last _ hx.lo
  | punctPanic _ i => exact i
  | pouterStop => intro hv ha; exact ha
  | pouterPanic _ i => intro hv ha; exact ⟨ha.1, ha.2.1, ha.2.2.1, ha.2.2.2.append (i hv)⟩
  | pouterGo _ _ hg h2 h3 i1 i2 i3 =>
    intro hv ha
    have hv2 := hv.back h3.adv
    obtain ⟨hq, he⟩ := hg.good (i1 (hv2.back h2.adv))
    exact i3 hv
      (i2 hv2 ⟨ha.1, ha.2.1, ha.2.2.1.append (.one hq), ha.2.2.2.append he⟩ .nil)
  | pouterBreak _ _ hg h2 i1 i2 =>
    intro hv ha
    obtain ⟨hq, he⟩ := hg.good (i1 (hv.back h2.adv))
    exact i2 hv ⟨ha.1, ha.2.1, ha.2.2.1.append (.one hq), ha.2.2.2.append he⟩ .nil
  | pinnerGive _ hg i =>
    intro hv ha hp
    obtain ⟨hx, he⟩ := hg.good (i hv)
    exact ⟨by simp, ha.2.1.append (.one hx), ha.2.2.1, (ha.2.2.2.append hp).append he⟩
  | pinnerStop => intro hv ha hp; exact ⟨ha.1, ha.2.1, ha.2.2.1, ha.2.2.2.append hp⟩
  | pinnerFailLeave _ i =>
    intro hv ha hp
    exact ⟨ha.1, ha.2.1, ha.2.2.1, ha.2.2.2.append (mergePanic_good hp (i hv))⟩
  | pinnerFailGo _ h2 i1 i2 =>
    intro hv ha hp
    exact i2 hv ha (mergePanic_good hp (i1 ((hv.back h2.adv).back (.skip _))))
  | pinnerNoteLeave hn =>
    intro hv ha hp
    exact ⟨ha.1, ha.2.1, ha.2.2.1, ha.2.2.2.append (hn.good hv hp)⟩
  | pinnerNoteGo hn h2 i =>
    intro hv ha hp
    exact i hv ha (hn.good ((hv.back h2.adv).back (.skip _)) hp)
  | @recover t r v h v1 x errs panic v' _ h2 i1 i2 =>
    intro hv
    obtain ⟨he, hp, hs, hh⟩ := i1 (hv.back h2.adv)
    obtain ⟨hx, he', hp'⟩ := i2 hv he hp
    have hx := hx x rfl
    refine ofPair_good ?_ (he'.append hp')
    unfold mkRecover
    cases hd : h.head with
    | none => exact .recoverNone hs ⟨hs.1, hx.hi⟩ hx
    | some y => exact .recover hs ⟨hs.1, hx.hi⟩ (hh y hd) hx
  | recoverPanic _ h2 i1 i2 =>
    intro hv
    obtain ⟨he, hp, hs, hh⟩ := i1 (hv.back h2.adv)
    obtain ⟨_, he', hp'⟩ := i2 hv he hp
    exact he'.append hp'
  | headGive _ hg i =>
    intro hv
    obtain ⟨hx, he⟩ := hg.good (i hv)
    exact ⟨he, .nil, Tree.AllSpans.self hx, by intro y hy; cases hy; exact hx⟩
  | @headPanic t v e v1 h1 i =>
    intro hv
    have := hv.pos
    refine ⟨.nil, ?_, ⟨this, this⟩, by intro y hy; cases hy⟩
    cases hl : e.getLast? with
    | none => exact .nil
    | some d => exact .one (i hv d (List.mem_of_getLast? hl))
  | headNone =>
    intro hv
    exact ⟨.nil, .one ⟨hv.cur, by simp⟩, ⟨hv.pos, hv.pos⟩, by intro y hy; cases hy⟩
  | tailGive _ hg i =>
    intro hv he hp
    obtain ⟨hx, he1⟩ := hg.good (i hv)
    exact ⟨by intro y hy; cases hy; exact hx, he.append he1, hp⟩
  | tailPanic _ _ i =>
    intro hv he hp
    exact ⟨(by intro y hy; cases hy), he, mergePanic_good hp (i hv)⟩
  | tailNote => intro hv he hp; exact ⟨(by intro y hy; cases hy), he, .one ⟨hv.cur, by simp⟩⟩
  | tailStop => intro hv he hp; exact ⟨(by intro y hy; cases hy), he, hp⟩
  | tailFail _ _ hn h2 i1 i2 =>
    intro hv he hp
    have hv1 := (hv.back h2.adv).back (.skip _)
    exact i2 hv he (hn.good hv1 (mergePanic_good hp (i1 hv1)))
  | tailSkip _ hn h2 i =>
    intro hv he hp
    exact i hv he (hn.good ((hv.back h2.adv).back (.skip _)) hp)

theorem RunX.good {fx : Bool} {E : Nat → Prop} {j : Judg m n} (h : RunX fx S j) (hv : GoodView E j.pre) : j.Good E :=
  h.near (hv.adv h.adv).near

/-! ### No crash -/

/-- All tokens lie in the source. -/
structure InSource (source : Str) (v : View n) : Prop where
  src : v.source = source
  good : GoodView (Edge source) v

theorem InSource.adv {source : Str} {v v' : View n} (h : InSource source v) (ha : Adv v v') :
    InSource source v' := ⟨ha.src.trans h.src, h.good.adv ha⟩

/-- On streams with tokens in the source, it does not crash and leads to such a stream. -/
def Safe (source : Str) {α : Type} (x : M (View n) α) : Prop :=
  ∀ v, InSource source v → x v ≠ .crash ∧ ∀ a v', x v = .ok a v' → InSource source v'

theorem Safe.bind {source : Str} {α β : Type} {x : M (View n) α} {f : α → M (View n) β}
    (hx : Safe source x) (hf : ∀ v a v', InSource source v → x v = .ok a v' → InSource source v' →
      f a v' ≠ .crash ∧ ∀ b v'', f a v' = .ok b v'' → InSource source v'') : Safe source (x >>= f) := by
  intro v hv
  obtain ⟨h1, h2⟩ := hx v hv
  show M.bind x f v ≠ .crash ∧ ∀ b v'', M.bind x f v = .ok b v'' → InSource source v''
  unfold M.bind
  cases hxv : x v with
  | fuel => simp
  | crash => exact absurd hxv h1
  | ok a v1 => exact hf v a v1 hv hxv (h2 a v1 hxv)

theorem Safe.bind' {source : Str} {α β : Type} {x : M (View n) α} {f : α → M (View n) β}
    (hx : Safe source x) (hf : ∀ a, Safe source (f a)) : Safe source (x >>= f) :=
  hx.bind fun _ a v' _ _ hv' => hf a v' hv'

theorem Safe.pure {source : Str} {α : Type} (a : α) : Safe source (Pure.pure a : M (View n) α) := by
  intro v hv
  refine ⟨fun h => (by cases h), fun b v' h => ?_⟩
  obtain ⟨_, rfl⟩ := pure_ok.1 h
  exact hv

theorem get?_isSome {source : Str} {sp : Span} (h : sp.InSource source) : (sp.get? source).isSome = true := by
  unfold Span.get?
  split
  · rfl
  · rename_i hlt
    obtain ⟨⟨_, h2⟩, h3, h4⟩ := h
    have e : min sp.hi source.length = sp.hi := Nat.min_eq_left h3
    simp only [e]
    unfold sliceStr?
    rw [if_pos ⟨by omega, h3, h2, h4⟩]
    rfl

theorem Safe.getSrc {source : Str} {sp : Span} (h : sp.InSource source) :
    Safe source ((View.ops (n := n)).mGetSrc sp) := by
  intro v hv
  obtain ⟨s, hs⟩ := Option.isSome_iff_exists.1 (get?_isSome h)
  rw [← hv.src] at hs
  have h1 := (mGetSrc_ok (v := v) (v' := v) (sp := sp) (x := s)).2 ⟨hs, rfl⟩
  rw [h1]
  refine ⟨fun h => (by cases h), fun a v' h => ?_⟩
  cases h
  exact hv

theorem Safe.peek {source : Str} : Safe source ((View.ops (n := n)).mPeek) := by
  intro v hv
  refine ⟨fun h => (by cases h), fun a v' h => ?_⟩
  obtain ⟨_, rfl⟩ := mPeek_ok.1 h
  exact hv

theorem Safe.source {source : Str} : Safe source ((View.ops (n := n)).mSource) := by
  intro v hv
  refine ⟨fun h => (by cases h), fun a v' h => ?_⟩
  obtain ⟨_, rfl⟩ := mSource_ok.1 h
  exact hv

theorem Safe.peekSrc {source : Str} : Safe source ((View.ops (n := n)).mPeekSrc) := by
  unfold Ops.mPeekSrc
  refine Safe.peek.bind fun v a v' hv ha hv' => ?_
  obtain ⟨rfl, rfl⟩ := mPeek_ok.1 ha
  cases hr : v'.rest.head? with
  | none => exact Safe.pure none v' hv'
  | some t =>
    exact Safe.bind' (Safe.getSrc (hv'.good.rest t (List.mem_of_head? hr))) (fun _ => Safe.pure _) v' hv'

theorem Safe.currentSpan {source : Str} : Safe source ((View.ops (n := n)).mCurrentSpan) := by
  unfold Ops.mCurrentSpan
  refine Safe.peek.bind' fun a => ?_
  cases a with
  | none => exact Safe.source.bind' fun _ => Safe.pure _
  | some t => exact Safe.pure _

theorem Safe.consume {source : Str} : Safe source ((View.ops (n := n)).mConsume) := by
  intro v hv
  refine ⟨fun h => (by cases h), fun a v' h => ?_⟩
  obtain ⟨_, rfl⟩ := mConsume_ok.1 h
  exact hv.adv (.skip v)

theorem Safe.emptySpan {source : Str} : Safe source ((View.ops (n := n)).mEmptySpan) := by
  intro v hv
  refine ⟨fun h => (by cases h), fun a v' h => ?_⟩
  obtain ⟨_, rfl⟩ := mEmptySpan_ok.1 h
  exact hv

theorem Safe.apply {source : Str} (sp : Span) (sem : LSet n) :
    Safe source ((View.ops (n := n)).mApply sp sem) := by
  intro v hv
  refine ⟨fun h => (by cases h), fun a v' h => ?_⟩
  cases mApply_ok.1 h
  exact hv.adv (.apply v sp sem)

theorem Safe.expecting {source : Str} (s : TSet n) : Safe source ((View.ops (n := n)).mExpecting s) :=
  Safe.currentSpan.bind' fun _ => Safe.pure _

theorem Safe.term {source : Str} (t : Terminal n) (fol : TSet n) :
    Safe source (produceTerm View.ops t fol) := by
  unfold produceTerm
  cases t.lit with
  | none =>
    refine Safe.bind' ?_ fun _ => Safe.pure _
    unfold Ops.parseToken
    refine Safe.peek.bind' fun x => ?_
    cases x with
    | none => exact (Safe.expecting _).bind' fun _ => Safe.pure _
    | some x =>
      dsimp only
      split
      · exact Safe.consume.bind' fun _ => Safe.pure _
      · exact (Safe.expecting _).bind' fun _ => Safe.pure _
  | some lit =>
    refine Safe.bind' ?_ fun _ => Safe.pure _
    unfold Ops.parseTokenLit
    refine Safe.peek.bind fun v a v' hv ha hv' => ?_
    obtain ⟨rfl, rfl⟩ := mPeek_ok.1 ha
    cases hr : v'.rest.head? with
    | none =>
      dsimp only
      split
      · exact Safe.bind' Safe.currentSpan
          (fun _ => (Safe.expecting _).bind' fun _ => Safe.pure _) v' hv'
      · exact Safe.bind' (Safe.currentSpan.bind' fun _ => Safe.pure _) (fun _ => Safe.pure _) v' hv'
    | some t =>
      refine Safe.bind' (Safe.getSrc (hv'.good.rest t (List.mem_of_head? hr))) (fun src => ?_) v' hv'
      split
      · exact Safe.consume.bind' fun _ => Safe.pure _
      · split
        · exact Safe.emptySpan.bind' fun _ => (Safe.expecting _).bind' fun _ => Safe.pure _
        · exact (Safe.expecting _).bind' fun _ => Safe.pure _

/-- Producing does not crash. -/
theorem produce_safe {source : Str} (S : Schema m n) (md : Metadata (PId m n) n) (fuel : Nat) (t : Ty m n) :
    Safe source (produce View.ops S md fuel t) := by
  have hc : Core 0 (fun {α} (x _ : M (View n) α) => Safe source x) View.ops View.ops :=
    ⟨fun a => .pure a, fun hx hf => hx.bind' hf,
      fun y _ v hv => ⟨fun h => (by cases h), fun a v' h => (by cases h)⟩, .peekSrc, .currentSpan,
      .consume, .emptySpan, .apply, .term⟩
  refine hc.produce S md ?_ fuel t
  intro f t hp
  refine hp.bind fun v r v' hv hr hv' => ?_
  have hg := (run_of_produce S md f t v r v' hr).good hv.good
  cases r with
  | success x =>
    exact Safe.bind' (Safe.getSrc (Tree.AllSpans.self hg)) (fun _ => Safe.pure _) v' hv'
  | recovered x e =>
    exact Safe.bind' (Safe.getSrc (Tree.AllSpans.self hg.1)) (fun _ => Safe.pure _) v' hv'
  | panic e => exact Safe.pure _ v' hv'

theorem mRemaining_good {source : Str} {v : View n} (hv : InSource source v) :
    (View.ops (n := n)).mRemaining v = .ok (v.source.drop v.cur.lo) v := by
  unfold Ops.mRemaining
  rw [bind_ok]
  refine ⟨v.cur, v, mCurrentSpan_ok.2 ⟨rfl, rfl⟩, ?_⟩
  rw [bind_ok]
  refine ⟨v.source, v, mSource_ok.2 ⟨rfl, rfl⟩, ?_⟩
  have h1 := hv.good.cur.1
  rw [← hv.src] at h1
  have : sliceStr? v.source v.cur.lo v.source.length = some (v.source.drop v.cur.lo) := by
    unfold sliceStr?
    rw [if_pos ⟨h1.1, Nat.le_refl _, h1.2, (Edge.len v.source).2⟩, List.take_of_length_le (by simp)]
  rw [this]
  rfl

end Teleparse
