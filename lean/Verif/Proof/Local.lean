import Verif.Proof.Yields
/-
What is produced does not depend on anything after the next token.
-/
namespace Teleparse
variable {m n : Nat}

/-- The two sources have the same text between any two edges. -/
def SameOn (E : Nat → Prop) (s1 s2 : Str) : Prop := ∀ sp : Span, sp.OnEdges E → sp.get? s1 = sp.get? s2

/-- A run of `x` with `l1` after the tokens it consumed and the next one is a run of `y` with `l2` there. -/
def Loc (E : Nat → Prop) (s1 s2 : Str) (l1 l2 : List (Token n)) {α : Type} (x y : M (View n) α) : Prop :=
  (∀ v a v', x v = .ok a v' → Adv v v') ∧
  ∀ cells u a v' u', x ⟨s1, cells, u ++ l1⟩ = .ok a v' → u' ≠ [] → v'.rest = u' ++ l1 → Near E v' →
    y ⟨s2, cells, u ++ l2⟩ = .ok a ⟨s2, v'.cells, u' ++ l2⟩

variable {E : Nat → Prop} {s1 s2 : Str} {l1 l2 : List (Token n)}

theorem Loc.pure {α : Type} (a : α) : Loc E s1 s2 l1 l2 (Pure.pure a : M (View n) α) (Pure.pure a) := by
  refine ⟨fun v b v' h => ?_, fun cells u b v' u' h _ hr _ => ?_⟩
  · obtain ⟨-, rfl⟩ := pure_ok.1 h; exact .refl _
  · obtain ⟨rfl, rfl⟩ := pure_ok.1 h
    have : u = u' := List.append_cancel_right hr
    subst this
    exact pure_ok.2 ⟨rfl, rfl⟩

theorem Loc.bind {α β : Type} {x y : M (View n) α} {f g : α → M (View n) β} (hx : Loc E s1 s2 l1 l2 x y)
    (hf : ∀ a, Loc E s1 s2 l1 l2 (f a) (g a)) : Loc E s1 s2 l1 l2 (x >>= f) (y >>= g) := by
  refine ⟨fun v b v' h => ?_, fun cells u b v' u' h hu hr hn => ?_⟩
  · obtain ⟨a, v1, h1, h2⟩ := bind_ok.1 h
    exact (hx.1 _ _ _ h1).trans ((hf a).1 _ _ _ h2)
  · obtain ⟨a, v1, h1, h2⟩ := bind_ok.1 h
    have ha1 := hx.1 _ _ _ h1
    have ha2 := (hf a).1 _ _ _ h2
    obtain ⟨ts, hts, -⟩ := ha2.cons
    rw [hr, ← List.append_assoc] at hts
    have hs : v1.source = s1 := ha1.src
    have e1 : v1 = ⟨s1, v1.cells, (ts ++ u') ++ l1⟩ := by
      cases v1; simp only at hts hs; simp [hts, hs]
    have h3 := hx.2 cells u a v1 (ts ++ u') h1 (by simp [hu]) hts (hn.back ha2)
    rw [e1] at h2
    exact bind_ok.2 ⟨a, _, h3, (hf a).2 _ _ _ _ _ h2 hu hr hn⟩

/-- Steps that do not consume. -/
theorem Loc.still {α : Type} {x y : M (View n) α} (h1 : ∀ v a v', x v = .ok a v' → v' = v)
    (h2 : ∀ cells t u a, Near E (⟨s1, cells, (t :: u) ++ l1⟩ : View n) →
      x ⟨s1, cells, (t :: u) ++ l1⟩ = .ok a ⟨s1, cells, (t :: u) ++ l1⟩ →
      y ⟨s2, cells, (t :: u) ++ l2⟩ = .ok a ⟨s2, cells, (t :: u) ++ l2⟩) : Loc E s1 s2 l1 l2 x y := by
  refine ⟨fun v a v' h => ?_, fun cells u a v' u' h hu hr hn => ?_⟩
  · rw [h1 _ _ _ h]; exact .refl _
  · have := h1 _ _ _ h
    subst this
    have : u = u' := List.append_cancel_right hr
    subst this
    cases u with
    | nil => exact absurd rfl hu
    | cons t u => exact h2 cells t u a hn h

theorem Loc.currentSpan : Loc E s1 s2 l1 l2 (View.ops (n := n)).mCurrentSpan View.ops.mCurrentSpan := by
  refine .still (fun v a v' h => (mCurrentSpan_ok.1 h).2) fun cells t u a _ h => ?_
  obtain ⟨rfl, -⟩ := mCurrentSpan_ok.1 h
  exact mCurrentSpan_ok.2 ⟨rfl, rfl⟩

theorem Loc.emptySpan : Loc E s1 s2 l1 l2 (View.ops (n := n)).mEmptySpan View.ops.mEmptySpan := by
  refine .still (fun v a v' h => (mEmptySpan_ok.1 h).2) fun cells t u a _ h => ?_
  obtain ⟨rfl, -⟩ := mEmptySpan_ok.1 h
  exact mEmptySpan_ok.2 ⟨rfl, rfl⟩

theorem Loc.peek : Loc E s1 s2 l1 l2 (View.ops (n := n)).mPeek View.ops.mPeek := by
  refine .still (fun v a v' h => (mPeek_ok.1 h).2) fun cells t u a _ h => ?_
  obtain ⟨rfl, -⟩ := mPeek_ok.1 h
  exact mPeek_ok.2 ⟨rfl, rfl⟩

theorem Loc.peekSrc (hE : SameOn E s1 s2) :
    Loc E s1 s2 l1 l2 (View.ops (n := n)).mPeekSrc View.ops.mPeekSrc := by
  refine .still (fun v a v' h => (mPeekSrc_ok.1 h).2.1) fun cells t u a hn h => ?_
  obtain ⟨rfl, -, hs⟩ := mPeekSrc_ok.1 h
  have he := hE t.span hn.cur
  refine mPeekSrc_ok.2 ⟨?_, rfl, ?_⟩
  · simp [View.look, Token.toSrc, Token.src, Span.get, he]
  · intro t' ht'
    cases ht'
    have := hs t rfl
    simp only [← he]
    exact this

theorem Loc.consume : Loc E s1 s2 l1 l2 (View.ops (n := n)).mConsume View.ops.mConsume := by
  refine ⟨fun v a v' h => ?_, fun cells u a v' u' h hu hr hn => ?_⟩
  · rw [(mConsume_ok.1 h).2]; exact .skip v
  · obtain ⟨rfl, rfl⟩ := mConsume_ok.1 h
    cases u with
    | nil =>
      exfalso
      have : l1.length = u'.length + l1.length + (if l1 = [] then 0 else 1) := by
        cases l1 with
        | nil => simp [View.skip, View.consume] at hr; simp [hr]
        | cons b l =>
          have := congrArg List.length hr
          simp [View.skip, View.consume] at this
          simp; omega
      have hl : 0 < u'.length := by cases u' with
        | nil => exact absurd rfl hu
        | cons _ _ => simp
      omega
    | cons t u =>
      have : u = u' := by
        simp only [View.skip, View.consume, List.cons_append] at hr
        exact List.append_cancel_right hr
      subst this
      exact mConsume_ok.2 ⟨rfl, rfl⟩

theorem Loc.apply (sp : Span) (sem : LSet n) :
    Loc E s1 s2 l1 l2 ((View.ops (n := n)).mApply sp sem) (View.ops.mApply sp sem) := by
  refine ⟨fun v a v' h => ?_, fun cells u a v' u' h hu hr hn => ?_⟩
  · rw [mApply_ok.1 h]; exact .apply v sp sem
  · cases mApply_ok.1 h
    have : u = u' := List.append_cancel_right hr
    subst this
    exact mApply_ok.2 rfl

theorem Loc.expecting (s : TSet n) :
    Loc E s1 s2 l1 l2 ((View.ops (n := n)).mExpecting s) (View.ops.mExpecting s) :=
  Loc.currentSpan.bind fun _ => .pure _

theorem Loc.unexpectedEof :
    Loc E s1 s2 l1 l2 ((View.ops (n := n)).mUnexpectedEof) (View.ops.mUnexpectedEof) :=
  Loc.currentSpan.bind fun _ => .pure _

/-- Reading the text of the token just peeked. -/
theorem Loc.peeked {α : Type} (hE : SameOn E s1 s2) {f g : Token n → Str → M (View n) α} {x y : M (View n) α}
    (hf : ∀ t s, Loc E s1 s2 l1 l2 (f t s) (g t s)) (hx : Loc E s1 s2 l1 l2 x y) :
    Loc E s1 s2 l1 l2
      (View.ops.mPeek >>= fun t => match t with
        | none => x
        | some t => View.ops.mGetSrc t.span >>= f t)
      (View.ops.mPeek >>= fun t => match t with
        | none => y
        | some t => View.ops.mGetSrc t.span >>= g t) := by
  refine ⟨fun v b v' h => ?_, fun cells u b v' u' h hu hr hn => ?_⟩
  · obtain ⟨t, v1, h1, h2⟩ := bind_ok.1 h
    obtain ⟨rfl, rfl⟩ := mPeek_ok.1 h1
    cases hh : v1.rest.head? with
    | none => rw [hh] at h2; exact hx.1 _ _ _ h2
    | some t =>
      rw [hh] at h2
      obtain ⟨s, v2, h3, h4⟩ := bind_ok.1 h2
      obtain ⟨-, rfl⟩ := mGetSrc_ok.1 h3
      exact (hf t s).1 _ _ _ h4
  · obtain ⟨t, v1, h1, h2⟩ := bind_ok.1 h
    obtain ⟨rfl, rfl⟩ := mPeek_ok.1 h1
    cases u with
    | nil =>
      exfalso
      have hadv : Adv (⟨s1, cells, [] ++ l1⟩ : View n) v' := by
        cases hh : (View.rest (⟨s1, cells, [] ++ l1⟩ : View n)).head? with
        | none => rw [hh] at h2; exact hx.1 _ _ _ h2
        | some t =>
          rw [hh] at h2
          obtain ⟨s, v2, h3, h4⟩ := bind_ok.1 h2
          obtain ⟨-, rfl⟩ := mGetSrc_ok.1 h3
          exact (hf t s).1 _ _ _ h4
      obtain ⟨ts, hts, -⟩ := hadv.cons
      have := congrArg List.length hts
      rw [hr] at this
      have hl : 0 < u'.length := by cases u' with
        | nil => exact absurd rfl hu
        | cons _ _ => simp
      simp at this
      omega
    | cons t u =>
      obtain ⟨s, v2, h3, h4⟩ := bind_ok.1 h2
      obtain ⟨hg, rfl⟩ := mGetSrc_ok.1 h3
      have hnear := (hn.back ((hf t s).1 _ _ _ h4)).cur
      have he := hE t.span hnear
      refine bind_ok.2 ⟨some t, _, mPeek_ok.2 ⟨rfl, rfl⟩, ?_⟩
      refine bind_ok.2 ⟨s, _, mGetSrc_ok.2 ⟨?_, rfl⟩, (hf t s).2 _ _ _ _ _ h4 hu hr hn⟩
      exact he ▸ hg

theorem Loc.term (hE : SameOn E s1 s2) (t : Terminal n) (fol : TSet n) :
    Loc E s1 s2 l1 l2 (produceTerm View.ops t fol) (produceTerm View.ops t fol) := by
  unfold produceTerm
  cases t.lit with
  | none =>
    refine Loc.bind ?_ fun _ => .pure _
    unfold Ops.parseToken
    refine Loc.peek.bind fun x => ?_
    cases x with
    | none => exact (Loc.expecting _).bind fun _ => .pure _
    | some x =>
      dsimp only
      split
      · exact Loc.consume.bind fun _ => .pure _
      · exact (Loc.expecting _).bind fun _ => .pure _
  | some lit =>
    refine Loc.bind ?_ fun _ => .pure _
    unfold Ops.parseTokenLit
    refine Loc.peeked hE (fun x s => ?_) ?_
    · split
      · exact Loc.consume.bind fun _ => .pure _
      · split
        · exact Loc.emptySpan.bind fun _ => (Loc.expecting _).bind fun _ => .pure _
        · exact (Loc.expecting _).bind fun _ => .pure _
    · split
      · exact Loc.currentSpan.bind fun _ => (Loc.expecting _).bind fun _ => .pure _
      · exact Loc.unexpectedEof.bind fun _ => .pure _

theorem produce_loc (hE : SameOn E s1 s2) (S : Schema m n) (md : Metadata (PId m n) n) (fuel : Nat)
    (t : Ty m n) : Loc E s1 s2 l1 l2 (produce View.ops S md fuel t) (produce View.ops S md fuel t) := by
  have hc : Core 0 (fun {α} (x y : M (View n) α) => Loc E s1 s2 l1 l2 x y) View.ops View.ops :=
    ⟨fun a => .pure a, fun hx hf => hx.bind hf,
      fun y _ => ⟨fun v a v' h => (by cases h), fun _ _ _ _ _ h => (by cases h)⟩, .peekSrc hE, .currentSpan,
      .consume, .emptySpan, .apply, .term hE⟩
  refine hc.produce S md ?_ fuel t
  intro f t hp
  have htail : ∀ (r : Res n (Tree n)) (v v' : View n) a,
      (match r with
        | .success t => do
          let s ← View.ops.mGetSrc t.span
          pure (.success (.text t.span s))
        | .recovered t e => do
          let s ← View.ops.mGetSrc t.span
          pure (.recovered (.text t.span s) e)
        | .panic e => pure (.panic e) : P (View n) n) v = .ok a v' →
      v' = v ∧ (∀ w : View n, (∀ x e, r.Gives x e → x.span.get? v.source = x.span.get? w.source) →
      (match r with
        | .success t => do
          let s ← View.ops.mGetSrc t.span
          pure (.success (.text t.span s))
        | .recovered t e => do
          let s ← View.ops.mGetSrc t.span
          pure (.recovered (.text t.span s) e)
        | .panic e => pure (.panic e) : P (View n) n) w = .ok a w) := by
    intro r v v' a h
    cases r with
    | success x =>
      obtain ⟨s, v2, h1, h2⟩ := bind_ok.1 h
      obtain ⟨hg, rfl⟩ := mGetSrc_ok.1 h1
      obtain ⟨rfl, rfl⟩ := pure_ok.1 h2
      refine ⟨rfl, fun w hw => bind_ok.2 ⟨s, w, mGetSrc_ok.2 ⟨?_, rfl⟩, pure_ok.2 ⟨rfl, rfl⟩⟩⟩
      rw [← hw x [] (.success x)]; exact hg
    | recovered x e =>
      obtain ⟨s, v2, h1, h2⟩ := bind_ok.1 h
      obtain ⟨hg, rfl⟩ := mGetSrc_ok.1 h1
      obtain ⟨rfl, rfl⟩ := pure_ok.1 h2
      refine ⟨rfl, fun w hw => bind_ok.2 ⟨s, w, mGetSrc_ok.2 ⟨?_, rfl⟩, pure_ok.2 ⟨rfl, rfl⟩⟩⟩
      rw [← hw x e (.recovered x e)]; exact hg
    | panic e =>
      obtain ⟨rfl, rfl⟩ := pure_ok.1 h
      exact ⟨rfl, fun w _ => pure_ok.2 ⟨rfl, rfl⟩⟩
  refine ⟨fun v a v' h => ?_, fun cells u a v' u' h hu hr hn => ?_⟩
  · obtain ⟨r, v1, h1, h2⟩ := bind_ok.1 h
    obtain ⟨rfl, -⟩ := htail r v1 v' a h2
    exact hp.1 _ _ _ h1
  · obtain ⟨r, v1, h1, h2⟩ := bind_ok.1 h
    obtain ⟨rfl, hw⟩ := htail r v1 v' a h2
    refine bind_ok.2 ⟨r, _, hp.2 _ _ _ _ _ h1 hu hr hn, hw _ ?_⟩
    intro x e hx
    have hsrc : v'.source = s1 := (hp.1 _ _ _ h1).src
    have hg := (run_of_produce S md f t _ _ _ h1).near hn
    rw [hsrc]
    exact hE _ (Tree.AllSpans.self (hx.good hg).1)

end Teleparse
