import Verif.Proof.KeptView
import Verif.Proof.Alarm
/-
The parser that keeps the first error of a failed part reports no error before the first token that differs from an
input without errors, as in `Proof/Alarm.lean` for the code as it is.
-/
namespace Teleparse.Kept
variable {m n : Nat} {S : Schema m n}

theorem Run.near {E : Nat → Prop} {j : Judg m n} (h : Run S j) :
    Near E j.post → j.Good E := by
  induction h with
  | @tok i k v t l hr _ _ =>
    intro hv
    have hv := (hv.back (.skip v)).cur
    unfold View.cur at hv
    rw [hr] at hv
    exact .tok hv
  | @tokRecovered i k v lit sp s _ hsp =>
    intro hv
    have hv : Near E v := hv
    refine ⟨.tok ?_, GoodE.one ⟨hv.cur, by simp⟩⟩
    rcases hsp with rfl | ⟨hnil, rfl⟩
    · exact ⟨hv.pos, hv.pos⟩
    · have hc : v.cur.OnEdges E := hv.cur
      rw [show v.cur = ⟨v.source.length, v.source.length⟩ by simp [View.cur, hnil]] at hc
      exact hc
  | tokPanic hk => intro hv; exact GoodE.one ⟨hv.cur, hk⟩
  | seqNil => intro hv ha he; exact ⟨ha, he⟩
  | seqGive _ hg h2 i1 i2 =>
    intro hv ha he
    obtain ⟨hx, hx'⟩ := hg.good (i1 (hv.back h2.adv))
    exact i2 hv (ha.append (.one hx)) (he.append hx')
  | seqPanic h1 i => intro hv ha he; exact he.append (i hv)
  | struct _ h1 i =>
    intro hv
    have hv := hv.back (.applyAll _ _)
    obtain ⟨hl, he⟩ := i hv (by intro x hx; cases hx) .nil
    exact ofPair_good (.seq (hl.spanOf hv.zero) hl) he
  | structPanic _ _ i => intro hv; exact i hv (by intro x hx; cases hx) .nil
  | tuple _ _ i =>
    intro hv
    obtain ⟨hl, he⟩ := i hv (by intro x hx; cases hx) .nil
    exact ofPair_good (.seq (hl.spanOf hv.zero) hl) he
  | tuplePanic _ _ i => intro hv; exact i hv (by intro x hx; cases hx) .nil
  | enumSuccess _ _ _ i => intro hv; exact .variant (i (hv.back (.applyAll _ _)))
  | enumRecovered _ _ _ i =>
    intro hv
    have hv := hv.back (.applyAll _ _)
    exact ⟨.variant (i hv).1, (i hv).2⟩
  | enumPanic _ _ _ i => intro hv; exact i hv
  | enumNone => intro hv; exact GoodE.one ⟨hv.cur, by simp⟩
  | box _ i => exact i
  | optNone ho => intro hv; exact optLike_good ho ⟨hv.pos, hv.pos⟩ (by intro y hy; cases hy)
  | optSuccess ho _ i =>
    intro hv
    have hx := i hv
    exact optLike_good ho (Tree.AllSpans.self hx) (by intro y hy; cases hy; exact hx)
  | optRecovered ho _ i =>
    intro hv
    obtain ⟨hx, he⟩ := i hv
    exact ⟨optLike_good ho (Tree.AllSpans.self hx) (by intro y hy; cases hy; exact hx), he⟩
  | optPanic ho _ i =>
    intro hv
    have := hv.pos
    exact ⟨optLike_good ho ⟨this, this⟩ (by intro y hy; cases hy), i hv⟩
  | textSuccess _ _ _ i => intro hv; exact .text (Tree.AllSpans.self (i hv))
  | textRecovered _ _ _ i => intro hv; exact ⟨.text (Tree.AllSpans.self (i hv).1), (i hv).2⟩
  | textPanic _ _ i => exact i
  | plus _ hg h2 i1 i2 =>
    intro hv
    obtain ⟨hx, he⟩ := hg.good (i1 (hv.back h2.adv))
    obtain ⟨hl, he', hh⟩ := i2 hv (.one hx) he hx.hi
    exact ofPair_good (.list ⟨hx.lo, hh⟩ hl) he'
  | plusPanic _ i => exact i
  | iterStop => intro hv h1 h2 h3; exact ⟨h1, h2, h3⟩
  | iterGive _ _ hg h2 i1 i2 =>
    intro hv ha he hh
    obtain ⟨hx, he1⟩ := hg.good (i1 (hv.back h2.adv))
    exact i2 hv (ha.append (.one hx)) (he.append he1) hx.hi
  | iterPanic _ i => intro hv ha he hh; exact ⟨ha, he.append (i hv), hh⟩
  | loopEmpty _ i =>
    intro hv
    obtain ⟨_, he⟩ := i hv (by intro x hx; cases hx) .nil
    have := hv.pos
    exact ofPair_good (.list ⟨this, this⟩ (by simp)) he
  | loopList _ _ i =>
    intro hv
    obtain ⟨hl, he⟩ := i hv (by intro x hx; cases hx) .nil
    exact ofPair_good (.list (hl.spanOf hv.zero) hl) he
  | loopStop => intro hv ha he; exact ⟨ha, he⟩
  | loopSkip hs h2 i =>
    intro hv ha he
    have hv1 := hv.back h2.adv
    exact i hv ha (he.append (.one ⟨⟨(hv1.back hs.adv).cur.1, hv1.pos⟩, by simp⟩))
  | loopGive _ hg h2 i1 i2 =>
    intro hv ha he
    obtain ⟨hx, he1⟩ := hg.good (i1 (hv.back h2.adv))
    exact i2 hv (ha.append (.one hx)) (he.append he1)
  | loopPanic _ h2 i1 i2 =>
    intro hv ha he
    exact i2 hv ha (he.append (i1 (hv.back h2.adv)))
  | loopGiveStuck _ hg i1 =>
    intro hv ha he
    obtain ⟨hx, he1⟩ := hg.good (i1 hv)
    exact ⟨ha.append (.one hx), (he.append he1).append (.one ⟨hv.cur, by simp⟩)⟩
  | loopPanicStuck _ i1 =>
    intro hv ha he
    exact ⟨ha, (he.append (i1 hv)).append (.one ⟨hv.cur, by simp⟩)⟩
  | split _ hg h2 i1 i2 =>
    intro hv
    obtain ⟨hx, he⟩ := hg.good (i1 (hv.back h2.adv))
    obtain ⟨_, h2, h3, h4⟩ := i2 hv ⟨by simp, .one hx, (by intro x hx; cases hx), he⟩
    exact ofPair_good (.split ⟨hx.lo, h2.last _ hx.lo⟩ h2 h3) h4
  | splitPanic _ i => exact i
  | outerStop => intro hv ha; exact ha
  | outerPanic _ i => intro hv ha; exact ⟨ha.1, ha.2.1, ha.2.2.1, ha.2.2.2.append (i hv)⟩
  | outerGo _ _ hg h2 h3 i1 i2 i3 =>
    intro hv ha
    have hv2 := hv.back h3.adv
    obtain ⟨hq, he⟩ := hg.good (i1 (hv2.back h2.adv))
    exact i3 hv (i2 hv2 hq ⟨ha.1, ha.2.1, ha.2.2.1, ha.2.2.2.append he⟩ .nil)
  | outerBreak _ _ hg h2 i1 i2 =>
    intro hv ha
    obtain ⟨hq, he⟩ := hg.good (i1 (hv.back h2.adv))
    exact i2 hv hq ⟨ha.1, ha.2.1, ha.2.2.1, ha.2.2.2.append he⟩ .nil
  | innerGive _ hg i =>
    intro hv hq ha hp
    obtain ⟨hx, he⟩ := hg.good (i hv)
    exact ⟨by simp, ha.2.1.append (.one hx), ha.2.2.1.append (.one hq), (ha.2.2.2.append he).append hp⟩
  | innerFailLeave _ _ i =>
    intro hv hq ha hp
    exact ⟨ha.1, ha.2.1, ha.2.2.1, ha.2.2.2.append (mergePanic_good hp (i hv))⟩
  | innerFailGo _ _ h2 i1 i2 =>
    intro hv hq ha hp
    exact i2 hv hq ha (mergePanic_good hp (i1 ((hv.back h2.adv).back (.skip _))))
  | innerNoteLeave hn =>
    intro hv hq ha hp
    exact ⟨ha.1, ha.2.1, ha.2.2.1, ha.2.2.2.append (hn.good hv hp)⟩
  | innerNoteGo hn h2 i =>
    intro hv hq ha hp
    exact i hv hq ha (hn.good ((hv.back h2.adv).back (.skip _)) hp)
  | punct _ hg h2 i1 i2 =>
    intro hv
    obtain ⟨hx, he⟩ := hg.good (i1 (hv.back h2.adv))
    obtain ⟨_, h2, h3, h4⟩ := i2 hv ⟨by simp, .one hx, (by intro x hx; cases hx), he⟩
    refine ofPair_good (.split ⟨hx.lo, ?_⟩ h2 h3) h4
    show E (max _ _)
    rcases Nat.le_total ((List.getLast? _).map (fun x : Tree _ => x.span.hi) |>.getD _)
      ((List.getLast? _).map (fun x : Tree _ => x.span.hi) |>.getD _) with h | h
    · rw [Nat.max_eq_right h]; exact h3.last _ hx.lo
    · rw [Nat.max_eq_left h]; exact h2.last _ hx.lo
  | punctPanic _ i => exact i
  | pouterStop => intro hv ha; exact ha
  | pouterPanic _ i => intro hv ha; exact ⟨ha.1, ha.2.1, ha.2.2.1, ha.2.2.2.append (i hv)⟩
  | pouterGo _ _ hg h2 h3 i1 i2 i3 =>
    intro hv ha
    have hv2 := hv.back h3.adv
    obtain ⟨hq, he⟩ := hg.good (i1 (hv2.back h2.adv))
    exact i3 hv
      (i2 hv2 ⟨ha.1, ha.2.1, ha.2.2.1.append (.one hq), ha.2.2.2.append he⟩ .nil)
  | pouterBreak _ _ hg h2 i1 i2 =>
    intro hv ha
    obtain ⟨hq, he⟩ := hg.good (i1 (hv.back h2.adv))
    exact i2 hv ⟨ha.1, ha.2.1, ha.2.2.1.append (.one hq), ha.2.2.2.append he⟩ .nil
  | pinnerGive _ hg i =>
    intro hv ha hp
    obtain ⟨hx, he⟩ := hg.good (i hv)
    exact ⟨by simp, ha.2.1.append (.one hx), ha.2.2.1, (ha.2.2.2.append hp).append he⟩
  | pinnerStop => intro hv ha hp; exact ⟨ha.1, ha.2.1, ha.2.2.1, ha.2.2.2.append hp⟩
  | pinnerFailLeave _ _ i =>
    intro hv ha hp
    exact ⟨ha.1, ha.2.1, ha.2.2.1, ha.2.2.2.append (mergePanic_good hp (i hv))⟩
  | pinnerFailGo _ _ h2 i1 i2 =>
    intro hv ha hp
    exact i2 hv ha (mergePanic_good hp (i1 ((hv.back h2.adv).back (.skip _))))
  | pinnerNoteLeave hn =>
    intro hv ha hp
    exact ⟨ha.1, ha.2.1, ha.2.2.1, ha.2.2.2.append (hn.good hv hp)⟩
  | pinnerNoteGo hn h2 i =>
    intro hv ha hp
    exact i hv ha (hn.good ((hv.back h2.adv).back (.skip _)) hp)
  | @recover t r v h v1 x errs panic v' _ h2 i1 i2 =>
    intro hv
    obtain ⟨he, hp, hs, hh⟩ := i1 (hv.back h2.adv)
    obtain ⟨hx, he', hp'⟩ := i2 hv he hp
    have hx := hx x rfl
    refine ofPair_good ?_ (he'.append hp')
    unfold mkRecover
    cases hd : h.head with
    | none => exact .recoverNone hs ⟨hs.1, hx.hi⟩ hx
    | some y => exact .recover hs ⟨hs.1, hx.hi⟩ (hh y hd) hx
  | recoverPanic _ h2 i1 i2 =>
    intro hv
    obtain ⟨he, hp, hs, hh⟩ := i1 (hv.back h2.adv)
    obtain ⟨_, he', hp'⟩ := i2 hv he hp
    exact he'.append hp'
  | headGive _ hg i =>
    intro hv
    obtain ⟨hx, he⟩ := hg.good (i hv)
    exact ⟨he, .nil, Tree.AllSpans.self hx, by intro y hy; cases hy; exact hx⟩
  | @headPanic t v e v1 hlen h1 i =>
    intro hv
    have := hv.pos
    refine ⟨.nil, ?_, ⟨this, this⟩, by intro y hy; cases hy⟩
    cases hl : e.getLast? with
    | none => exact .nil
    | some d => exact .one (i hv d (List.mem_of_getLast? hl))
  | headNone =>
    intro hv
    exact ⟨.nil, .one ⟨hv.cur, by simp⟩, ⟨hv.pos, hv.pos⟩, by intro y hy; cases hy⟩
  | tailGive _ hg i =>
    intro hv he hp
    obtain ⟨hx, he1⟩ := hg.good (i hv)
    exact ⟨by intro y hy; cases hy; exact hx, he.append he1, hp⟩
  | tailPanic _ _ _ i =>
    intro hv he hp
    exact ⟨(by intro y hy; cases hy), he, mergePanic_good hp (i hv)⟩
  | tailNote => intro hv he hp; exact ⟨(by intro y hy; cases hy), he, .one ⟨hv.cur, by simp⟩⟩
  | tailStop => intro hv he hp; exact ⟨(by intro y hy; cases hy), he, hp⟩
  | tailFail _ _ _ hn h2 i1 i2 =>
    intro hv he hp
    have hv1 := (hv.back h2.adv).back (.skip _)
    exact i2 hv he (hn.good hv1 (mergePanic_good hp (i1 hv1)))
  | tailSkip _ hn h2 i =>
    intro hv he hp
    exact i hv he (hn.good ((hv.back h2.adv).back (.skip _)) hp)
  | clip _ i => exact fun hv d hd => i hv d (earliest_mem hd)

theorem Run.back {j : Judg m n} (h : Run S j) : j.Back := by
  induction h with
  | seqNil => intro he; exact he
  | @seqGive t ts v acc errs r x e v1 res v' h1 hg h2 i1 i2 =>
    match res with
    | .ok (l, errs') => exact fun he => (List.append_eq_nil_iff.1 (i2 he)).1
    | .error e' => exact fun he => (List.append_eq_nil_iff.1 (i2 he)).1
  | seqPanic _ i => intro he; exact (List.append_eq_nil_iff.1 he).1
  | iterStop => intro he; exact he
  | iterGive _ _ _ _ _ i2 => intro he; exact (List.append_eq_nil_iff.1 (i2 he)).1
  | iterPanic _ _ => intro he; exact (List.append_eq_nil_iff.1 he).1
  | loopStop => intro he; exact he
  | loopSkip _ _ i => intro he; exact (List.append_eq_nil_iff.1 (i he)).1
  | loopGive _ _ _ _ i2 => intro he; exact (List.append_eq_nil_iff.1 (i2 he)).1
  | loopPanic _ _ _ i2 => intro he; exact (List.append_eq_nil_iff.1 (i2 he)).1
  | loopGiveStuck _ _ _ => intro he; simp at he
  | loopPanicStuck _ _ => intro he; simp at he
  | outerStop => intro he; exact he
  | outerPanic _ _ => intro he; exact (List.append_eq_nil_iff.1 he).1
  | outerGo _ _ _ _ _ _ i2 i3 => intro he; exact (List.append_eq_nil_iff.1 (i2 (i3 he)).1).1
  | outerBreak _ _ _ _ _ i2 => intro he; exact (List.append_eq_nil_iff.1 (i2 he).1).1
  | innerGive _ _ _ =>
    intro he
    simp only [List.append_eq_nil_iff, toList_nil] at he
    exact ⟨he.1.1, he.2⟩
  | innerFailLeave _ _ _ =>
    intro he
    simp only [List.append_eq_nil_iff, toList_nil] at he
    exact ⟨he.1, (mergePanic_none he.2).1⟩
  | innerFailGo _ _ _ _ i2 => intro he; exact ⟨(i2 he).1, (mergePanic_none (i2 he).2).1⟩
  | innerNoteLeave hn =>
    intro he
    simp only [List.append_eq_nil_iff, toList_nil] at he
    exact absurd he.2 hn.some
  | innerNoteGo hn _ i => intro he; exact absurd (i he).2 hn.some
  | pouterStop => intro he; exact he
  | pouterPanic _ _ => intro he; exact (List.append_eq_nil_iff.1 he).1
  | pouterGo _ _ _ _ _ _ i2 i3 => intro he; exact (List.append_eq_nil_iff.1 (i2 (i3 he)).1).1
  | pouterBreak _ _ _ _ _ i2 => intro he; exact (List.append_eq_nil_iff.1 (i2 he).1).1
  | pinnerGive _ _ _ =>
    intro he
    simp only [List.append_eq_nil_iff, toList_nil] at he
    exact ⟨he.1.1, he.1.2⟩
  | pinnerStop =>
    intro he
    simp only [List.append_eq_nil_iff, toList_nil] at he
    exact he
  | pinnerFailLeave _ _ _ =>
    intro he
    simp only [List.append_eq_nil_iff, toList_nil] at he
    exact ⟨he.1, (mergePanic_none he.2).1⟩
  | pinnerFailGo _ _ _ _ i2 => intro he; exact ⟨(i2 he).1, (mergePanic_none (i2 he).2).1⟩
  | pinnerNoteLeave hn =>
    intro he
    simp only [List.append_eq_nil_iff, toList_nil] at he
    exact absurd he.2 hn.some
  | pinnerNoteGo hn _ i => intro he; exact absurd (i he).2 hn.some
  | tailGive _ _ _ =>
    intro he
    simp only [List.append_eq_nil_iff, toList_nil] at he
    exact ⟨he.1.1, he.2⟩
  | tailPanic _ _ _ _ =>
    intro he
    simp only [List.append_eq_nil_iff, toList_nil] at he
    exact ⟨he.1, (mergePanic_none he.2).1⟩
  | tailNote => intro he; simp at he
  | tailStop =>
    intro he
    simp only [List.append_eq_nil_iff, toList_nil] at he
    exact he
  | tailFail _ _ _ hn _ _ i2 => intro he; exact absurd (i2 he).2 hn.some
  | tailSkip _ hn _ i => intro he; exact absurd (i he).2 hn.some
  | _ => trivial

theorem produce_loc {E : Nat → Prop} {s1 s2 : Str} {l1 l2 : List (Token n)} (hE : SameOn E s1 s2) (S : Schema m n)
    (md : Metadata (PId m n) n) (fuel : Nat) (t : Ty m n) :
    Loc E s1 s2 l1 l2 (produceKeep View.ops S md fuel t) (produceKeep View.ops S md fuel t) := by
  refine (Loc.core hE).produceKeep S md ?_ fuel t
  intro f t hp
  have htail : ∀ (r : Res n (Tree n)) (v v' : View n) a,
      (match r with
        | .success t => do
          let s ← View.ops.mGetSrc t.span
          pure (.success (.text t.span s))
        | .recovered t e => do
          let s ← View.ops.mGetSrc t.span
          pure (.recovered (.text t.span s) e)
        | .panic e => pure (.panic e) : P (View n) n) v = .ok a v' →
      v' = v ∧ (∀ w : View n, (∀ x e, r.Gives x e → x.span.get? v.source = x.span.get? w.source) →
      (match r with
        | .success t => do
          let s ← View.ops.mGetSrc t.span
          pure (.success (.text t.span s))
        | .recovered t e => do
          let s ← View.ops.mGetSrc t.span
          pure (.recovered (.text t.span s) e)
        | .panic e => pure (.panic e) : P (View n) n) w = .ok a w) := by
    intro r v v' a h
    cases r with
    | success x =>
      obtain ⟨s, v2, h1, h2⟩ := bind_ok.1 h
      obtain ⟨hg, rfl⟩ := mGetSrc_ok.1 h1
      obtain ⟨rfl, rfl⟩ := pure_ok.1 h2
      refine ⟨rfl, fun w hw => bind_ok.2 ⟨s, w, mGetSrc_ok.2 ⟨?_, rfl⟩, pure_ok.2 ⟨rfl, rfl⟩⟩⟩
      rw [← hw x [] (.success x)]; exact hg
    | recovered x e =>
      obtain ⟨s, v2, h1, h2⟩ := bind_ok.1 h
      obtain ⟨hg, rfl⟩ := mGetSrc_ok.1 h1
      obtain ⟨rfl, rfl⟩ := pure_ok.1 h2
      refine ⟨rfl, fun w hw => bind_ok.2 ⟨s, w, mGetSrc_ok.2 ⟨?_, rfl⟩, pure_ok.2 ⟨rfl, rfl⟩⟩⟩
      rw [← hw x e (.recovered x e)]; exact hg
    | panic e =>
      obtain ⟨rfl, rfl⟩ := pure_ok.1 h
      exact ⟨rfl, fun w _ => pure_ok.2 ⟨rfl, rfl⟩⟩
  refine ⟨fun v a v' h => ?_, fun cells u a v' u' h hu hr hn => ?_⟩
  · obtain ⟨r, v1, h1, h2⟩ := bind_ok.1 h
    obtain ⟨rfl, -⟩ := htail r v1 v' a h2
    exact hp.1 _ _ _ h1
  · obtain ⟨r, v1, h1, h2⟩ := bind_ok.1 h
    obtain ⟨rfl, hw⟩ := htail r v1 v' a h2
    refine bind_ok.2 ⟨r, _, hp.2 _ _ _ _ _ h1 hu hr hn, hw _ ?_⟩
    intro x e hx
    have hsrc : v'.source = s1 := (hp.1 _ _ _ h1).src
    have hg := (run_of_produce S md f t _ _ _ h1).near hn
    rw [hsrc]
    exact hE _ (Tree.AllSpans.self (hx.good hg).1)

section
variable {E : Nat → Prop} {s1 s2 : Str} {l1 l2 : List (Token n)}

/-- What is known about a part. -/
structure Part (E : Nat → Prop) (s1 s2 : Str) (l1 l2 : List (Token n)) (S : Schema m n) (p : P (View n) n)
    (t : Ty m n) : Prop where
  desc : Desc S p t
  al : Al E s1 s2 l1 l2 Res.errs p

structure PartC (E : Nat → Prop) (s1 s2 : Str) (l1 l2 : List (Token n)) (S : Schema m n) (p : P (View n) n)
    (t : Ty m n) : Prop where
  desc : DescC S p t
  al : Al E s1 s2 l1 l2 Res.errs p

theorem al_clip {p : P (View n) n} (h : Al E s1 s2 l1 l2 Res.errs p) : Al E s1 s2 l1 l2 Res.errs (clip p) := by
  unfold clip
  refine h.bind ?_ ?_ ?_
  · intro r hr
    cases r <;> exact .pure _ _
  · intro r v c v' hp hc hlate
    cases r with
    | success x => obtain ⟨rfl, rfl⟩ := pure_ok.1 hc; exact ⟨.refl _, hlate⟩
    | recovered x e => obtain ⟨rfl, rfl⟩ := pure_ok.1 hc; exact ⟨.refl _, hlate⟩
    | panic e =>
      obtain ⟨rfl, rfl⟩ := pure_ok.1 hc
      exact ⟨.refl _, fun d hd => hlate d (earliest_mem hd)⟩
  · intro r w c w' hc he
    cases r with
    | success x => rfl
    | recovered x e => obtain ⟨rfl, rfl⟩ := pure_ok.1 hc; exact he
    | panic e =>
      obtain ⟨rfl, rfl⟩ := pure_ok.1 hc
      by_cases hn : e = []
      · exact hn
      · obtain ⟨d, hd⟩ := earliest_some hn
        have he : (earliest e).toList = [] := he
        rw [hd] at he
        cases he

theorem partC {p : P (View n) n} {t : Ty m n} (h : Part E s1 s2 l1 l2 S p t) :
    PartC E s1 s2 l1 l2 S (clip p) t := ⟨desc_clip h.desc, al_clip h.al⟩

/-- Errors of the result of the loop over the parts. -/
theorem late_seq {B : Nat} {ts : List (Ty m n)} {v v' : View n} {acc errs r} (h : Run S (.seq ts v acc errs r v'))
    {source : Str} (hp : Past B source v) (he : Late B errs) : Adv v v' ∧ Late B (seqErrs r) := by
  refine ⟨h.adv, ?_⟩
  have := h.late hp
  match r with
  | .ok (l, e) => exact this he
  | .error e => exact this he

theorem back_seq {ts : List (Ty m n)} {v v' : View n} {acc errs r} (h : Run S (.seq ts v acc errs r v'))
    (he : seqErrs r = []) : errs = [] := by
  have := h.back
  match r with
  | .ok (l, e) => exact this he
  | .error e => exact this he

theorem al_seq {α : Type} (f : α → P (View n) n) (g : α → Ty m n) (l : List α)
    (h : ∀ a ∈ l, Part E s1 s2 l1 l2 S (f a) (g a)) : ∀ acc,
    Al E s1 s2 l1 l2 seqErrs (seqLoop (l.map f) acc []) := by
  induction l with
  | nil => intro acc; exact .pure _ _
  | cons a l ih =>
    intro acc
    have hrest : ∀ b ∈ l, Desc S (f b) (g b) := fun b hb => (h b (List.mem_cons_of_mem _ hb)).desc
    simp only [List.map_cons, seqLoop]
    refine (h a (by simp)).al.bind ?_ ?_ ?_
    · intro r hr
      have ih := ih fun b hb => h b (List.mem_cons_of_mem _ hb)
      cases r with
      | success t => exact ih _
      | recovered t e => cases hr; exact ih _
      | panic e => exact .pure _ _
    · intro r v c v' hp hc hlate
      cases r with
      | success t => exact late_seq (run_seq f g l hrest _ _ _ _ _ hc) hp .nil
      | recovered t e => exact late_seq (run_seq f g l hrest _ _ _ _ _ hc) hp (Late.nil.append hlate)
      | panic e =>
        obtain ⟨rfl, rfl⟩ := pure_ok.1 hc
        exact ⟨.refl _, Late.nil.append hlate⟩
    · intro r w c w' hc he
      cases r with
      | success t => rfl
      | recovered t e => exact back_seq (run_seq f g l hrest _ _ _ _ _ hc) he
      | panic e =>
        obtain ⟨rfl, rfl⟩ := pure_ok.1 hc
        exact he

theorem al_tuple (f : Ty m n → P (View n) n) (ts : List (Ty m n))
    (h : ∀ t, Part E s1 s2 l1 l2 S (f t) t) : Al E s1 s2 l1 l2 Res.errs (produceTuple (ts.map f)) := by
  unfold produceTuple
  refine (al_seq f id ts (fun a _ => h a) []).bind ?_ ?_ ?_
  · rintro (e | ⟨l, e⟩) _ <;> exact .pure _ _
  · rintro (e | ⟨l, e⟩) v c v' hp hc hlate
    · obtain ⟨rfl, rfl⟩ := pure_ok.1 hc; exact ⟨.refl _, hlate⟩
    · obtain ⟨rfl, rfl⟩ := pure_ok.1 hc; exact ⟨.refl _, .ofPair hlate⟩
  · rintro (e | ⟨l, e⟩) w c w' hc he
    · obtain ⟨rfl, rfl⟩ := pure_ok.1 hc; exact he
    · obtain ⟨rfl, rfl⟩ := pure_ok.1 hc; rwa [ofPair_errs] at he

theorem al_struct (hE : SameOn E s1 s2) (f : Ty m n → P (View n) n) (fs : List (Field m n))
    (h : ∀ t, Part E s1 s2 l1 l2 S (f t) t) :
    Al E s1 s2 l1 l2 Res.errs (produceStruct View.ops (fs.map fun x => (f x.1, x.2))) := by
  unfold produceStruct
  rw [List.map_map]
  refine (al_seq (fun x : Field m n => f x.1) (fun x => x.1) fs (fun a _ => h a.1) []).bind ?_ ?_ ?_
  · rintro (e | ⟨l, e⟩) he
    · exact .pure _ _
    · refine (Al.fields hE _).bind (fun _ _ => .pure _ _) ?_ (fun _ _ _ _ _ _ => rfl)
      intro _ v c v' hp hc _
      obtain ⟨rfl, rfl⟩ := pure_ok.1 hc
      exact ⟨.refl _, by rw [ofPair_errs, show e = [] from he]; exact .nil⟩
  · rintro (e | ⟨l, e⟩) v c v' hp hc hlate
    · obtain ⟨rfl, rfl⟩ := pure_ok.1 hc; exact ⟨.refl _, hlate⟩
    · obtain ⟨_, v1, h1, h2⟩ := bind_ok.1 hc
      have := applyFields_ok.1 h1
      obtain ⟨rfl, rfl⟩ := pure_ok.1 h2
      subst this
      exact ⟨.applyAll _ _, .ofPair hlate⟩
  · rintro (e | ⟨l, e⟩) w c w' hc he
    · obtain ⟨rfl, rfl⟩ := pure_ok.1 hc; exact he
    · obtain ⟨_, v1, h1, h2⟩ := bind_ok.1 hc
      obtain ⟨rfl, rfl⟩ := pure_ok.1 h2
      rwa [ofPair_errs] at he

theorem al_enum (hE : SameOn E s1 s2) (f : Ty m n → P (View n) n) (fs : List (Field m n))
    (h : ∀ t, Part E s1 s2 l1 l2 S (f t) t) (look : Option (TokenSrc n) → Option Nat) (first : TSet n) :
    Al E s1 s2 l1 l2 Res.errs (produceEnum View.ops look first (fs.map fun x => (f x.1, x.2))) := by
  unfold produceEnum
  refine .peekSrc hE fun tok => ?_
  cases look tok with
  | none => exact .expecting _ fun _ => .pure _ _
  | some i =>
    simp only [List.getElem?_map]
    cases fs[i]? with
    | none => exact .expecting _ fun _ => .pure _ _
    | some x =>
      refine (h x.1).al.bind ?_ ?_ ?_
      · intro r hr
        intro v w a b v' w' hlock h1 h2 he
        refine ⟨?_, hlock.loc ((Loc.core hE).mapVariant i x.2 r) h1 h2⟩
        rw [(mapVariant_ok h1).2, hr]; exact .nil
      · intro r v c v' hp hc hlate
        obtain ⟨h1, h2⟩ := mapVariant_ok hc
        exact ⟨h1, by rw [h2]; exact hlate⟩
      · intro r w c w' hc he
        rw [← (mapVariant_ok hc).2]; exact he

theorem al_option (hE : SameOn E s1 s2) {p : P (View n) n} {t : Ty m n} (h : Part E s1 s2 l1 l2 S p t)
    (first : TSet n) (mk : Span → Option (Tree n) → Tree n) :
    Al E s1 s2 l1 l2 Res.errs (produceOption View.ops first p mk) := by
  unfold produceOption
  refine .peekSrc hE fun tok => ?_
  split
  · refine h.al.bind ?_ ?_ ?_
    · intro r hr
      cases r with
      | success t => exact .pure _ _
      | recovered t e => exact .pure _ _
      | panic e => exact .emptySpan fun _ => .pure _ _
    · intro r v c v' hp hc hlate
      cases r with
      | success t => obtain ⟨rfl, rfl⟩ := pure_ok.1 hc; exact ⟨.refl _, .nil⟩
      | recovered t e => obtain ⟨rfl, rfl⟩ := pure_ok.1 hc; exact ⟨.refl _, hlate⟩
      | panic e =>
        simp only [bind_ok, mEmptySpan_ok, pure_ok] at hc
        obtain ⟨_, _, ⟨rfl, rfl⟩, rfl, rfl⟩ := hc
        exact ⟨.refl _, hlate⟩
    · intro r w c w' hc he
      cases r with
      | success t => rfl
      | recovered t e => obtain ⟨rfl, rfl⟩ := pure_ok.1 hc; exact he
      | panic e =>
        simp only [bind_ok, mEmptySpan_ok, pure_ok] at hc
        obtain ⟨_, _, ⟨rfl, rfl⟩, rfl, rfl⟩ := hc
        exact he
  · exact .emptySpan fun _ => .pure _ _

theorem al_iter (hE : SameOn E s1 s2) {p : P (View n) n} {t : Ty m n} (h : Part E s1 s2 l1 l2 S p t)
    (first : TSet n) : ∀ (fuel : Nat) acc hi,
    Al E s1 s2 l1 l2 (fun r => r.2.1) (iterLoop View.ops first p fuel acc [] hi) := by
  intro fuel
  induction fuel with
  | zero => intro acc hi; exact .fuel _
  | succ fuel ih =>
    intro acc hi
    unfold iterLoop
    refine .peekSrc hE fun tok => ?_
    split
    · refine h.al.bind ?_ ?_ ?_
      · intro r hr
        cases r with
        | success t => exact ih _ _
        | recovered t e => cases hr; exact ih _ _
        | panic e => exact .pure _ _
      · intro r v c v' hp hc hlate
        cases r with
        | success t =>
          have hr := run_iter h.desc _ _ _ _ _ _ _ _ hc
          exact ⟨hr.adv, hr.late hp .nil⟩
        | recovered t e =>
          have hr := run_iter h.desc _ _ _ _ _ _ _ _ hc
          exact ⟨hr.adv, hr.late hp (Late.nil.append hlate)⟩
        | panic e => obtain ⟨rfl, rfl⟩ := pure_ok.1 hc; exact ⟨.refl _, Late.nil.append hlate⟩
      · intro r w c w' hc he
        cases r with
        | success t => rfl
        | recovered t e => exact (run_iter h.desc _ _ _ _ _ _ _ _ hc).back he
        | panic e => obtain ⟨rfl, rfl⟩ := pure_ok.1 hc; exact he
    · exact .pure _ _

/-- The end of a combinator that packs what was collected. -/
theorem al_plus (hE : SameOn E s1 s2) {p : P (View n) n} {t : Ty m n} (h : Part E s1 s2 l1 l2 S p t)
    (first : TSet n) (fuel : Nat) : Al E s1 s2 l1 l2 Res.errs (producePlus View.ops first p fuel) := by
  have hrest : ∀ x, Al E s1 s2 l1 l2 Res.errs (plusRest View.ops first p fuel x []) := by
    intro x
    unfold plusRest
    exact (al_iter hE h first fuel _ _).pack fun a => ofPair_errs
  have hrun : ∀ (x : Tree n) (e : List (Err n)) (v v' : View n) c, plusRest View.ops first p fuel x e v = .ok c v' →
      ∃ l hi, Run S (.iter t v [x] e x.span.hi l c.errs hi v') := by
    intro x e v v' c hc
    unfold plusRest at hc
    obtain ⟨⟨l, errs, hi⟩, v1, h1, h2⟩ := bind_ok.1 hc
    obtain ⟨rfl, rfl⟩ := pure_ok.1 h2
    have hr := run_iter h.desc _ _ _ _ _ _ _ _ h1
    exact ⟨l, hi, by rw [ofPair_errs]; exact hr⟩
  unfold producePlus
  refine h.al.bind ?_ ?_ ?_
  · intro r hr
    cases r with
    | success t => exact hrest _
    | recovered t e => cases hr; exact hrest _
    | panic e => exact .pure _ _
  · intro r v c v' hp hc hlate
    cases r with
    | success t =>
      obtain ⟨l, hi, hr⟩ := hrun _ _ _ _ _ hc
      exact ⟨hr.adv, hr.late hp .nil⟩
    | recovered t e =>
      obtain ⟨l, hi, hr⟩ := hrun _ _ _ _ _ hc
      exact ⟨hr.adv, hr.late hp hlate⟩
    | panic e => obtain ⟨rfl, rfl⟩ := pure_ok.1 hc; exact ⟨.refl _, hlate⟩
  · intro r w c w' hc he
    cases r with
    | success t => rfl
    | recovered t e =>
      obtain ⟨l, hi, hr⟩ := hrun _ _ _ _ _ hc
      exact hr.back he
    | panic e => obtain ⟨rfl, rfl⟩ := pure_ok.1 hc; exact he

/-! Loop -/

theorem al_loopElem {p : P (View n) n} {t : Ty m n} (h : Part E s1 s2 l1 l2 S p t) (out : List (Tree n)) :
    Al E s1 s2 l1 l2 (fun r => r.2.2) (loopElem View.ops p out []) := by
  unfold loopElem
  refine .currentSpan fun before => h.al.bind ?_ ?_ ?_
  · intro r hr
    refine .currentSpan fun sp => ?_
    split <;> exact .pure _ _
  · intro r v c v' hp hc hlate
    simp only [bind_ok, mCurrentSpan_ok] at hc
    obtain ⟨_, _, ⟨rfl, rfl⟩, hc⟩ := hc
    cases r <;> split at hc <;> obtain ⟨rfl, rfl⟩ := pure_ok.1 hc
    · exact ⟨.refl _, Late.nil.append (.single hp.le)⟩
    · exact ⟨.refl _, .nil⟩
    · exact ⟨.refl _, (Late.nil.append hlate).append (.single hp.le)⟩
    · exact ⟨.refl _, Late.nil.append hlate⟩
    · exact ⟨.refl _, (Late.nil.append hlate).append (.single hp.le)⟩
    · exact ⟨.refl _, Late.nil.append hlate⟩
  · intro r w c w' hc he
    simp only [bind_ok, mCurrentSpan_ok] at hc
    obtain ⟨_, _, ⟨rfl, rfl⟩, hc⟩ := hc
    split at hc
    · obtain ⟨rfl, rfl⟩ := pure_ok.1 hc
      simp at he
    · obtain ⟨rfl, rfl⟩ := pure_ok.1 hc
      cases r <;> exact he

theorem al_loopLoop (hE : SameOn E s1 s2) {p : P (View n) n} {t : Ty m n} (h : Part E s1 s2 l1 l2 S p t)
    (first : TSet n) : ∀ (fuel : Nat) out,
    Al E s1 s2 l1 l2 (fun r => r.2) (loopLoop View.ops first p fuel out []) := by
  intro fuel
  induction fuel with
  | zero => intro out; exact .fuel _
  | succ fuel ih =>
    intro out
    unfold loopLoop
    refine .peekSrc hE fun tok => ?_
    split
    · exact .pure _ _
    · split
      · -- tokens are skipped: the second stream has an error
        intro v w a b v' w' _ _ h2 he
        exfalso
        obtain ⟨⟨errs, more⟩, w1, g1, g2⟩ := bind_ok.1 h2
        have hne := loopSkip_errs g1
        dsimp only at g2 hne
        split at g2
        · obtain ⟨rfl, rfl⟩ := pure_ok.1 g2
          exact hne he
        · obtain ⟨⟨go, out', errs'⟩, w2, g3, g4⟩ := bind_ok.1 g2
          obtain ⟨e, he'⟩ := loopElem_errs g3
          dsimp only at g4 he'
          have hne' : errs' ≠ [] := by rw [he']; simp [hne]
          split at g4
          · exact hne' ((run_loop h.desc _ _ _ _ _ _ _ g4).back he)
          · obtain ⟨rfl, rfl⟩ := pure_ok.1 g4
            exact hne' he
      · show Al E s1 s2 l1 l2 (fun r : List (Tree n) × List (Err n) => r.2) (loopElem View.ops p out [] >>= _)
        refine (al_loopElem h out).bind ?_ ?_ ?_
        · rintro ⟨go, out, errs⟩ hr
          cases hr
          dsimp only
          split
          · exact ih _
          · exact .pure _ _
        · rintro ⟨go, out, errs⟩ v c v' hp hc hlate
          dsimp only at hc hlate
          split at hc
          · have hr := run_loop h.desc _ _ _ _ _ _ _ hc
            exact ⟨hr.adv, hr.late hp hlate⟩
          · obtain ⟨rfl, rfl⟩ := pure_ok.1 hc
            exact ⟨.refl _, hlate⟩
        · rintro ⟨go, out, errs⟩ w c w' hc he
          dsimp only at hc ⊢
          split at hc
          · exact (run_loop h.desc _ _ _ _ _ _ _ hc).back he
          · obtain ⟨rfl, rfl⟩ := pure_ok.1 hc
            exact he

theorem al_loop (hE : SameOn E s1 s2) {p : P (View n) n} {t : Ty m n} (h : Part E s1 s2 l1 l2 S p t)
    (first : TSet n) (fuel : Nat) : Al E s1 s2 l1 l2 Res.errs (produceLoop View.ops first p fuel) := by
  unfold produceLoop
  refine (al_loopLoop hE h first fuel []).bind ?_ ?_ ?_
  · rintro ⟨out, errs⟩ he
    dsimp only
    split
    · exact .emptySpan fun _ => .pure _ _
    · exact .pure _ _
  · rintro ⟨out, errs⟩ v c v' hp hc hlate
    dsimp only at hc
    split at hc
    · simp only [bind_ok, mEmptySpan_ok, pure_ok] at hc
      obtain ⟨_, _, ⟨rfl, rfl⟩, rfl, rfl⟩ := hc
      exact ⟨.refl _, .ofPair hlate⟩
    · obtain ⟨rfl, rfl⟩ := pure_ok.1 hc
      exact ⟨.refl _, .ofPair hlate⟩
  · rintro ⟨out, errs⟩ w c w' hc he
    dsimp only at hc
    split at hc
    · simp only [bind_ok, mEmptySpan_ok, pure_ok] at hc
      obtain ⟨_, _, ⟨rfl, rfl⟩, rfl, rfl⟩ := hc
      rwa [ofPair_errs] at he
    · obtain ⟨rfl, rfl⟩ := pure_ok.1 hc
      rwa [ofPair_errs] at he

/-! Split -/

theorem al_splitTry (hE : SameOn E s1 s2) {p : P (View n) n} {t : Ty m n} (h : PartC E s1 s2 l1 l2 S p t)
    (ef : TSet n) (q : Tree n) (a : Acc n) (ha : a.errs = []) :
    Al E s1 s2 l1 l2 tryErrs (splitTry View.ops ef p q a none) := by
  unfold splitTry
  refine .peekSrc hE fun tok => ?_
  split
  · refine h.al.bind ?_ ?_ ?_
    · intro r hr
      cases r with
      | success t => exact .pure _ _
      | recovered t e => exact .pure _ _
      | panic e => exact .peekSrc hE fun _ => .pure _ _
    · intro r v c v' hp hc hlate
      cases r with
      | success t =>
        obtain ⟨rfl, rfl⟩ := pure_ok.1 hc
        exact ⟨.refl _, by simp only [tryErrs, ha]; exact .nil⟩
      | recovered t e =>
        obtain ⟨rfl, rfl⟩ := pure_ok.1 hc
        exact ⟨.refl _, by simp only [tryErrs, ha]; exact (Late.nil.append hlate).append .nil⟩
      | panic e =>
        simp only [bind_ok, mPeekSrc_ok, pure_ok] at hc
        obtain ⟨_, _, ⟨rfl, rfl, -⟩, rfl, rfl⟩ := hc
        exact ⟨.refl _, Late.nil.merge hlate⟩
    · intro r w c w' hc he
      cases r with
      | success t => rfl
      | recovered t e =>
        obtain ⟨rfl, rfl⟩ := pure_ok.1 hc
        simp only [tryErrs, ha] at he
        show e = []; simpa using he
      | panic e =>
        simp only [bind_ok, mPeekSrc_ok, pure_ok] at hc
        obtain ⟨_, _, ⟨rfl, rfl, -⟩, rfl, rfl⟩ := hc
        exact mergePanic_nil he
  · exact .expecting _ fun _ => .pure _ _

theorem al_splitInner (hE : SameOn E s1 s2) {p : P (View n) n} {t : Ty m n} (h : PartC E s1 s2 l1 l2 S p t)
    (ef pf fol : TSet n) (q : Tree n) : ∀ (fuel : Nat) (a : Acc n), a.errs = [] →
    Al E s1 s2 l1 l2 (fun r => r.2.errs) (splitInner View.ops ef pf fol p q fuel a none) := by
  intro fuel
  induction fuel with
  | zero => intro a _; exact .fuel _
  | succ fuel ih =>
    intro a ha
    unfold splitInner
    refine (al_splitTry hE h ef q a ha).bind ?_ ?_ ?_
    · rintro (a' | ⟨tok, panic⟩) hr
      · exact .pure _ _
      · have : panic = none := toList_nil.1 hr
        subst this
        dsimp only
        split
        · exact .pure _ _
        · split
          · exact .pure _ _
          · refine (Al.prim .consume).bind (fun _ _ => ih a ha) ?_ fun _ _ _ _ _ _ => rfl
            intro _ v c v' hp hc _
            have hr := run_inner h.desc _ _ _ _ _ _ _ _ _ _ hc
            exact ⟨hr.adv, hr.late hp (by rw [ha]; exact .nil) .nil⟩
    · rintro (a' | ⟨tok, panic⟩) v c v' hp hc hlate
      · obtain ⟨rfl, rfl⟩ := pure_ok.1 hc; exact ⟨.refl _, hlate⟩
      · dsimp only at hc
        split at hc
        · obtain ⟨rfl, rfl⟩ := pure_ok.1 hc
          exact ⟨.refl _, by simp only [ha]; exact Late.nil.append hlate⟩
        · split at hc
          · obtain ⟨rfl, rfl⟩ := pure_ok.1 hc
            exact ⟨.refl _, by simp only [ha]; exact Late.nil.append hlate⟩
          · simp only [bind_ok, mConsume_ok] at hc
            obtain ⟨_, _, ⟨rfl, rfl⟩, hc⟩ := hc
            have hr := run_inner h.desc _ _ _ _ _ _ _ _ _ _ hc
            exact ⟨(Adv.skip _).trans hr.adv, hr.late (hp.adv (.skip _)) (by rw [ha]; exact .nil) hlate⟩
    · rintro (a' | ⟨tok, panic⟩) w c w' hc he
      · obtain ⟨rfl, rfl⟩ := pure_ok.1 hc; exact he
      · dsimp only at hc
        split at hc
        · obtain ⟨rfl, rfl⟩ := pure_ok.1 hc
          exact (List.append_eq_nil_iff.1 he).2
        · split at hc
          · obtain ⟨rfl, rfl⟩ := pure_ok.1 hc
            exact (List.append_eq_nil_iff.1 he).2
          · simp only [bind_ok, mConsume_ok] at hc
            obtain ⟨_, _, ⟨rfl, rfl⟩, hc⟩ := hc
            have hr := run_inner h.desc _ _ _ _ _ _ _ _ _ _ hc
            exact toList_nil.2 (hr.back he).2

theorem al_splitOuter (hE : SameOn E s1 s2) {pt pp : P (View n) n} {t u : Ty m n} (h : PartC E s1 s2 l1 l2 S pt t)
    (h' : Part E s1 s2 l1 l2 S pp u) (ef pf fol : TSet n) : ∀ (fuel : Nat) (a : Acc n), a.errs = [] →
    Al E s1 s2 l1 l2 (fun r => r.errs) (splitOuter View.ops ef pf fol pt pp fuel a) := by
  intro fuel
  induction fuel with
  | zero => intro a _; exact .fuel _
  | succ fuel ih =>
    intro a ha
    unfold splitOuter
    refine .peekSrc hE fun tok => ?_
    split
    · -- what comes after the separator
      have hgo : ∀ (q : Tree n) (a : Acc n), a.errs = [] → Al E s1 s2 l1 l2 (fun r : Acc n => r.errs) (do
          let (go, a) ← splitInner View.ops ef pf fol pt q fuel a none
          if go then splitOuter View.ops ef pf fol pt pp fuel a else Pure.pure a) := by
        intro q a ha
        refine (al_splitInner hE h ef pf fol q fuel a ha).bind ?_ ?_ ?_
        · rintro ⟨go, a⟩ hr
          dsimp only
          split
          · exact ih _ hr
          · exact .pure _ _
        · rintro ⟨go, a⟩ v c v' hp hc hlate
          dsimp only at hc hlate
          split at hc
          · have hr := run_outer h.desc h'.desc _ _ _ _ _ _ _ _ hc
            exact ⟨hr.adv, hr.late hp hlate⟩
          · obtain ⟨rfl, rfl⟩ := pure_ok.1 hc
            exact ⟨.refl _, hlate⟩
        · rintro ⟨go, a⟩ w c w' hc he
          dsimp only at hc ⊢
          split at hc
          · exact (run_outer h.desc h'.desc _ _ _ _ _ _ _ _ hc).back he
          · obtain ⟨rfl, rfl⟩ := pure_ok.1 hc
            exact he
      have hlate' : ∀ (q : Tree n) (a : Acc n) (v v' : View n) c, (do
          let (go, a) ← splitInner View.ops ef pf fol pt q fuel a none
          if go then splitOuter View.ops ef pf fol pt pp fuel a else Pure.pure a : M (View n) (Acc n)) v = .ok c v' →
          (∀ B source, Past B source v → Late B a.errs → Adv v v' ∧ Late B c.errs) ∧ (c.errs = [] → a.errs = []) := by
        intro q a v v' c hc
        obtain ⟨⟨go, a1⟩, v1, h1, h2⟩ := bind_ok.1 hc
        have hr1 := run_inner h.desc _ _ _ _ _ _ _ _ _ _ h1
        dsimp only at h2
        split at h2
        · have hr := run_outer h.desc h'.desc _ _ _ _ _ _ _ _ h2
          exact ⟨fun B s hp hl => ⟨hr1.adv.trans hr.adv, hr.late (hp.adv hr1.adv) (hr1.late hp hl .nil)⟩,
            fun he => (hr1.back (hr.back he)).1⟩
        · obtain ⟨rfl, rfl⟩ := pure_ok.1 h2
          exact ⟨fun B s hp hl => ⟨hr1.adv, hr1.late hp hl .nil⟩, fun he => (hr1.back he).1⟩
      refine h'.al.bind ?_ ?_ ?_
      · intro r hr
        cases r with
        | success q => exact hgo q a ha
        | recovered q e => exact hgo q _ (by cases hr; simp [ha])
        | panic e => exact .pure _ _
      · intro r v c v' hp hc hlate
        cases r with
        | success q => exact (hlate' q a v v' c hc).1 _ _ hp (by rw [ha]; exact .nil)
        | recovered q e =>
          exact (hlate' q _ v v' c hc).1 _ _ hp (by simp only [ha]; exact Late.nil.append hlate)
        | panic e =>
          obtain ⟨rfl, rfl⟩ := pure_ok.1 hc
          exact ⟨.refl _, by simp only [ha]; exact Late.nil.append hlate⟩
      · intro r w c w' hc he
        cases r with
        | success q => rfl
        | recovered q e => exact (List.append_eq_nil_iff.1 ((hlate' q _ w w' c hc).2 he)).2
        | panic e =>
          obtain ⟨rfl, rfl⟩ := pure_ok.1 hc
          exact (List.append_eq_nil_iff.1 he).2
    · exact .pure _ _

theorem al_split (hE : SameOn E s1 s2) {pt pp : P (View n) n} {t u : Ty m n} (h : Part E s1 s2 l1 l2 S pt t)
    (h' : Part E s1 s2 l1 l2 S pp u) (ef pf fol : TSet n) (fuel : Nat) :
    Al E s1 s2 l1 l2 Res.errs (produceSplitKeep View.ops ef pf fol pt pp fuel) := by
  have hc0 := partC h
  unfold produceSplitKeep
  refine h.al.bind ?_ ?_ ?_
  · intro r hr
    cases r with
    | success x => exact (al_splitOuter hE hc0 h' ef pf fol fuel _ rfl).pack fun a => ofPair_errs
    | recovered x e => exact (al_splitOuter hE hc0 h' ef pf fol fuel _ hr).pack fun a => ofPair_errs
    | panic e => exact .pure _ _
  · intro r v c v' hp hc hlate
    cases r with
    | success x =>
      obtain ⟨a, v1, h1, h2⟩ := bind_ok.1 hc
      obtain ⟨rfl, rfl⟩ := pure_ok.1 h2
      have hr := run_outer hc0.desc h'.desc _ _ _ _ _ _ _ _ h1
      exact ⟨hr.adv, .ofPair (hr.late hp .nil)⟩
    | recovered x e =>
      obtain ⟨a, v1, h1, h2⟩ := bind_ok.1 hc
      obtain ⟨rfl, rfl⟩ := pure_ok.1 h2
      have hr := run_outer hc0.desc h'.desc _ _ _ _ _ _ _ _ h1
      exact ⟨hr.adv, .ofPair (hr.late hp hlate)⟩
    | panic e => obtain ⟨rfl, rfl⟩ := pure_ok.1 hc; exact ⟨.refl _, hlate⟩
  · intro r w c w' hc he
    cases r with
    | success x => rfl
    | recovered x e =>
      obtain ⟨a, v1, h1, h2⟩ := bind_ok.1 hc
      obtain ⟨rfl, rfl⟩ := pure_ok.1 h2
      have he : a.errs = [] := by simpa only [splitDone, ofPair_errs] using he
      exact (run_outer hc0.desc h'.desc _ _ _ _ _ _ _ _ h1).back he
    | panic e => obtain ⟨rfl, rfl⟩ := pure_ok.1 hc; exact he

/-! Punct -/

theorem al_punctTry (hE : SameOn E s1 s2) {p : P (View n) n} {t : Ty m n} (h : PartC E s1 s2 l1 l2 S p t)
    (ef fol : TSet n) (a : Acc n) (ha : a.errs = []) :
    Al E s1 s2 l1 l2 ptryErrs (punctTry View.ops ef fol p a none) := by
  unfold punctTry
  refine .peekSrc hE fun tok => ?_
  split
  · exact .pure _ _
  · split
    · refine h.al.bind ?_ ?_ ?_
      · intro r hr
        cases r with
        | success t => exact .pure _ _
        | recovered t e => exact .pure _ _
        | panic e => exact .pure _ _
      · intro r v c v' hp hc hlate
        cases r with
        | success t =>
          obtain ⟨rfl, rfl⟩ := pure_ok.1 hc
          exact ⟨.refl _, by simp only [ptryErrs, ha]; exact .nil⟩
        | recovered t e =>
          obtain ⟨rfl, rfl⟩ := pure_ok.1 hc
          exact ⟨.refl _, by simp only [ptryErrs, ha]; exact Late.nil.append hlate⟩
        | panic e =>
          obtain ⟨rfl, rfl⟩ := pure_ok.1 hc
          exact ⟨.refl _, Late.nil.merge hlate⟩
      · intro r w c w' hc he
        cases r with
        | success t => rfl
        | recovered t e =>
          obtain ⟨rfl, rfl⟩ := pure_ok.1 hc
          simp only [ptryErrs, ha] at he
          show e = []; simpa using he
        | panic e =>
          obtain ⟨rfl, rfl⟩ := pure_ok.1 hc
          exact mergePanic_nil he
    · split
      · exact .pure _ _
      · exact .currentSpan fun _ => .pure _ _

theorem al_punctInner (hE : SameOn E s1 s2) {p : P (View n) n} {t : Ty m n} (h : PartC E s1 s2 l1 l2 S p t)
    (ef pf fol : TSet n) : ∀ (fuel : Nat) (a : Acc n), a.errs = [] →
    Al E s1 s2 l1 l2 (fun r => r.2.errs) (punctInner View.ops ef pf fol p fuel a none) := by
  intro fuel
  induction fuel with
  | zero => intro a _; exact .fuel _
  | succ fuel ih =>
    intro a ha
    unfold punctInner
    refine (al_punctTry hE h ef fol a ha).bind ?_ ?_ ?_
    · rintro (a' | panic) hr
      · exact .pure _ _
      · have : panic = none := toList_nil.1 hr
        subst this
        refine .peekSrc hE fun tok => ?_
        split
        · exact .pure _ _
        · split
          · exact .pure _ _
          · refine (Al.prim .consume).bind (fun _ _ => ih a ha) ?_ fun _ _ _ _ _ _ => rfl
            intro _ v c v' hp hc _
            have hr := run_pinner h.desc _ _ _ _ _ _ _ _ _ hc
            exact ⟨hr.adv, hr.late hp (by rw [ha]; exact .nil) .nil⟩
    · rintro (a' | panic) v c v' hp hc hlate
      · obtain ⟨rfl, rfl⟩ := pure_ok.1 hc; exact ⟨.refl _, hlate⟩
      · obtain ⟨tok, v1, h1, hc⟩ := bind_ok.1 hc
        obtain ⟨rfl, rfl, -⟩ := mPeekSrc_ok.1 h1
        split at hc
        · obtain ⟨rfl, rfl⟩ := pure_ok.1 hc
          exact ⟨.refl _, by simp only [ha]; exact Late.nil.append hlate⟩
        · split at hc
          · obtain ⟨rfl, rfl⟩ := pure_ok.1 hc
            exact ⟨.refl _, by simp only [ha]; exact Late.nil.append hlate⟩
          · simp only [bind_ok, mConsume_ok] at hc
            obtain ⟨_, _, ⟨rfl, rfl⟩, hc⟩ := hc
            have hr := run_pinner h.desc _ _ _ _ _ _ _ _ _ hc
            exact ⟨(Adv.skip _).trans hr.adv, hr.late (hp.adv (.skip _)) (by rw [ha]; exact .nil) hlate⟩
    · rintro (a' | panic) w c w' hc he
      · obtain ⟨rfl, rfl⟩ := pure_ok.1 hc; exact he
      · obtain ⟨tok, v1, h1, hc⟩ := bind_ok.1 hc
        obtain ⟨rfl, rfl, -⟩ := mPeekSrc_ok.1 h1
        split at hc
        · obtain ⟨rfl, rfl⟩ := pure_ok.1 hc
          exact (List.append_eq_nil_iff.1 he).2
        · split at hc
          · obtain ⟨rfl, rfl⟩ := pure_ok.1 hc
            exact (List.append_eq_nil_iff.1 he).2
          · simp only [bind_ok, mConsume_ok] at hc
            obtain ⟨_, _, ⟨rfl, rfl⟩, hc⟩ := hc
            have hr := run_pinner h.desc _ _ _ _ _ _ _ _ _ hc
            exact toList_nil.2 (hr.back he).2

theorem al_punctOuter (hE : SameOn E s1 s2) {pt pp : P (View n) n} {t u : Ty m n} (h : PartC E s1 s2 l1 l2 S pt t)
    (h' : Part E s1 s2 l1 l2 S pp u) (ef pf fol : TSet n) : ∀ (fuel : Nat) (a : Acc n), a.errs = [] →
    Al E s1 s2 l1 l2 (fun r => r.errs) (punctOuter View.ops ef pf fol pt pp fuel a) := by
  intro fuel
  induction fuel with
  | zero => intro a _; exact .fuel _
  | succ fuel ih =>
    intro a ha
    unfold punctOuter
    refine .peekSrc hE fun tok => ?_
    split
    · have hgo : ∀ (a : Acc n), a.errs = [] → Al E s1 s2 l1 l2 (fun r : Acc n => r.errs) (do
          let (go, a) ← punctInner View.ops ef pf fol pt fuel a none
          if go then punctOuter View.ops ef pf fol pt pp fuel a else Pure.pure a) := by
        intro a ha
        refine (al_punctInner hE h ef pf fol fuel a ha).bind ?_ ?_ ?_
        · rintro ⟨go, a⟩ hr
          dsimp only
          split
          · exact ih _ hr
          · exact .pure _ _
        · rintro ⟨go, a⟩ v c v' hp hc hlate
          dsimp only at hc hlate
          split at hc
          · have hr := run_pouter h.desc h'.desc _ _ _ _ _ _ _ _ hc
            exact ⟨hr.adv, hr.late hp hlate⟩
          · obtain ⟨rfl, rfl⟩ := pure_ok.1 hc
            exact ⟨.refl _, hlate⟩
        · rintro ⟨go, a⟩ w c w' hc he
          dsimp only at hc ⊢
          split at hc
          · exact (run_pouter h.desc h'.desc _ _ _ _ _ _ _ _ hc).back he
          · obtain ⟨rfl, rfl⟩ := pure_ok.1 hc
            exact he
      have hlate' : ∀ (a : Acc n) (v v' : View n) c, (do
          let (go, a) ← punctInner View.ops ef pf fol pt fuel a none
          if go then punctOuter View.ops ef pf fol pt pp fuel a else Pure.pure a : M (View n) (Acc n)) v = .ok c v' →
          (∀ B source, Past B source v → Late B a.errs → Adv v v' ∧ Late B c.errs) ∧ (c.errs = [] → a.errs = []) := by
        intro a v v' c hc
        obtain ⟨⟨go, a1⟩, v1, h1, h2⟩ := bind_ok.1 hc
        have hr1 := run_pinner h.desc _ _ _ _ _ _ _ _ _ h1
        dsimp only at h2
        split at h2
        · have hr := run_pouter h.desc h'.desc _ _ _ _ _ _ _ _ h2
          exact ⟨fun B s hp hl => ⟨hr1.adv.trans hr.adv, hr.late (hp.adv hr1.adv) (hr1.late hp hl .nil)⟩,
            fun he => (hr1.back (hr.back he)).1⟩
        · obtain ⟨rfl, rfl⟩ := pure_ok.1 h2
          exact ⟨fun B s hp hl => ⟨hr1.adv, hr1.late hp hl .nil⟩, fun he => (hr1.back he).1⟩
      refine h'.al.bind ?_ ?_ ?_
      · intro r hr
        cases r with
        | success q => exact hgo _ ha
        | recovered q e => exact hgo _ (by cases hr; simp [ha])
        | panic e => exact .pure _ _
      · intro r v c v' hp hc hlate
        cases r with
        | success q => exact (hlate' _ v v' c hc).1 _ _ hp (by simp only [ha]; exact .nil)
        | recovered q e =>
          exact (hlate' _ v v' c hc).1 _ _ hp (by simp only [ha]; exact Late.nil.append hlate)
        | panic e =>
          obtain ⟨rfl, rfl⟩ := pure_ok.1 hc
          exact ⟨.refl _, by simp only [ha]; exact Late.nil.append hlate⟩
      · intro r w c w' hc he
        cases r with
        | success q => rfl
        | recovered q e => exact (List.append_eq_nil_iff.1 ((hlate' _ w w' c hc).2 he)).2
        | panic e =>
          obtain ⟨rfl, rfl⟩ := pure_ok.1 hc
          exact (List.append_eq_nil_iff.1 he).2
    · exact .pure _ _

theorem al_punct (hE : SameOn E s1 s2) {pt pp : P (View n) n} {t u : Ty m n} (h : Part E s1 s2 l1 l2 S pt t)
    (h' : Part E s1 s2 l1 l2 S pp u) (ef pf fol : TSet n) (fuel : Nat) :
    Al E s1 s2 l1 l2 Res.errs (producePunctKeep View.ops ef pf fol pt pp fuel) := by
  have hc0 := partC h
  unfold producePunctKeep
  refine h.al.bind ?_ ?_ ?_
  · intro r hr
    cases r with
    | success x => exact (al_punctOuter hE hc0 h' ef pf fol fuel _ rfl).pack fun a => ofPair_errs
    | recovered x e => exact (al_punctOuter hE hc0 h' ef pf fol fuel _ hr).pack fun a => ofPair_errs
    | panic e => exact .pure _ _
  · intro r v c v' hp hc hlate
    cases r with
    | success x =>
      obtain ⟨a, v1, h1, h2⟩ := bind_ok.1 hc
      obtain ⟨rfl, rfl⟩ := pure_ok.1 h2
      have hr := run_pouter hc0.desc h'.desc _ _ _ _ _ _ _ _ h1
      exact ⟨hr.adv, .ofPair (hr.late hp .nil)⟩
    | recovered x e =>
      obtain ⟨a, v1, h1, h2⟩ := bind_ok.1 hc
      obtain ⟨rfl, rfl⟩ := pure_ok.1 h2
      have hr := run_pouter hc0.desc h'.desc _ _ _ _ _ _ _ _ h1
      exact ⟨hr.adv, .ofPair (hr.late hp hlate)⟩
    | panic e => obtain ⟨rfl, rfl⟩ := pure_ok.1 hc; exact ⟨.refl _, hlate⟩
  · intro r w c w' hc he
    cases r with
    | success x => rfl
    | recovered x e =>
      obtain ⟨a, v1, h1, h2⟩ := bind_ok.1 hc
      obtain ⟨rfl, rfl⟩ := pure_ok.1 h2
      have he : a.errs = [] := by simpa only [punctDone, ofPair_errs] using he
      exact (run_pouter hc0.desc h'.desc _ _ _ _ _ _ _ _ h1).back he
    | panic e => obtain ⟨rfl, rfl⟩ := pure_ok.1 hc; exact he

/-! Recover -/

theorem al_head (hE : SameOn E s1 s2) {p : P (View n) n} {t : Ty m n} (h : PartC E s1 s2 l1 l2 S p t)
    (hf : TSet n) : Al E s1 s2 l1 l2 (fun h => h.errs ++ h.panic.toList) (recoverHead View.ops hf p) := by
  unfold recoverHead
  refine .peekSrc hE fun tok => ?_
  split
  · refine h.al.bind ?_ ?_ ?_
    · intro r hr
      cases r with
      | success t => exact .pure _ _
      | recovered t e => exact .pure _ _
      | panic e => exact .emptySpan fun _ => .pure _ _
    · intro r v c v' hp hc hlate
      cases r with
      | success t => obtain ⟨rfl, rfl⟩ := pure_ok.1 hc; exact ⟨.refl _, .nil⟩
      | recovered t e => obtain ⟨rfl, rfl⟩ := pure_ok.1 hc; exact ⟨.refl _, Late.append hlate .nil⟩
      | panic e =>
        simp only [bind_ok, mEmptySpan_ok, pure_ok] at hc
        obtain ⟨_, _, ⟨rfl, rfl⟩, rfl, rfl⟩ := hc
        exact ⟨.refl _, Late.nil.append (Late.last hlate)⟩
    · intro r w c w' hc he
      cases r with
      | success t => rfl
      | recovered t e => obtain ⟨rfl, rfl⟩ := pure_ok.1 hc; exact (List.append_eq_nil_iff.1 he).1
      | panic e =>
        simp only [bind_ok, mEmptySpan_ok, pure_ok] at hc
        obtain ⟨_, _, ⟨rfl, rfl⟩, rfl, rfl⟩ := hc
        exact List.getLast?_eq_none_iff.1 (toList_nil.1 (List.append_eq_nil_iff.1 he).2)
  · exact .expecting _ fun _ => .emptySpan fun _ => .pure _ _

theorem al_tail (hE : SameOn E s1 s2) {p : P (View n) n} {t : Ty m n} (h : PartC E s1 s2 l1 l2 S p t)
    (tf : TSet n) (fuel : Nat) :
    Al E s1 s2 l1 l2 (fun r => r.2.1 ++ r.2.2.toList) (recoverLoopFix View.ops tf p fuel [] none) := by
  cases fuel with
  | zero => exact .fuel _
  | succ fuel =>
    unfold recoverLoopFix
    -- the second stream has an error once a token was skipped
    have hskip : ∀ (panic : Option (Err n)) (w w' : View n) c, (do
        let panic ← recoverSkip View.ops tf panic
        recoverLoopFix View.ops tf p fuel [] panic : M (View n) _) w = .ok c w' → c.2.1 ++ c.2.2.toList ≠ [] := by
      intro panic w w' c hc he
      obtain ⟨panic1, w1, h1, h2⟩ := bind_ok.1 hc
      exact recoverSkip_some h1 ((run_tailFix h.desc _ _ _ _ _ _ _ h2).back he).2
    refine .peekSrc hE fun tok => ?_
    split
    · split
      · refine h.al.bind ?_ ?_ ?_
        · intro r hr
          cases r <;> exact .pure _ _
        · intro r v c v' hp hc hlate
          cases r with
          | success t => obtain ⟨rfl, rfl⟩ := pure_ok.1 hc; exact ⟨.refl _, .nil⟩
          | recovered t e => obtain ⟨rfl, rfl⟩ := pure_ok.1 hc; exact ⟨.refl _, (Late.nil.append hlate).append .nil⟩
          | panic e => obtain ⟨rfl, rfl⟩ := pure_ok.1 hc; exact ⟨.refl _, Late.nil.append (Late.nil.merge hlate)⟩
        · intro r w c w' hc he
          cases r with
          | success t => rfl
          | recovered t e => obtain ⟨rfl, rfl⟩ := pure_ok.1 hc; show e = []; simpa using he
          | panic e => obtain ⟨rfl, rfl⟩ := pure_ok.1 hc; exact mergePanic_nil (List.append_eq_nil_iff.1 he).2
      · exact .expecting _ fun _ => .pure _ _
    · split
      · refine h.al.bind ?_ ?_ ?_
        · intro r hr
          cases r with
          | success t => exact .pure _ _
          | recovered t e => exact .pure _ _
          | panic e => intro v w a b v' w' _ _ h2 he; exact absurd he (hskip _ _ _ _ h2)
        · intro r v c v' hp hc hlate
          cases r with
          | success t => obtain ⟨rfl, rfl⟩ := pure_ok.1 hc; exact ⟨.refl _, .nil⟩
          | recovered t e => obtain ⟨rfl, rfl⟩ := pure_ok.1 hc; exact ⟨.refl _, (Late.nil.append hlate).append .nil⟩
          | panic e =>
            obtain ⟨panic1, v1, h1, h2⟩ := bind_ok.1 hc
            obtain ⟨hn, rfl⟩ := recoverSkip_ok h1
            have hr := run_tailFix h.desc _ _ _ _ _ _ _ h2
            have := hr.late (hp.adv (.skip _)) .nil ((Late.nil.merge hlate).note hn hp.le)
            exact ⟨(Adv.skip _).trans hr.adv, this.1.append this.2⟩
        · intro r w c w' hc he
          cases r with
          | success t => rfl
          | recovered t e => obtain ⟨rfl, rfl⟩ := pure_ok.1 hc; show e = []; simpa using he
          | panic e => exact absurd he (hskip _ _ _ _ hc)
      · intro v w a b v' w' _ _ h2 he; exact absurd he (hskip _ _ _ _ h2)

theorem al_recover (hE : SameOn E s1 s2) {pt pp : P (View n) n} {t u : Ty m n} (h : PartC E s1 s2 l1 l2 S pt t)
    (h' : PartC E s1 s2 l1 l2 S pp u) (hf tf : TSet n) (fuel : Nat) :
    Al E s1 s2 l1 l2 Res.errs (produceRecoverFix View.ops hf tf pt pp fuel) := by
  have hdone : ∀ (hd : RHead n) (x : Option (Tree n) × List (Err n) × Option (Err n)) (v v' : View n) c,
      (match x.1 with
        | some tail => Pure.pure (Res.ofPair (mkRecover hd tail) (x.2.1 ++ x.2.2.toList))
        | none => Pure.pure (.panic (x.2.1 ++ x.2.2.toList)) : P (View n) n) v = .ok c v' →
      v' = v ∧ c.errs = x.2.1 ++ x.2.2.toList := by
    rintro hd ⟨tail, errs, panic⟩ v v' c hc
    cases tail with
    | some y => obtain ⟨rfl, rfl⟩ := pure_ok.1 hc; exact ⟨rfl, ofPair_errs⟩
    | none => obtain ⟨rfl, rfl⟩ := pure_ok.1 hc; exact ⟨rfl, rfl⟩
  unfold produceRecoverFix
  refine (al_head hE h hf).bind ?_ ?_ ?_
  · intro hd he
    obtain ⟨h1, h2⟩ := List.append_eq_nil_iff.1 he
    rw [h1, toList_nil.1 h2]
    refine (al_tail hE h' tf fuel).bind ?_ ?_ ?_
    · rintro ⟨tail, errs, panic⟩ _
      cases tail <;> exact .pure _ _
    · intro x v c v' hp hc hlate
      obtain ⟨rfl, h3⟩ := hdone hd x v v' c hc
      exact ⟨.refl _, by rw [h3]; exact hlate⟩
    · intro x w c w' hc he
      rw [← (hdone hd x w w' c hc).2]; exact he
  · intro hd v c v' hp hc hlate
    obtain ⟨x, v1, h1, h2⟩ := bind_ok.1 hc
    obtain ⟨rfl, h3⟩ := hdone hd x v1 _ c h2
    have hr := run_tailFix h'.desc _ _ _ _ _ _ _ h1
    have := hr.late hp hlate.left hlate.right
    exact ⟨hr.adv, by rw [h3]; exact this.1.append this.2⟩
  · intro hd w c w' hc he
    obtain ⟨x, v1, h1, h2⟩ := bind_ok.1 hc
    obtain ⟨rfl, h3⟩ := hdone hd x v1 _ c h2
    rw [h3] at he
    obtain ⟨h4, h5⟩ := (run_tailFix h'.desc _ _ _ _ _ _ _ h1).back he
    rw [h4, h5]; rfl

/-! Terminals and texts -/

theorem al_text {p : P (View n) n} {t : Ty m n} (h : Part E s1 s2 l1 l2 S p t)
    (hloc : Loc E s1 s2 l1 l2 (produceText View.ops p) (produceText View.ops p)) :
    Al E s1 s2 l1 l2 Res.errs (produceText View.ops p) := by
  intro v w a b v' w' hlock h1 h2 he
  refine ⟨?_, hlock.loc hloc h1 h2⟩
  obtain ⟨r1, g1, g2⟩ := text_errs h1
  obtain ⟨r2, k1, k2⟩ := text_errs h2
  rw [← g2]
  exact (h.al _ _ _ _ _ _ hlock g1 k1 (by rw [k2]; exact he)).1

theorem produce_alarm (hE : SameOn E s1 s2) (S : Schema m n) (md : Metadata (PId m n) n) (fuel : Nat) :
    ∀ t : Ty m n, Al E s1 s2 l1 l2 Res.errs (produceKeep View.ops S md fuel t) := by
  induction fuel with
  | zero => intro t; exact .fuel _
  | succ fuel ih =>
    have h : ∀ t, Part E s1 s2 l1 l2 S (produceKeep View.ops S md fuel t) t :=
      fun t => ⟨run_of_produce S md fuel t, ih t⟩
    intro t
    have hloc := produce_loc (l1 := l1) (l2 := l2) hE S md (fuel + 1) t
    show Al E s1 s2 l1 l2 Res.errs (produceStepKeep View.ops S md fuel (produceKeep View.ops S md fuel) t)
    cases t with
    | term i k => exact al_term hE i k _
    | user k =>
      rw [step_eq (by simp) (by simp) (by simp)]
      cases hS : S k with
      | struct f fs => simp only [produceStep, hS]; exact al_struct hE _ (f :: fs) h
      | enum f fs => simp only [produceStep, hS]; exact al_enum hE _ (f :: fs) h _ _
    | box t => exact ih t
    | option t => exact al_option hE (h t) _ _
    | exist t => exact al_option hE (h t) _ _
    | quote t => exact al_text (h t) hloc
    | parse t => exact al_text (h t) hloc
    | plus t => exact al_plus hE (h t) _ _
    | star t =>
      exact al_option hE (t := .plus t) ⟨desc_plus (h t).desc _ _, al_plus hE (h t) _ _⟩ _ _
    | loop t => exact al_loop hE (h t) _ _
    | split t p => exact al_split hE (h t) (h p) _ _ _ _
    | punct t p => exact al_punct hE (h t) (h p) _ _ _ _
    | recover t r => exact al_recover hE (partC (h t)) (partC (h r)) _ _ _
    | tup2 a b => exact al_tuple _ [a, b] h
    | tup3 a b c => exact al_tuple _ [a, b, c] h
    | tup4 a b c d => exact al_tuple _ [a, b, c, d] h
    | tup5 a b c d e => exact al_tuple _ [a, b, c, d, e] h

end
end Teleparse.Kept
