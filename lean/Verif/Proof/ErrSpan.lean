import Verif.Proof.Late
import Verif.Proof.State
import Verif.Proof.Nest
/-
Errors lie between the token at which a type begins and the token at which it stops; the last error of a type that
fails is at the token at which it stops.
-/
namespace Teleparse
variable {m n : Nat} {S : Schema m n}

/-- Proper spans that do not begin after the next token of `w` and do not end after it. -/
def UpTo (w : View n) (l : List (Err n)) : Prop :=
  ∀ e ∈ l, e.span.lo ≤ e.span.hi ∧ e.span.lo ≤ w.cur.lo ∧ e.span.hi ≤ w.cur.hi

theorem Ready.cur_span {source : Str} {v : View n} (h : Ready source v) : v.cur.lo ≤ v.cur.hi := by
  unfold View.cur
  cases hr : v.rest with
  | nil => simp
  | cons t l => exact Nat.le_of_lt (h.pos (t := t) (by simp [hr]))

theorem Ready.cur_hi_le {source : Str} {v v' : View n} (h : Ready source v) (ha : Adv v v') :
    v.cur.hi ≤ v'.cur.hi := by
  obtain ⟨ts, h1, -⟩ := ha.cons
  have h' := h.adv ha
  cases ts with
  | nil =>
    unfold View.cur
    rw [h1, ha.src]; exact Nat.le_refl _
  | cons t ts =>
    have hc : v.cur = t.span := by unfold View.cur; rw [h1]; rfl
    rw [hc]
    have ht : t ∈ v.rest := by rw [h1]; simp
    cases hr : v'.rest with
    | nil =>
      have : v'.cur = ⟨v'.source.length, v'.source.length⟩ := by unfold View.cur; rw [hr]
      rw [this]
      have := (h.inSource.good.rest t ht).2.1
      rw [← h.inSource.src, ← ha.src] at this
      exact this
    | cons a l =>
      have : v'.cur = a.span := by unfold View.cur; rw [hr]
      rw [this]
      have hs := (List.pairwise_append.1 h.sorted.tokens.2).2.1
      rw [h1, hr] at hs
      have := (List.pairwise_append.1 hs).2.2 t (by simp) a (by simp)
      have := h'.pos (t := a) (by simp [hr])
      omega

theorem Ready.pos_cur {source : Str} {v : View n} (h : Ready source v) : v.pos ≤ v.cur.lo := by
  cases hr : v.rest with
  | nil =>
    have : v.cur = ⟨v.source.length, v.source.length⟩ := by unfold View.cur; rw [hr]
    rw [this]
    unfold View.pos
    cases hc : v.cells.getLast? with
    | none => simp
    | some d =>
      have := (h.inSource.good.cells d.token (List.mem_map_of_mem (List.mem_of_getLast? hc))).2.1
      rw [h.inSource.src]
      exact this
  | cons t l =>
    have : v.cur = t.span := by unfold View.cur; rw [hr]
    rw [this]
    exact (h.sorted.head hr).1

theorem Ready.skips {source : Str} {v w : View n} (h : Ready source v) (hs : Skips v w) :
    v.cur.lo ≤ w.pos := by
  induction hs with
  | one hne =>
    cases hr : View.rest _ with
    | nil => exact absurd hr hne
    | cons t l =>
      have := h.sorted.head hr
      rw [this.2.2]
      unfold View.cur
      rw [hr]
      exact Nat.le_of_lt this.2.1
  | more h1 _ ih => exact Nat.le_trans ih ((h.adv h1.adv).sorted.pos_le (.skip _))

theorem UpTo.nil {w : View n} : UpTo w [] := by intro e he; cases he

theorem UpTo.append {w : View n} {l l' : List (Err n)} (h : UpTo w l) (h' : UpTo w l') : UpTo w (l ++ l') := by
  intro e he
  rcases List.mem_append.1 he with he | he
  · exact h e he
  · exact h' e he

theorem UpTo.adv {source : Str} {w w' : View n} {l : List (Err n)} (h : UpTo w l) (hw : Ready source w)
    (ha : Adv w w') : UpTo w' l := fun e he =>
  ⟨(h e he).1, Nat.le_trans (h e he).2.1 (hw.cur_le ha), Nat.le_trans (h e he).2.2 (hw.cur_hi_le ha)⟩

theorem UpTo.one {w : View n} {e : Err n} (h : e.span.lo ≤ e.span.hi) (h1 : e.span.lo ≤ w.cur.lo)
    (h2 : e.span.hi ≤ w.cur.hi) : UpTo w [e] := by
  intro e' he'; rw [List.mem_singleton.1 he']; exact ⟨h, h1, h2⟩

theorem UpTo.at {source : Str} {w : View n} (h : Ready source w) (k : ErrKind n) : UpTo w [⟨w.cur, k⟩] :=
  .one h.cur_span (Nat.le_refl _) (Nat.le_refl _)

theorem UpTo.last {w : View n} {l : List (Err n)} (h : UpTo w l) : UpTo w l.getLast?.toList := by
  intro e he
  cases hl : l.getLast? with
  | none => rw [hl] at he; cases he
  | some a =>
    rw [hl] at he
    rw [List.mem_singleton.1 he]
    exact h a (List.mem_of_getLast? hl)

theorem UpTo.merge {source : Str} {v w : View n} {p : Option (Err n)} {l : List (Err n)} (hv : Ready source v)
    (ha : Adv v w) (hp : UpTo v p.toList) (hl : UpTo w l) (hlate : Teleparse.Late v.cur.lo l) :
    UpTo w (mergePanic p l).toList := by
  have h := hl.last
  have hlate := hlate.last
  have hp' := hp.adv hv ha
  unfold mergePanic
  cases hg : l.getLast? with
  | none => exact hp'
  | some a =>
    rw [hg] at h hlate
    cases p with
    | none => exact h
    | some p =>
      have h1 := h a (by simp)
      have h2 := hlate a (by simp)
      have h3 := hp p (by simp)
      have h4 := hp' p (by simp)
      exact .one (by show p.span.lo ≤ a.span.hi; omega) h4.2.1 h1.2.2

theorem UpTo.note {source : Str} {v : View n} {p p' : Option (Err n)} (h : Note v p p') (hv : Ready source v)
    (hp : UpTo v p.toList) : UpTo v p'.toList := by
  cases h with
  | new s => exact .at hv _
  | ext p =>
    have h3 := hp p (by simp)
    exact .one (Nat.le_trans h3.2.1 hv.cur_span) h3.2.1 (Nat.le_refl _)

theorem UpTo.gives {w : View n} {r : Res n (Tree n)} {x e} (h : UpTo w r.errs) (hg : r.Gives x e) : UpTo w e := by
  cases hg with
  | success => exact .nil
  | recovered => exact h

theorem UpTo.ofPair {w : View n} {x : Tree n} {e : List (Err n)} (h : UpTo w e) :
    UpTo w (Res.ofPair x e).errs := by
  unfold Res.ofPair
  cases e with
  | nil => exact .nil
  | cons a e => exact h

/-- Errors after a step. -/
def Judg.UpTo : Judg m n → Prop
  | .ty _ _ r v' => Teleparse.UpTo v' r.errs
  | .seq _ v _ errs (.ok (_, errs')) v' => Teleparse.UpTo v errs → Teleparse.UpTo v' errs'
  | .seq _ v _ errs (.error e) v' => Teleparse.UpTo v errs → Teleparse.UpTo v' e
  | .iter _ v _ errs _ _ errs' _ v' => Teleparse.UpTo v errs → Teleparse.UpTo v' errs'
  | .loop _ v _ errs _ errs' v' => Teleparse.UpTo v errs → Teleparse.UpTo v' errs'
  | .inner _ _ v a panic _ a' v' =>
    Teleparse.UpTo v a.errs → Teleparse.UpTo v panic.toList → Teleparse.UpTo v' a'.errs
  | .outer _ _ v a a' v' => Teleparse.UpTo v a.errs → Teleparse.UpTo v' a'.errs
  | .pinner _ v a panic _ a' v' =>
    Teleparse.UpTo v a.errs → Teleparse.UpTo v panic.toList → Teleparse.UpTo v' a'.errs
  | .pouter _ _ v a a' v' => Teleparse.UpTo v a.errs → Teleparse.UpTo v' a'.errs
  | .head _ _ h v' => Teleparse.UpTo v' h.errs ∧ Teleparse.UpTo v' h.panic.toList
  | .tail _ v errs panic _ errs' panic' v' => Teleparse.UpTo v errs → Teleparse.UpTo v panic.toList →
      Teleparse.UpTo v' errs' ∧ Teleparse.UpTo v' panic'.toList

theorem RunX.lateCur {source : Str} {t : Ty m n} {v v' : View n} {r} (h : Run S (.ty t v r v')) (hv : Ready source v) :
    Teleparse.Late v.cur.lo r.errs := h.late ⟨hv, Nat.le_refl _⟩

theorem RunX.upTo {source : Str} {j : Judg m n} (h : Run S j) : Ready source j.pre → j.UpTo := by
  induction h with
  | tok => intro _; exact .nil
  | tokRecovered => intro hp; exact .at hp _
  | tokPanic => intro hp; exact .at hp _
  | seqNil => intro _ he; exact he
  | @seqGive t ts v acc errs r x e v1 res v' h1 hg h2 i1 i2 =>
    intro (hp : Ready source v)
    have i1 := i1 hp
    have i2 := i2 (hp.adv h1.adv)
    match res with
    | .ok (l, errs') => exact fun he => i2 ((he.adv hp h1.adv).append (UpTo.gives i1 hg))
    | .error e' => exact fun he => i2 ((he.adv hp h1.adv).append (UpTo.gives i1 hg))
  | seqPanic h1 i => intro (hp : Ready source _) he; exact (UpTo.adv he hp h1.adv).append (i hp)
  | struct _ h1 i =>
    intro hp
    have := i hp .nil
    exact .ofPair (this.adv (Ready.adv hp h1.adv) (.applyAll _ _))
  | structPanic _ _ i => intro hp; exact i hp .nil
  | tuple _ _ i => intro hp; exact .ofPair (i hp .nil)
  | tuplePanic _ _ i => intro hp; exact i hp .nil
  | enumSuccess => intro _; exact .nil
  | enumRecovered _ _ h1 i => intro hp; exact UpTo.adv (i hp) (Ready.adv hp h1.adv) (.applyAll _ _)
  | enumPanic _ _ _ i => intro hp; exact i hp
  | enumNone => intro hp; exact .at hp _
  | box _ i => intro hp; exact i hp
  | optNone => intro _; exact .nil
  | optSuccess => intro _; exact .nil
  | optRecovered _ _ i => intro hp; exact i hp
  | optPanic _ _ i => intro hp; exact i hp
  | textSuccess => intro _; exact .nil
  | textRecovered _ _ _ i => intro hp; exact i hp
  | textPanic _ _ i => intro hp; exact i hp
  | plus h1 hg _ i1 i2 => intro hp; exact .ofPair (i2 (Ready.adv hp h1.adv) (UpTo.gives (i1 hp) hg))
  | plusPanic _ i => intro hp; exact i hp
  | iterStop => intro _ he; exact he
  | iterGive _ h1 hg _ i1 i2 =>
    intro hp he
    exact i2 (Ready.adv hp h1.adv) ((UpTo.adv he hp h1.adv).append (UpTo.gives (i1 hp) hg))
  | iterPanic h1 i => intro hp he; exact (UpTo.adv he hp h1.adv).append (i hp)
  | loopEmpty _ i => intro hp; exact .ofPair (i hp .nil)
  | loopList _ _ i => intro hp; exact .ofPair (i hp .nil)
  | loopStop => intro _ he; exact he
  | loopSkip hs _ i =>
    intro hp he
    have hp1 := Ready.adv hp hs.adv
    refine i hp1 ((UpTo.adv he hp hs.adv).append (.one (Ready.skips hp hs) (Ready.cur_le hp hs.adv) ?_))
    exact Nat.le_trans hp1.pos_cur hp1.cur_span
  | loopGive h1 hg _ i1 i2 =>
    intro hp he
    exact i2 (Ready.adv hp h1.adv) ((UpTo.adv he hp h1.adv).append (UpTo.gives (i1 hp) hg))
  | loopPanic h1 _ i1 i2 => intro hp he; exact i2 (Ready.adv hp h1.adv) ((UpTo.adv he hp h1.adv).append (i1 hp))
  | loopGiveStuck h1 hg i =>
    intro hp he
    exact ((UpTo.adv he hp h1.adv).append (UpTo.gives (i hp) hg)).append (.at (Ready.adv hp h1.adv) _)
  | loopPanicStuck h1 i =>
    intro hp he
    exact ((UpTo.adv he hp h1.adv).append (i hp)).append (.at (Ready.adv hp h1.adv) _)
  | split h1 hg _ i1 i2 => intro hp; exact .ofPair (i2 (Ready.adv hp h1.adv) (UpTo.gives (i1 hp) hg))
  | splitPanic _ i => intro hp; exact i hp
  | outerStop => intro _ he; exact he
  | outerPanic h1 i => intro hp he; exact (UpTo.adv he hp h1.adv).append (i hp)
  | outerGo _ h1 hg h2 _ i1 i2 i3 =>
    intro hp he
    have hp1 := Ready.adv hp h1.adv
    exact i3 (Ready.adv hp1 h2.adv) (i2 hp1 ((UpTo.adv he hp h1.adv).append (UpTo.gives (i1 hp) hg)) .nil)
  | outerBreak _ h1 hg _ i1 i2 =>
    intro hp he
    exact i2 (Ready.adv hp h1.adv) ((UpTo.adv he hp h1.adv).append (UpTo.gives (i1 hp) hg)) .nil
  | innerGive h1 hg i =>
    intro hp he hq
    exact ((UpTo.adv he hp h1.adv).append (UpTo.gives (i hp) hg)).append (UpTo.adv hq hp h1.adv)
  | innerFailLeave h1 i =>
    intro hp he hq
    exact (UpTo.adv he hp h1.adv).append (.merge hp h1.adv hq (i hp) (h1.lateCur hp))
  | innerFailGo h1 _ i1 i2 =>
    intro hp he hq
    have hp1 := Ready.adv hp h1.adv
    exact i2 (Ready.adv hp1 (.skip _)) ((UpTo.adv he hp h1.adv).adv hp1 (.skip _))
      ((UpTo.merge hp h1.adv hq (i1 hp) (h1.lateCur hp)).adv hp1 (.skip _))
  | innerNoteLeave hn => intro hp he hq; exact UpTo.append he (.note hn hp hq)
  | innerNoteGo hn _ i =>
    intro hp he hq
    exact i (Ready.adv hp (.skip _)) (UpTo.adv he hp (.skip _)) ((UpTo.note hn hp hq).adv hp (.skip _))
  | punct h1 hg _ i1 i2 => intro hp; exact .ofPair (i2 (Ready.adv hp h1.adv) (UpTo.gives (i1 hp) hg))
  | punctPanic _ i => intro hp; exact i hp
  | pouterStop => intro _ he; exact he
  | pouterPanic h1 i => intro hp he; exact (UpTo.adv he hp h1.adv).append (i hp)
  | pouterGo _ h1 hg h2 _ i1 i2 i3 =>
    intro hp he
    have hp1 := Ready.adv hp h1.adv
    exact i3 (Ready.adv hp1 h2.adv) (i2 hp1 ((UpTo.adv he hp h1.adv).append (UpTo.gives (i1 hp) hg)) .nil)
  | pouterBreak _ h1 hg _ i1 i2 =>
    intro hp he
    exact i2 (Ready.adv hp h1.adv) ((UpTo.adv he hp h1.adv).append (UpTo.gives (i1 hp) hg)) .nil
  | pinnerGive h1 hg i =>
    intro hp he hq
    exact ((UpTo.adv he hp h1.adv).append (UpTo.adv hq hp h1.adv)).append (UpTo.gives (i hp) hg)
  | pinnerStop => intro _ he hq; exact UpTo.append he hq
  | pinnerFailLeave h1 i =>
    intro hp he hq
    exact (UpTo.adv he hp h1.adv).append (.merge hp h1.adv hq (i hp) (h1.lateCur hp))
  | pinnerFailGo h1 _ i1 i2 =>
    intro hp he hq
    have hp1 := Ready.adv hp h1.adv
    exact i2 (Ready.adv hp1 (.skip _)) ((UpTo.adv he hp h1.adv).adv hp1 (.skip _))
      ((UpTo.merge hp h1.adv hq (i1 hp) (h1.lateCur hp)).adv hp1 (.skip _))
  | pinnerNoteLeave hn => intro hp he hq; exact UpTo.append he (.note hn hp hq)
  | pinnerNoteGo hn _ i =>
    intro hp he hq
    exact i (Ready.adv hp (.skip _)) (UpTo.adv he hp (.skip _)) ((UpTo.note hn hp hq).adv hp (.skip _))
  | recover h1 _ i1 i2 =>
    intro hp
    have := i2 (Ready.adv hp h1.adv) (i1 hp).1 (i1 hp).2
    exact .ofPair (this.1.append this.2)
  | recoverPanic h1 _ i1 i2 =>
    intro hp
    have := i2 (Ready.adv hp h1.adv) (i1 hp).1 (i1 hp).2
    exact this.1.append this.2
  | headGive _ hg i => intro hp; exact ⟨UpTo.gives (i hp) hg, .nil⟩
  | headPanic _ i => intro hp; exact ⟨.nil, UpTo.last (i hp)⟩
  | headNone => intro hp; exact ⟨.nil, .at hp _⟩
  | tailGive h1 hg i =>
    intro hp he hq
    exact ⟨(UpTo.adv he hp h1.adv).append (UpTo.gives (i hp) hg), UpTo.adv hq hp h1.adv⟩
  | tailPanic _ h1 i =>
    intro hp he hq
    exact ⟨UpTo.adv he hp h1.adv, .merge hp h1.adv hq (i hp) (h1.lateCur hp)⟩
  | tailNote h => cases h
  | tailStop => intro _ he hq; exact ⟨he, hq⟩
  | tailFail _ h1 hn _ i1 i2 =>
    intro hp he hq
    have hp1 := Ready.adv hp h1.adv
    exact i2 (Ready.adv hp1 (.skip _)) ((UpTo.adv he hp h1.adv).adv hp1 (.skip _))
      ((UpTo.note hn hp1 (UpTo.merge hp h1.adv hq (i1 hp) (h1.lateCur hp))).adv hp1 (.skip _))
  | tailSkip _ hn _ i =>
    intro hp he hq
    exact i (Ready.adv hp (.skip _)) (UpTo.adv he hp (.skip _)) ((UpTo.note hn hp hq).adv hp (.skip _))

/-! ### The last error of a type that fails -/

/-- The input is at its end, or the last error is at the next token. -/
def AtNext (v' : View n) (e : List (Err n)) : Prop :=
  v'.rest = [] ∨ ∃ x, e.getLast? = some x ∧ x.span = v'.cur

theorem AtNext.one {v : View n} {k : ErrKind n} : AtNext v [⟨v.cur, k⟩] := .inr ⟨_, rfl, rfl⟩

theorem AtNext.append {v : View n} {e : List (Err n)} (h : AtNext v e) (l : List (Err n)) : AtNext v (l ++ e) := by
  rcases h with h | ⟨x, h1, h2⟩
  · exact .inl h
  · exact .inr ⟨x, by rw [List.getLast?_append, h1]; rfl, h2⟩

def Judg.AtNext : Judg m n → Prop
  | .ty _ _ (.panic e) v' => Teleparse.AtNext v' e
  | .seq _ _ _ _ (.error e) v' => Teleparse.AtNext v' e
  | .tail _ _ _ _ none _ _ v' => v'.rest = []
  | _ => True

theorem atNext_ofPair {t : Ty m n} {v v' : View n} {x : Tree n} {e : List (Err n)} :
    Judg.AtNext (.ty t v (Res.ofPair x e) v') := by
  unfold Res.ofPair
  split <;> trivial

theorem rest_nil_adv {v v' : View n} (h : v.rest = []) (ha : Adv v v') : v'.rest = [] := by
  obtain ⟨ts, h1, -⟩ := ha.cons
  rw [h] at h1
  exact (List.append_eq_nil_iff.1 h1.symm).2

theorem RunX.atNext {j : Judg m n} (h : Run S j) : j.AtNext := by
  induction h with
  | tokPanic => exact .one
  | @seqGive t ts v acc errs r x e v1 res v' h1 hg h2 i1 i2 =>
    match res with
    | .ok _ => trivial
    | .error _ => exact i2
  | seqPanic _ i => exact i.append _
  | structPanic _ _ i => exact i
  | tuplePanic _ _ i => exact i
  | enumPanic _ _ _ i => exact i
  | enumNone => exact .one
  | @box t v r v1 h1 i =>
    cases r with
    | panic e => exact i
    | _ => trivial
  | textPanic _ _ i => exact i
  | plusPanic _ i => exact i
  | splitPanic _ i => exact i
  | punctPanic _ i => exact i
  | recoverPanic _ _ _ i => exact .inl i
  | tailPanic h h1 _ => exact rest_nil_adv h h1.adv
  | tailNote h => cases h
  | tailStop h => exact h
  | @tailFail _ _ _ _ _ _ _ x _ _ _ _ _ _ _ _ i =>
    cases x with
    | none => exact i
    | some x => trivial
  | @tailSkip _ _ _ _ _ x _ _ _ _ _ _ i =>
    cases x with
    | none => exact i
    | some x => trivial
  | struct => exact atNext_ofPair
  | tuple => exact atNext_ofPair
  | plus => exact atNext_ofPair
  | loopEmpty => exact atNext_ofPair
  | loopList => exact atNext_ofPair
  | split => exact atNext_ofPair
  | punct => exact atNext_ofPair
  | recover => exact atNext_ofPair
  | _ => trivial

/-! ### Recorded errors -/

theorem Err.span_mono {l es : List (Err n)} (h : ∀ e ∈ l, e.kind ≠ .unexpectedCharacters → e.span.lo ≤ e.span.hi)
    (he : ∀ e ∈ es, e.kind = .unexpectedCharacters) :
    ∀ e ∈ l ++ es, e.kind ≠ .unexpectedCharacters → e.span.lo ≤ e.span.hi := by
  intro e hm hk
  rcases List.mem_append.1 hm with hm | hm
  · exact h e hm hk
  · exact absurd (he e hm) hk

theorem Reached.otherSpans {ext : Fin n → Bool} {source : Str} {items : List (Item n)} {p : Parser n}
    (h : Reached ext source items p) (hw : ItemsWF source items) :
    ∀ e ∈ p.info.errors, e.kind ≠ .unexpectedCharacters → e.span.lo ≤ e.span.hi := by
  induction h with
  | new => intro e he; cases he
  | @peek p _ ih =>
    obtain ⟨es, h1, h2⟩ := fill_grows ext p
    show ∀ e ∈ (p.fill ext).info.errors, _
    rw [h1]; exact Err.span_mono ih h2
  | @consume p _ ih =>
    obtain ⟨es, h1, h2⟩ := consume_grows ext p
    rw [h1]; exact Err.span_mono ih h2
  | apply sp sem _ ih => exact ih
  | produce S md fuel t r _ hr ih =>
    obtain ⟨es, h1, h2⟩ := produce_grows hr
    rw [h1]; exact Err.span_mono ih h2
  | parse S fuel t r hp hr ih =>
    rcases parse_ok hr with ⟨e, _, _, rfl⟩ | ⟨md, x, _, _, hq⟩
    · exact ih
    · obtain ⟨r, q, hq', rfl, _, _⟩ := parseWithMeta_ok hq
      obtain ⟨es, h1, h2⟩ := produce_grows hq'
      simp only
      intro e he hk
      rcases List.mem_append.1 he with he | he
      · rw [h1] at he
        exact Err.span_mono ih h2 e he hk
      · exact ((On.of_yields ⟨_, hq'⟩).run.upTo (hp.ready hw) e he).1

/-- Non-empty spans from left to right. -/
def Rising (l : List Span) : Prop := (∀ s ∈ l, s.lo < s.hi) ∧ l.Pairwise (fun a b => a.hi ≤ b.lo)

theorem Rising.merge {l : List Span} (h : Rising l) : ∀ sp ∈ mergeSpans l, sp.lo < sp.hi := by
  intro sp hsp
  unfold mergeSpans at hsp
  split at hsp
  · rename_i a b ha hb
    cases hsp
    cases l with
    | nil => cases ha
    | cons x l =>
      cases ha
      rcases List.mem_cons.1 (List.mem_of_getLast? hb) with rfl | hb'
      · exact h.1 _ (List.mem_cons_self ..)
      · have h1 := (List.pairwise_cons.1 h.2).1 b hb'
        have h2 := h.1 b (List.mem_cons_of_mem _ hb')
        have h3 := h.1 a (List.mem_cons_self ..)
        simp only; omega
  · cases hsp

theorem Rising.runs : ∀ (items : List (Item n)) (cur : List Span), Rising (cur ++ items.map Item.span) →
    ∀ sp ∈ invalidRunsFrom cur items, sp.lo < sp.hi := by
  intro items
  induction items with
  | nil => intro cur h sp hsp; exact Rising.merge (by simpa using h) sp (by simpa [invalidRunsFrom] using hsp)
  | cons x l ih =>
    intro cur h sp hsp
    cases x with
    | error s => exact ih (cur ++ [s]) (by simpa [Item.span] using h) sp hsp
    | token t =>
      rcases List.mem_append.1 hsp with hsp | hsp
      · refine Rising.merge ⟨fun s hs => h.1 s (List.mem_append_left _ hs), ?_⟩ sp (by simpa using hsp)
        exact (List.pairwise_append.1 h.2).1
      · refine ih [] ⟨fun s hs => h.1 s ?_, ?_⟩ sp hsp
        · simp only [List.nil_append] at hs
          exact List.mem_append_right _ (List.mem_cons_of_mem _ hs)
        · exact (List.pairwise_cons.1 (List.pairwise_append.1 h.2).2.1).2

theorem Reached.charSpans {ext : Fin n → Bool} {source : Str} {items : List (Item n)} {p : Parser n}
    (h : Reached ext source items p) (hw : ItemsWF source items) :
    ∀ e ∈ p.info.errors, e.kind = .unexpectedCharacters → e.span.lo < e.span.hi := by
  intro e he hk
  obtain ⟨done, hd⟩ := h.inv
  have hm : e ∈ p.info.errors.filter Err.isChars := List.mem_filter.2 ⟨he, by simp [Err.isChars, hk]⟩
  rw [hd.errors] at hm
  obtain ⟨sp, hsp, rfl⟩ := List.mem_map.1 hm
  refine Rising.runs done [] ⟨?_, ?_⟩ sp hsp
  · intro s hs
    obtain ⟨i, hi, rfl⟩ := List.mem_map.1 (by simpa using hs : s ∈ done.map Item.span)
    exact (hw.1 i (by rw [hd.split]; exact List.mem_append_left _ hi)).1
  · have := hw.2
    rw [hd.split] at this
    simpa [List.pairwise_map] using (List.pairwise_append.1 this).1

end Teleparse
