import Verif.Spec.ErrOrder
import Verif.Proof.ErrSpan
import Verif.Proof.Viable
/-
Errors are in the order of the source.
-/
namespace Teleparse
variable {m n : Nat} {S : Schema m n}

theorem InOrder.nil : InOrder ([] : List (Err n)) := List.Pairwise.nil

theorem InOrder.one (e : Err n) : InOrder [e] := List.pairwise_singleton _ _

theorem InOrder.append {v : View n} {l l' : List (Err n)} (h : InOrder l) (hu : UpTo v l) (h' : InOrder l')
    (hl : Late v.cur.lo l') : InOrder (l ++ l') :=
  List.pairwise_append.2 ⟨h, h', fun a ha b hb => Nat.le_trans (hu a ha).2.1 (hl b hb)⟩

theorem InOrder.left {l l' : List (Err n)} (h : InOrder (l ++ l')) : InOrder l := (List.pairwise_append.1 h).1

theorem UpTo.left {w : View n} {l l' : List (Err n)} (h : UpTo w (l ++ l')) : UpTo w l :=
  fun e he => h e (List.mem_append_left _ he)

theorem UpTo.right {w : View n} {l l' : List (Err n)} (h : UpTo w (l ++ l')) : UpTo w l' :=
  fun e he => h e (List.mem_append_right _ he)

theorem InOrder.opt (p : Option (Err n)) : InOrder p.toList := by
  cases p with
  | none => exact .nil
  | some e => exact .one e

/-- Replacing the pending error by one that begins at the same place or later. -/
theorem InOrder.pending {l : List (Err n)} {p p' : Option (Err n)} {v : View n} (h : InOrder (l ++ p.toList))
    (hu : UpTo v l) (hp : ∀ e', p' = some e' → (∃ e, p = some e ∧ e.span.lo = e'.span.lo) ∨ v.cur.lo ≤ e'.span.lo) :
    InOrder (l ++ p'.toList) := by
  refine List.pairwise_append.2 ⟨h.left, InOrder.opt _, ?_⟩
  intro a ha b hb
  have hb' : p' = some b := by simpa using hb
  rcases hp b hb' with ⟨e, he, hlo⟩ | hlo
  · subst he
    rw [← hlo]
    exact (List.pairwise_append.1 h).2.2 a ha e (by simp)
  · exact Nat.le_trans (hu a ha).2.1 hlo

theorem InOrder.merge {l : List (Err n)} {p : Option (Err n)} {e : List (Err n)} {v : View n}
    (h : InOrder (l ++ p.toList)) (hu : UpTo v l) (hl : Late v.cur.lo e) : InOrder (l ++ (mergePanic p e).toList) := by
  apply h.pending hu
  intro e' he'
  unfold mergePanic at he'
  cases hg : e.getLast? with
  | none => rw [hg] at he'; exact .inl ⟨e', he', rfl⟩
  | some a =>
    rw [hg] at he'
    cases p with
    | none => cases he'; exact .inr (hl _ (List.mem_of_getLast? hg))
    | some p => cases he'; exact .inl ⟨p, rfl, rfl⟩

theorem InOrder.note {l : List (Err n)} {p p' : Option (Err n)} {v : View n} (h : InOrder (l ++ p.toList))
    (hu : UpTo v l) (hn : Note v p p') : InOrder (l ++ p'.toList) := by
  apply h.pending hu
  intro e' he'
  cases hn with
  | new s => cases he'; exact .inr (Nat.le_refl _)
  | ext p => cases he'; exact .inl ⟨p, rfl, rfl⟩

theorem InOrder.ofPair {x : Tree n} {e : List (Err n)} (h : InOrder e) : InOrder (Res.ofPair x e).errs := by
  unfold Res.ofPair
  cases e with
  | nil => exact .nil
  | cons a e => exact h

theorem InOrder.gives {r : Res n (Tree n)} {x e} (h : InOrder r.errs) (hg : r.Gives x e) : InOrder e := by
  cases hg with
  | success => exact .nil
  | recovered => exact h

/-- Errors stay in order. -/
def Judg.InOrder (S : Schema m n) (root : Ty m n) : Judg m n → Prop
  | .ty t _ r _ => Reach S.tyParts root t → Teleparse.InOrder r.errs
  | .seq ts v _ errs (.ok (_, errs')) _ => (∀ t ∈ ts, Reach S.tyParts root t) → Teleparse.InOrder errs →
      Teleparse.UpTo v errs → Teleparse.InOrder errs'
  | .seq ts v _ errs (.error e) _ => (∀ t ∈ ts, Reach S.tyParts root t) → Teleparse.InOrder errs →
      Teleparse.UpTo v errs → Teleparse.InOrder e
  | .iter t v _ errs _ _ errs' _ _ => Reach S.tyParts root t → Teleparse.InOrder errs → Teleparse.UpTo v errs →
      Teleparse.InOrder errs'
  | .loop t v _ errs _ errs' _ => Reach S.tyParts root t → Teleparse.InOrder errs → Teleparse.UpTo v errs →
      Teleparse.InOrder errs'
  | .inner t _ v a panic _ a' _ => Reach S.tyParts root t → NeverRepairs S t →
      Teleparse.InOrder (a.errs ++ panic.toList) → Teleparse.UpTo v (a.errs ++ panic.toList) →
      Teleparse.InOrder a'.errs
  | .outer t p v a a' _ => Reach S.tyParts root t → NeverRepairs S t → Reach S.tyParts root p →
      Teleparse.InOrder a.errs → Teleparse.UpTo v a.errs → Teleparse.InOrder a'.errs
  | .pinner t v a panic _ a' _ => Reach S.tyParts root t →
      Teleparse.InOrder (a.errs ++ panic.toList) → Teleparse.UpTo v (a.errs ++ panic.toList) →
      Teleparse.InOrder a'.errs
  | .pouter t p v a a' _ => Reach S.tyParts root t → Reach S.tyParts root p →
      Teleparse.InOrder a.errs → Teleparse.UpTo v a.errs → Teleparse.InOrder a'.errs
  | .head t _ h _ => Reach S.tyParts root t → Teleparse.InOrder (h.errs ++ h.panic.toList)
  | .tail t v errs panic _ errs' panic' _ => Reach S.tyParts root t → NeverRepairs S t →
      Teleparse.InOrder (errs ++ panic.toList) → Teleparse.UpTo v (errs ++ panic.toList) →
      Teleparse.InOrder (errs' ++ panic'.toList)

theorem RunX.upToGives {source : Str} {t : Ty m n} {v v1 : View n} {r x e} (h1 : Run S (.ty t v r v1))
    (hg : r.Gives x e) (hp : Ready source v) : Teleparse.UpTo v1 e :=
  UpTo.gives (h1.upTo (source := source) hp) hg

theorem RunX.lateGives {source : Str} {t : Ty m n} {v v1 : View n} {r x e} (h1 : Run S (.ty t v r v1))
    (hg : r.Gives x e) (hp : Ready source v) : Teleparse.Late v.cur.lo e :=
  Late.gives (h1.lateCur hp) hg

theorem RunX.inOrder {source : Str} {root : Ty m n} (hk : OrderKept S root) {j : Judg m n} (h : Run S j) :
    Ready source j.pre → j.InOrder S root := by
  induction h with
  | tok => intro _ _; exact .nil
  | tokRecovered => intro _ _; exact .one _
  | tokPanic => intro _ _; exact .one _
  | seqNil => intro _ _ ho _; exact ho
  | @seqGive t ts v acc errs r x e v1 res v' h1 hg h2 i1 i2 =>
    intro (hp : Ready source v)
    have i2 := i2 (hp.adv h1.adv)
    match res with
    | .ok (l, errs') =>
      intro hr ho hu
      exact i2 (fun t ht => hr t (.tail _ ht))
        (ho.append hu ((i1 hp (hr t (.head _))).gives hg) (h1.lateGives hg hp))
        ((hu.adv hp h1.adv).append (h1.upToGives hg hp))
    | .error e' =>
      intro hr ho hu
      exact i2 (fun t ht => hr t (.tail _ ht))
        (ho.append hu ((i1 hp (hr t (.head _))).gives hg) (h1.lateGives hg hp))
        ((hu.adv hp h1.adv).append (h1.upToGives hg hp))
  | seqPanic h1 i =>
    intro (hp : Ready source _) hr ho hu
    exact InOrder.append ho hu (i hp (hr _ (.head _))) (h1.lateCur hp)
  | struct hs _ i =>
    intro hp hr
    exact .ofPair (i hp (fun t ht => .step hr (by simp only [Schema.tyParts, hs]; exact ht)) .nil .nil)
  | structPanic hs _ i =>
    intro hp hr
    exact i hp (fun t ht => .step hr (by simp only [Schema.tyParts, hs]; exact ht)) .nil .nil
  | tuple ht _ i =>
    intro hp hr
    exact .ofPair (i hp (fun t h => .step hr (by rw [tupLike_parts ht]; exact h)) .nil .nil)
  | tuplePanic ht _ i =>
    intro hp hr
    exact i hp (fun t h => .step hr (by rw [tupLike_parts ht]; exact h)) .nil .nil
  | enumSuccess => intro _ _; exact .nil
  | enumRecovered hs hi _ i =>
    intro hp hr
    exact i hp (.step hr (by simp only [Schema.tyParts, hs]; exact List.mem_map.2 ⟨_, List.mem_of_getElem? hi, rfl⟩))
  | enumPanic hs hi _ i =>
    intro hp hr
    exact i hp (.step hr (by simp only [Schema.tyParts, hs]; exact List.mem_map.2 ⟨_, List.mem_of_getElem? hi, rfl⟩))
  | enumNone => intro _ _; exact .one _
  | box _ i => intro hp hr; exact i hp (.step hr (by simp [Schema.tyParts]))
  | optNone => intro _ _; exact .nil
  | optSuccess => intro _ _; exact .nil
  | optRecovered ho _ i => intro hp hr; exact i hp (.step hr (by cases ho <;> simp [Schema.tyParts]))
  | optPanic ho _ i => intro hp hr; exact i hp (.step hr (by cases ho <;> simp [Schema.tyParts]))
  | textSuccess => intro _ _; exact .nil
  | textRecovered ho _ _ i => intro hp hr; exact i hp (.step hr (by cases ho <;> simp [Schema.tyParts]))
  | textPanic ho _ i => intro hp hr; exact i hp (.step hr (by cases ho <;> simp [Schema.tyParts]))
  | plus h1 hg _ i1 i2 =>
    intro hp hr
    exact .ofPair (i2 (Ready.adv hp h1.adv) (.step hr (by simp [Schema.tyParts]))
      (InOrder.gives (i1 hp (.step hr (by simp [Schema.tyParts]))) hg) (h1.upToGives hg hp))
  | plusPanic _ i => intro hp hr; exact i hp (.step hr (by simp [Schema.tyParts]))
  | iterStop => intro _ _ ho _; exact ho
  | iterGive _ h1 hg _ i1 i2 =>
    intro hp hr ho hu
    exact i2 (Ready.adv hp h1.adv) hr (InOrder.append ho hu (InOrder.gives (i1 hp hr) hg) (h1.lateGives hg hp))
      ((UpTo.adv hu hp h1.adv).append (h1.upToGives hg hp))
  | iterPanic h1 i => intro hp hr ho hu; exact InOrder.append ho hu (i hp hr) (h1.lateCur hp)
  | loopEmpty _ i => intro hp hr; exact .ofPair (i hp (.step hr (by simp [Schema.tyParts])) .nil .nil)
  | loopList _ _ i => intro hp hr; exact .ofPair (i hp (.step hr (by simp [Schema.tyParts])) .nil .nil)
  | loopStop => intro _ _ ho _; exact ho
  | loopSkip hs _ i =>
    intro hp hr ho hu
    have hp1 := Ready.adv hp hs.adv
    refine i hp1 hr (InOrder.append ho hu (.one _) (.single (Nat.le_refl _)))
      ((UpTo.adv hu hp hs.adv).append (.one (Ready.skips hp hs) (Ready.cur_le hp hs.adv) ?_))
    exact Nat.le_trans hp1.pos_cur hp1.cur_span
  | loopGive h1 hg _ i1 i2 =>
    intro hp hr ho hu
    exact i2 (Ready.adv hp h1.adv) hr (InOrder.append ho hu (InOrder.gives (i1 hp hr) hg) (h1.lateGives hg hp))
      ((UpTo.adv hu hp h1.adv).append (h1.upToGives hg hp))
  | loopPanic h1 _ i1 i2 =>
    intro hp hr ho hu
    exact i2 (Ready.adv hp h1.adv) hr (InOrder.append ho hu (i1 hp hr) (h1.lateCur hp))
      ((UpTo.adv hu hp h1.adv).append (h1.upTo (source := source) hp))
  | loopGiveStuck h1 hg i =>
    intro hp hr ho hu
    exact InOrder.append (InOrder.append ho hu (InOrder.gives (i hp hr) hg) (h1.lateGives hg hp))
      ((UpTo.adv hu hp h1.adv).append (h1.upToGives hg hp)) (.one _) (.single (Nat.le_refl _))
  | loopPanicStuck h1 i =>
    intro hp hr ho hu
    exact InOrder.append (InOrder.append ho hu (i hp hr) (h1.lateCur hp))
      ((UpTo.adv hu hp h1.adv).append (h1.upTo (source := source) hp)) (.one _) (.single (Nat.le_refl _))
  | split h1 hg _ i1 i2 =>
    intro hp hr
    exact .ofPair (i2 (Ready.adv hp h1.adv) (.step hr (by simp [Schema.tyParts])) (hk.1 _ _ hr)
      (.step hr (by simp [Schema.tyParts])) (InOrder.gives (i1 hp (.step hr (by simp [Schema.tyParts]))) hg)
      (h1.upToGives hg hp))
  | splitPanic _ i => intro hp hr; exact i hp (.step hr (by simp [Schema.tyParts]))
  | outerStop => intro _ _ _ _ ho _; exact ho
  | outerPanic h1 i => intro hp _ _ hr ho hu; exact InOrder.append ho hu (i hp hr) (h1.lateCur hp)
  | outerGo _ h1 hg h2 _ i1 i2 i3 =>
    intro hp hr hn hrp ho hu
    have hp1 := Ready.adv hp h1.adv
    have ho1 := InOrder.append ho hu (InOrder.gives (i1 hp hrp) hg) (h1.lateGives hg hp)
    have hu1 := (UpTo.adv hu hp h1.adv).append (h1.upToGives hg hp)
    exact i3 (Ready.adv hp1 h2.adv) hr hn hrp
      (i2 hp1 hr hn (by simpa using ho1) (hu1.append .nil)) (h2.upTo (source := source) hp1 hu1 .nil)
  | outerBreak _ h1 hg h2 i1 i2 =>
    intro hp hr hn hrp ho hu
    have hp1 := Ready.adv hp h1.adv
    have ho1 := InOrder.append ho hu (InOrder.gives (i1 hp hrp) hg) (h1.lateGives hg hp)
    have hu1 := (UpTo.adv hu hp h1.adv).append (h1.upToGives hg hp)
    exact i2 hp1 hr hn (by simpa using ho1) (hu1.append .nil)
  | innerGive h1 hg i =>
    intro hp hr hn ho hu
    have := h1.clean hn _ _ hg
    subst this
    simpa using ho
  | innerFailLeave h1 i =>
    intro hp hr hn ho hu
    exact InOrder.merge ho (UpTo.left hu) (h1.lateCur hp)
  | innerFailGo h1 _ i1 i2 =>
    intro hp hr hn ho hu
    have hp1 := Ready.adv hp h1.adv
    have hu' := (UpTo.adv (UpTo.left hu) hp h1.adv).append
      (UpTo.merge hp h1.adv (UpTo.right hu) (h1.upTo (source := source) hp) (h1.lateCur hp))
    exact i2 (Ready.adv hp1 (.skip _)) hr hn (InOrder.merge ho (UpTo.left hu) (h1.lateCur hp)) (hu'.adv hp1 (.skip _))
  | innerNoteLeave hn => intro hp _ _ ho hu; exact InOrder.note ho (UpTo.left hu) hn
  | innerNoteGo hn _ i =>
    intro hp hr hn' ho hu
    exact i (Ready.adv hp (.skip _)) hr hn' (InOrder.note ho (UpTo.left hu) hn)
      (((UpTo.left hu).append (UpTo.note hn hp (UpTo.right hu))).adv hp (.skip _))
  | punct h1 hg _ i1 i2 =>
    intro hp hr
    exact .ofPair (i2 (Ready.adv hp h1.adv) (.step hr (by simp [Schema.tyParts]))
      (.step hr (by simp [Schema.tyParts])) (InOrder.gives (i1 hp (.step hr (by simp [Schema.tyParts]))) hg)
      (h1.upToGives hg hp))
  | punctPanic _ i => intro hp hr; exact i hp (.step hr (by simp [Schema.tyParts]))
  | pouterStop => intro _ _ _ ho _; exact ho
  | pouterPanic h1 i => intro hp _ hr ho hu; exact InOrder.append ho hu (i hp hr) (h1.lateCur hp)
  | pouterGo _ h1 hg h2 _ i1 i2 i3 =>
    intro hp hr hrp ho hu
    have hp1 := Ready.adv hp h1.adv
    have ho1 := InOrder.append ho hu (InOrder.gives (i1 hp hrp) hg) (h1.lateGives hg hp)
    have hu1 := (UpTo.adv hu hp h1.adv).append (h1.upToGives hg hp)
    exact i3 (Ready.adv hp1 h2.adv) hr hrp
      (i2 hp1 hr (by simpa using ho1) (hu1.append .nil)) (h2.upTo (source := source) hp1 hu1 .nil)
  | pouterBreak _ h1 hg h2 i1 i2 =>
    intro hp hr hrp ho hu
    have hp1 := Ready.adv hp h1.adv
    have ho1 := InOrder.append ho hu (InOrder.gives (i1 hp hrp) hg) (h1.lateGives hg hp)
    have hu1 := (UpTo.adv hu hp h1.adv).append (h1.upToGives hg hp)
    exact i2 hp1 hr (by simpa using ho1) (hu1.append .nil)
  | pinnerGive h1 hg i =>
    intro hp hr ho hu
    exact InOrder.append ho hu (InOrder.gives (i hp hr) hg) (h1.lateGives hg hp)
  | pinnerStop => intro _ _ ho _; exact ho
  | pinnerFailLeave h1 i =>
    intro hp hr ho hu
    exact InOrder.merge ho (UpTo.left hu) (h1.lateCur hp)
  | pinnerFailGo h1 _ i1 i2 =>
    intro hp hr ho hu
    have hp1 := Ready.adv hp h1.adv
    have hu' := (UpTo.adv (UpTo.left hu) hp h1.adv).append
      (UpTo.merge hp h1.adv (UpTo.right hu) (h1.upTo (source := source) hp) (h1.lateCur hp))
    exact i2 (Ready.adv hp1 (.skip _)) hr (InOrder.merge ho (UpTo.left hu) (h1.lateCur hp)) (hu'.adv hp1 (.skip _))
  | pinnerNoteLeave hn => intro hp _ ho hu; exact InOrder.note ho (UpTo.left hu) hn
  | pinnerNoteGo hn _ i =>
    intro hp hr ho hu
    exact i (Ready.adv hp (.skip _)) hr (InOrder.note ho (UpTo.left hu) hn)
      (((UpTo.left hu).append (UpTo.note hn hp (UpTo.right hu))).adv hp (.skip _))
  | recover h1 _ i1 i2 =>
    intro hp hr
    have hu := h1.upTo (source := source) hp
    exact .ofPair (i2 (Ready.adv hp h1.adv) (.step hr (by simp [Schema.tyParts])) (hk.2 _ _ hr)
      (i1 hp (.step hr (by simp [Schema.tyParts]))) (UpTo.append hu.1 hu.2))
  | recoverPanic h1 _ i1 i2 =>
    intro hp hr
    have hu := h1.upTo (source := source) hp
    exact i2 (Ready.adv hp h1.adv) (.step hr (by simp [Schema.tyParts])) (hk.2 _ _ hr)
      (i1 hp (.step hr (by simp [Schema.tyParts]))) (UpTo.append hu.1 hu.2)
  | headGive _ hg i => intro hp hr; simpa using InOrder.gives (i hp hr) hg
  | headPanic _ i => intro hp hr; exact .opt _
  | headNone => intro hp hr; exact .one _
  | tailGive h1 hg i =>
    intro hp hr hn ho hu
    have := h1.clean hn _ _ hg
    subst this
    simpa using ho
  | tailPanic _ h1 i =>
    intro hp hr hn ho hu
    exact InOrder.merge ho (UpTo.left hu) (h1.lateCur hp)
  | tailNote h => cases h
  | tailStop => intro _ _ _ ho _; exact ho
  | tailFail _ h1 hn _ i1 i2 =>
    intro hp hr hn' ho hu
    have hp1 := Ready.adv hp h1.adv
    have hl := UpTo.adv (UpTo.left hu) hp h1.adv
    have hm := UpTo.merge hp h1.adv (UpTo.right hu) (h1.upTo (source := source) hp) (h1.lateCur hp)
    exact i2 (Ready.adv hp1 (.skip _)) hr hn' (InOrder.note (InOrder.merge ho (UpTo.left hu) (h1.lateCur hp)) hl hn)
      ((hl.append (UpTo.note hn hp1 hm)).adv hp1 (.skip _))
  | tailSkip _ hn _ i =>
    intro hp hr hn' ho hu
    exact i (Ready.adv hp (.skip _)) hr hn' (InOrder.note ho (UpTo.left hu) hn)
      (((UpTo.left hu).append (UpTo.note hn hp (UpTo.right hu))).adv hp (.skip _))

end Teleparse
