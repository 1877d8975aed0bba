import Verif.Proof.Steps
/-
Errors are at or after the place where the part begins; errors that were recorded stay recorded.
-/
namespace Teleparse
variable {m n : Nat} {S : Schema m n}

/-- All errors begin at `B` or later. -/
def Late (B : Nat) (l : List (Err n)) : Prop := ∀ e ∈ l, B ≤ e.span.lo

theorem Late.nil {B : Nat} : Late B ([] : List (Err n)) := by intro e he; cases he

theorem Late.append {B : Nat} {l l' : List (Err n)} (h : Late B l) (h' : Late B l') : Late B (l ++ l') := by
  intro e he
  rcases List.mem_append.1 he with he | he
  · exact h e he
  · exact h' e he

theorem Late.left {B : Nat} {l l' : List (Err n)} (h : Late B (l ++ l')) : Late B l :=
  fun e he => h e (List.mem_append_left _ he)

theorem Late.right {B : Nat} {l l' : List (Err n)} (h : Late B (l ++ l')) : Late B l' :=
  fun e he => h e (List.mem_append_right _ he)

theorem Late.single {B : Nat} {e : Err n} (h : B ≤ e.span.lo) : Late B [e] := by
  intro e' he'; rw [List.mem_singleton.1 he']; exact h

theorem Late.last {B : Nat} {l : List (Err n)} (h : Late B l) : Late B l.getLast?.toList := by
  intro e he
  cases hl : l.getLast? with
  | none => rw [hl] at he; cases he
  | some a =>
    rw [hl] at he
    rw [List.mem_singleton.1 he]
    exact h a (List.mem_of_getLast? hl)

theorem Late.merge {B : Nat} {p : Option (Err n)} {l : List (Err n)} (hp : Late B p.toList) (hl : Late B l) :
    Late B (mergePanic p l).toList := by
  have h := hl.last
  unfold mergePanic
  cases hg : l.getLast? with
  | none => exact hp
  | some a =>
    rw [hg] at h
    cases p with
    | none => exact h
    | some p => exact .single (hp p (by simp))

theorem Late.note {B : Nat} {v : View n} {p p' : Option (Err n)} (h : Note v p p') (hv : B ≤ v.cur.lo)
    (hp : Late B p.toList) : Late B p'.toList := by
  cases h with
  | new s => exact .single hv
  | ext p => exact .single (hp p (by simp))

theorem Late.gives {B : Nat} {r : Res n (Tree n)} {x e} (h : Late B r.errs) (hg : r.Gives x e) : Late B e := by
  cases hg with
  | success => exact .nil
  | recovered => exact h

theorem Late.ofPair {B : Nat} {x : Tree n} {e : List (Err n)} (h : Late B e) : Late B (Res.ofPair x e).errs := by
  unfold Res.ofPair
  cases e with
  | nil => exact .nil
  | cons a e => exact h

/-- The position of the next token moves forward. -/
theorem Ready.cur_le {source : Str} {v v' : View n} (h : Ready source v) (ha : Adv v v') :
    v.cur.lo ≤ v'.cur.lo := by
  obtain ⟨ts, h1, -⟩ := ha.cons
  have h' := h.adv ha
  cases ts with
  | nil =>
    unfold View.cur
    rw [h1, ha.src]; exact Nat.le_refl _
  | cons t ts =>
    have hc : v.cur = t.span := by unfold View.cur; rw [h1]; rfl
    rw [hc]
    have ht : t ∈ v.rest := by rw [h1]; simp
    have hpos := h.pos ht
    cases hr : v'.rest with
    | nil =>
      have : v'.cur = ⟨v'.source.length, v'.source.length⟩ := by unfold View.cur; rw [hr]
      rw [this]
      have := (h.inSource.good.rest t ht).1.1
      rw [← h.inSource.src, ← ha.src] at this
      exact this
    | cons a l =>
      have : v'.cur = a.span := by unfold View.cur; rw [hr]
      rw [this]
      have hs := (List.pairwise_append.1 h.sorted.tokens.2).2.1
      rw [h1, hr] at hs
      have := (List.pairwise_append.1 hs).2.2 t (by simp) a (by simp)
      omega

/-- Errors after a step. -/
def Judg.Late (B : Nat) : Judg m n → Prop
  | .ty _ _ r _ => Teleparse.Late B r.errs
  | .seq _ _ _ errs (.ok (_, errs')) _ => Teleparse.Late B errs → Teleparse.Late B errs'
  | .seq _ _ _ errs (.error e) _ => Teleparse.Late B errs → Teleparse.Late B e
  | .iter _ _ _ errs _ _ errs' _ _ => Teleparse.Late B errs → Teleparse.Late B errs'
  | .loop _ _ _ errs _ errs' _ => Teleparse.Late B errs → Teleparse.Late B errs'
  | .inner _ _ _ a panic _ a' _ =>
    Teleparse.Late B a.errs → Teleparse.Late B panic.toList → Teleparse.Late B a'.errs
  | .outer _ _ _ a a' _ => Teleparse.Late B a.errs → Teleparse.Late B a'.errs
  | .pinner _ _ a panic _ a' _ =>
    Teleparse.Late B a.errs → Teleparse.Late B panic.toList → Teleparse.Late B a'.errs
  | .pouter _ _ _ a a' _ => Teleparse.Late B a.errs → Teleparse.Late B a'.errs
  | .head _ _ h _ => Teleparse.Late B h.errs ∧ Teleparse.Late B h.panic.toList
  | .tail _ _ errs panic _ errs' panic' _ => Teleparse.Late B errs → Teleparse.Late B panic.toList →
      Teleparse.Late B errs' ∧ Teleparse.Late B panic'.toList

/-- A place in a good stream at or after `B`. -/
structure Past (B : Nat) (source : Str) (v : View n) : Prop where
  ready : Ready source v
  le : B ≤ v.cur.lo

theorem Past.adv {B : Nat} {source : Str} {v v' : View n} (h : Past B source v) (ha : Adv v v') :
    Past B source v' := ⟨h.ready.adv ha, Nat.le_trans h.le (h.ready.cur_le ha)⟩

theorem Past.run {B : Nat} {source : Str} {v v' : View n} {t : Ty m n} {r} (h : Past B source v)
    (hr : Run S (.ty t v r v')) : Past B source v' := h.adv hr.adv

theorem RunX.late {B : Nat} {source : Str} {j : Judg m n} (h : Run S j) : Past B source j.pre → j.Late B := by
  induction h with
  | tok => intro _; exact .nil
  | tokRecovered => intro hp; exact .single hp.le
  | tokPanic => intro hp; exact .single hp.le
  | seqNil => intro _ he; exact he
  | @seqGive t ts v acc errs r x e v1 res v' h1 hg h2 i1 i2 =>
    intro hp
    have i1 := i1 hp
    have i2 := i2 (hp.run h1)
    match res with
    | .ok (l, errs') => exact fun he => i2 (he.append (Late.gives i1 hg))
    | .error e' => exact fun he => i2 (he.append (Late.gives i1 hg))
  | seqPanic _ i => intro hp he; exact he.append (i hp)
  | struct _ _ i => intro hp; exact .ofPair (i hp .nil)
  | structPanic _ _ i => intro hp; exact i hp .nil
  | tuple _ _ i => intro hp; exact .ofPair (i hp .nil)
  | tuplePanic _ _ i => intro hp; exact i hp .nil
  | enumSuccess => intro _; exact .nil
  | enumRecovered _ _ _ i => intro hp; exact i hp
  | enumPanic _ _ _ i => intro hp; exact i hp
  | enumNone => intro hp; exact .single hp.le
  | box _ i => intro hp; exact i hp
  | optNone => intro _; exact .nil
  | optSuccess => intro _; exact .nil
  | optRecovered _ _ i => intro hp; exact i hp
  | optPanic _ _ i => intro hp; exact i hp
  | textSuccess => intro _; exact .nil
  | textRecovered _ _ _ i => intro hp; exact i hp
  | textPanic _ _ i => intro hp; exact i hp
  | plus h1 hg _ i1 i2 => intro hp; exact .ofPair (i2 (hp.run h1) (Late.gives (i1 hp) hg))
  | plusPanic _ i => intro hp; exact i hp
  | iterStop => intro _ he; exact he
  | iterGive _ h1 hg _ i1 i2 => intro hp he; exact i2 (hp.run h1) (he.append (Late.gives (i1 hp) hg))
  | iterPanic _ i => intro hp he; exact he.append (i hp)
  | loopEmpty _ i => intro hp; exact .ofPair (i hp .nil)
  | loopList _ _ i => intro hp; exact .ofPair (i hp .nil)
  | loopStop => intro _ he; exact he
  | loopSkip hs _ i => intro hp he; exact i (hp.adv hs.adv) (he.append (.single hp.le))
  | loopGive h1 hg _ i1 i2 => intro hp he; exact i2 (hp.run h1) (he.append (Late.gives (i1 hp) hg))
  | loopPanic h1 _ i1 i2 => intro hp he; exact i2 (hp.run h1) (he.append (i1 hp))
  | loopGiveStuck h1 hg i =>
    intro hp he
    exact (he.append (Late.gives (i hp) hg)).append (.single (hp.run h1).le)
  | loopPanicStuck h1 i => intro hp he; exact (he.append (i hp)).append (.single (hp.run h1).le)
  | split h1 hg _ i1 i2 => intro hp; exact .ofPair (i2 (hp.run h1) (Late.gives (i1 hp) hg))
  | splitPanic _ i => intro hp; exact i hp
  | outerStop => intro _ he; exact he
  | outerPanic _ i => intro hp he; exact he.append (i hp)
  | outerGo _ h1 hg h2 _ i1 i2 i3 =>
    intro hp he
    have hp1 := hp.run h1
    exact i3 (hp1.adv h2.adv) (i2 hp1 (he.append (Late.gives (i1 hp) hg)) .nil)
  | outerBreak _ h1 hg _ i1 i2 => intro hp he; exact i2 (hp.run h1) (he.append (Late.gives (i1 hp) hg)) .nil
  | innerGive _ hg i => intro hp he hq; exact (he.append (Late.gives (i hp) hg)).append hq
  | innerFailLeave _ i => intro hp he hq; exact he.append (hq.merge (i hp))
  | innerFailGo h1 _ i1 i2 => intro hp he hq; exact i2 ((hp.run h1).adv (.skip _)) he (hq.merge (i1 hp))
  | innerNoteLeave hn => intro hp he hq; exact he.append (hq.note hn hp.le)
  | innerNoteGo hn _ i => intro hp he hq; exact i (hp.adv (.skip _)) he (hq.note hn hp.le)
  | punct h1 hg _ i1 i2 => intro hp; exact .ofPair (i2 (hp.run h1) (Late.gives (i1 hp) hg))
  | punctPanic _ i => intro hp; exact i hp
  | pouterStop => intro _ he; exact he
  | pouterPanic _ i => intro hp he; exact he.append (i hp)
  | pouterGo _ h1 hg h2 _ i1 i2 i3 =>
    intro hp he
    have hp1 := hp.run h1
    exact i3 (hp1.adv h2.adv) (i2 hp1 (he.append (Late.gives (i1 hp) hg)) .nil)
  | pouterBreak _ h1 hg _ i1 i2 => intro hp he; exact i2 (hp.run h1) (he.append (Late.gives (i1 hp) hg)) .nil
  | pinnerGive _ hg i => intro hp he hq; exact (he.append hq).append (Late.gives (i hp) hg)
  | pinnerStop => intro _ he hq; exact he.append hq
  | pinnerFailLeave _ i => intro hp he hq; exact he.append (hq.merge (i hp))
  | pinnerFailGo h1 _ i1 i2 => intro hp he hq; exact i2 ((hp.run h1).adv (.skip _)) he (hq.merge (i1 hp))
  | pinnerNoteLeave hn => intro hp he hq; exact he.append (hq.note hn hp.le)
  | pinnerNoteGo hn _ i => intro hp he hq; exact i (hp.adv (.skip _)) he (hq.note hn hp.le)
  | recover h1 _ i1 i2 =>
    intro hp
    have := i2 (hp.adv h1.adv) (i1 hp).1 (i1 hp).2
    exact .ofPair (this.1.append this.2)
  | recoverPanic h1 _ i1 i2 =>
    intro hp
    have := i2 (hp.adv h1.adv) (i1 hp).1 (i1 hp).2
    exact this.1.append this.2
  | headGive _ hg i => intro hp; exact ⟨Late.gives (i hp) hg, .nil⟩
  | headPanic _ i => intro hp; exact ⟨.nil, Late.last (i hp)⟩
  | headNone => intro hp; exact ⟨.nil, .single hp.le⟩
  | tailGive _ hg i => intro hp he hq; exact ⟨he.append (Late.gives (i hp) hg), hq⟩
  | tailPanic _ _ i => intro hp he hq; exact ⟨he, hq.merge (i hp)⟩
  | tailNote h => cases h
  | tailStop => intro _ he hq; exact ⟨he, hq⟩
  | tailFail _ h1 hn _ i1 i2 =>
    intro hp he hq
    exact i2 ((hp.run h1).adv (.skip _)) he ((hq.merge (i1 hp)).note hn (hp.run h1).le)
  | tailSkip _ hn _ i => intro hp he hq; exact i (hp.adv (.skip _)) he (hq.note hn hp.le)

/-! ### Errors stay -/

/-- If there are no errors after a step, there were none before. -/
def Judg.Back : Judg m n → Prop
  | .ty _ _ _ _ => True
  | .seq _ _ _ errs (.ok (_, errs')) _ => errs' = [] → errs = []
  | .seq _ _ _ errs (.error e) _ => e = [] → errs = []
  | .iter _ _ _ errs _ _ errs' _ _ => errs' = [] → errs = []
  | .loop _ _ _ errs _ errs' _ => errs' = [] → errs = []
  | .inner _ _ _ a panic _ a' _ => a'.errs = [] → a.errs = [] ∧ panic = none
  | .outer _ _ _ a a' _ => a'.errs = [] → a.errs = []
  | .pinner _ _ a panic _ a' _ => a'.errs = [] → a.errs = [] ∧ panic = none
  | .pouter _ _ _ a a' _ => a'.errs = [] → a.errs = []
  | .head _ _ _ _ => True
  | .tail _ _ errs panic _ errs' panic' _ => errs' ++ panic'.toList = [] → errs = [] ∧ panic = none

theorem toList_nil {α : Type} {o : Option α} : o.toList = [] ↔ o = none := by cases o <;> simp

theorem RunX.back {j : Judg m n} (h : Run S j) : j.Back := by
  induction h with
  | seqNil => intro he; exact he
  | @seqGive t ts v acc errs r x e v1 res v' h1 hg h2 i1 i2 =>
    match res with
    | .ok (l, errs') => exact fun he => (List.append_eq_nil_iff.1 (i2 he)).1
    | .error e' => exact fun he => (List.append_eq_nil_iff.1 (i2 he)).1
  | seqPanic _ i => intro he; exact (List.append_eq_nil_iff.1 he).1
  | iterStop => intro he; exact he
  | iterGive _ _ _ _ _ i2 => intro he; exact (List.append_eq_nil_iff.1 (i2 he)).1
  | iterPanic _ _ => intro he; exact (List.append_eq_nil_iff.1 he).1
  | loopStop => intro he; exact he
  | loopSkip _ _ i => intro he; exact (List.append_eq_nil_iff.1 (i he)).1
  | loopGive _ _ _ _ i2 => intro he; exact (List.append_eq_nil_iff.1 (i2 he)).1
  | loopPanic _ _ _ i2 => intro he; exact (List.append_eq_nil_iff.1 (i2 he)).1
  | loopGiveStuck _ _ _ => intro he; simp at he
  | loopPanicStuck _ _ => intro he; simp at he
  | outerStop => intro he; exact he
  | outerPanic _ _ => intro he; exact (List.append_eq_nil_iff.1 he).1
  | outerGo _ _ _ _ _ _ i2 i3 => intro he; exact (List.append_eq_nil_iff.1 (i2 (i3 he)).1).1
  | outerBreak _ _ _ _ _ i2 => intro he; exact (List.append_eq_nil_iff.1 (i2 he).1).1
  | innerGive _ _ _ =>
    intro he
    simp only [List.append_eq_nil_iff, toList_nil] at he
    exact ⟨he.1.1, he.2⟩
  | innerFailLeave _ _ =>
    intro he
    simp only [List.append_eq_nil_iff, toList_nil] at he
    exact ⟨he.1, (mergePanic_none he.2).1⟩
  | innerFailGo _ _ _ i2 => intro he; exact ⟨(i2 he).1, (mergePanic_none (i2 he).2).1⟩
  | innerNoteLeave hn =>
    intro he
    simp only [List.append_eq_nil_iff, toList_nil] at he
    exact absurd he.2 hn.some
  | innerNoteGo hn _ i => intro he; exact absurd (i he).2 hn.some
  | pouterStop => intro he; exact he
  | pouterPanic _ _ => intro he; exact (List.append_eq_nil_iff.1 he).1
  | pouterGo _ _ _ _ _ _ i2 i3 => intro he; exact (List.append_eq_nil_iff.1 (i2 (i3 he)).1).1
  | pouterBreak _ _ _ _ _ i2 => intro he; exact (List.append_eq_nil_iff.1 (i2 he).1).1
  | pinnerGive _ _ _ =>
    intro he
    simp only [List.append_eq_nil_iff, toList_nil] at he
    exact ⟨he.1.1, he.1.2⟩
  | pinnerStop =>
    intro he
    simp only [List.append_eq_nil_iff, toList_nil] at he
    exact he
  | pinnerFailLeave _ _ =>
    intro he
    simp only [List.append_eq_nil_iff, toList_nil] at he
    exact ⟨he.1, (mergePanic_none he.2).1⟩
  | pinnerFailGo _ _ _ i2 => intro he; exact ⟨(i2 he).1, (mergePanic_none (i2 he).2).1⟩
  | pinnerNoteLeave hn =>
    intro he
    simp only [List.append_eq_nil_iff, toList_nil] at he
    exact absurd he.2 hn.some
  | pinnerNoteGo hn _ i => intro he; exact absurd (i he).2 hn.some
  | tailGive _ _ _ =>
    intro he
    simp only [List.append_eq_nil_iff, toList_nil] at he
    exact ⟨he.1.1, he.2⟩
  | tailPanic _ _ _ =>
    intro he
    simp only [List.append_eq_nil_iff, toList_nil] at he
    exact ⟨he.1, (mergePanic_none he.2).1⟩
  | tailNote h => cases h
  | tailStop =>
    intro he
    simp only [List.append_eq_nil_iff, toList_nil] at he
    exact he
  | tailFail _ _ hn _ _ i2 => intro he; exact absurd (i2 he).2 hn.some
  | tailSkip _ hn _ i => intro he; exact absurd (i he).2 hn.some
  | _ => trivial

end Teleparse
