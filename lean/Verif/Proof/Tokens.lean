import Verif.Spec.Tokens
import Verif.Proof.Late
import Verif.Proof.Lead
import Verif.Proof.Trees
/-
The tokens of a tree are tokens that were consumed, in order.
-/
namespace Teleparse
variable {m n : Nat} {S : Schema m n}

theorem Shuffle.only {α : Type} : ∀ l : List α, Shuffle l [] l
  | [] => .nil
  | _ :: l => .left (Shuffle.only l)

theorem Shuffle.first {α : Type} {l r w : List α} (h : Shuffle l r w) : ∀ u : List α, Shuffle (u ++ l) r (u ++ w)
  | [] => h
  | _ :: u => .left (h.first u)

theorem Shuffle.second {α : Type} {l r w : List α} (h : Shuffle l r w) : ∀ u : List α, Shuffle l (u ++ r) (u ++ w)
  | [] => h
  | _ :: u => .right (h.second u)

theorem Shuffle.swap {α : Type} {l r w : List α} (h : Shuffle l r w) : Shuffle r l w := by
  induction h with
  | nil => exact .nil
  | left _ ih => exact .right ih
  | right _ ih => exact .left ih

theorem Shuffle.append {α : Type} {l r w l' r' w' : List α} (h : Shuffle l r w) (h' : Shuffle l' r' w') :
    Shuffle (l ++ l') (r ++ r') (w ++ w') := by
  induction h with
  | nil => exact h'
  | left _ ih => exact .left ih
  | right _ ih => exact .right ih

theorem ReadsAll.single {x : Tree n} {w : List (Token n)} (h : x.Reads w) : ReadsAll [x] w := by
  have := ReadsAll.cons h .nil
  rwa [List.append_nil] at this

theorem ReadsAll.append : ∀ {l l' : List (Tree n)} {w w' : List (Token n)}, ReadsAll l w → ReadsAll l' w' →
    ReadsAll (l ++ l') (w ++ w')
  | _, _, _, _, .nil, h => h
  | _, _, _, _, .cons h1 h2, h => by
    rw [List.append_assoc]
    exact .cons h1 (h2.append h)

/-- From `v` to `v'` tokens were consumed, among them `w` in this order. -/
def Got (v v' : View n) (w : List (Token n)) : Prop := ∃ ts, v.rest = ts ++ v'.rest ∧ w.Sublist ts

theorem Got.adv {v v' : View n} (h : Adv v v') : Got v v' [] := by
  obtain ⟨ts, h, -⟩ := h.cons
  exact ⟨ts, h, List.nil_sublist _⟩

theorem Got.trans {a b c : View n} {u w : List (Token n)} (h : Got a b u) (h' : Got b c w) : Got a c (u ++ w) := by
  obtain ⟨t1, h1, h2⟩ := h
  obtain ⟨t2, h3, h4⟩ := h'
  exact ⟨t1 ++ t2, by rw [h1, h3, List.append_assoc], h2.append h4⟩

theorem Got.before {a b c : View n} {w : List (Token n)} (h : Adv a b) (h' : Got b c w) : Got a c w :=
  (Got.adv h).trans h'

theorem Got.after {a b c : View n} {w : List (Token n)} (h : Got a b w) (h' : Adv b c) : Got a c w := by
  have := h.trans (.adv h')
  rwa [List.append_nil] at this

/-- A tree made of consumed tokens. -/
def Made (v v' : View n) (x : Tree n) : Prop := ∃ w, x.Reads w ∧ Got v v' w

def MadeAll (v v' : View n) (l : List (Tree n)) : Prop := ∃ w, ReadsAll l w ∧ Got v v' w

/-- Elements and separators. -/
def MadeTwo (v v' : View n) (es ps : List (Tree n)) : Prop :=
  ∃ we wp w, ReadsAll es we ∧ ReadsAll ps wp ∧ Shuffle we wp w ∧ Got v v' w

theorem MadeAll.nil {v v' : View n} (h : Adv v v') : MadeAll v v' [] := ⟨[], .nil, .adv h⟩

theorem MadeAll.cons {v v1 v' : View n} {x : Tree n} {l} (h : Made v v1 x) (h' : MadeAll v1 v' l) :
    MadeAll v v' (x :: l) := by
  obtain ⟨w, h1, h2⟩ := h
  obtain ⟨ws, h3, h4⟩ := h'
  exact ⟨_, .cons h1 h3, h2.trans h4⟩

theorem MadeTwo.nil {v v' : View n} (h : Adv v v') : MadeTwo v v' [] [] :=
  ⟨[], [], [], .nil, .nil, .nil, .adv h⟩

theorem MadeTwo.append {v v1 v' : View n} {es ps es' ps' : List (Tree n)} (h : MadeTwo v v1 es ps)
    (h' : MadeTwo v1 v' es' ps') : MadeTwo v v' (es ++ es') (ps ++ ps') := by
  obtain ⟨we, wp, w, h1, h2, h3, h4⟩ := h
  obtain ⟨we', wp', w', h1', h2', h3', h4'⟩ := h'
  exact ⟨_, _, _, h1.append h1', h2.append h2', h3.append h3', h4.trans h4'⟩

theorem MadeTwo.elem {v v' : View n} {x : Tree n} (h : Made v v' x) : MadeTwo v v' [x] [] := by
  obtain ⟨w, h1, h2⟩ := h
  exact ⟨w, [], w, .single h1, .nil, .only w, h2⟩

theorem MadeTwo.punct {v v' : View n} {x : Tree n} (h : Made v v' x) : MadeTwo v v' [] [x] := by
  obtain ⟨w, h1, h2⟩ := h
  exact ⟨[], w, w, .nil, .single h1, (Shuffle.only w).swap, h2⟩

theorem MadeTwo.before {a b c : View n} {es ps : List (Tree n)} (h : Adv a b) (h' : MadeTwo b c es ps) :
    MadeTwo a c es ps := by
  obtain ⟨we, wp, w, h1, h2, h3, h4⟩ := h'
  exact ⟨we, wp, w, h1, h2, h3, h4.before h⟩

theorem MadeAll.before {a b c : View n} {l : List (Tree n)} (h : Adv a b) (h' : MadeAll b c l) :
    MadeAll a c l := by
  obtain ⟨w, h1, h2⟩ := h'
  exact ⟨w, h1, h2.before h⟩

/-- What is made in a step. -/
def Judg.Made : Judg m n → Prop
  | .ty _ v r v' => ∀ x e, r.Gives x e → Teleparse.Made v v' x
  | .seq _ v acc _ r v' => ∀ l e, r = .ok (l, e) → ∃ l', l = acc ++ l' ∧ MadeAll v v' l'
  | .iter _ v acc _ _ l _ _ v' => ∃ l', l = acc ++ l' ∧ MadeAll v v' l'
  | .loop _ v acc _ l _ v' => ∃ l', l = acc ++ l' ∧ MadeAll v v' l'
  | .inner _ q v a _ _ a' v' => (a'.elems = a.elems ∧ a'.puncts = a.puncts) ∨
      ∃ x, a'.elems = a.elems ++ [x] ∧ a'.puncts = a.puncts ++ [q] ∧ Teleparse.Made v v' x
  | .outer _ _ v a a' v' => ∃ es ps, a'.elems = a.elems ++ es ∧ a'.puncts = a.puncts ++ ps ∧
      MadeTwo v v' es ps
  | .pinner _ v a _ _ a' v' => ∃ es, a'.elems = a.elems ++ es ∧ a'.puncts = a.puncts ∧ MadeTwo v v' es []
  | .pouter _ _ v a a' v' => ∃ es ps, a'.elems = a.elems ++ es ∧ a'.puncts = a.puncts ++ ps ∧
      MadeTwo v v' es ps
  | .head _ v h v' => ∀ x, h.head = some x → Teleparse.Made v v' x
  | .tail _ v _ _ x _ _ v' => ∀ y, x = some y → Teleparse.Made v v' y

theorem Res.Gives.ofPair {x y : Tree n} {e e' : List (Err n)} (h : (Res.ofPair x e).Gives y e') : y = x := by
  unfold Res.ofPair at h
  cases e with
  | nil => cases h; rfl
  | cons => cases h; rfl

theorem RunX.made {source : Str} {j : Judg m n} (h : Run S j) : Ready source j.pre → j.Made := by
  induction h with
  | @tok i k v t l hr _ _ =>
    intro hv x e hg
    cases hg
    refine ⟨[t], .tok (hv.pos (by show t ∈ v.rest; rw [hr]; simp)), [t], ?_, List.Sublist.refl _⟩
    simp [View.skip, View.consume, hr]
  | @tokRecovered i k v lit sp s _ hsp =>
    intro hv x e hg
    cases hg
    refine ⟨[], .missing ?_, .adv (.refl _)⟩
    rcases hsp with rfl | ⟨_, rfl⟩ <;> rfl
  | tokPanic => intro _ x e hg; cases hg
  | seqNil => intro _ l e h; cases h; exact ⟨[], by simp, .nil (.refl _)⟩
  | @seqGive t ts v acc errs r x e v1 res v' h1 hg h2 i1 i2 =>
    intro hv l e' hl
    obtain ⟨l', h3, h4⟩ := i2 (hv.adv h1.adv) l e' hl
    exact ⟨x :: l', by simp [h3], .cons (i1 hv x e hg) h4⟩
  | seqPanic => intro _ l e h; cases h
  | @struct k f fs v l errs v1 _ _ i =>
    intro hv x e hg
    rw [hg.ofPair]
    obtain ⟨l', h1, w, h2, h3⟩ := i hv l errs rfl
    rw [List.nil_append] at h1
    subst h1
    exact ⟨w, .seq h2, h3.after (.applyAll _ _)⟩
  | structPanic => intro _ x e hg; cases hg
  | @tuple t ts v l errs v1 _ _ i =>
    intro hv x e hg
    rw [hg.ofPair]
    obtain ⟨l', h1, w, h2, h3⟩ := i hv l errs rfl
    rw [List.nil_append] at h1
    subst h1
    exact ⟨w, .seq h2, h3⟩
  | tuplePanic => intro _ x e hg; cases hg
  | enumSuccess _ _ _ i =>
    intro hv x e hg
    cases hg
    obtain ⟨w, h2, h3⟩ := i hv _ _ (.success _)
    exact ⟨w, .variant h2, h3.after (.applyAll _ _)⟩
  | enumRecovered _ _ _ i =>
    intro hv x e hg
    cases hg
    obtain ⟨w, h2, h3⟩ := i hv _ _ (.recovered _ _)
    exact ⟨w, .variant h2, h3.after (.applyAll _ _)⟩
  | enumPanic => intro _ x e hg; cases hg
  | enumNone => intro _ x e hg; cases hg
  | box _ i => exact i
  | @optNone t' t mk v ho =>
    intro hv x e hg
    cases hg
    cases ho with
    | option => exact ⟨[], .optNone, .adv (.refl _)⟩
    | exist => exact ⟨[], .exist, .adv (.refl _)⟩
    | star => exact ⟨[], .list .nil, .adv (.refl _)⟩
  | @optSuccess t' t mk v x v1 ho h1 i =>
    intro hv y e hg
    cases hg
    obtain ⟨w, h2, h3⟩ := i hv _ _ (.success _)
    cases ho with
    | option => exact ⟨w, .optSome h2, h3⟩
    | exist => exact ⟨[], .exist, .adv h1.adv⟩
    | star =>
      unfold mkStar
      split
      · rename_i h; cases h; exact ⟨w, by cases h2; exact .list ‹_›, h3⟩
      · exact ⟨[], .list .nil, .adv h1.adv⟩
  | @optRecovered t' t mk v x e v1 ho h1 i =>
    intro hv y e hg
    cases hg
    obtain ⟨w, h2, h3⟩ := i hv _ _ (.recovered _ _)
    cases ho with
    | option => exact ⟨w, .optSome h2, h3⟩
    | exist => exact ⟨[], .exist, .adv h1.adv⟩
    | star =>
      unfold mkStar
      split
      · rename_i h; cases h; exact ⟨w, by cases h2; exact .list ‹_›, h3⟩
      · exact ⟨[], .list .nil, .adv h1.adv⟩
  | optPanic ho h1 _ =>
    intro hv y e hg
    cases hg
    cases ho with
    | option => exact ⟨[], .optNone, .adv h1.adv⟩
    | exist => exact ⟨[], .exist, .adv h1.adv⟩
    | star => exact ⟨[], .list .nil, .adv h1.adv⟩
  | textSuccess _ h1 _ _ => intro hv y e hg; cases hg; exact ⟨[], .text, .adv h1.adv⟩
  | textRecovered _ h1 _ _ => intro hv y e hg; cases hg; exact ⟨[], .text, .adv h1.adv⟩
  | textPanic => intro _ x e hg; cases hg
  | @plus t v r x e v1 l errs hi v' h1 hg _ i1 i2 =>
    intro hv y e' hg'
    rw [hg'.ofPair]
    obtain ⟨l', h3, h4⟩ := i2 (hv.adv h1.adv)
    obtain ⟨w, h5, h6⟩ := MadeAll.cons (i1 hv x e hg) h4
    rw [h3]
    exact ⟨w, .list h5, h6⟩
  | plusPanic => intro _ x e hg; cases hg
  | iterStop => intro _; exact ⟨[], by simp, .nil (.refl _)⟩
  | iterGive _ h1 hg _ i1 i2 =>
    intro hv
    obtain ⟨l', h3, h4⟩ := i2 (hv.adv h1.adv)
    exact ⟨_ :: l', by simp [h3], .cons (i1 hv _ _ hg) h4⟩
  | iterPanic h1 _ => intro _; exact ⟨[], by simp, .nil h1.adv⟩
  | loopEmpty h1 _ =>
    intro hv y e' hg'
    rw [hg'.ofPair]
    exact ⟨[], .list .nil, .adv h1.adv⟩
  | loopList h1 _ i =>
    intro hv y e' hg'
    rw [hg'.ofPair]
    obtain ⟨l', h3, w, h4, h5⟩ := i hv
    rw [List.nil_append] at h3
    subst h3
    exact ⟨w, .list h4, h5⟩
  | loopStop => intro _; exact ⟨[], by simp, .nil (.refl _)⟩
  | loopSkip hs _ i =>
    intro hv
    obtain ⟨l', h3, h4⟩ := i (hv.adv hs.adv)
    exact ⟨l', h3, h4.before hs.adv⟩
  | loopGive h1 hg _ i1 i2 =>
    intro hv
    obtain ⟨l', h3, h4⟩ := i2 (hv.adv h1.adv)
    exact ⟨_ :: l', by simp [h3], .cons (i1 hv _ _ hg) h4⟩
  | loopPanic h1 _ _ i2 =>
    intro hv
    obtain ⟨l', h3, h4⟩ := i2 (hv.adv h1.adv)
    exact ⟨l', h3, h4.before h1.adv⟩
  | loopGiveStuck h1 hg i => intro hv; exact ⟨[_], rfl, .cons (i hv _ _ hg) (.nil (.refl _))⟩
  | loopPanicStuck h1 _ => intro _; exact ⟨[], by simp, .nil h1.adv⟩
  | split h1 hg _ i1 i2 =>
    intro hv y e' hg'
    rw [hg'.ofPair]
    obtain ⟨es, ps, h3, h4, h5⟩ := i2 (hv.adv h1.adv)
    obtain ⟨we, wp, w, h6, h7, h8, h9⟩ := (MadeTwo.elem (i1 hv _ _ hg)).append h5
    rw [h3, h4]
    exact ⟨w, .split h6 h7 h8, h9⟩
  | splitPanic => intro _ x e hg; cases hg
  | outerStop => intro _; exact ⟨[], [], by simp, by simp, .nil (.refl _)⟩
  | outerPanic h1 _ => intro _; exact ⟨[], [], by simp, by simp, .nil h1.adv⟩
  | outerGo _ h1 hg h2 _ i1 i2 i3 =>
    intro hv
    have hv1 := hv.adv h1.adv
    obtain ⟨es, ps, h3, h4, h5⟩ := i3 (hv1.adv h2.adv)
    rcases i2 hv1 with ⟨h6, h7⟩ | ⟨x, h6, h7, h8⟩
    · exact ⟨es, ps, by rw [h3, h6], by rw [h4, h7], h5.before (h1.adv.trans h2.adv)⟩
    · exact ⟨[x] ++ es, [_] ++ ps, by rw [h3, h6, List.append_assoc], by rw [h4, h7, List.append_assoc],
        ((MadeTwo.punct (i1 hv _ _ hg)).append (.elem h8)).append h5⟩
  | outerBreak _ h1 hg h2 i1 i2 =>
    intro hv
    rcases i2 (hv.adv h1.adv) with ⟨h6, h7⟩ | ⟨x, h6, h7, h8⟩
    · exact ⟨[], [], by simp [h6], by simp [h7], .nil (h1.adv.trans h2.adv)⟩
    · exact ⟨[x], [_], h6, h7, (MadeTwo.punct (i1 hv _ _ hg)).append (.elem h8)⟩
  | innerGive _ hg i => intro hv; exact .inr ⟨_, rfl, rfl, i hv _ _ hg⟩
  | innerFailLeave => intro _; exact .inl ⟨rfl, rfl⟩
  | innerFailGo h1 _ _ i2 =>
    intro hv
    have ha := h1.adv.trans (.skip _)
    rcases i2 (hv.adv ha) with h | ⟨x, h6, h7, w, h8, h9⟩
    · exact .inl h
    · exact .inr ⟨x, h6, h7, w, h8, h9.before ha⟩
  | innerNoteLeave => intro _; exact .inl ⟨rfl, rfl⟩
  | innerNoteGo _ _ i =>
    intro hv
    rcases i (hv.adv (.skip _)) with h | ⟨x, h6, h7, w, h8, h9⟩
    · exact .inl h
    · exact .inr ⟨x, h6, h7, w, h8, h9.before (.skip _)⟩
  | punct h1 hg _ i1 i2 =>
    intro hv y e' hg'
    rw [hg'.ofPair]
    obtain ⟨es, ps, h3, h4, h5⟩ := i2 (hv.adv h1.adv)
    obtain ⟨we, wp, w, h6, h7, h8, h9⟩ := (MadeTwo.elem (i1 hv _ _ hg)).append h5
    rw [h3, h4]
    exact ⟨w, .split h6 h7 h8, h9⟩
  | punctPanic => intro _ x e hg; cases hg
  | pouterStop => intro _; exact ⟨[], [], by simp, by simp, .nil (.refl _)⟩
  | pouterPanic h1 _ => intro _; exact ⟨[], [], by simp, by simp, .nil h1.adv⟩
  | pouterGo _ h1 hg h2 _ i1 i2 i3 =>
    intro hv
    have hv1 := hv.adv h1.adv
    obtain ⟨es, ps, h3, h4, h5⟩ := i3 (hv1.adv h2.adv)
    obtain ⟨es', h6, h7, h8⟩ := i2 hv1
    exact ⟨es' ++ es, [_] ++ ps, by rw [h3, h6, List.append_assoc], by rw [h4, h7, List.append_assoc],
      ((MadeTwo.punct (i1 hv _ _ hg)).append h8).append h5⟩
  | pouterBreak _ h1 hg h2 i1 i2 =>
    intro hv
    obtain ⟨es', h6, h7, h8⟩ := i2 (hv.adv h1.adv)
    exact ⟨es', [_], h6, h7, (MadeTwo.punct (i1 hv _ _ hg)).append h8⟩
  | pinnerGive _ hg i => intro hv; exact ⟨[_], rfl, rfl, .elem (i hv _ _ hg)⟩
  | pinnerStop => intro _; exact ⟨[], by simp, rfl, .nil (.refl _)⟩
  | pinnerFailLeave h1 _ => intro _; exact ⟨[], by simp, rfl, .nil h1.adv⟩
  | pinnerFailGo h1 _ _ i2 =>
    intro hv
    have ha := h1.adv.trans (.skip _)
    obtain ⟨es', h6, h7, h8⟩ := i2 (hv.adv ha)
    exact ⟨es', h6, h7, h8.before ha⟩
  | pinnerNoteLeave => intro _; exact ⟨[], by simp, rfl, .nil (.refl _)⟩
  | pinnerNoteGo _ _ i =>
    intro hv
    obtain ⟨es', h6, h7, h8⟩ := i (hv.adv (.skip _))
    exact ⟨es', h6, h7, h8.before (.skip _)⟩
  | @recover t r v h v1 x errs panic v' h1 _ i1 i2 =>
    intro hv y e' hg'
    rw [hg'.ofPair]
    obtain ⟨w2, h2, h3⟩ := i2 (hv.adv h1.adv) x rfl
    unfold mkRecover
    cases hh : h.head with
    | none => exact ⟨w2, .recoverNone h2, h3.before h1.adv⟩
    | some z =>
      obtain ⟨w1, h4, h5⟩ := i1 hv z hh
      exact ⟨_, .recover h4 h2, h5.trans h3⟩
  | recoverPanic => intro _ x e hg; cases hg
  | headGive _ hg i => intro hv y hy; cases hy; exact i hv _ _ hg
  | headPanic => intro _ y hy; cases hy
  | headNone => intro _ y hy; cases hy
  | tailGive _ hg i => intro hv y hy; cases hy; exact i hv _ _ hg
  | tailPanic => intro _ y hy; cases hy
  | tailNote h => cases h
  | tailStop => intro _ y hy; cases hy
  | tailFail _ h1 _ _ _ i2 =>
    intro hv y hy
    have ha := h1.adv.trans (.skip _)
    obtain ⟨w, h2, h3⟩ := i2 (hv.adv ha) y hy
    exact ⟨w, h2, h3.before ha⟩
  | tailSkip _ _ _ i =>
    intro hv y hy
    obtain ⟨w, h2, h3⟩ := i (hv.adv (.skip _)) y hy
    exact ⟨w, h2, h3.before (.skip _)⟩

/-! ### Nothing is lost -/

theorem ReadsAll.interleave : ∀ (k : Nat) (es ps : List (Tree n)) (w : List (Token n)),
    es.length + ps.length = k → (es.length = ps.length + 1 ∨ es.length = ps.length) →
    ReadsAll (Teleparse.interleave es ps) w →
    ∃ we wp, ReadsAll es we ∧ ReadsAll ps wp ∧ Shuffle we wp w := by
  intro k
  induction k with
  | zero =>
    intro es ps w hk _ h
    cases es with
    | cons => simp at hk
    | nil =>
      cases ps with
      | cons => simp at hk
      | nil =>
        unfold Teleparse.interleave at h
        cases h
        exact ⟨[], [], .nil, .nil, .nil⟩
  | succ k ih =>
    intro es ps w hk hl h
    cases es with
    | nil =>
      simp only [List.length_nil, Nat.zero_add] at hk hl
      omega
    | cons x es =>
      unfold Teleparse.interleave at h
      cases h with
      | @cons _ _ w1 ws h1 h2 =>
        simp only [List.length_cons] at hk hl
        obtain ⟨wp, we, h3, h4, h5⟩ := ih ps es ws (by omega) (by omega) h2
        exact ⟨w1 ++ we, wp, .cons h1 h4, h3, h5.swap.first w1⟩

/-- The tokens are not empty. -/
def Solid (ts : List (Token n)) : Prop := ∀ t ∈ ts, t.span.lo < t.span.hi

theorem Keeps.part {t u : Ty m n} (h : Keeps S t) (hu : u ∈ S.tyParts t) : Keeps S u :=
  fun _ hv => h _ (.head hu hv)

theorem Parses.reads {source : Str} {pos : Nat} {t : Ty m n} {c : List (Cell n)} {x : Tree n}
    (h : Parses S source pos t c x) : Keeps S t → Solid (c.map (·.token)) → x.Reads (c.map (·.token)) := by
  refine Parses.rec (S := S) (source := source)
    (motive_1 := fun pos t c x _ => Keeps S t → Solid (c.map (·.token)) → x.Reads (c.map (·.token)))
    (motive_2 := fun pos ts cs l _ => (∀ t ∈ ts, Keeps S t) → Solid (cs.flatten.map (·.token)) →
      ReadsAll l (cs.flatten.map (·.token)))
    ?term ?struct ?enum ?tuple ?box ?optNone ?optSome ?existNone ?existSome ?quote ?parse ?plus ?starNone
    ?starSome ?loopNone ?loopSome ?split ?punct ?recover ?nil ?cons h
  case term =>
    intro pos i k t _ _ hs
    exact .tok (hs t (by simp [Cell.ofToken]))
  case struct =>
    intro pos k f fs cs l hk hs ih hr hso
    rw [addAll_tokens cs _ (by rw [hs.lengths.1]; simp)] at hso ⊢
    exact .seq (ih (fun t ht => hr.part (by simp only [Schema.tyParts, hk]; exact ht)) hso)
  case enum =>
    intro pos k f fs i t sem c x hk hi _ ih hr hso
    rw [add_tokens] at hso ⊢
    exact .variant (ih (hr.part (by
      simp only [Schema.tyParts, hk]; exact List.mem_map.2 ⟨_, List.mem_of_getElem? hi, rfl⟩)) hso)
  case tuple =>
    intro pos t ts cs l ht hs ih hr hso
    exact .seq (ih (fun t hu => hr.part (by rw [isTuple_parts ht]; exact hu)) hso)
  case box => intro pos t c x _ ih hr; exact ih (hr.part (by simp [Schema.tyParts]))
  case optNone => intro pos t _ _; exact .optNone
  case optSome => intro pos t c x _ ih hr hso; exact .optSome (ih (hr.part (by simp [Schema.tyParts])) hso)
  case existNone => intro pos t _ _; exact .exist
  case existSome => intro pos t c x _ ih hr; exact absurd rfl (hr _ .refl t).1
  case quote => intro pos t c x _ ih hr; exact absurd rfl (hr _ .refl t).2.1
  case parse => intro pos t c x _ ih hr; exact absurd rfl (hr _ .refl t).2.2
  case plus =>
    intro pos t k cs l _ ih hr hso
    exact .list (ih (fun u hu => (List.mem_replicate.1 hu).2 ▸ hr.part (by simp [Schema.tyParts])) hso)
  case starNone => intro pos t _ _; exact .list .nil
  case starSome =>
    intro pos t k cs l _ ih hr hso
    exact .list (ih (fun u hu => (List.mem_replicate.1 hu).2 ▸
      Keeps.part (hr.part (u := .plus t) (by simp [Schema.tyParts])) (by simp [Schema.tyParts])) hso)
  case loopNone => intro pos t _ _; exact .list .nil
  case loopSome =>
    intro pos t k cs l _ ih hr hso
    exact .list (ih (fun u hu => (List.mem_replicate.1 hu).2 ▸ hr.part (by simp [Schema.tyParts])) hso)
  case split =>
    intro pos t p cs es ps hl _ ih hr hso
    have h1 := ih (fun u hu => hr.part (by
      rcases mem_alternate hu with rfl | rfl <;> simp [Schema.tyParts])) hso
    obtain ⟨we, wp, h2, h3, h4⟩ := ReadsAll.interleave _ es ps _ rfl (.inl hl) h1
    exact .split h2 h3 h4
  case punct =>
    intro pos t p cs es ps _ hl _ ih hr hso
    have h1 := ih (fun u hu => hr.part (by
      rcases mem_alternate hu with rfl | rfl <;> simp [Schema.tyParts])) hso
    obtain ⟨we, wp, h2, h3, h4⟩ := ReadsAll.interleave _ es ps _ rfl hl h1
    exact .split h2 h3 h4
  case recover =>
    intro pos t r cs x y _ ih hr hso
    have h1 := ih (fun u hu => hr.part (by simpa [Schema.tyParts] using hu)) hso
    generalize cs.flatten.map (·.token) = w at h1
    cases h1 with
    | cons h1 h2 =>
      cases h2 with
      | cons h2 h3 =>
        cases h3
        rw [List.append_nil]
        exact .recover h1 h2
  case nil => intro pos _ _; exact .nil
  case cons =>
    intro pos t ts c cs x xs _ _ ih1 ih2 hr hso
    rw [List.flatten_cons, List.map_append] at hso ⊢
    exact .cons (ih1 (hr t (by simp)) fun a ha => hso a (List.mem_append_left _ ha))
      (ih2 (fun u hu => hr u (by simp [hu])) fun a ha => hso a (List.mem_append_right _ ha))

end Teleparse
