import Verif.Proof.Quiet
/-
A type that gives a tree without reading a token, while tokens are left, and without an error, can be empty.
-/
namespace Teleparse
variable {m n : Nat}

namespace Idle
variable {S : Schema m n} {root : Ty m n} {G : Grammar (PId m n) n}

theorem adv_len {v w : View n} (h : Adv v w) : w.len ≤ v.len := by
  obtain ⟨ts, h1, -⟩ := h.cons
  unfold View.len
  rw [h1, List.length_append]
  omega

/-- Nothing is read, although tokens are left. -/
structure Stays (v v' : View n) : Prop where
  left : v.rest ≠ []
  len : v.len ≤ v'.len

theorem Stays.fst {v w v' : View n} (h : Stays v v') (h2 : Adv w v') : Stays v w :=
  ⟨h.left, by have := adv_len h2; have := h.len; omega⟩

theorem Stays.rest {v w : View n} (h : Stays v w) (h1 : Adv v w) : w.rest = v.rest := by
  obtain ⟨ts, h2, -⟩ := h1.cons
  have h3 := h.len
  unfold View.len at h3
  rw [h2, List.length_append] at h3
  have : ts = [] := List.eq_nil_of_length_eq_zero (by omega)
  rw [h2, this]
  rfl

theorem Stays.snd {v w v' : View n} (h : Stays v v') (h1 : Adv v w) (h2 : Adv w v') : Stays w v' := by
  refine ⟨?_, ?_⟩
  · rw [(h.fst h2).rest h1]; exact h.left
  · have := adv_len h1
    have := h.len
    omega

theorem Stays.ne {v v' : View n} (h : Stays v v') (h1 : Adv v v') : v'.rest ≠ [] := by
  rw [h.rest h1]; exact h.left

/-- The claim about a judgement. -/
def Claim (S : Schema m n) (root : Ty m n) (G : Grammar (PId m n) n) : Judg m n → Prop
  | .ty t v r v' => PReach S root t.pid → Stays v v' → r.errs = [] → r.tree?.isSome = true → Null G t.pid
  | .seq ts v _ _ (.ok (_, errs')) v' => (∀ t ∈ ts, PReach S root t.pid) → Stays v v' → errs' = [] →
      ∀ t ∈ ts, Null G t.pid
  | .loop _ _ _ _ _ errs' v' => errs' = [] → v'.rest = []
  | .head t v h v' => PReach S root t.pid → Stays v v' → h.errs = [] → h.panic = none → Null G t.pid
  | .tail t v _ _ x errs' panic' v' => PReach S root t.pid → Stays v v' → x.isSome = true → errs' = [] → panic' = none →
      Null G t.pid
  | _ => True

theorem ofPair_clean {x : Tree n} {e : List (Err n)} (h : (Res.ofPair x e).errs = []) : e = [] :=
  Classical.byContradiction fun he => ofPair_dirty he h

theorem gives_clean {r : Res n (Tree n)} {x : Tree n} {e : List (Err n)} (h : r.Gives x e) (he : e = []) :
    r.errs = [] ∧ r.tree?.isSome = true := by
  cases h with
  | success => exact ⟨rfl, rfl⟩
  | recovered => exact ⟨he, rfl⟩

theorem rest_applyAll (l : List (Tree n × Option (LSet n))) (v : View n) : (v.applyAll l).len = v.len :=
  Quiet.applyAll_len l v

theorem run (E : Rules S root G) {j : Judg m n} (h : Run S j) : Claim S root G j := by
  induction h with
  | @tok i k v t l hr _ _ =>
    intro _ hs
    have := hs.len
    unfold View.len at this
    simp [View.skip, View.consume, hr] at this
    omega
  | tokRecovered => intro _ _ he; cases he
  | tokPanic => intro _ _ he; cases he
  | seqNil => intro _ _ _ t ht; cases ht
  | @seqGive t ts v acc errs r x e v1 res v' h1 hg h2 i1 i2 =>
    match res with
    | .error _ => trivial
    | .ok (l, errs') =>
      intro hr hs he u hu
      have hb := h2.back he
      have hb := (List.append_eq_nil_iff.1 hb).2
      rcases List.mem_cons.1 hu with rfl | hu
      · obtain ⟨g1, g2⟩ := gives_clean hg hb
        exact i1 (hr _ (by simp)) (hs.fst h2.adv) g1 g2
      · exact i2 (fun t ht => hr t (by simp [ht])) (hs.snd h1.adv h2.adv) he u hu
  | seqPanic => trivial
  | @struct k f fs v l errs v1 hk h1 i =>
    intro hr hs he _
    have hrule : S.rule (.user k) = .seq (((f :: fs).map (·.1)).map Ty.pid) := by
      simp only [Schema.rule, hk, List.map_map]; rfl
    have hm := E.mem hr
    rw [show S.rule (Ty.user k : Ty m n).pid = _ from hrule] at hm
    have := i (fun t ht => hr.seq hrule (List.mem_map.2 ⟨t, ht, rfl⟩)) ⟨hs.left, by
      have := hs.len; rw [rest_applyAll] at this; exact this⟩ (ofPair_clean he)
    refine Null.seq hm fun j hj => ?_
    obtain ⟨x, hx, rfl⟩ := List.mem_map.1 hj
    exact this x hx
  | structPanic => intro _ _ _ h; cases h
  | @tuple t ts v l errs v1 ht h1 i =>
    intro hr hs he _
    have hrule : S.rule t.pid = .seq (ts.map Ty.pid) := by cases ht <;> rfl
    have hm := E.mem hr
    rw [hrule] at hm
    have := i (fun t ht => hr.seq hrule (List.mem_map.2 ⟨t, ht, rfl⟩)) hs (ofPair_clean he)
    refine Null.seq hm fun j hj => ?_
    obtain ⟨x, hx, rfl⟩ := List.mem_map.1 hj
    exact this x hx
  | tuplePanic => intro _ _ _ h; cases h
  | @enumSuccess k f fs i t sem v x v1 hk hi h1 ih =>
    intro hr hs he _
    have hrule : S.rule (.user k) = .alt ((f :: fs).map fun f => f.1.pid) := by simp only [Schema.rule, hk]
    have hm := E.mem hr
    rw [show S.rule (Ty.user k : Ty m n).pid = _ from hrule] at hm
    have hj : t.pid ∈ (f :: fs).map fun f => f.1.pid := List.mem_map.2 ⟨_, List.mem_of_getElem? hi, rfl⟩
    exact Null.alt hm hj (ih (hr.alt hrule hj) ⟨hs.left, by
      have := hs.len; rw [rest_applyAll] at this; exact this⟩ rfl rfl)
  | @enumRecovered k f fs i t sem v x e v1 hk hi h1 ih =>
    intro hr hs he _
    have hrule : S.rule (.user k) = .alt ((f :: fs).map fun f => f.1.pid) := by simp only [Schema.rule, hk]
    have hm := E.mem hr
    rw [show S.rule (Ty.user k : Ty m n).pid = _ from hrule] at hm
    have hj : t.pid ∈ (f :: fs).map fun f => f.1.pid := List.mem_map.2 ⟨_, List.mem_of_getElem? hi, rfl⟩
    exact Null.alt hm hj (ih (hr.alt hrule hj) ⟨hs.left, by
      have := hs.len; rw [rest_applyAll] at this; exact this⟩ he rfl)
  | enumPanic => intro _ _ _ h; cases h
  | enumNone => intro _ _ _ h; cases h
  | box _ i => exact i
  | optNone ho => intro hr _ _ _; cases ho <;> exact Front.opt E hr
  | optSuccess ho _ _ => intro hr _ _ _; cases ho <;> exact Front.opt E hr
  | optRecovered ho _ _ => intro hr _ _ _; cases ho <;> exact Front.opt E hr
  | optPanic ho _ _ => intro hr _ _ _; cases ho <;> exact Front.opt E hr
  | textSuccess ho _ _ i => intro hr hs he _; cases ho <;> exact i hr hs he rfl
  | textRecovered ho _ _ i => intro hr hs he _; cases ho <;> exact i hr hs he rfl
  | textPanic => intro _ _ _ h; cases h
  | @plus t v r x e v1 l errs hi v' h1 hg h2 i1 i2 =>
    intro hr hs he _
    obtain ⟨g1, g2⟩ := gives_clean hg (h2.back (ofPair_clean he))
    exact E.plus_null hr (i1 (hr.seq (rule_plus _) (by simp [Ty.pid])) (hs.fst h2.adv) g1 g2)
  | plusPanic => intro _ _ _ h; cases h
  | iterStop => trivial
  | iterGive => trivial
  | iterPanic => trivial
  | loopEmpty h1 i => intro _ hs he _; exact absurd (i (ofPair_clean he)) (hs.ne h1.adv)
  | loopList h1 _ i => intro _ hs he _; exact absurd (i (ofPair_clean he)) (hs.ne h1.adv)
  | loopStop h => intro _; exact h
  | loopSkip _ _ i => exact i
  | loopGive _ _ _ _ i => exact i
  | loopPanic _ _ _ i => exact i
  | loopGiveStuck => intro h; exact absurd h (by simp)
  | loopPanicStuck => intro h; exact absurd h (by simp)
  | @split t p v r x e v1 a v' h1 hg h2 i1 _ =>
    intro hr hs he _
    have hrule : S.rule (Ty.split t p).pid = .seq [t.pid, .opt (.plus (.tup2 p.prod t.prod))] := rfl
    have hm := E.mem hr
    rw [hrule] at hm
    obtain ⟨g1, g2⟩ := gives_clean hg (h2.back (ofPair_clean he))
    refine Null.seq hm fun j hj => ?_
    simp only [List.mem_cons, List.not_mem_nil, or_false] at hj
    rcases hj with rfl | rfl
    · exact i1 (hr.seq hrule (by simp)) (hs.fst h2.adv) g1 g2
    · exact Front.opt E (hr.seq hrule (by simp))
  | splitPanic => intro _ _ _ h; cases h
  | outerStop => trivial
  | outerPanic => trivial
  | outerGo => trivial
  | outerBreak => trivial
  | innerGive => trivial
  | innerFailLeave => trivial
  | innerFailGo => trivial
  | innerNoteLeave => trivial
  | innerNoteGo => trivial
  | @punct t p v r x e v1 a v' h1 hg h2 i1 _ =>
    intro hr hs he _
    have hrule : S.rule (Ty.punct t p).pid = .seq [t.pid, .opt (.tup2 p.prod (.opt (.punct t.prod p.prod)))] := rfl
    have hm := E.mem hr
    rw [hrule] at hm
    obtain ⟨g1, g2⟩ := gives_clean hg (h2.back (ofPair_clean he))
    refine Null.seq hm fun j hj => ?_
    simp only [List.mem_cons, List.not_mem_nil, or_false] at hj
    rcases hj with rfl | rfl
    · exact i1 (hr.seq hrule (by simp)) (hs.fst h2.adv) g1 g2
    · exact Front.opt E (hr.seq hrule (by simp))
  | punctPanic => intro _ _ _ h; cases h
  | pouterStop => trivial
  | pouterPanic => trivial
  | pouterGo => trivial
  | pouterBreak => trivial
  | pinnerGive => trivial
  | pinnerStop => trivial
  | pinnerFailLeave => trivial
  | pinnerFailGo => trivial
  | pinnerNoteLeave => trivial
  | pinnerNoteGo => trivial
  | @recover t u v h v1 x errs panic v' h1 h2 i1 i2 =>
    intro hr hs he _
    have hrule : S.rule (Ty.recover t u).pid = .seq [t.pid, u.pid] := rfl
    have hm := E.mem hr
    rw [hrule] at hm
    have he := ofPair_clean he
    obtain ⟨b1, b2⟩ := h2.back he
    obtain ⟨e1, e2⟩ := List.append_eq_nil_iff.1 he
    refine Null.seq hm fun j hj => ?_
    simp only [List.mem_cons, List.not_mem_nil, or_false] at hj
    rcases hj with rfl | rfl
    · exact i1 (hr.seq hrule (by simp)) (hs.fst h2.adv) b1 b2
    · exact i2 (hr.seq hrule (by simp)) (hs.snd h1.adv h2.adv) rfl e1 (toList_nil.1 e2)
  | recoverPanic => intro _ _ _ h; cases h
  | headGive _ hg i => intro hr hs he _; obtain ⟨g1, g2⟩ := gives_clean hg he; exact i hr hs g1 g2
  | @headPanic t v e v1 h1 i =>
    intro hr hs _ hp
    have hp : e = [] := List.getLast?_eq_none_iff.1 hp
    subst hp
    exact absurd (h1.shape rfl) (hs.ne h1.adv)
  | headNone => intro _ _ _ h; cases h
  | tailGive _ hg i =>
    intro hr hs _ he hp
    obtain ⟨g1, g2⟩ := gives_clean hg (List.append_eq_nil_iff.1 he).2
    exact i hr hs g1 g2
  | tailPanic => intro _ _ h; cases h
  | tailNote h => cases h
  | tailStop => intro _ _ h; cases h
  | tailFail _ _ hn h2 _ _ =>
    intro _ _ _ he hp
    exact absurd (h2.back (by rw [he, hp]; rfl)).2 hn.some
  | tailSkip _ hn h2 _ =>
    intro _ _ _ he hp
    exact absurd (h2.back (by rw [he, hp]; rfl)).2 hn.some

end Idle
end Teleparse
