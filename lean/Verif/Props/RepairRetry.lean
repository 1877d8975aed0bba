import Verif.Proof.RepairRetry
import Verif.Props.Steps
/-
Property C133: `Recover` that tries again where an attempt at the tail stopped.
-/
namespace Teleparse
variable {m n : Nat}

section
variable {ext : Fin n → Bool} {S : Schema m n} {fuel : Nat} {root : Ty m n} {md : Metadata (PId m n) n}
  {G : Grammar (PId m n) n} {source : Str} {items : List (Item n)}

theorem YieldsRetry.view {t u : Ty m n} {p p' : Parser n} {r} (h : YieldsRetry ext S md t u p r p') :
    ∃ f, produceRecoverRetry View.ops (md.first.get t.pid) (md.first.get u.pid) (produce View.ops S md f t)
      (produce View.ops S md f u) f (p.view ext) = .ok r (p'.view ext) := by
  obtain ⟨f, h⟩ := h
  have hs := retry_view ext S md t u f p
  rw [h] at hs
  exact ⟨f, hs⟩

/-- The repaired `Recover<t, u>` produces `t` if it can begin, then searches `u` so that no token is skipped at which
`u` can begin and was not tried. It returns a tree iff `u` was produced, made of the trees of both. -/
theorem C133_steps (hmd : S.metadata fuel root = some (.ok md)) (hG : S.IsGrammar root G)
    (hw : ItemsWF source items) (t u : Ty m n) (p p' : Parser n) (hp : Reached ext source items p)
    (r : Res n (Tree n)) (h : YieldsRetry ext S md t u p r p') :
    ∃ head v1 tail pending, HeadStep S md G t (p.view ext) head v1 ∧ EachStop S md G u v1 tail (p'.view ext) ∧
      r = recoverResult v1.pos (triedTree head) (triedTree tail)
        (triedErrs head ++ triedErrs tail ++ Option.toList pending) ∧
      (r.tree?.isSome = true ↔ ∃ r2, tail = some r2) := by
  obtain ⟨f, h⟩ := h.view
  generalize p'.view ext = v' at h ⊢
  simp only [produceRecoverRetry, bind_ok] at h
  obtain ⟨hd, v1, h1, ⟨tl, errs, pending⟩, v2, h2, h3⟩ := h
  obtain ⟨head, g1, g2, g3, g4, -⟩ := head_steps (fun x => metadata_first hmd hG t.pid x) f (hp.ready hw) h1
  have hv1 : Ready source v1 := (hp.ready hw).adv (by
    cases g1 with
    | tried _ h => exact h.adv
    | cannot => exact .refl _)
  obtain ⟨tail, k1, k2, k3, k4⟩ := retry_steps (fun x => metadata_first hmd hG u.pid x) f f _ _ _ _ _ hv1 h2
  simp only at k2 k3 k4
  have hr : r = recoverResult v1.pos (triedTree head) (triedTree tail)
      (triedErrs head ++ triedErrs tail ++ Option.toList pending) := by
    cases tl with
    | some x =>
      simp only [pure_ok] at h3
      rw [← h3.1, k3, g3, ← k2, ← g2]
      unfold recoverResult mkRecover
      rw [← g2] at g4
      cases hh : hd.head with
      | some y =>
        simp only [hh, Option.map_some, Option.getD_some] at g4
        simp only [g4]
        cases he : triedErrs head ++ triedErrs tail ++ Option.toList pending <;> simp [Res.ofPair]
      | none =>
        simp only [hh, Option.map_none, Option.getD_none] at g4
        simp only [g4]
        cases he : triedErrs head ++ triedErrs tail ++ Option.toList pending <;> simp [Res.ofPair]
    | none =>
      simp only [pure_ok] at h3
      rw [← h3.1, k3, g3, ← k2]
      unfold recoverResult
      cases triedTree head <;> rfl
  refine ⟨head, v1, tail, pending, g1, ?_, hr, ?_⟩
  · cases tl with
    | some x => simp only [pure_ok] at h3; rw [← h3.2]; exact k1
    | none => simp only [pure_ok] at h3; rw [← h3.2]; exact k1
  · rw [← k4, k2, hr]
    generalize triedErrs head ++ triedErrs tail ++ Option.toList pending = es
    unfold recoverResult
    cases triedTree head <;> cases triedTree tail <;> cases es <;> simp [Res.tree?]

theorem On.same {t : Ty m n} {v w w' : View n} {r r'} (h : On S md t v r w) (h' : On S md t v r' w') :
    r = r' ∧ w = w' := by
  obtain ⟨f, h⟩ := h
  obtain ⟨f', h'⟩ := h'
  have e1 := produce_more h (Nat.le_max_left f f')
  have e2 := produce_more h' (Nat.le_max_right f f')
  rw [e1] at e2
  cases e2
  exact ⟨rfl, rfl⟩

/-- The tail is not lost behind a failed attempt: if the attempt after the head fails having consumed something, and the
tail can be produced where it stopped, then a tree is returned. For the code this is false (`C46_false`). -/
theorem C133_found (hmd : S.metadata fuel root = some (.ok md)) (hG : S.IsGrammar root G)
    (hw : ItemsWF source items) (t u : Ty m n) (p p' : Parser n) (hp : Reached ext source items p)
    (r : Res n (Tree n)) (h : YieldsRetry ext S md t u p r p') (head : Option (Res n (Tree n))) (v1 w w' : View n)
    (hh : HeadStep S md G t (p.view ext) head v1) (e : List (Err n)) (hf : On S md u v1 (.panic e) w)
    (hne : w.rest ≠ v1.rest) (hb : Starts G u.pid v1.word ∨ Nullable G u.pid)
    (r2 : Res n (Tree n)) (hr2 : On S md u w r2 w') (ht : r2.tree?.isSome = true)
    (hb2 : Starts G u.pid w.word ∨ Nullable G u.pid) :
    r.tree?.isSome = true ∧ p'.view ext = w' := by
  obtain ⟨head', v1', tail, pending, h1, h2, -, h4⟩ := C133_steps hmd hG hw t u p p' hp r h
  have hv : v1' = v1 := by
    cases h1 with
    | tried a b =>
      cases hh with
      | tried _ d => exact (b.same d).2
      | cannot c d => exact (a.elim c d).elim
    | cannot a b =>
      cases hh with
      | tried c _ => exact (c.elim a b).elim
      | cannot => rfl
  subst hv
  have hend : ∀ o x, EachStop S md G u w o x → (∃ r2, o = some r2) ∧ x = w' := by
    intro o x hx
    have hno : ∀ e x, ¬ On S md u w (.panic e) x := by
      intro e x hx
      have := (hx.same hr2).1
      subst this
      cases ht
    cases hx with
    | found a _ => exact ⟨⟨_, rfl⟩, (a.same hr2).2⟩
    | eof a b =>
      rcases b with ⟨-, b⟩ | ⟨e, b⟩
      · rcases hb2 with c | c
        · have hn : w.word = none := by rw [View.word, a]; rfl
          rw [hn] at c
          exact absurd c b
        · exact absurd c b
      · exact absurd b (hno _ _)
    | cannot a b c _ =>
      rcases hb2 with d | d
      · rw [View.word, a.rest] at d
        exact absurd d b
      · exact absurd d c
    | fails _ b _ _ => exact absurd b (hno _ _)
    | moved b _ _ _ => exact absurd b (hno _ _)
  rw [h4]
  generalize p'.view ext = z at h2 ⊢
  cases h2 with
  | found a b =>
    have := (a.same hf).1
    subst this
    cases b
  | eof a _ =>
    obtain ⟨ts, h5, -⟩ := hf.adv.cons
    rw [a] at h5
    have := (List.append_eq_nil_iff.1 h5.symm).2
    exact absurd (this.trans a.symm) hne
  | cannot a b c _ =>
    rcases hb with d | d
    · rw [View.word, a.rest] at d
      exact absurd d b
    · exact absurd d c
  | fails a b c _ =>
    have := (b.same hf).2
    subst this
    have h5 := c.rest
    rw [List.singleton_append] at h5
    exact absurd (h5.trans a.symm) hne
  | moved b _ _ d =>
    have := (b.same hf).2
    subst this
    exact hend _ _ d

/-- Where failing attempts consume nothing the repair changes neither the result nor what is left of the input and noted
on its tokens. -/
theorem C133_same (hw : ItemsWF source items) (t u : Ty m n)
    (hfail : ∀ v e v1, On S md u v (.panic e) v1 → v1.rest = v.rest) (p : Parser n)
    (hp : Reached ext source items p) (r : Res n (Tree n)) (v : View n) :
    (∃ p', YieldsRetry ext S md t u p r p' ∧ p'.view ext = v) ↔
      ∃ p', Yields ext S md (.recover t u) p r p' ∧ p'.view ext = v := by
  have key : ∀ f, produceRecoverRetry View.ops (md.first.get t.pid) (md.first.get u.pid) (produce View.ops S md f t)
      (produce View.ops S md f u) f (p.view ext) = produce View.ops S md (f + 1) (.recover t u) (p.view ext) := by
    intro f
    change M.bind _ _ (p.view ext) = M.bind _ _ (p.view ext)
    unfold M.bind
    cases hk : recoverHead View.ops (md.first.get t.pid) (produce View.ops S md f t) (p.view ext) with
    | fuel => rfl
    | crash => rfl
    | ok hd v1 =>
      have hv1 : Ready source v1 := (hp.ready hw).adv (by
        simp only [recoverHead, bind_ok, mPeekSrc_ok] at hk
        obtain ⟨tok, _, ⟨rfl, rfl, -⟩, hk⟩ := hk
        split at hk
        · simp only [bind_ok] at hk
          obtain ⟨r1, v2, h1, h2⟩ := hk
          have := On.adv (S := S) (md := md) (t := t) ⟨f, h1⟩
          cases r1 with
          | success x => simp only [pure_ok] at h2; rw [← h2.2]; exact this
          | recovered x e => simp only [pure_ok] at h2; rw [← h2.2]; exact this
          | panic e =>
            simp only [bind_ok, mEmptySpan_ok, pure_ok] at h2
            obtain ⟨_, _, ⟨rfl, rfl⟩, _, rfl⟩ := h2
            exact this
        · simp only [bind_ok, mEmptySpan_ok, mExpecting_ok, pure_ok] at hk
          obtain ⟨_, _, ⟨rfl, rfl⟩, _, _, ⟨rfl, rfl⟩, _, rfl⟩ := hk
          exact .refl _)
      change M.bind _ _ v1 = M.bind _ _ v1
      unfold M.bind
      rw [retry_same hfail f v1 _ _ hv1]
      rfl
  constructor
  · rintro ⟨p', h, rfl⟩
    obtain ⟨f, h⟩ := h.view
    rw [key] at h
    exact yields_of_view h
  · rintro ⟨p', h, rfl⟩
    obtain ⟨f, h⟩ := On.of_yields h
    cases f with
    | zero => cases h
    | succ f =>
      rw [← key] at h
      obtain ⟨q, hq, hv⟩ := Sim.run (retry_view ext S md t u f) h
      exact ⟨q, ⟨f, hq⟩, hv⟩

/-- Without errors nothing was skipped or tried in vain: if failures of the parts come with errors, then a result without
errors that is a tree is made of `t` and `u`, produced one after the other without errors. -/
theorem C133_clean (t u : Ty m n) (ht : ∀ v e v1, On S md t v (.panic e) v1 → e ≠ [])
    (hu : ∀ v e v1, On S md u v (.panic e) v1 → e ≠ []) (p p' : Parser n) (z : Tree n)
    (h : YieldsRetry ext S md t u p (.success z) p') :
    ∃ v1 r x r2 y, On S md t (p.view ext) r v1 ∧ r.tree? = some x ∧ r.errs = [] ∧
      On S md u v1 r2 (p'.view ext) ∧ r2.tree? = some y ∧ r2.errs = [] ∧ z = .recover x.span x y := by
  obtain ⟨f, h⟩ := h.view
  generalize p'.view ext = v' at h ⊢
  simp only [produceRecoverRetry, bind_ok] at h
  obtain ⟨hd, v1, h1, ⟨tl, errs, pending⟩, v2, h2, h3⟩ := h
  obtain ⟨k1, k2⟩ := retry_silent hu f f _ _ _ _ _ h2
  simp only at k1 k2
  cases tl with
  | none =>
    simp only [pure_ok] at h3
    cases h3.1
  | some y =>
    simp only [pure_ok] at h3
    obtain ⟨h3, rfl⟩ := h3
    have he : errs ++ pending.toList = [] := by
      cases hc : errs ++ pending.toList with
      | nil => rfl
      | cons a l => rw [hc] at h3; cases h3
    rw [he] at h3
    obtain ⟨he1, he2⟩ := List.append_eq_nil_iff.1 he
    have hp : pending = none := by
      cases pending with
      | none => rfl
      | some a => cases he2
    have hpn : hd.panic = none := by
      cases hq : hd.panic with
      | none => rfl
      | some a => exact absurd hp (k1 (by rw [hq]; simp))
    obtain ⟨r2, g1, g2, g3⟩ := k2 hp y rfl
    obtain ⟨r, x, i1, i2, i3, i4, i5⟩ := head_silent ht h1 hpn
    rw [he1] at g3
    obtain ⟨j1, j2⟩ := List.append_eq_nil_iff.1 g3.symm
    refine ⟨v1, r, x, r2, y, i1, i2, i4 ▸ j1, g1, g2, j2, ?_⟩
    simp only [Res.ofPair, mkRecover, i3, i5] at h3
    cases h3
    rfl

/-- The repair does not change what is accepted: if failures of the tail come with errors, the repaired `Recover` succeeds
exactly where the code does, with the same tree and the same tokens consumed. -/
theorem C133_accepts (t u : Ty m n) (hu : ∀ v e v1, On S md u v (.panic e) v1 → e ≠ []) (p : Parser n) (z : Tree n)
    (v : View n) :
    (∃ p', YieldsRetry ext S md t u p (.success z) p' ∧ p'.view ext = v) ↔
      ∃ p', Yields ext S md (.recover t u) p (.success z) p' ∧ p'.view ext = v := by
  have key : ∀ f, produceRecoverRetry View.ops (md.first.get t.pid) (md.first.get u.pid) (produce View.ops S md f t)
      (produce View.ops S md f u) f (p.view ext) = .ok (.success z) v ↔
      produce View.ops S md (f + 1) (.recover t u) (p.view ext) = .ok (.success z) v := by
    intro f
    change _ ↔ produceRecover View.ops (md.first.get t.pid) (md.first.get u.pid) (produce View.ops S md f t)
      (produce View.ops S md f u) f (p.view ext) = _
    simp only [produceRecoverRetry, produceRecover, bind_ok]
    refine exists_congr fun hd => exists_congr fun v1 => and_congr_right fun _ => exists_congr fun r =>
      exists_congr fun v2 => and_congr_left fun h3 => retry_once hu _ _ _ _ _ _ _ ?_
    obtain ⟨tl, errs, pending⟩ := r
    cases tl with
    | none =>
      simp only [pure_ok] at h3
      cases h3.1
    | some y =>
      simp only [pure_ok] at h3
      cases pending with
      | none => rfl
      | some a =>
        have h3 := h3.1
        cases errs <;> cases h3
  constructor
  · rintro ⟨p', h, rfl⟩
    obtain ⟨f, h⟩ := h.view
    exact yields_of_view ((key f).1 h)
  · rintro ⟨p', h, rfl⟩
    obtain ⟨f, h⟩ := On.of_yields h
    cases f with
    | zero => cases h
    | succ f =>
      obtain ⟨q, hq, hv⟩ := Sim.run (retry_view ext S md t u f) ((key f).2 h)
      exact ⟨q, ⟨f, hq⟩, hv⟩

/-- The repaired `Recover` returns if both parts return on every stream. -/
theorem C133_terminates (md : Metadata (PId m n) n) (hw : ItemsWF source items) (t u : Ty m n)
    (ht : ∀ q, Reached ext source items q → ∃ r q', Yields ext S md t q r q')
    (hu : ∀ q, Reached ext source items q → ∃ r q', Yields ext S md u q r q') (p : Parser n)
    (hp : Reached ext source items p) : ∃ r p', YieldsRetry ext S md t u p r p' := by
  have hH : Halts (fun i j => produceRecoverRetry View.ops (md.first.get t.pid) (md.first.get u.pid)
      (produce View.ops S md j t) (produce View.ops S md j u) i) (p.view ext) (fun _ _ => True) := by
    simp only [produceRecoverRetry]
    refine .bind (recoverHead_halts (K := fun _ w => ReachedView ext source items w) fun _ =>
      halts_of_yields ht ⟨p, hp, rfl⟩) ?_
    rintro hd w ⟨ha, hk, hn⟩
    have hw1 : ReachedView ext source items w := by
      by_cases hc : (md.first.get t.pid).contains (p.view ext).look = true ∨ (md.first.get t.pid).containsE = true
      · exact (hk hc).elim fun _ h => h
      · exact ⟨p, hp, (hn hc).symm⟩
    refine .bind (retry_halts (source := source) (I := ReachedView ext source items)
      (fun w h => by obtain ⟨q, hq, rfl⟩ := h; exact hq.ready hw) (fun w h => h.skip)
      (fun w' hw' => halts_of_yields hu hw') w hd.errs hd.panic hw1) ?_
    rintro ⟨tail, errs, panic⟩ v' _
    cases tail with
    | some x => exact .pure trivial
    | none => exact .pure trivial
  obtain ⟨N, o, h1, h2, -⟩ := hH
  have h1 := h1 N N (Nat.le_refl _) (Nat.le_refl _)
  cases o with
  | fuel => exact absurd rfl h2
  | crash => exact absurd h1 ((retry_safe S md t u N _ (hp.inSource hw)).1)
  | ok r v =>
    obtain ⟨q, hq, -⟩ := Sim.run (retry_view ext S md t u N) h1
    exact ⟨r, q, N, hq⟩

end

/-! ### Examples -/

def mxG : Grammar (PId 0 3) 3 := (registerFrom exS.rule 30 mxT.pid).getD []

/-- The input of `C46_false`, `a 1 1 x`: the repaired search finds the tail at the second number. -/
example : exS.metadata 30 mxT = some (.ok mxMd) ∧ exS.IsGrammar mxT mxG ∧ ItemsWF mxSource mxItems ∧
    (∃ e p', Yields (fun _ => false) exS mxMd mxT (Parser.new mxSource mxItems) (.panic e) p') ∧
    ∃ x y e p', YieldsRetry (fun _ => false) exS mxMd exWord mxR (Parser.new mxSource mxItems)
      (.recovered (.recover ⟨0, 1⟩ x y) e) p' ∧ y.span = ⟨4, 7⟩ :=
  ⟨by rfl, .of_register (fuel := 30) (by rfl), by unfold ItemsWF mxItems mxSource; decide,
    ⟨_, _, 20, by rfl⟩, _, _, _, _, ⟨20, by rfl⟩, by rfl⟩

/-- The claim that the repaired search finds a tail wherever the code does is false: with the tail
`(word or number, word, number)`, on `x 1 1 a a 1` the code skips the second number and finds `a a 1`; the repaired one
begins an attempt at the second number, which consumes the first `a`. -/
def rtS : Schema 1 3 := fun _ => .enum (.term 0 ⟨0, none⟩, none) [(.term 1 ⟨1, none⟩, none)]
def rtX : Ty 1 3 := .term 2 ⟨2, none⟩
def rtU : Ty 1 3 := .tup3 (.user 0) (.term 0 ⟨0, none⟩) (.term 1 ⟨1, none⟩)
def rtMd : Metadata (PId 1 3) 3 := okOf ⟨[], [], []⟩ (rtS.metadata 40 (.recover rtX rtU))
def rtSource : Str := [120, 32, 49, 32, 49, 32, 97, 32, 97, 32, 49]
def rtItems : List (Item 3) :=
  [.token ⟨⟨0, 1⟩, 2⟩, .token ⟨⟨2, 3⟩, 1⟩, .token ⟨⟨4, 5⟩, 1⟩, .token ⟨⟨6, 7⟩, 0⟩, .token ⟨⟨8, 9⟩, 0⟩,
    .token ⟨⟨10, 11⟩, 1⟩]
theorem C133_false : rtS.metadata 40 (.recover rtX rtU) = some (.ok rtMd) ∧ ItemsWF rtSource rtItems ∧
    (∃ x y e p', Yields (fun _ => false) rtS rtMd (.recover rtX rtU) (Parser.new rtSource rtItems)
      (.recovered (.recover ⟨0, 1⟩ x y) e) p' ∧ y.span = ⟨6, 11⟩) ∧
    ∃ e p', YieldsRetry (fun _ => false) rtS rtMd rtX rtU (Parser.new rtSource rtItems) (.panic e) p' :=
  ⟨by rfl, by unfold ItemsWF rtItems rtSource; decide, ⟨_, _, _, _, ⟨20, by rfl⟩, by rfl⟩, _, _, 20, by rfl⟩

/-- The hypotheses of `C133_found` on that input: after the head, the attempt at the first number stops at the second,
and there the tail can be produced. -/
example : ∃ v1 w w' e r2, On exS mxMd exWord ((Parser.new mxSource mxItems).view fun _ => false) (.success (.tok ⟨⟨0, 1⟩, 0⟩)) v1 ∧
    On exS mxMd mxR v1 (.panic e) w ∧ w.rest ≠ v1.rest ∧ On exS mxMd mxR w r2 w' ∧ r2.tree?.isSome = true :=
  ⟨_, _, _, _, _, ⟨20, by rfl⟩, ⟨20, by rfl⟩, by decide, ⟨20, by rfl⟩, by rfl⟩

/-- The hypotheses of `C133_clean` and `C133_accepts`: a terminal that fails has an error; on `a 1` there is none. -/
example : (∀ v e v1, On exS rcMd exNum v (.panic e) v1 → e ≠ []) ∧
    ∃ z p', YieldsRetry exExt exS rcMd exWord exNum (Parser.new [97, 32, 49] [.token ⟨⟨0, 1⟩, 0⟩, .token ⟨⟨2, 3⟩, 1⟩])
      (.success z) p' := by
  refine ⟨fun v e v1 h => ?_, _, _, 20, by rfl⟩
  obtain ⟨r, hr⟩ : ∃ r, r = Res.panic e := ⟨_, rfl⟩
  have h := h.run
  rw [← hr] at h
  unfold exNum at h
  cases h with
  | tok => cases hr
  | tokRecovered => cases hr
  | tokPanic => cases hr; simp
  | tuple ht => cases ht
  | tuplePanic ht => cases ht
  | optNone ht => cases ht
  | optSuccess ht => cases ht
  | optRecovered ht => cases ht
  | optPanic ht => cases ht
  | textSuccess ht => cases ht
  | textRecovered ht => cases ht
  | textPanic ht => cases ht

/-- With a terminal as tail both versions agree on every input, and the repaired one returns. -/
example (source : Str) (items : List (Item 3)) (hw : ItemsWF source items) (r : Res 3 (Tree 3)) (v : View 3) :
    ((∃ p', YieldsRetry exExt exS rcMd exWord exNum (Parser.new source items) r p' ∧ p'.view exExt = v) ↔
      ∃ p', Yields exExt exS rcMd (.recover exWord exNum) (Parser.new source items) r p' ∧ p'.view exExt = v) ∧
    ∃ r p', YieldsRetry exExt exS rcMd exWord exNum (Parser.new source items) r p' := by
  refine ⟨C133_same hw exWord exNum ?_ _ .new r v, C133_terminates rcMd hw exWord exNum
    (term_yields exExt exS rcMd source items hw 0 ⟨0, none⟩) (term_yields exExt exS rcMd source items hw 1 ⟨1, none⟩) _ .new⟩
  intro v e v1 h
  obtain ⟨r, hr⟩ : ∃ r, r = Res.panic e := ⟨_, rfl⟩
  have h := h.run
  rw [← hr] at h
  unfold exNum at h
  cases h with
  | tok => cases hr
  | tokRecovered => cases hr
  | tokPanic => rfl
  | tuple ht => cases ht
  | tuplePanic ht => cases ht
  | optNone ht => cases ht
  | optSuccess ht => cases ht
  | optRecovered ht => cases ht
  | optPanic ht => cases ht
  | textSuccess ht => cases ht
  | textRecovered ht => cases ht
  | textPanic ht => cases ht

end Teleparse
