import Verif.Spec.Viable
import Verif.Proof.Alarm
import Verif.Proof.Whole
/-
Errors are not too late: the tokens before the first error begin a sentence.
-/
namespace Teleparse
variable {m n : Nat} {S : Schema m n}

/-! ### How many errors -/

def Judg.Clean (S : Schema m n) : Judg m n → Prop
  | .ty t _ r _ => NeverRepairs S t → ∀ x e, r.Gives x e → e = []
  | .seq ts _ _ errs (.ok (_, errs')) _ => (∀ t ∈ ts, NeverRepairs S t) → errs' = errs
  | _ => True

theorem NeverRepairs.part {t u : Ty m n} (h : NeverRepairs S t) (hu : u ∈ S.tyParts t) : NeverRepairs S u :=
  fun _ hw => h _ (Reach.trans (.step .refl hu) hw)

theorem NeverRepairs.strict {t : Ty m n} (h : NeverRepairs S t) : t.Strict := h t .refl

theorem gives_ofPair {x y : Tree n} {e e' : List (Err n)} (h : (Res.ofPair x e).Gives y e') : e' = e ∧ y = x := by
  unfold Res.ofPair at h
  cases e with
  | nil => cases h; exact ⟨rfl, rfl⟩
  | cons a e => cases h; exact ⟨rfl, rfl⟩

theorem RunX.clean {j : Judg m n} (h : Run S j) : j.Clean S := by
  induction h with
  | tok => intro _ x e hg; cases hg; rfl
  | tokRecovered hk => intro hn; have := hn.strict; simp [Ty.Strict, hk] at this
  | tokPanic => intro _ x e hg; cases hg
  | seqNil => intro _; rfl
  | @seqGive t ts v acc errs r x e v1 res v' h1 hg h2 i1 i2 =>
    match res with
    | .error _ => trivial
    | .ok (l, errs') =>
      intro hn
      have h3 := i2 (fun t ht => hn t (List.mem_cons_of_mem _ ht))
      rw [h3, i1 (hn t (List.mem_cons_self ..)) x e hg, List.append_nil]
  | seqPanic => trivial
  | @struct k f fs v l errs v1 hk _ i =>
    intro hn x e hg
    rw [(gives_ofPair hg).1]
    exact i fun t ht => hn.part (by simp only [Schema.tyParts, hk]; exact ht)
  | structPanic => intro _ x e hg; cases hg
  | tuple ht _ i =>
    intro hn x e hg
    rw [(gives_ofPair hg).1]
    exact i fun t h => hn.part (by rw [tupLike_parts ht]; exact h)
  | tuplePanic => intro _ x e hg; cases hg
  | enumSuccess => intro _ x e hg; cases hg; rfl
  | @enumRecovered k f fs i t sem v x e v1 hk hi _ ih =>
    intro hn y e hg
    cases hg
    exact ih (hn.part (by
      simp only [Schema.tyParts, hk]; exact List.mem_map.2 ⟨_, List.mem_of_getElem? hi, rfl⟩)) _ _ (.recovered _ _)
  | enumPanic => intro _ x e hg; cases hg
  | enumNone => intro _ x e hg; cases hg
  | box _ i => intro hn; exact i (hn.part (by simp [Schema.tyParts]))
  | optNone ho => intro hn; have := hn.strict; cases ho <;> exact this.elim
  | optSuccess ho => intro hn; have := hn.strict; cases ho <;> exact this.elim
  | optRecovered ho => intro hn; have := hn.strict; cases ho <;> exact this.elim
  | optPanic ho => intro hn; have := hn.strict; cases ho <;> exact this.elim
  | textSuccess => intro _ x e hg; cases hg; rfl
  | textRecovered ht _ _ i =>
    intro hn x e hg
    cases hg
    exact i (hn.part (by cases ht <;> simp [Schema.tyParts])) _ _ (.recovered _ _)
  | textPanic => intro _ x e hg; cases hg
  | plus => intro hn; exact hn.strict.elim
  | plusPanic => intro hn; exact hn.strict.elim
  | loopEmpty => intro hn; exact hn.strict.elim
  | loopList => intro hn; exact hn.strict.elim
  | split => intro hn; exact hn.strict.elim
  | splitPanic => intro hn; exact hn.strict.elim
  | punct => intro hn; exact hn.strict.elim
  | punctPanic => intro hn; exact hn.strict.elim
  | recover => intro hn; exact hn.strict.elim
  | recoverPanic => intro hn; exact hn.strict.elim
  | _ => trivial

def Judg.One (S : Schema m n) (Q : Ty m n → Prop) : Judg m n → Prop
  | .ty t _ r _ => Q t → ∀ e, r = .panic e → e.length ≤ 1
  | .seq ts _ _ errs (.error e) _ => SeqOne S Q ts → errs = [] → e.length ≤ 1
  | _ => True

theorem ofPair_not_panic {x : Tree n} {e e' : List (Err n)} (h : Res.ofPair x e = .panic e') : False := by
  unfold Res.ofPair at h
  split at h <;> cases h

theorem tupLike_one {Q : Ty m n → Prop} {t : Ty m n} {ts} (ht : TupLike t ts) (h : OneErrorStep S Q t) :
    SeqOne S Q ts := by
  cases ht <;> exact h

theorem RunX.one {Q : Ty m n → Prop} (hQ : ∀ u, Q u → OneErrorStep S Q u) {j : Judg m n} (h : Run S j) :
    j.One S Q := by
  induction h with
  | tok => intro _ e he; cases he
  | tokRecovered => intro _ e he; cases he
  | tokPanic => intro _ e he; cases he; simp
  | @seqGive t ts v acc errs r x e v1 res v' h1 hg h2 i1 i2 =>
    match res with
    | .ok _ => trivial
    | .error e' =>
      intro hs he
      cases ts with
      | nil => cases h2
      | cons u us =>
        refine i2 hs.2.2 ?_
        rw [he, h1.clean hs.2.1 x e hg]; rfl
  | @seqPanic t ts v acc errs e v1 h1 i =>
    intro hs he
    rw [he, List.nil_append]
    refine i ?_ e rfl
    cases ts with
    | nil => exact hs
    | cons => exact hs.1
  | struct => intro _ e he; exact (ofPair_not_panic he).elim
  | structPanic hk _ i =>
    intro hq e he
    cases he
    have := hQ _ hq
    simp only [OneErrorStep, hk] at this
    exact i this rfl
  | tuple => intro _ e he; exact (ofPair_not_panic he).elim
  | tuplePanic ht _ i =>
    intro hq e he
    cases he
    exact i (tupLike_one ht (hQ _ hq)) rfl
  | enumSuccess => intro _ e he; cases he
  | enumRecovered => intro _ e he; cases he
  | enumPanic hk hi _ i =>
    intro hq e he
    cases he
    have := hQ _ hq
    simp only [OneErrorStep, hk] at this
    exact i (this _ (List.mem_map.2 ⟨_, List.mem_of_getElem? hi, rfl⟩)) _ rfl
  | enumNone => intro _ e he; cases he; simp
  | box _ i => intro hq; exact i (hQ _ hq)
  | optNone => intro _ e he; cases he
  | optSuccess => intro _ e he; cases he
  | optRecovered => intro _ e he; cases he
  | optPanic => intro _ e he; cases he
  | textSuccess => intro _ e he; cases he
  | textRecovered => intro _ e he; cases he
  | textPanic ht _ i => intro hq; exact i (by cases ht <;> exact hQ _ hq)
  | plus => intro _ e he; exact (ofPair_not_panic he).elim
  | plusPanic _ i => intro hq; exact i (hQ _ hq)
  | loopEmpty => intro _ e he; exact (ofPair_not_panic he).elim
  | loopList => intro _ e he; exact (ofPair_not_panic he).elim
  | split => intro _ e he; exact (ofPair_not_panic he).elim
  | splitPanic _ i => intro hq; exact i (hQ _ hq)
  | punct => intro _ e he; exact (ofPair_not_panic he).elim
  | punctPanic _ i => intro hq; exact i (hQ _ hq)
  | recover => intro hq; exact (hQ _ hq).elim
  | recoverPanic => intro hq; exact (hQ _ hq).elim
  | _ => trivial

theorem OneError.length {t : Ty m n} (h : OneError S t) {v v' : View n} {e}
    (hr : Run S (.ty t v (.panic e) v')) : e.length ≤ 1 := by
  obtain ⟨Q, hq, hQ⟩ := h
  exact hr.one hQ hq e rfl

/-! ### Errors keep their places -/

def los (l : List (Err n)) : List Nat := l.map (·.span.lo)

theorem los_append (l l' : List (Err n)) : los (l ++ l') = los l ++ los l' := List.map_append ..

theorem mem_los_left {x : Nat} {l l' : List (Err n)} (h : x ∈ los l) : x ∈ los (l ++ l') := by
  rw [los_append]; exact List.mem_append_left _ h

theorem mem_los_right {x : Nat} {l l' : List (Err n)} (h : x ∈ los l') : x ∈ los (l ++ l') := by
  rw [los_append]; exact List.mem_append_right _ h

theorem los_merge {x : Nat} {p : Option (Err n)} {e : List (Err n)} (h : x ∈ los p.toList) :
    x ∈ los (mergePanic p e).toList := by
  unfold mergePanic
  cases e.getLast? with
  | none => exact h
  | some a =>
    cases p with
    | none => cases h
    | some p => exact h

theorem los_note {x : Nat} {v : View n} {p p' : Option (Err n)} (hn : Note v p p') (h : x ∈ los p.toList) :
    x ∈ los p'.toList := by
  cases hn with
  | new => cases h
  | ext => exact h

def Judg.Keep : Judg m n → Prop
  | .seq _ _ _ errs (.ok (_, errs')) _ => ∀ x ∈ los errs, x ∈ los errs'
  | .seq _ _ _ errs (.error e) _ => ∀ x ∈ los errs, x ∈ los e
  | .iter _ _ _ errs _ _ errs' _ _ => ∀ x ∈ los errs, x ∈ los errs'
  | .loop _ _ _ errs _ errs' _ => ∀ x ∈ los errs, x ∈ los errs'
  | .inner _ _ _ a panic _ a' _ => ∀ x ∈ los (a.errs ++ panic.toList), x ∈ los a'.errs
  | .outer _ _ _ a a' _ => ∀ x ∈ los a.errs, x ∈ los a'.errs
  | .pinner _ _ a panic _ a' _ => ∀ x ∈ los (a.errs ++ panic.toList), x ∈ los a'.errs
  | .pouter _ _ _ a a' _ => ∀ x ∈ los a.errs, x ∈ los a'.errs
  | .tail _ _ errs panic _ errs' panic' _ =>
    ∀ x ∈ los (errs ++ panic.toList), x ∈ los (errs' ++ panic'.toList)
  | _ => True

theorem los_cases {x : Nat} {l l' : List (Err n)} (h : x ∈ los (l ++ l')) : x ∈ los l ∨ x ∈ los l' := by
  rw [los_append] at h; exact List.mem_append.1 h

theorem RunX.keep {j : Judg m n} (h : Run S j) : j.Keep := by
  induction h with
  | seqNil => intro x hx; exact hx
  | @seqGive t ts v acc errs r x e v1 res v' h1 hg h2 i1 i2 =>
    match res with
    | .ok (l, errs') => exact fun x hx => i2 x (mem_los_left hx)
    | .error e' => exact fun x hx => i2 x (mem_los_left hx)
  | seqPanic => intro x hx; exact mem_los_left hx
  | iterStop => intro x hx; exact hx
  | iterGive _ _ _ _ _ i2 => intro x hx; exact i2 x (mem_los_left hx)
  | iterPanic => intro x hx; exact mem_los_left hx
  | loopStop => intro x hx; exact hx
  | loopSkip _ _ i => intro x hx; exact i x (mem_los_left hx)
  | loopGive _ _ _ _ i2 => intro x hx; exact i2 x (mem_los_left hx)
  | loopPanic _ _ _ i2 => intro x hx; exact i2 x (mem_los_left hx)
  | loopGiveStuck => intro x hx; exact mem_los_left (mem_los_left hx)
  | loopPanicStuck => intro x hx; exact mem_los_left (mem_los_left hx)
  | outerStop => intro x hx; exact hx
  | outerPanic => intro x hx; exact mem_los_left hx
  | outerGo _ _ _ _ _ _ i2 i3 => intro x hx; exact i3 x (i2 x (mem_los_left (mem_los_left hx)))
  | outerBreak _ _ _ _ _ i2 => intro x hx; exact i2 x (mem_los_left (mem_los_left hx))
  | innerGive =>
    intro x hx
    rcases los_cases hx with hx | hx
    · exact mem_los_left (mem_los_left hx)
    · exact mem_los_right hx
  | innerFailLeave =>
    intro x hx
    rcases los_cases hx with hx | hx
    · exact mem_los_left hx
    · exact mem_los_right (los_merge hx)
  | innerFailGo _ _ _ i2 =>
    intro x hx
    rcases los_cases hx with hx | hx
    · exact i2 x (mem_los_left hx)
    · exact i2 x (mem_los_right (los_merge hx))
  | innerNoteLeave hn =>
    intro x hx
    rcases los_cases hx with hx | hx
    · exact mem_los_left hx
    · exact mem_los_right (los_note hn hx)
  | innerNoteGo hn _ i2 =>
    intro x hx
    rcases los_cases hx with hx | hx
    · exact i2 x (mem_los_left hx)
    · exact i2 x (mem_los_right (los_note hn hx))
  | pouterStop => intro x hx; exact hx
  | pouterPanic => intro x hx; exact mem_los_left hx
  | pouterGo _ _ _ _ _ _ i2 i3 => intro x hx; exact i3 x (i2 x (mem_los_left (mem_los_left hx)))
  | pouterBreak _ _ _ _ _ i2 => intro x hx; exact i2 x (mem_los_left (mem_los_left hx))
  | pinnerGive => intro x hx; exact mem_los_left hx
  | pinnerStop => intro x hx; exact hx
  | pinnerFailLeave =>
    intro x hx
    rcases los_cases hx with hx | hx
    · exact mem_los_left hx
    · exact mem_los_right (los_merge hx)
  | pinnerFailGo _ _ _ i2 =>
    intro x hx
    rcases los_cases hx with hx | hx
    · exact i2 x (mem_los_left hx)
    · exact i2 x (mem_los_right (los_merge hx))
  | pinnerNoteLeave hn =>
    intro x hx
    rcases los_cases hx with hx | hx
    · exact mem_los_left hx
    · exact mem_los_right (los_note hn hx)
  | pinnerNoteGo hn _ i2 =>
    intro x hx
    rcases los_cases hx with hx | hx
    · exact i2 x (mem_los_left hx)
    · exact i2 x (mem_los_right (los_note hn hx))
  | tailGive =>
    intro x hx
    rcases los_cases hx with hx | hx
    · exact mem_los_left (mem_los_left hx)
    · exact mem_los_right hx
  | tailPanic =>
    intro x hx
    rcases los_cases hx with hx | hx
    · exact mem_los_left hx
    · exact mem_los_right (los_merge hx)
  | tailNote h => cases h
  | tailStop => intro x hx; exact hx
  | tailFail _ _ hn _ _ i2 =>
    intro x hx
    rcases los_cases hx with hx | hx
    · exact i2 x (mem_los_left hx)
    · exact i2 x (mem_los_right (los_note hn (los_merge hx)))
  | tailSkip _ hn _ i2 =>
    intro x hx
    rcases los_cases hx with hx | hx
    · exact i2 x (mem_los_left hx)
    · exact i2 x (mem_los_right (los_note hn hx))
  | _ => trivial

/-! ### Prefixes -/

section
variable {source : Str}

/-- Without errors: the tokens passed are derived; at the end of input maybe with something added. -/
def Pref (Q : List (TokenSrc n) → Prop) (source : Str) (rest rest' : List (Token n)) : Prop :=
  ∃ ts ws, rest = ts ++ rest' ∧ Q (ts.map (Token.word source) ++ ws) ∧ (rest' ≠ [] → ws = [])

/-- With errors: the tokens before the first error begin something derived. -/
def Viab (Q : List (TokenSrc n) → Prop) (source : Str) (rest : List (Token n)) (errs : List (Err n))
    (rest' : List (Token n)) : Prop :=
  ∃ ts us ws, rest = ts ++ (us ++ rest') ∧ Late (suffixPos source (us ++ rest')) errs ∧
    suffixPos source (us ++ rest') ∈ los errs ∧ Q (ts.map (Token.word source) ++ ws)

def Fine (Q : List (TokenSrc n) → Prop) (source : Str) (rest : List (Token n)) (errs : List (Err n))
    (rest' : List (Token n)) : Prop :=
  (errs = [] → Pref Q source rest rest') ∧ (errs ≠ [] → Viab Q source rest errs rest')

variable {Q Q1 Q2 : List (TokenSrc n) → Prop} {rest rest1 rest2 : List (Token n)} {errs : List (Err n)}

theorem Pref.append (h : ∀ w1 w2, Q1 w1 → Q2 w2 → Q (w1 ++ w2)) (h1 : Pref Q1 source rest rest1)
    (h2 : Pref Q2 source rest1 rest2) : Pref Q source rest rest2 := by
  obtain ⟨ts, ws, e1, q1, c1⟩ := h1
  obtain ⟨ts', ws', e2, q2, c2⟩ := h2
  by_cases hr : rest1 = []
  · subst hr
    obtain ⟨rfl, rfl⟩ := List.append_eq_nil_iff.1 e2.symm
    refine ⟨ts, ws ++ ws', e1, ?_, fun h => absurd rfl h⟩
    rw [← List.append_assoc]
    exact h _ _ q1 q2
  · have hws := c1 hr
    subst hws
    refine ⟨ts ++ ts', ws', by rw [e1, e2, List.append_assoc], ?_, c2⟩
    rw [List.map_append, List.append_assoc]
    exact h _ _ (by simpa using q1) q2

theorem Pref.viab (h : ∀ w1 w2, Q1 w1 → Q2 w2 → Q (w1 ++ w2)) (h1 : Pref Q1 source rest rest1)
    (h2 : Viab Q2 source rest1 errs rest2) : Viab Q source rest errs rest2 := by
  obtain ⟨ts, ws, e1, q1, c1⟩ := h1
  obtain ⟨ts', us, ws', e2, hl, hm, q2⟩ := h2
  by_cases hr : rest1 = []
  · subst hr
    obtain ⟨rfl, h3⟩ := List.append_eq_nil_iff.1 e2.symm
    refine ⟨ts, us, ws ++ ws', by rw [e1, h3], hl, hm, ?_⟩
    rw [← List.append_assoc]
    exact h _ _ q1 q2
  · have hws := c1 hr
    subst hws
    refine ⟨ts ++ ts', us, ws', by rw [e1, e2, List.append_assoc], hl, hm, ?_⟩
    rw [List.map_append, List.append_assoc]
    exact h _ _ (by simpa using q1) q2

theorem Pref.fine (h : ∀ w1 w2, Q1 w1 → Q2 w2 → Q (w1 ++ w2)) (h1 : Pref Q1 source rest rest1)
    (h2 : Fine Q2 source rest1 errs rest2) : Fine Q source rest errs rest2 :=
  ⟨fun he => h1.append h (h2.1 he), fun he => h1.viab h (h2.2 he)⟩

theorem Pref.mono (h : ∀ w, Q1 w → Q w) (h1 : Pref Q1 source rest rest1) : Pref Q source rest rest1 := by
  obtain ⟨ts, ws, e1, q1, c1⟩ := h1
  exact ⟨ts, ws, e1, h _ q1, c1⟩

theorem Viab.mono (h : ∀ w, Q1 w → ∃ w', Q (w ++ w')) (h1 : Viab Q1 source rest errs rest1) :
    Viab Q source rest errs rest1 := by
  obtain ⟨ts, us, ws, e1, hl, hm, q1⟩ := h1
  obtain ⟨w', q⟩ := h _ q1
  exact ⟨ts, us, ws ++ w', e1, hl, hm, by rw [← List.append_assoc]; exact q⟩

theorem Fine.mono (h : ∀ w, Q1 w → Q w) (h1 : Fine Q1 source rest errs rest1) : Fine Q source rest errs rest1 :=
  ⟨fun he => (h1.1 he).mono h, fun he => (h1.2 he).mono fun w hw => ⟨[], by rw [List.append_nil]; exact h w hw⟩⟩

/-- An error right here. -/
theorem Viab.here {v : View n} (hv : Ready source v) {e : Err n} (he : e.span.lo = v.cur.lo) {w} (hq : Q w) :
    Viab Q source v.rest [e] v.rest := by
  have hp : suffixPos source v.rest = v.cur.lo := by
    unfold suffixPos View.cur
    rw [hv.inSource.src]
  refine ⟨[], [], w, rfl, ?_, ?_, hq⟩
  · intro e' he'
    rw [List.mem_singleton.1 he', List.nil_append, hp, he]; exact Nat.le_refl _
  · simp [los, he, hp]

theorem suffixPos_le {v : View n} (hv : Ready source v) {ts us : List (Token n)}
    (h : v.rest = ts ++ (us ++ rest)) : suffixPos source (us ++ rest) ≤ suffixPos source rest := by
  let vm : View n := ⟨source, v.cells ++ ts.map Cell.ofToken, us ++ rest⟩
  let vn : View n := ⟨source, v.cells ++ ts.map Cell.ofToken ++ us.map Cell.ofToken, rest⟩
  have h1 : Adv v vm := ⟨hv.inSource.src.symm, ts, h, by simp [vm, Cell.ofToken, Function.comp_def]⟩
  have h2 : Adv vm vn := ⟨rfl, us, rfl, by simp [vm, vn, Cell.ofToken, Function.comp_def]⟩
  have h3 := (hv.adv h1).cur_le h2
  exact h3

/-- After the first error, later ones do not matter. -/
theorem Viab.later {v v1 v' : View n} (hv : Ready source v) (h1 : Viab Q1 source v.rest errs v1.rest)
    (ha : Adv v v1) (ha' : Adv v1 v') {errs' : List (Err n)}
    (hl : ∀ B, Past B source v1 → Late B errs → Late B errs') (hk : ∀ x ∈ los errs, x ∈ los errs')
    (h : ∀ w, Q1 w → ∃ w', Q (w ++ w')) : Viab Q source v.rest errs' v'.rest := by
  obtain ⟨ts, us, ws, e1, hl1, hm, q1⟩ := h1.mono h
  obtain ⟨us', e2, -⟩ := ha'.cons
  refine ⟨ts, us ++ us', ws, by rw [e1, e2, List.append_assoc], ?_, ?_, q1⟩
  · rw [List.append_assoc, ← e2]
    refine hl _ ⟨hv.adv ha, ?_⟩ hl1
    have := suffixPos_le hv e1
    rw [show v1.cur.lo = suffixPos source v1.rest by
      unfold suffixPos View.cur; rw [(hv.adv ha).inSource.src]]
    exact this
  · rw [List.append_assoc, ← e2]
    exact hk _ hm

end

/-! ### The induction -/

/-- Derivation of a sequence. -/
def DerSeq (G : Grammar (PId m n) n) (l : List (PId m n)) (w : List (TokenSrc n)) : Prop :=
  ∃ ws, DerAll G l ws ∧ ws.flatten = w

theorem DerSeq.nil {G : Grammar (PId m n) n} : DerSeq G [] [] := ⟨[], .nil, rfl⟩

theorem DerSeq.cons {G : Grammar (PId m n) n} {i l w w'} (h : Der G i w) (h' : DerSeq G l w') :
    DerSeq G (i :: l) (w ++ w') := by
  obtain ⟨ws, h1, rfl⟩ := h'
  exact ⟨w :: ws, .cons h h1, rfl⟩

theorem DerSeq.append {G : Grammar (PId m n) n} {l l' w w'} (h : DerSeq G l w) (h' : DerSeq G l' w') :
    DerSeq G (l ++ l') (w ++ w') := by
  obtain ⟨ws, h1, rfl⟩ := h
  induction h1 with
  | nil => exact h'
  | cons h1 _ ih =>
    rw [List.flatten_cons, List.append_assoc]
    exact .cons h1 ih

/-- Zero or more of `i`. -/
def Many (G : Grammar (PId m n) n) (i : PId m n) (w : List (TokenSrc n)) : Prop :=
  ∃ k, DerSeq G (List.replicate k i) w

/-- Zero or more of `i j`. -/
def Pairs (G : Grammar (PId m n) n) (i j : PId m n) (w : List (TokenSrc n)) : Prop :=
  ∃ k, DerSeq G (alternate i j (k + k)) w

/-- Zero or more of `i j`, or the same and `i`. -/
def Alts (G : Grammar (PId m n) n) (i j : PId m n) (w : List (TokenSrc n)) : Prop :=
  ∃ k, DerSeq G (alternate i j k) w

theorem Many.nil {G : Grammar (PId m n) n} {i : PId m n} : Many G i [] := ⟨0, .nil⟩
theorem Many.cons {G : Grammar (PId m n) n} {i : PId m n} {w w'} (h : Der G i w) (h' : Many G i w') :
    Many G i (w ++ w') := by
  obtain ⟨k, h'⟩ := h'
  exact ⟨k + 1, .cons h h'⟩

theorem Pairs.nil {G : Grammar (PId m n) n} {i j : PId m n} : Pairs G i j [] := ⟨0, .nil⟩
theorem Pairs.cons {G : Grammar (PId m n) n} {i j : PId m n} {w w' w''} (h : Der G i w) (h' : Der G j w')
    (h'' : Pairs G i j w'') : Pairs G i j (w ++ (w' ++ w'')) := by
  obtain ⟨k, h''⟩ := h''
  refine ⟨k + 1, ?_⟩
  rw [show k + 1 + (k + 1) = k + k + 1 + 1 by omega]
  exact .cons h (.cons h' h'')

theorem Alts.nil {G : Grammar (PId m n) n} {i j : PId m n} : Alts G i j [] := ⟨0, .nil⟩
theorem Alts.one {G : Grammar (PId m n) n} {i j : PId m n} {w} (h : Der G i w) : Alts G i j w :=
  ⟨1, by have := DerSeq.cons h (.nil (G := G)); rw [List.append_nil] at this; exact this⟩
theorem Alts.cons {G : Grammar (PId m n) n} {i j : PId m n} {w w' w''} (h : Der G i w) (h' : Der G j w')
    (h'' : Alts G i j w'') : Alts G i j (w ++ (w' ++ w'')) := by
  obtain ⟨k, h''⟩ := h''
  exact ⟨k + 2, .cons h (.cons h' h'')⟩

structure VEnv (S : Schema m n) (source : Str) (root : Ty m n) (G : Grammar (PId m n) n) : Prop where
  hG : S.IsGrammar root G
  prod : ∀ i, PReach S root i → ∃ w, Der G i w
  loud : Loud S root
  keeps : KeepsErrors S root

variable {source : Str} {root : Ty m n} {G : Grammar (PId m n) n}

/-- What holds for runs that begin without errors. -/
def Judg.Viable (S : Schema m n) (source : Str) (root : Ty m n) (G : Grammar (PId m n) n) : Judg m n → Prop
  | .ty t v r v' => Reach S.tyParts root t →
      (∀ x e, r.Gives x e → Fine (Der G t.pid) source v.rest e v'.rest) ∧
      (∀ e, r = .panic e → e ≠ [] → Viab (Der G t.pid) source v.rest e v'.rest)
  | .seq ts v _ errs (.ok (_, errs')) v' => (∀ t ∈ ts, Reach S.tyParts root t) → errs = [] →
      Fine (DerSeq G (ts.map Ty.pid)) source v.rest errs' v'.rest
  | .seq ts v _ errs (.error e) v' => (∀ t ∈ ts, Reach S.tyParts root t) → errs = [] → e ≠ [] →
      Viab (DerSeq G (ts.map Ty.pid)) source v.rest e v'.rest
  | .iter t v _ errs _ _ errs' _ v' => Reach S.tyParts root t → ¬ Silent S t → errs = [] →
      Fine (Many G t.pid) source v.rest errs' v'.rest
  | .loop t v _ errs _ errs' v' => Reach S.tyParts root t → ¬ Silent S t → errs = [] →
      Fine (Many G t.pid) source v.rest errs' v'.rest ∧ (errs' = [] → v'.rest = [])
  | .inner t _ v a panic _ a' v' => Reach S.tyParts root t → ¬ Silent S t → OneError S t → a.errs = [] →
      panic = none → Fine (Der G t.pid) source v.rest a'.errs v'.rest
  | .outer t p v a a' v' => Reach S.tyParts root t → ¬ Silent S t → OneError S t → Reach S.tyParts root p →
      ¬ Silent S p → a.errs = [] → Fine (Pairs G p.pid t.pid) source v.rest a'.errs v'.rest
  | .pinner t v a panic go a' v' => Reach S.tyParts root t → ¬ Silent S t → OneError S t → a.errs = [] →
      panic = none → (a'.errs = [] → go = true ∧ Pref (Der G t.pid) source v.rest v'.rest ∨
          go = false ∧ v'.rest = v.rest) ∧
        (a'.errs ≠ [] → Viab (Der G t.pid) source v.rest a'.errs v'.rest)
  | .pouter t p v a a' v' => Reach S.tyParts root t → ¬ Silent S t → OneError S t → Reach S.tyParts root p →
      ¬ Silent S p → a.errs = [] → Fine (Alts G p.pid t.pid) source v.rest a'.errs v'.rest
  | .head t v h v' => Reach S.tyParts root t → ¬ Silent S t → OneError S t →
      Fine (Der G t.pid) source v.rest (h.errs ++ h.panic.toList) v'.rest
  | .tail r v errs panic x errs' panic' v' => Reach S.tyParts root r → OneError S r → errs = [] →
      panic = none → (x.isSome = true → Fine (Der G r.pid) source v.rest (errs' ++ panic'.toList) v'.rest) ∧
        (errs' ++ panic'.toList ≠ [] → Viab (Der G r.pid) source v.rest (errs' ++ panic'.toList) v'.rest)

section
variable (E : VEnv S source root G)
include E

theorem VEnv.der {t : Ty m n} (h : Reach S.tyParts root t) : ∃ w, Der G t.pid w := E.prod _ (reach_pid h)

theorem VEnv.derSeq {l : List (Ty m n)} (h : ∀ t ∈ l, Reach S.tyParts root t) :
    ∃ w, DerSeq G (l.map Ty.pid) w := by
  induction l with
  | nil => exact ⟨[], .nil⟩
  | cons t l ih =>
    obtain ⟨w, hw⟩ := E.der (h t (List.mem_cons_self ..))
    obtain ⟨w', hw'⟩ := ih fun t ht => h t (List.mem_cons_of_mem _ ht)
    exact ⟨_, .cons hw hw'⟩

theorem VEnv.mem {t : Ty m n} (h : Reach S.tyParts root t) : (t.pid, S.rule t.pid) ∈ G :=
  IsGrammar.mem E.hG (reach_pid h)

theorem VEnv.seq {t : Ty m n} {l : List (PId m n)} (h : Reach S.tyParts root t) (hr : S.rule t.pid = .seq l) {w}
    (hw : DerSeq G l w) : Der G t.pid w := by
  obtain ⟨ws, h1, rfl⟩ := hw
  have := E.mem h
  rw [hr] at this
  exact Der.seq this h1

theorem VEnv.plus {t : Ty m n} (h : Reach S.tyParts root (.plus t)) {w w'} (hw : Der G t.pid w)
    (hm : Many G t.pid w') : Der G (Ty.plus t).pid (w ++ w') := by
  obtain ⟨k, ws, h1, rfl⟩ := hm
  exact der_plus E.hG (reach_pid h) k (w :: ws) (.cons hw h1)

theorem VEnv.split {t p : Ty m n} (h : Reach S.tyParts root (.split t p)) {w w'} (hw : Der G t.pid w)
    (hm : Pairs G p.pid t.pid w') : Der G (Ty.split t p).pid (w ++ w') := by
  obtain ⟨k, ws, h1, rfl⟩ := hm
  refine der_split E.hG (reach_pid h) k (w :: ws) ?_
  rw [show k + 1 + k = k + k + 1 by omega]
  exact .cons hw h1

theorem VEnv.punct {t p : Ty m n} (h : Reach S.tyParts root (.punct t p)) {w w'} (hw : Der G t.pid w)
    (hm : Alts G p.pid t.pid w') : Der G (Ty.punct t p).pid (w ++ w') := by
  obtain ⟨k, ws, h1, rfl⟩ := hm
  exact der_punct E.hG (reach_pid h) k (w :: ws) (.cons hw h1)

theorem VEnv.loop {t : Ty m n} (h : Reach S.tyParts root (.loop t)) {w} (hm : Many G t.pid w) :
    ∃ w', Der G (Ty.loop t).pid (w ++ w') := by
  obtain ⟨k, hm⟩ := hm
  obtain ⟨w', hw'⟩ := E.der (t := t) (.step h (by simp [Schema.tyParts]))
  refine ⟨w', ?_⟩
  have := hm.append (.cons hw' .nil)
  rw [List.append_nil, ← List.replicate_succ'] at this
  obtain ⟨ws, h1, h2⟩ := this
  rw [← h2]
  exact der_plus E.hG (reach_pid (t := .loop t) h) k ws h1

theorem VEnv.optSome {t' t : Ty m n} {mk} (ho : OptLike t' t mk) (h : Reach S.tyParts root t') {w}
    (hw : Der G t.pid w) : Der G t'.pid w := by
  have := reach_pid h
  cases ho <;> exact der_opt_some this E.hG hw

theorem VEnv.optNone {t' t : Ty m n} {mk} (ho : OptLike t' t mk) (h : Reach S.tyParts root t') :
    Der G t'.pid [] := by
  have := reach_pid h
  cases ho <;> exact der_opt_none this E.hG

theorem VEnv.panic {t : Ty m n} {v v' : View n} {e} (h : Run S (.ty t v (.panic e) v')) (hv : Ready source v)
    (ht : Reach S.tyParts root t) (hs : ¬ Silent S t) : e ≠ [] :=
  ((h.sound (Sure.of (.inl E.loud)) hv.sorted ht).panic e rfl).resolve_right fun h => hs h.1

end

theorem OneError.loud {t : Ty m n} (h : OneError S t) : ¬ Silent S t := by
  obtain ⟨Q, hq, hQ⟩ := h
  have key : ∀ l : List (Ty m n), SeqOne S Q l → ∀ u ∈ l, Q u := by
    intro l
    induction l with
    | nil => intro _ u hu; cases hu
    | cons t l ih =>
      intro hl u hu
      cases l with
      | nil => rw [List.mem_singleton.1 hu]; exact hl
      | cons a l =>
        rcases List.mem_cons.1 hu with rfl | hu
        · exact hl.1
        · exact ih hl.2.2 u hu
  intro hs
  induction hs with
  | recover => exact hQ _ hq
  | box _ ih => exact ih (hQ _ hq)
  | quote _ ih => exact ih (hQ _ hq)
  | parse _ ih => exact ih (hQ _ hq)
  | plus _ ih => exact ih (hQ _ hq)
  | split _ ih => exact ih (hQ _ hq)
  | punct _ ih => exact ih (hQ _ hq)
  | tuple ht hu _ ih =>
    refine ih (key _ ?_ _ hu)
    have := hQ _ hq
    rcases ht with ⟨_, _, rfl, rfl⟩ | ⟨_, _, _, rfl, rfl⟩ | ⟨_, _, _, _, rfl, rfl⟩ | ⟨_, _, _, _, _, rfl, rfl⟩ <;>
      exact this
  | @user k u hu _ ih =>
    refine ih ?_
    have h2 := hQ _ hq
    cases hk : S k with
    | struct f fs =>
      simp only [Schema.tyParts, hk] at hu
      simp only [OneErrorStep, hk] at h2
      exact key _ h2 _ hu
    | enum f fs =>
      simp only [Schema.tyParts, hk] at hu
      simp only [OneErrorStep, hk] at h2
      exact h2 _ hu

theorem last_one {e : List (Err n)} (h : e.length ≤ 1) : e.getLast?.toList = e := by
  match e, h with
  | [], _ => rfl
  | [a], _ => rfl

theorem merge_one {e : List (Err n)} (h : e.length ≤ 1) : (mergePanic none e).toList = e := by
  match e, h with
  | [], _ => rfl
  | [a], _ => rfl

section
variable {Q Q1 Q2 : List (TokenSrc n) → Prop} {e errs' : List (Err n)} {v v1 v' : View n}

theorem los_ne {l : List (Err n)} (h : ∀ x ∈ los e, x ∈ los l) (he : e ≠ []) : l ≠ [] := by
  rintro rfl
  cases e with
  | nil => exact he rfl
  | cons a e => have := h a.span.lo (by simp [los]); cases this

theorem viab_step (hv : Ready source v) (ha : Adv v v1) (ha' : Adv v1 v') (h1 : Fine Q1 source v.rest e v1.rest)
    (h2 : e = [] → Viab Q2 source v1.rest errs' v'.rest) (hl : ∀ B, Past B source v1 → Late B e → Late B errs')
    (hk : ∀ x ∈ los e, x ∈ los errs') (hQ : ∀ w1 w2, Q1 w1 → Q2 w2 → Q (w1 ++ w2)) (hex : ∃ w, Q2 w) :
    Viab Q source v.rest errs' v'.rest := by
  obtain ⟨w2, hw2⟩ := hex
  by_cases he : e = []
  · exact (h1.1 he).viab hQ (h2 he)
  · exact (h1.2 he).later hv ha ha' hl hk fun w hw => ⟨w2, hQ _ _ hw hw2⟩

theorem fine_step (hv : Ready source v) (ha : Adv v v1) (ha' : Adv v1 v') (h1 : Fine Q1 source v.rest e v1.rest)
    (h2 : e = [] → Fine Q2 source v1.rest errs' v'.rest) (hl : ∀ B, Past B source v1 → Late B e → Late B errs')
    (hk : ∀ x ∈ los e, x ∈ los errs') (hQ : ∀ w1 w2, Q1 w1 → Q2 w2 → Q (w1 ++ w2)) (hex : ∃ w, Q2 w) :
    Fine Q source v.rest errs' v'.rest := by
  refine ⟨fun he' => ?_, fun he' => viab_step hv ha ha' h1 (fun he => (h2 he).2 he') hl hk hQ hex⟩
  have he : e = [] := by
    refine Classical.byContradiction fun he => los_ne hk he he'
  exact (h1.1 he).append hQ ((h2 he).1 he')

theorem Fine.nil {rest : List (Token n)} (h : Q []) : Fine Q source rest [] rest :=
  ⟨fun _ => ⟨[], [], rfl, h, fun _ => rfl⟩, fun he => absurd rfl he⟩

theorem Viab.fine {rest rest' : List (Token n)} (h : Viab Q source rest e rest') : Fine Q source rest e rest' := by
  refine ⟨fun he => ?_, fun _ => h⟩
  obtain ⟨ts, us, ws, -, -, hm, -⟩ := h
  rw [he] at hm; cases hm

theorem Viab.ne {rest rest' : List (Token n)} (h : Viab Q source rest e rest') : e ≠ [] := by
  rintro rfl
  obtain ⟨ts, us, ws, -, -, hm, -⟩ := h
  cases hm

end

theorem RunX.viable (E : VEnv S source root G) {j : Judg m n} (h : Run S j) :
    Ready source j.pre → j.Viable S source root G := by
  induction h with
  | @tok i k v t l hr hty hlit =>
    intro hv ht
    refine ⟨fun x e hg => ?_, fun e he => by cases he⟩
    cases hg
    refine ⟨fun _ => ⟨[t], [], ?_, ?_, fun _ => rfl⟩, fun h => absurd rfl h⟩
    · simp [View.skip, View.consume, hr]
    · refine Der.term (E.mem ht) ⟨hty, fun lit hk => ?_⟩
      have h3 := get?_textOf (hlit lit hk)
      rw [show v.source = source from hv.inSource.src] at h3
      exact h3.symm
  | tokRecovered =>
    intro hv ht
    obtain ⟨w, hw⟩ := E.der ht
    refine ⟨fun x e hg => ?_, fun e he => by cases he⟩
    cases hg
    exact (Viab.here hv rfl hw).fine
  | tokPanic =>
    intro hv ht
    obtain ⟨w, hw⟩ := E.der ht
    refine ⟨fun x e hg => (by cases hg), fun e he _ => ?_⟩
    cases he
    exact Viab.here hv rfl hw
  | seqNil =>
    intro _ _ he
    rw [he]
    exact .nil .nil
  | @seqGive t ts v acc errs r x e v1 res v' h1 hg h2 i1 i2 =>
    intro hv
    have ha1 : Adv v v1 := h1.adv
    have ha2 : Adv v1 v' := h2.adv
    have i2 := i2 (hv.adv ha1)
    have hlate := fun B (hp : Past B source v1) => h2.late (B := B) hp
    have hkeep := h2.keep
    match res with
    | .ok (l, errs') =>
      intro ht he
      subst he
      have ht' := fun t ht' => ht t (List.mem_cons_of_mem _ ht')
      exact fine_step hv ha1 ha2 ((i1 hv (ht t (List.mem_cons_self ..))).1 x e hg) (fun he => i2 ht' he) hlate hkeep
        (fun _ _ => .cons) (E.derSeq ht')
    | .error e' =>
      intro ht he hne
      subst he
      have ht' := fun t ht' => ht t (List.mem_cons_of_mem _ ht')
      exact viab_step hv ha1 ha2 ((i1 hv (ht t (List.mem_cons_self ..))).1 x e hg) (fun he => i2 ht' he hne) hlate
        hkeep (fun _ _ => .cons) (E.derSeq ht')
  | @seqPanic t ts v acc errs e v1 h1 i1 =>
    intro hv ht he hne
    subst he
    obtain ⟨w', hw'⟩ := E.derSeq fun t ht' => ht t (List.mem_cons_of_mem _ ht')
    exact ((i1 hv (ht t (List.mem_cons_self ..))).2 e rfl hne).mono fun w hw => ⟨w', .cons hw hw'⟩
  | @struct k f fs v l errs v1 hk h1 i1 =>
    intro hv ht
    have hrule : S.rule (.user k) = .seq (((f :: fs).map (·.1)).map Ty.pid) := by
      simp only [Schema.rule, hk, List.map_map]; rfl
    refine ⟨fun x e hg => ?_, fun e he => (ofPair_not_panic he).elim⟩
    rw [(gives_ofPair hg).1, applyAll_rest]
    refine (i1 hv (fun t' ht' => .step ht (by simp only [Schema.tyParts, hk]; exact ht')) rfl).mono fun w hw => ?_
    exact E.seq ht hrule hw
  | @structPanic k f fs v e v1 hk h1 i1 =>
    intro hv ht
    have hrule : S.rule (.user k) = .seq (((f :: fs).map (·.1)).map Ty.pid) := by
      simp only [Schema.rule, hk, List.map_map]; rfl
    refine ⟨fun x e hg => (by cases hg), fun e he hne => ?_⟩
    cases he
    refine (i1 hv (fun t' ht' => .step ht (by simp only [Schema.tyParts, hk]; exact ht')) rfl hne).mono
      fun w hw => ⟨[], ?_⟩
    rw [List.append_nil]
    exact E.seq ht hrule hw
  | @tuple t ts v l errs v1 htu h1 i1 =>
    intro hv ht
    have hrule : S.rule t.pid = .seq (ts.map Ty.pid) := tuple_pid (isTuple_of htu)
    refine ⟨fun x e hg => ?_, fun e he => (ofPair_not_panic he).elim⟩
    rw [(gives_ofPair hg).1]
    exact (i1 hv (fun t' ht' => .step ht (by rw [tupLike_parts htu]; exact ht')) rfl).mono fun w hw =>
      E.seq ht hrule hw
  | @tuplePanic t ts v e v1 htu h1 i1 =>
    intro hv ht
    have hrule : S.rule t.pid = .seq (ts.map Ty.pid) := tuple_pid (isTuple_of htu)
    refine ⟨fun x e hg => (by cases hg), fun e he hne => ?_⟩
    cases he
    refine (i1 hv (fun t' ht' => .step ht (by rw [tupLike_parts htu]; exact ht')) rfl hne).mono
      fun w hw => ⟨[], ?_⟩
    rw [List.append_nil]
    exact E.seq ht hrule hw
  | @enumSuccess k f fs i t sem v x v1 hk hi h1 i1 =>
    intro hv ht
    have hrule : S.rule (.user k) = .alt ((f :: fs).map fun f => f.1.pid) := by simp only [Schema.rule, hk]
    have hm : t.pid ∈ (f :: fs).map fun f => f.1.pid := List.mem_map.2 ⟨_, List.mem_of_getElem? hi, rfl⟩
    have htt : Reach S.tyParts root t := .step ht (by
      simp only [Schema.tyParts, hk]; exact List.mem_map.2 ⟨_, List.mem_of_getElem? hi, rfl⟩)
    have hmem := E.mem ht
    rw [show (Ty.user k : Ty m n).pid = PId.user k from rfl, hrule] at hmem
    refine ⟨fun y e hg => ?_, fun e he => by cases he⟩
    cases hg
    rw [applyAll_rest]
    exact ((i1 hv htt).1 x [] (.success x)).mono fun w hw => Der.alt hmem hm hw
  | @enumRecovered k f fs i t sem v x e v1 hk hi h1 i1 =>
    intro hv ht
    have hrule : S.rule (.user k) = .alt ((f :: fs).map fun f => f.1.pid) := by simp only [Schema.rule, hk]
    have hm : t.pid ∈ (f :: fs).map fun f => f.1.pid := List.mem_map.2 ⟨_, List.mem_of_getElem? hi, rfl⟩
    have htt : Reach S.tyParts root t := .step ht (by
      simp only [Schema.tyParts, hk]; exact List.mem_map.2 ⟨_, List.mem_of_getElem? hi, rfl⟩)
    have hmem := E.mem ht
    rw [show (Ty.user k : Ty m n).pid = PId.user k from rfl, hrule] at hmem
    refine ⟨fun y e hg => ?_, fun e he => by cases he⟩
    cases hg
    rw [applyAll_rest]
    exact ((i1 hv htt).1 x e (.recovered x e)).mono fun w hw => Der.alt hmem hm hw
  | @enumPanic k f fs i t sem v e v1 hk hi h1 i1 =>
    intro hv ht
    have hrule : S.rule (.user k) = .alt ((f :: fs).map fun f => f.1.pid) := by simp only [Schema.rule, hk]
    have hm : t.pid ∈ (f :: fs).map fun f => f.1.pid := List.mem_map.2 ⟨_, List.mem_of_getElem? hi, rfl⟩
    have htt : Reach S.tyParts root t := .step ht (by
      simp only [Schema.tyParts, hk]; exact List.mem_map.2 ⟨_, List.mem_of_getElem? hi, rfl⟩)
    have hmem := E.mem ht
    rw [show (Ty.user k : Ty m n).pid = PId.user k from rfl, hrule] at hmem
    refine ⟨fun y e hg => (by cases hg), fun e he hne => ?_⟩
    cases he
    exact ((i1 hv htt).2 e rfl hne).mono fun w hw => ⟨[], by rw [List.append_nil]; exact Der.alt hmem hm hw⟩
  | enumNone =>
    intro hv ht
    obtain ⟨w, hw⟩ := E.der ht
    refine ⟨fun x e hg => (by cases hg), fun e he _ => ?_⟩
    cases he
    exact Viab.here hv rfl hw
  | box _ i => intro hv ht; exact i hv (.step ht (by simp [Schema.tyParts]))
  | optNone ho =>
    intro hv ht
    refine ⟨fun y e hg => ?_, fun e he => by cases he⟩
    cases hg
    exact .nil (E.optNone ho ht)
  | @optSuccess t' t mk v x v1 ho h1 i1 =>
    intro hv ht
    have htt : Reach S.tyParts root t := .step ht (by rw [(optLike_parts ho).1]; exact List.mem_singleton.2 rfl)
    refine ⟨fun y e hg => ?_, fun e he => by cases he⟩
    cases hg
    exact ((i1 hv htt).1 x [] (.success x)).mono fun w hw => E.optSome ho ht hw
  | @optRecovered t' t mk v x e v1 ho h1 i1 =>
    intro hv ht
    have htt : Reach S.tyParts root t := .step ht (by rw [(optLike_parts ho).1]; exact List.mem_singleton.2 rfl)
    refine ⟨fun y e hg => ?_, fun e he => by cases he⟩
    cases hg
    exact ((i1 hv htt).1 x e (.recovered x e)).mono fun w hw => E.optSome ho ht hw
  | @optPanic t' t mk v e v1 ho h1 i1 =>
    intro hv ht
    have htt : Reach S.tyParts root t := .step ht (by rw [(optLike_parts ho).1]; exact List.mem_singleton.2 rfl)
    have hs : ¬ Silent S t := E.loud _ ht t (by rw [(optLike_parts (S := S) ho).2]; exact List.mem_singleton.2 rfl)
    refine ⟨fun y e hg => ?_, fun e he => by cases he⟩
    cases hg
    exact (((i1 hv htt).2 e rfl (E.panic h1 hv htt hs)).mono
      fun w hw => ⟨[], by rw [List.append_nil]; exact E.optSome ho ht hw⟩).fine
  | @textSuccess t' t v x s v1 ho h1 _ i1 =>
    intro hv ht
    have htt : Reach S.tyParts root t := .step ht (by cases ho <;> simp [Schema.tyParts])
    have hp : t'.pid = t.pid := by cases ho <;> rfl
    refine ⟨fun y e hg => ?_, fun e he => by cases he⟩
    cases hg
    rw [hp]
    exact (i1 hv htt).1 x [] (.success x)
  | @textRecovered t' t v x s e v1 ho h1 _ i1 =>
    intro hv ht
    have htt : Reach S.tyParts root t := .step ht (by cases ho <;> simp [Schema.tyParts])
    have hp : t'.pid = t.pid := by cases ho <;> rfl
    refine ⟨fun y e hg => ?_, fun e he => by cases he⟩
    cases hg
    rw [hp]
    exact (i1 hv htt).1 x e (.recovered x e)
  | @textPanic t' t v e v1 ho h1 i1 =>
    intro hv ht
    have htt : Reach S.tyParts root t := .step ht (by cases ho <;> simp [Schema.tyParts])
    have hp : t'.pid = t.pid := by cases ho <;> rfl
    refine ⟨fun y e hg => (by cases hg), fun e he hne => ?_⟩
    cases he
    rw [hp]
    exact (i1 hv htt).2 e rfl hne
  | @plus t v r x e v1 l errs hi v' h1 hg h2 i1 i2 =>
    intro hv ht
    have htt : Reach S.tyParts root t := .step ht (by simp [Schema.tyParts])
    have hs : ¬ Silent S t := E.loud _ ht t (by simp [Ty.absorbed])
    have ha1 : Adv v v1 := h1.adv
    have ha2 : Adv v1 v' := h2.adv
    refine ⟨fun y e' hg' => ?_, fun e he => (ofPair_not_panic he).elim⟩
    rw [(gives_ofPair hg').1]
    exact fine_step hv ha1 ha2 ((i1 hv htt).1 x e hg) (fun he => i2 (hv.adv ha1) htt hs he)
      (fun B hp => h2.late (B := B) hp) h2.keep (fun _ _ => E.plus ht) ⟨_, Many.nil⟩
  | @plusPanic t v e v1 h1 i1 =>
    intro hv ht
    refine ⟨fun y e' hg' => (by cases hg'), fun e he hne => ?_⟩
    cases he
    exact ((i1 hv (.step ht (by simp [Schema.tyParts]))).2 e rfl hne).mono fun w hw => ⟨[], E.plus ht hw .nil⟩
  | iterStop =>
    intro _ _ _ he
    rw [he]
    exact .nil .nil
  | @iterGive t v acc errs hi r x e v1 acc' errs' hi' v' _ h1 hg h2 i1 i2 =>
    intro hv ht hs he
    subst he
    have ha1 : Adv v v1 := h1.adv
    have ha2 : Adv v1 v' := h2.adv
    exact fine_step hv ha1 ha2 ((i1 hv ht).1 x e hg) (fun he => i2 (hv.adv ha1) ht hs he)
      (fun B hp => h2.late (B := B) hp) h2.keep (fun _ _ => .cons) ⟨_, Many.nil⟩
  | @iterPanic t v acc errs hi e v1 h1 i1 =>
    intro hv ht hs he
    subst he
    exact (((i1 hv ht).2 e rfl (E.panic h1 hv ht hs)).mono fun w hw => ⟨[], .cons hw .nil⟩).fine
  | @loopEmpty t v errs v' h1 i1 =>
    intro hv ht
    have htt : Reach S.tyParts root t := .step ht (by simp [Schema.tyParts])
    have hs : ¬ Silent S t := E.loud _ ht t (by simp [Ty.absorbed])
    refine ⟨fun y e' hg' => ?_, fun e he => (ofPair_not_panic he).elim⟩
    rw [(gives_ofPair hg').1]
    obtain ⟨h3, h4⟩ := i1 hv htt hs rfl
    refine ⟨fun he => ?_, fun he => (h3.2 he).mono fun w hw => E.loop ht hw⟩
    obtain ⟨ts, ws, h5, h6, -⟩ := h3.1 he
    obtain ⟨w', hw'⟩ := E.loop ht h6
    exact ⟨ts, ws ++ w', h5, by rw [← List.append_assoc]; exact hw', fun hn => absurd (h4 he) hn⟩
  | @loopList t v out errs v' h1 _ i1 =>
    intro hv ht
    have htt : Reach S.tyParts root t := .step ht (by simp [Schema.tyParts])
    have hs : ¬ Silent S t := E.loud _ ht t (by simp [Ty.absorbed])
    refine ⟨fun y e' hg' => ?_, fun e he => (ofPair_not_panic he).elim⟩
    rw [(gives_ofPair hg').1]
    obtain ⟨h3, h4⟩ := i1 hv htt hs rfl
    refine ⟨fun he => ?_, fun he => (h3.2 he).mono fun w hw => E.loop ht hw⟩
    obtain ⟨ts, ws, h5, h6, -⟩ := h3.1 he
    obtain ⟨w', hw'⟩ := E.loop ht h6
    exact ⟨ts, ws ++ w', h5, by rw [← List.append_assoc]; exact hw', fun hn => absurd (h4 he) hn⟩
  | loopStop hr =>
    intro _ _ _ he
    rw [he]
    exact ⟨.nil .nil, fun _ => hr⟩
  | @loopSkip t v out errs v1 out' errs' v' hsk h2 i2 =>
    intro hv ht hs he
    subst he
    have ha1 : Adv v v1 := hsk.adv
    have ha2 : Adv v1 v' := h2.adv
    have := Viab.later (Q := Many G t.pid) hv
      (Viab.here (Q := Many G t.pid) (e := ⟨⟨v.cur.lo, v1.pos⟩, .unexpectedTokens⟩) hv rfl Many.nil)
      (.refl v) (ha1.trans ha2) (fun B hp hl => h2.late (B := B) (hp.adv ha1) hl) h2.keep
      (fun w hw => ⟨[], by rw [List.append_nil]; exact hw⟩)
    exact ⟨this.fine, fun he => absurd he this.ne⟩
  | @loopGive t v out errs r x e v1 out' errs' v' h1 hg h2 i1 i2 =>
    intro hv ht hs he
    subst he
    have ha1 : Adv v v1 := h1.adv
    have ha2 : Adv v1 v' := h2.adv
    refine ⟨fine_step hv ha1 ha2 ((i1 hv ht).1 x e hg) (fun he => (i2 (hv.adv ha1) ht hs he).1)
      (fun B hp => h2.late (B := B) hp) h2.keep (fun _ _ => .cons) ⟨_, Many.nil⟩, fun he' => ?_⟩
    have he : e = [] := Classical.byContradiction fun he => los_ne h2.keep he he'
    exact (i2 (hv.adv ha1) ht hs he).2 he'
  | @loopPanic t v out errs e v1 out' errs' v' h1 h2 i1 i2 =>
    intro hv ht hs he
    subst he
    have ha1 : Adv v v1 := h1.adv
    have ha2 : Adv v1 v' := h2.adv
    have := Viab.later (Q := Many G t.pid) hv ((i1 hv ht).2 e rfl (E.panic h1 hv ht hs)) ha1 ha2
      (fun B hp hl => h2.late (B := B) hp hl) h2.keep (fun w hw => ⟨[], .cons hw .nil⟩)
    exact ⟨this.fine, fun he => absurd he this.ne⟩
  | @loopGiveStuck t v out errs r x e v1 h1 hg i1 =>
    intro hv ht hs he
    subst he
    have ha1 : Adv v v1 := h1.adv
    refine ⟨fine_step (Q2 := Many G t.pid) hv ha1 (.refl v1) ((i1 hv ht).1 x e hg) (fun he => ?_)
      (fun B hp hl => Late.append (Late.append .nil hl) (.single hp.le)) (fun x hx => mem_los_left hx)
      (fun _ _ => .cons) ⟨_, Many.nil⟩, fun he => by simp at he⟩
    subst he
    exact (Viab.here (hv.adv ha1) rfl Many.nil).fine
  | @loopPanicStuck t v out errs e v1 h1 i1 =>
    intro hv ht hs he
    subst he
    have ha1 : Adv v v1 := h1.adv
    have := Viab.later (Q := Many G t.pid) (errs' := [] ++ e ++ [⟨v1.cur, .noAdvance⟩]) hv
      ((i1 hv ht).2 e rfl (E.panic h1 hv ht hs)) ha1 (.refl v1)
      (fun B hp hl => Late.append (Late.append .nil hl) (.single hp.le)) (fun x hx => mem_los_left hx)
      (fun w hw => ⟨[], .cons hw .nil⟩)
    exact ⟨this.fine, fun he => absurd he this.ne⟩
  | @split t p v r x e v1 a v' h1 hg h2 i1 i2 =>
    intro hv ht
    have htt : Reach S.tyParts root t := .step ht (by simp [Schema.tyParts])
    have htp : Reach S.tyParts root p := .step ht (by simp [Schema.tyParts])
    have hs : ¬ Silent S t := E.loud _ ht t (by simp [Ty.absorbed])
    have hsp : ¬ Silent S p := E.loud _ ht p (by simp [Ty.absorbed])
    have ha1 : Adv v v1 := h1.adv
    have ha2 : Adv v1 v' := h2.adv
    refine ⟨fun y e' hg' => ?_, fun e he => (ofPair_not_panic he).elim⟩
    rw [(gives_ofPair hg').1]
    exact fine_step hv ha1 ha2 ((i1 hv htt).1 x e hg)
      (fun he => i2 (hv.adv ha1) htt hs (E.keeps.1 t p ht) htp hsp he) (fun B hp => h2.late (B := B) hp) h2.keep
      (fun _ _ => E.split ht) ⟨_, Pairs.nil⟩
  | @splitPanic t p v e v1 h1 i1 =>
    intro hv ht
    refine ⟨fun y e' hg' => (by cases hg'), fun e he hne => ?_⟩
    cases he
    exact ((i1 hv (.step ht (by simp [Schema.tyParts]))).2 e rfl hne).mono fun w hw => ⟨[], E.split ht hw .nil⟩
  | outerStop =>
    intro _ _ _ _ _ _ he
    rw [he]
    exact .nil .nil
  | @outerPanic t p v a e v1 h1 i1 =>
    intro hv ht hs ho htp hsp he
    obtain ⟨w', hw'⟩ := E.der ht
    rw [he]
    exact (((i1 hv htp).2 e rfl (E.panic h1 hv htp hsp)).mono
      fun w hw => ⟨w' ++ [], Pairs.cons hw hw' .nil⟩).fine
  | @outerGo t p v a r q e v1 a1 v2 a' v' _ h1 hg h2 h3 i1 i2 i3 =>
    intro hv ht hs ho htp hsp he
    obtain ⟨el, pu, er⟩ := a
    replace he : er = [] := he
    subst he
    have ha1 : Adv v v1 := h1.adv
    have ha2 : Adv v1 v2 := h2.adv
    have ha3 : Adv v2 v' := h3.adv
    have hv1 := hv.adv ha1
    obtain ⟨w', hw'⟩ := E.der ht
    refine fine_step (Q2 := fun w => ∃ a b, w = a ++ b ∧ Der G t.pid a ∧ Pairs G p.pid t.pid b) hv ha1
      (ha2.trans ha3) ((i1 hv htp).1 q e hg) (fun he => ?_) (fun B hp hl => h3.late (hp.adv ha2) (h2.late hp hl .nil))
      (fun x hx => h3.keep x (h2.keep x (mem_los_left hx))) ?_ ⟨_, w', [], rfl, hw', .nil⟩
    · exact fine_step hv1 ha2 ha3 (i2 hv1 ht hs ho he rfl)
        (fun he => i3 (hv1.adv ha2) ht hs ho htp hsp he) (fun B hp => h3.late (B := B) hp) h3.keep
        (fun a b ha hb => ⟨a, b, rfl, ha, hb⟩) ⟨_, Pairs.nil⟩
    · rintro w1 _ hw1 ⟨a, b, rfl, ha, hb⟩
      exact .cons hw1 ha hb
  | @outerBreak t p v a r q e v1 a1 v2 _ h1 hg h2 i1 i2 =>
    intro hv ht hs ho htp hsp he
    obtain ⟨el, pu, er⟩ := a
    replace he : er = [] := he
    subst he
    have ha1 : Adv v v1 := h1.adv
    have ha2 : Adv v1 v2 := h2.adv
    have hv1 := hv.adv ha1
    exact fine_step hv ha1 ha2 ((i1 hv htp).1 q e hg) (fun he => i2 hv1 ht hs ho he rfl)
      (fun B hp hl => h2.late hp hl .nil) (fun x hx => h2.keep x (mem_los_left hx))
      (fun w1 w2 hw1 hw2 => by have := Pairs.cons hw1 hw2 .nil; rwa [List.append_nil] at this) (E.der ht)
  | @innerGive t q v a panic r x e v1 h1 hg i1 =>
    intro hv ht hs ho he hp
    subst hp
    have : a.errs ++ e ++ (none : Option (Err n)).toList = e := by rw [he]; simp
    show Fine _ _ _ (a.errs ++ e ++ (none : Option (Err n)).toList) _
    rw [this]
    exact (i1 hv ht).1 x e hg
  | @innerFailLeave t q v a panic e v1 go h1 i1 =>
    intro hv ht hs ho he hp
    subst hp
    show Fine _ _ _ (a.errs ++ (mergePanic none e).toList) _
    rw [he, merge_one (ho.length h1)]
    exact ((i1 hv ht).2 e rfl (E.panic h1 hv ht hs)).fine
  | @innerFailGo t q v a panic e v1 go a' v' h1 h2 i1 i2 =>
    intro hv ht hs ho he hp
    subst hp
    have hm := merge_one (ho.length h1)
    have ha1 : Adv v v1 := h1.adv
    have ha2 : Adv v1.skip v' := h2.adv
    refine (Viab.later hv ((i1 hv ht).2 e rfl (E.panic h1 hv ht hs)) ha1 ((Adv.skip v1).trans ha2)
      (fun B hp hl => h2.late (B := B) (hp.adv (.skip v1)) (by rw [he]; exact .nil) (by rw [hm]; exact hl))
      (fun x hx => h2.keep x (mem_los_right (by rw [hm]; exact hx)))
      (fun w hw => ⟨[], by rw [List.append_nil]; exact hw⟩)).fine
  | @innerNoteLeave t q v a panic panic1 go hn =>
    intro hv ht hs ho he hp
    subst hp
    obtain ⟨w, hw⟩ := E.der ht
    cases hn
    show Fine _ _ _ (a.errs ++ [_]) _
    rw [he]
    exact (Viab.here hv rfl hw).fine
  | @innerNoteGo t q v a panic panic1 go a' v' hn h2 i2 =>
    intro hv ht hs ho he hp
    subst hp
    obtain ⟨w, hw⟩ := E.der ht
    have ha2 : Adv v.skip v' := h2.adv
    cases hn
    exact (Viab.later hv (Viab.here hv rfl hw) (.refl v) ((Adv.skip v).trans ha2)
      (fun B hp hl => h2.late (B := B) (hp.adv (.skip v)) (by rw [he]; exact .nil) hl)
      (fun x hx => h2.keep x (mem_los_right hx)) (fun w hw => ⟨[], by rw [List.append_nil]; exact hw⟩)).fine
  | @punct t p v r x e v1 a v' h1 hg h2 i1 i2 =>
    intro hv ht
    have htt : Reach S.tyParts root t := .step ht (by simp [Schema.tyParts])
    have htp : Reach S.tyParts root p := .step ht (by simp [Schema.tyParts])
    have hs : ¬ Silent S t := E.loud _ ht t (by simp [Ty.absorbed])
    have hsp : ¬ Silent S p := E.loud _ ht p (by simp [Ty.absorbed])
    have ha1 : Adv v v1 := h1.adv
    have ha2 : Adv v1 v' := h2.adv
    refine ⟨fun y e' hg' => ?_, fun e he => (ofPair_not_panic he).elim⟩
    rw [(gives_ofPair hg').1]
    exact fine_step hv ha1 ha2 ((i1 hv htt).1 x e hg)
      (fun he => i2 (hv.adv ha1) htt hs (E.keeps.2.1 t p ht) htp hsp he) (fun B hp => h2.late (B := B) hp) h2.keep
      (fun _ _ => E.punct ht) ⟨_, Alts.nil⟩
  | @punctPanic t p v e v1 h1 i1 =>
    intro hv ht
    refine ⟨fun y e' hg' => (by cases hg'), fun e he hne => ?_⟩
    cases he
    exact ((i1 hv (.step ht (by simp [Schema.tyParts]))).2 e rfl hne).mono fun w hw => ⟨[], E.punct ht hw .nil⟩
  | pouterStop =>
    intro _ _ _ _ _ _ he
    rw [he]
    exact .nil .nil
  | @pouterPanic t p v a e v1 h1 i1 =>
    intro hv ht hs ho htp hsp he
    rw [he]
    exact (((i1 hv htp).2 e rfl (E.panic h1 hv htp hsp)).mono
      fun w hw => ⟨[], by rw [List.append_nil]; exact Alts.one hw⟩).fine
  | @pouterGo t p v a r q e v1 a1 v2 a' v' _ h1 hg h2 h3 i1 i2 i3 =>
    intro hv ht hs ho htp hsp he
    obtain ⟨el, pu, er⟩ := a
    replace he : er = [] := he
    subst he
    have ha1 : Adv v v1 := h1.adv
    have ha2 : Adv v1 v2 := h2.adv
    have ha3 : Adv v2 v' := h3.adv
    have hv1 := hv.adv ha1
    obtain ⟨w', hw'⟩ := E.der ht
    refine fine_step (Q2 := fun w => ∃ a b, w = a ++ b ∧ Der G t.pid a ∧ Alts G p.pid t.pid b) hv ha1
      (ha2.trans ha3) ((i1 hv htp).1 q e hg) (fun he => ?_) (fun B hp hl => h3.late (hp.adv ha2) (h2.late hp hl .nil))
      (fun x hx => h3.keep x (h2.keep x (mem_los_left hx))) ?_ ⟨_, w', [], rfl, hw', .nil⟩
    · have hin := i2 hv1 ht hs ho he rfl
      have hin : Fine (Der G t.pid) source v1.rest a1.errs v2.rest := by
        refine ⟨fun h => ?_, hin.2⟩
        rcases hin.1 h with h | h
        · exact h.2
        · cases h.1
      exact fine_step hv1 ha2 ha3 hin
        (fun he => i3 (hv1.adv ha2) ht hs ho htp hsp he) (fun B hp => h3.late (B := B) hp) h3.keep
        (fun a b ha hb => ⟨a, b, rfl, ha, hb⟩) ⟨_, Alts.nil⟩
    · rintro w1 _ hw1 ⟨a, b, rfl, ha, hb⟩
      exact .cons hw1 ha hb
  | @pouterBreak t p v a r q e v1 a1 v2 _ h1 hg h2 i1 i2 =>
    intro hv ht hs ho htp hsp he
    obtain ⟨el, pu, er⟩ := a
    replace he : er = [] := he
    subst he
    have ha1 : Adv v v1 := h1.adv
    have ha2 : Adv v1 v2 := h2.adv
    have hv1 := hv.adv ha1
    refine fine_step (Q2 := fun w => w = [] ∨ Der G t.pid w) hv ha1 ha2 ((i1 hv htp).1 q e hg) (fun he => ?_)
      (fun B hp hl => h2.late hp hl .nil) (fun x hx => h2.keep x (mem_los_left hx)) ?_ ⟨_, .inl rfl⟩
    · have hin := i2 hv1 ht hs ho he rfl
      refine ⟨fun h => ?_, fun h => (hin.2 h).mono fun w hw => ⟨[], by rw [List.append_nil]; exact .inr hw⟩⟩
      rcases hin.1 h with h | h
      · cases h.1
      · exact ⟨[], [], h.2.symm, .inl rfl, fun _ => rfl⟩
    · rintro w1 w2 hw1 (rfl | hw2)
      · rw [List.append_nil]; exact .one hw1
      · have := Alts.cons hw1 hw2 .nil; rwa [List.append_nil] at this
  | @pinnerGive t v a panic r x e v1 h1 hg i1 =>
    intro hv ht hs ho he hp
    subst hp
    have : a.errs ++ (none : Option (Err n)).toList ++ e = e := by rw [he]; simp
    show (a.errs ++ (none : Option (Err n)).toList ++ e = [] → _) ∧ (a.errs ++ (none : Option (Err n)).toList ++ e ≠ [] →
      Viab _ _ _ (a.errs ++ (none : Option (Err n)).toList ++ e) _)
    rw [this]
    have := (i1 hv ht).1 x e hg
    exact ⟨fun h => .inl ⟨rfl, this.1 h⟩, this.2⟩
  | @pinnerStop t v a panic =>
    intro hv ht hs ho he hp
    subst hp
    refine ⟨fun _ => .inr ⟨rfl, rfl⟩, fun h => ?_⟩
    exact absurd (show a.errs ++ (none : Option (Err n)).toList = [] by rw [he]; rfl) h
  | @pinnerFailLeave t v a panic e v1 go h1 i1 =>
    intro hv ht hs ho he hp
    subst hp
    have hm : a.errs ++ (mergePanic none e).toList = e := by rw [he, merge_one (ho.length h1)]; rfl
    have := (i1 hv ht).2 e rfl (E.panic h1 hv ht hs)
    show (a.errs ++ (mergePanic none e).toList = [] → _) ∧ (_ → Viab _ _ _ (a.errs ++ (mergePanic none e).toList) _)
    rw [hm]
    exact ⟨fun h => absurd h this.ne, fun _ => this⟩
  | @pinnerFailGo t v a panic e v1 go a' v' h1 h2 i1 i2 =>
    intro hv ht hs ho he hp
    subst hp
    have hm := merge_one (ho.length h1)
    have ha1 : Adv v v1 := h1.adv
    have ha2 : Adv v1.skip v' := h2.adv
    have := Viab.later (Q := Der G t.pid) hv ((i1 hv ht).2 e rfl (E.panic h1 hv ht hs)) ha1 ((Adv.skip v1).trans ha2)
      (fun B hp hl => h2.late (B := B) (hp.adv (.skip v1)) (by rw [he]; exact .nil) (by rw [hm]; exact hl))
      (fun x hx => h2.keep x (mem_los_right (by rw [hm]; exact hx)))
      (fun w hw => ⟨[], by rw [List.append_nil]; exact hw⟩)
    exact ⟨fun h => absurd h this.ne, fun _ => this⟩
  | @pinnerNoteLeave t v a panic panic1 go hn =>
    intro hv ht hs ho he hp
    subst hp
    obtain ⟨w, hw⟩ := E.der ht
    cases hn with
    | new s =>
      have := Viab.here (e := ⟨v.cur, .expecting s⟩) hv rfl hw
      show (a.errs ++ [_] = [] → _) ∧ (_ → Viab _ _ _ (a.errs ++ [_]) _)
      rw [he]
      exact ⟨fun h => absurd h this.ne, fun _ => this⟩
  | @pinnerNoteGo t v a panic panic1 go a' v' hn h2 i2 =>
    intro hv ht hs ho he hp
    subst hp
    obtain ⟨w, hw⟩ := E.der ht
    have ha2 : Adv v.skip v' := h2.adv
    cases hn
    have := Viab.later (Q := Der G t.pid) hv (Viab.here hv rfl hw) (.refl v) ((Adv.skip v).trans ha2)
      (fun B hp hl => h2.late (B := B) (hp.adv (.skip v)) (by rw [he]; exact .nil) hl)
      (fun x hx => h2.keep x (mem_los_right hx)) (fun w hw => ⟨[], by rw [List.append_nil]; exact hw⟩)
    exact ⟨fun h => absurd h this.ne, fun _ => this⟩
  | @recover t r v h v1 x errs panic v' h1 h2 i1 i2 =>
    intro hv ht
    have htt : Reach S.tyParts root t := .step ht (by simp [Schema.tyParts])
    have htr : Reach S.tyParts root r := .step ht (by simp [Schema.tyParts])
    have hs : ¬ Silent S t := E.loud _ ht t (by simp [Ty.absorbed])
    have hk := E.keeps.2.2 t r ht
    have ha1 : Adv v v1 := h1.adv
    have ha2 : Adv v1 v' := h2.adv
    refine ⟨fun y e' hg' => ?_, fun e he => (ofPair_not_panic he).elim⟩
    rw [(gives_ofPair hg').1]
    refine fine_step hv ha1 ha2 (i1 hv htt hs hk.1) (fun he => ?_)
      (fun B hp hl => have := h2.late (B := B) hp hl.left hl.right; this.1.append this.2) h2.keep ?_ (E.der htr)
    · obtain ⟨h3, h4⟩ := List.append_eq_nil_iff.1 he
      exact (i2 (hv.adv ha1) htr hk.2 h3 (toList_nil.1 h4)).1 rfl
    · intro w1 w2 hw1 hw2
      refine E.seq (l := [t.pid, r.pid]) ht rfl ?_
      have := DerSeq.cons hw1 (.cons hw2 .nil)
      rwa [List.append_nil] at this
  | @recoverPanic t r v h v1 errs panic v' h1 h2 i1 i2 =>
    intro hv ht
    have htt : Reach S.tyParts root t := .step ht (by simp [Schema.tyParts])
    have htr : Reach S.tyParts root r := .step ht (by simp [Schema.tyParts])
    have hs : ¬ Silent S t := E.loud _ ht t (by simp [Ty.absorbed])
    have hk := E.keeps.2.2 t r ht
    have ha1 : Adv v v1 := h1.adv
    have ha2 : Adv v1 v' := h2.adv
    refine ⟨fun y e' hg' => (by cases hg'), fun e he hne => ?_⟩
    cases he
    refine viab_step hv ha1 ha2 (i1 hv htt hs hk.1) (fun he => ?_)
      (fun B hp hl => have := h2.late (B := B) hp hl.left hl.right; this.1.append this.2) h2.keep ?_ (E.der htr)
    · obtain ⟨h3, h4⟩ := List.append_eq_nil_iff.1 he
      exact (i2 (hv.adv ha1) htr hk.2 h3 (toList_nil.1 h4)).2 hne
    · intro w1 w2 hw1 hw2
      refine E.seq (l := [t.pid, r.pid]) ht rfl ?_
      have := DerSeq.cons hw1 (.cons hw2 .nil)
      rwa [List.append_nil] at this
  | @headGive t v r x e v1 h1 hg i1 =>
    intro hv ht hs ho
    show Fine _ _ _ (e ++ (none : Option (Err n)).toList) _
    rw [show e ++ (none : Option (Err n)).toList = e by simp]
    exact (i1 hv ht).1 x e hg
  | @headPanic t v e v1 h1 i1 =>
    intro hv ht hs ho
    show Fine _ _ _ ([] ++ e.getLast?.toList) _
    rw [last_one (ho.length h1)]
    exact ((i1 hv ht).2 e rfl (E.panic h1 hv ht hs)).fine
  | headNone =>
    intro hv ht hs ho
    obtain ⟨w, hw⟩ := E.der ht
    exact (Viab.here hv rfl hw).fine
  | @tailGive t v errs panic r x e v1 h1 hg i1 =>
    intro hv ht ho he hp
    subst he hp
    rw [show ([] ++ e) ++ (none : Option (Err n)).toList = e by simp]
    exact ⟨fun _ => (i1 hv ht).1 x e hg, ((i1 hv ht).1 x e hg).2⟩
  | @tailPanic t v errs panic e v1 _ h1 i1 =>
    intro hv ht ho he hp
    subst he hp
    rw [show [] ++ (mergePanic none e).toList = e from merge_one (ho.length h1)]
    exact ⟨fun h => (by cases h), (i1 hv ht).2 e rfl⟩
  | tailNote h => cases h
  | tailStop =>
    intro hv ht ho he hp
    subst he hp
    exact ⟨fun h => (by cases h), fun h => absurd rfl h⟩
  | @tailFail t v errs panic e v1 panic1 x errs' panic' v' _ h1 hn h2 i1 i2 =>
    intro hv ht ho he hp
    subst he hp
    have hm := merge_one (ho.length h1)
    have ha1 : Adv v v1 := h1.adv
    have ha2 : Adv v1.skip v' := h2.adv
    have := Viab.later (Q := Der G t.pid) (errs' := errs' ++ panic'.toList) hv
      ((i1 hv ht).2 e rfl (E.panic h1 hv ht ho.loud)) ha1 ((Adv.skip v1).trans ha2)
      (fun B hp hl => have := h2.late (B := B) (hp.adv (.skip v1)) .nil (Late.note hn hp.le (by rw [hm]; exact hl))
        this.1.append this.2)
      (fun x hx => h2.keep x (los_note hn (by rw [hm]; exact hx)))
      (fun w hw => ⟨[], by rw [List.append_nil]; exact hw⟩)
    exact ⟨fun _ => this.fine, fun _ => this⟩
  | @tailSkip t v errs panic panic1 x errs' panic' v' _ hn h2 i2 =>
    intro hv ht ho he hp
    subst he hp
    obtain ⟨w, hw⟩ := E.der ht
    have ha2 : Adv v.skip v' := h2.adv
    cases hn
    have := Viab.later (Q := Der G t.pid) (errs' := errs' ++ panic'.toList) hv (Viab.here hv rfl hw) (.refl v)
      ((Adv.skip v).trans ha2)
      (fun B hp hl => have := h2.late (B := B) (hp.adv (.skip v)) .nil hl
        this.1.append this.2)
      (fun x hx => h2.keep x hx) (fun w hw => ⟨[], by rw [List.append_nil]; exact hw⟩)
    exact ⟨fun _ => this.fine, fun _ => this⟩

end Teleparse
