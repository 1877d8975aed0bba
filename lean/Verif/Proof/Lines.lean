import Verif.Spec.Lines
import Verif.Proof.Stray
import Verif.Proof.ErrSpan
import Verif.Proof.History
/-
Lemmas for C106: `Recover` with a terminal as its tail stops right after the next such token.
-/
namespace Teleparse
variable {m n : Nat}

namespace Lines
variable {S : Schema m n} {md : Metadata (PId m n) n} {G : Grammar (PId m n) n} {source : Str} {root : Ty m n}
  {first : TSet n} {k : Terminal n}

theorem on_det {t : Ty m n} {v a b : View n} {r r'} (h : On S md t v r a) (h' : On S md t v r' b) :
    r = r' ∧ a = b := by
  obtain ⟨f, h⟩ := h
  obtain ⟨f', h'⟩ := h'
  have e := (produce_more h (Nat.le_max_left f f')).symm.trans (produce_more h' (Nat.le_max_right f f'))
  cases e
  exact ⟨rfl, rfl⟩

theorem on_of_does {t : Ty m n} {v w : View n} {x} (hr : Ready source v) (h : Does S md t v x w) :
    On S md t v (.success x) w := by
  obtain ⟨N, o, g1, g2, g3⟩ := h
  have g1 := g1 N N (Nat.le_refl _) (Nat.le_refl _)
  cases o with
  | fuel => exact absurd rfl g2
  | crash => exact absurd g1 ((produce_safe S md N t _ hr.inSource).1)
  | ok r v =>
    obtain ⟨rfl, rfl⟩ := g3 r v rfl
    exact ⟨N, g1⟩

theorem on_sep {i : Nat} {v : View n} {s : Token n} {l} (hv : Ready source v) (hr : v.rest = s :: l)
    (hs : s.Is source k) : On S md (.term i k) v (.success (.tok s)) ⟨source, v.cells ++ [Cell.ofToken s], l⟩ := by
  have e : v = ⟨source, v.cells, s :: l⟩ := by
    have : v.source = source := hv.inSource.src
    cases v
    simp only at hr this
    subst hr this
    rfl
  rw [e] at hv ⊢
  exact on_of_does hv (Comp.term hs)

theorem apart_not {j : Terminal n} (h : j.Apart k) {w : TokenSrc n} (hj : j.Matches w) : ¬ k.Matches w := by
  intro hk
  rcases h with h | ⟨a, b, h1, h2, h3⟩
  · exact h (hj.1.symm.trans hk.1)
  · exact h3 ((hj.2 a h1).symm.trans (hk.2 b h2))

/-! ### What the statement consumes -/

/-- `v'` is `v` after consuming tokens that are not terminators. -/
def Stays (source : Str) (k : Terminal n) (v v' : View n) : Prop :=
  ∃ ts, v.rest = ts ++ v'.rest ∧ ∀ a ∈ ts, ¬ a.Is source k

theorem Stays.refl (v : View n) : Stays source k v v := ⟨[], rfl, by simp⟩

theorem Stays.trans {a b c : View n} (h1 : Stays source k a b) (h2 : Stays source k b c) : Stays source k a c := by
  obtain ⟨ts, e1, n1⟩ := h1
  obtain ⟨us, e2, n2⟩ := h2
  refine ⟨ts ++ us, by simp [e1, e2], fun x hx => ?_⟩
  rcases List.mem_append.1 hx with hx | hx
  · exact n1 x hx
  · exact n2 x hx

theorem applyAll_rest (l : List (Tree n × Option (LSet n))) : ∀ v : View n, (v.applyAll l).rest = v.rest := by
  induction l with
  | nil => intro v; rfl
  | cons a l ih =>
    intro v
    obtain ⟨t, sem⟩ := a
    cases sem with
    | none => exact ih v
    | some sem => exact (ih _).trans rfl

theorem Stays.apply {v v' : View n} (h : Stays source k v v') (l) : Stays source k v (v'.applyAll l) := by
  obtain ⟨ts, h1, h2⟩ := h
  exact ⟨ts, by rw [applyAll_rest]; exact h1, h2⟩

theorem conf_part {t u : Ty m n} (h : Confined S k t) (hu : u ∈ S.tyParts t) : Confined S k u :=
  fun w hw => h w (Reach.trans (.step .refl hu) hw)

def JStays (S : Schema m n) (source : Str) (k : Terminal n) : Judg m n → Prop
  | .ty t v _ v' => Confined S k t → Stays source k v v'
  | .seq ts v _ _ _ v' => (∀ t ∈ ts, Confined S k t) → Stays source k v v'
  | .iter t v _ _ _ _ _ _ v' => Confined S k t → Stays source k v v'
  | _ => True

theorem stays {j : Judg m n} (h : Run S j) : Ready source j.pre → JStays S source k j := by
  induction h with
  | @tok i j v t l hr hty hlit =>
    intro hv hc
    have hv : Ready source v := hv
    refine ⟨[t], ?_, fun a ha => ?_⟩
    · have := (Passed.skip hr).rest
      exact this
    · cases List.mem_singleton.1 ha
      refine apart_not (hc _ .refl) ⟨hty, fun lit h => ?_⟩
      have h1 := hlit lit h
      have ht : t ∈ v.rest := by simp [hr]
      have hs := get?_eq (hv.inSource.good.rest t ht) (hv.pos ht)
      have e : v.source = source := hv.inSource.src
      rw [e, hs] at h1
      exact Option.some.inj h1
  | tokRecovered => intro _ _; exact .refl _
  | tokPanic => intro _ _; exact .refl _
  | seqNil => intro _ _; exact .refl _
  | seqGive h1 _ _ i1 i2 =>
    intro hv hc
    exact (i1 hv (hc _ (by simp))).trans (i2 (hv.adv h1.adv) fun t ht => hc t (by simp [ht]))
  | seqPanic _ i => intro hv hc; exact i hv (hc _ (by simp))
  | struct hk _ i =>
    intro hv hc
    exact (i hv fun t ht => conf_part hc (by simp only [Schema.tyParts, hk]; exact ht)).apply _
  | structPanic hk _ i =>
    intro hv hc
    exact i hv fun t ht => conf_part hc (by simp only [Schema.tyParts, hk]; exact ht)
  | tuple ht _ i => intro hv hc; exact i hv fun t h => conf_part hc (by rw [tupLike_parts ht]; exact h)
  | tuplePanic ht _ i => intro hv hc; exact i hv fun t h => conf_part hc (by rw [tupLike_parts ht]; exact h)
  | enumSuccess hk hi _ ih =>
    intro hv hc
    exact (ih hv (conf_part hc (by
      simp only [Schema.tyParts, hk]; exact List.mem_map.2 ⟨_, List.mem_of_getElem? hi, rfl⟩))).apply _
  | enumRecovered hk hi _ ih =>
    intro hv hc
    exact (ih hv (conf_part hc (by
      simp only [Schema.tyParts, hk]; exact List.mem_map.2 ⟨_, List.mem_of_getElem? hi, rfl⟩))).apply _
  | enumPanic hk hi _ ih =>
    intro hv hc
    exact ih hv (conf_part hc (by
      simp only [Schema.tyParts, hk]; exact List.mem_map.2 ⟨_, List.mem_of_getElem? hi, rfl⟩))
  | enumNone => intro _ _; exact .refl _
  | box _ i => intro hv hc; exact i hv (conf_part hc (by simp [Schema.tyParts]))
  | optNone => intro _ _; exact .refl _
  | optSuccess ho _ i => intro hv hc; exact i hv (conf_part hc (by cases ho <;> simp [Schema.tyParts]))
  | optRecovered ho _ i => intro hv hc; exact i hv (conf_part hc (by cases ho <;> simp [Schema.tyParts]))
  | optPanic ho _ i => intro hv hc; exact i hv (conf_part hc (by cases ho <;> simp [Schema.tyParts]))
  | textSuccess ht _ _ i => intro hv hc; exact i hv (conf_part hc (by cases ht <;> simp [Schema.tyParts]))
  | textRecovered ht _ _ i => intro hv hc; exact i hv (conf_part hc (by cases ht <;> simp [Schema.tyParts]))
  | textPanic ht _ i => intro hv hc; exact i hv (conf_part hc (by cases ht <;> simp [Schema.tyParts]))
  | plus h1 _ _ i1 i2 =>
    intro hv hc
    have hp := conf_part hc (u := _) (List.mem_singleton.2 rfl)
    exact (i1 hv hp).trans (i2 (hv.adv h1.adv) hp)
  | plusPanic _ i => intro hv hc; exact i hv (conf_part hc (List.mem_singleton.2 rfl))
  | iterStop => intro _ _; exact .refl _
  | iterGive _ h1 _ _ i1 i2 => intro hv hc; exact (i1 hv hc).trans (i2 (hv.adv h1.adv) hc)
  | iterPanic _ i => intro hv hc; exact i hv hc
  | loopEmpty => intro _ hc; exact (hc _ .refl).elim
  | loopList => intro _ hc; exact (hc _ .refl).elim
  | split => intro _ hc; exact (hc _ .refl).elim
  | splitPanic => intro _ hc; exact (hc _ .refl).elim
  | punct => intro _ hc; exact (hc _ .refl).elim
  | punctPanic => intro _ hc; exact (hc _ .refl).elim
  | recover => intro _ hc; exact (hc _ .refl).elim
  | recoverPanic => intro _ hc; exact (hc _ .refl).elim
  | _ => intro _; trivial

/-! ### Recover -/

/-- Errors that end before the terminator `s` does. -/
def By (s : Token n) (l : List (Err n)) : Prop := ∀ e ∈ l, e.span.hi ≤ s.span.hi

/-- The search for the terminator ends right after the next one. -/
theorem tail_to (hf : ∀ x, first.contains x = true ↔ ∃ w, x = some w ∧ k.Matches w) (f0 i : Nat) :
    ∀ (fuel : Nat) (ts : List (Token n)) (v : View n) errs panic r v' (s : Token n) (l : List (Token n)), Ready source v →
      recoverLoop View.ops first (produce View.ops S md f0 (.term i k)) fuel errs panic v = .ok r v' →
      v.rest = ts ++ s :: l → (∀ a ∈ ts, ¬ a.Is source k) → s.Is source k → By s panic.toList →
      v'.rest = l ∧ v'.source = source ∧ r.1 = some (.tok s) ∧ r.2.1 = errs ∧ By s r.2.2.toList ∧
        (ts = [] → r.2.2 = panic ∧ v' = ⟨source, v.cells ++ [Cell.ofToken s], l⟩) := by
  intro fuel
  induction fuel with
  | zero => intro ts v errs panic r v' s l _ h; cases h
  | succ fuel ih =>
    intro ts v errs panic r v' s l hv h hrest hts hs hb
    simp only [recoverLoop, bind_ok, mPeekSrc_ok] at h
    obtain ⟨tok, _, ⟨rfl, rfl, -⟩, h⟩ := h
    rename_i v
    have hsrc : v.source = source := hv.inSource.src
    have hE : first.containsE = false := by
      rw [← Bool.not_eq_true]
      intro he
      obtain ⟨w, hw, -⟩ := (hf none).1 he
      cases hw
    have hne : v.rest ≠ [] := by rw [hrest]; simp
    rw [if_neg (fun hn => hne ((look_isNone _).1 hn)), hE, Bool.or_false, hv.look] at h
    cases ts with
    | nil =>
      rw [List.nil_append] at hrest
      rw [word_cons hrest, if_pos ((hf _).2 ⟨_, rfl, by rw [hsrc]; exact hs⟩)] at h
      simp only [bind_ok] at h
      obtain ⟨r1, v1, h1, h2⟩ := h
      obtain ⟨rfl, rfl⟩ := on_det (S := S) (md := md) ⟨f0, h1⟩ (on_sep hv hrest hs)
      simp only [pure_ok] at h2
      obtain ⟨rfl, rfl⟩ := h2
      exact ⟨rfl, rfl, rfl, rfl, hb, fun _ => ⟨rfl, rfl⟩⟩
    | cons a ts =>
      have hr : v.rest = a :: (ts ++ s :: l) := hrest
      rw [word_cons hr, if_neg (fun hc => by
        obtain ⟨w, hw, hm⟩ := (hf _).1 hc
        cases hw
        rw [hsrc] at hm
        exact hts a (by simp) hm)] at h
      simp only [bind_ok] at h
      obtain ⟨p1, v2, h2, h3⟩ := h
      obtain ⟨⟨e1, rfl, he1⟩, rfl⟩ := recoverSkip_hi h2
      have hr2 : v.skip.rest = ts ++ s :: l := by
        have := (Passed.skip hr).rest
        rw [hr] at this
        simpa using this.symm
      obtain ⟨g1, g2, g3, g4, g5, -⟩ := ih ts _ _ _ _ _ s l hv.skip h3 hr2 (fun b hb => hts b (by simp [hb])) hs (by
        intro e he
        simp only [Option.toList_some, List.mem_singleton] at he
        subst he
        rw [he1]
        have hc : v.cur = a.span := by unfold View.cur; rw [hr]
        rw [hc]
        have hp := (List.pairwise_append.1 hv.sorted.tokens.2).2.1
        rw [hr] at hp
        have h5 := (List.pairwise_cons.1 hp).1 s (by simp)
        have := hv.pos (t := s) (by rw [hrest]; simp)
        omega)
      exact ⟨g1, g2, g3, g4, g5, fun h => by cases h⟩

/-- `Recover<t, k>` stops right after the next terminator, and what it reports ends there. -/
theorem recover_to {i : Nat} (hf : ∀ x, (md.first.get (Ty.term i k : Ty m n).pid).contains x = true ↔ ∃ w, x = some w ∧ k.Matches w)
    {t : Ty m n} (hc : Confined S k t) {v v' : View n} {r} (hv : Ready source v)
    (h : On S md (.recover t (.term i k)) v r v') {ts : List (Token n)} {s : Token n} {l : List (Token n)}
    (hrest : v.rest = ts ++ s :: l) (hts : ∀ a ∈ ts, ¬ a.Is source k) (hs : s.Is source k) :
    v'.rest = l ∧ (∃ h, r.tree? = some (mkRecover h (.tok s))) ∧ By s r.errs := by
  obtain ⟨f, h⟩ := h
  cases f with
  | zero => cases h
  | succ f =>
    change produceRecover View.ops (md.first.get t.pid) (md.first.get (Ty.term i k : Ty m n).pid)
      (produce View.ops S md f t) (produce View.ops S md f (.term i k)) f v = _ at h
    simp only [produceRecover, bind_ok] at h
    obtain ⟨hd, v1, h1, ⟨tl, errs, pending⟩, v2, h2, h3⟩ := h
    have upTo_by : ∀ {w : View n} {e : List (Err n)} {us : List (Token n)}, Ready source w → w.rest = us ++ s :: l →
        UpTo w e → By s e := by
      intro w e us hw hr hu x hx
      have h5 := (hu x hx).2.2
      refine Nat.le_trans h5 ?_
      unfold View.cur
      rw [hr]
      cases us with
      | nil => exact Nat.le_refl _
      | cons a us =>
        have hp := (List.pairwise_append.1 hw.sorted.tokens.2).2.1
        rw [hr] at hp
        have h5 := (List.pairwise_cons.1 hp).1 s (by simp)
        have := hw.pos (t := s) (by rw [hr]; simp)
        show a.span.hi ≤ _
        omega
    have key : ∃ us, v1.rest = us ++ s :: l ∧ (∀ a ∈ us, ¬ a.Is source k) ∧ Ready source v1 ∧
        By s hd.errs ∧ By s hd.panic.toList := by
      have go : ∀ r1, On S md t v r1 v1 → ∃ us, v1.rest = us ++ s :: l ∧ (∀ a ∈ us, ¬ a.Is source k) ∧
          Ready source v1 ∧ By s r1.errs := by
        intro r1 hon
        obtain ⟨cs, e1, n1⟩ := stays (k := k) hon.run hv hc
        have hv1 := hv.adv hon.adv
        rw [hrest] at e1
        rcases List.append_eq_append_iff.1 e1 with ⟨us, e2, e3⟩ | ⟨us, e2, e3⟩
        · cases us with
          | nil =>
            rw [List.nil_append] at e3
            exact ⟨[], e3.symm, by simp, hv1, upTo_by (us := []) hv1 e3.symm (hon.run.upTo hv)⟩
          | cons b us =>
            exfalso
            simp only [List.cons_append, List.cons.injEq] at e3
            obtain ⟨rfl, -⟩ := e3
            exact n1 s (by rw [e2]; simp) hs
        · exact ⟨us, e3, fun a ha => hts a (by rw [e2]; simp [ha]), hv1, upTo_by hv1 e3 (hon.run.upTo hv)⟩
      simp only [recoverHead, bind_ok, mPeekSrc_ok] at h1
      obtain ⟨tok, _, ⟨rfl, rfl, -⟩, h1⟩ := h1
      split at h1
      · simp only [bind_ok] at h1
        obtain ⟨r1, v3, h4, h5⟩ := h1
        cases r1 with
        | success x =>
          simp only [pure_ok] at h5
          obtain ⟨rfl, rfl⟩ := h5
          obtain ⟨us, g1, g2, g3, g4⟩ := go _ ⟨f, h4⟩
          exact ⟨us, g1, g2, g3, g4, by intro e he; cases he⟩
        | recovered x e =>
          simp only [pure_ok] at h5
          obtain ⟨rfl, rfl⟩ := h5
          obtain ⟨us, g1, g2, g3, g4⟩ := go _ ⟨f, h4⟩
          exact ⟨us, g1, g2, g3, g4, by intro e he; cases he⟩
        | panic e =>
          simp only [bind_ok, mEmptySpan_ok, pure_ok] at h5
          obtain ⟨_, _, ⟨rfl, rfl⟩, rfl, rfl⟩ := h5
          obtain ⟨us, g1, g2, g3, g4⟩ := go _ ⟨f, h4⟩
          refine ⟨us, g1, g2, g3, (by intro e he; cases he), ?_⟩
          intro x hx
          cases hl : e.getLast? with
          | none => rw [hl] at hx; cases hx
          | some a =>
            rw [hl] at hx
            rw [List.mem_singleton.1 hx]
            exact g4 a (List.mem_of_getLast? hl)
      · simp only [bind_ok, mEmptySpan_ok, mExpecting_ok, pure_ok] at h1
        obtain ⟨_, _, ⟨rfl, rfl⟩, _, _, ⟨rfl, rfl⟩, rfl, rfl⟩ := h1
        exact ⟨ts, hrest, hts, hv, (by intro e he; cases he), upTo_by hv hrest (.at hv _)⟩
    obtain ⟨us, k1, k2, k3, k4, k5⟩ := key
    obtain ⟨g1, g2, g3, g4, g5, -⟩ := tail_to hf f i f us v1 _ _ _ _ s l k3 h2 k1 k2 hs k5
    simp only at g3 g4 g5
    subst g3
    simp only [pure_ok] at h3
    obtain ⟨rfl, rfl⟩ := h3
    refine ⟨g1, ⟨hd, by unfold Res.ofPair; cases errs ++ pending.toList <;> rfl⟩, ?_⟩
    have : (Res.ofPair (mkRecover hd (Tree.tok s)) (errs ++ pending.toList)).errs = errs ++ pending.toList := by
      unfold Res.ofPair
      cases errs ++ pending.toList <;> rfl
    rw [this]
    intro e he
    rcases List.mem_append.1 he with he | he
    · rw [g4] at he
      exact k4 e he
    · exact g5 e he

/-- A good statement is found, whatever comes after its terminator. -/
theorem recover_good (E : Found S md root G) {t : Ty m n} {i : Nat}
    (hw : Within S root root (.recover t (.term i k))) (hl : LoopFree S t)
    {c : List (Cell n)} {x : Tree n} {d : List (Cell n)} {s : Token n} {l : List (Token n)}
    (hx : Parses S source (endOf 0 d) t c x) (hs : s.Is source k)
    (hv : Ready source ⟨source, d, toks c ++ s :: l⟩) {r v'}
    (h : On S md (.recover t (.term i k)) ⟨source, d, toks c ++ s :: l⟩ r v') :
    r = .success (.recover x.span x (.tok s)) ∧ v' = ⟨source, d ++ c ++ [Cell.ofToken s], l⟩ := by
  have hwt : Within S root root t := ⟨.step hw.ty (by simp [Schema.tyParts]),
    hw.pid.part (by simp [Ty.pid, Ty.prod, PId.id, Schema.rule, Rule.parts])⟩
  have hwu : Within S root root (.term i k) := ⟨.step hw.ty (by simp [Schema.tyParts]),
    hw.pid.part (by simp [Ty.pid, Ty.prod, PId.id, Schema.rule, Rule.parts])⟩
  have C : Comp S md source t root G := E.comp hwt.ty hl
  have hfs : FirstI G (Ty.term i k : Ty m n).pid (s.word source) := .term (E.mem hwu.pid) hs
  have hf : ∀ y, (md.first.get (Ty.term i k : Ty m n).pid).contains y = true ↔ ∃ w, y = some w ∧ k.Matches w := by
    intro y
    cases y with
    | none =>
      have : ¬ Null G (Ty.term i k : Ty m n).pid := E.term_null rfl
      simp only [reduceCtorEq, false_and, exists_false, iff_false]
      intro hc
      exact this (C.containsE.1 hc)
    | some w =>
      rw [C.contains]
      constructor
      · intro h; exact ⟨w, rfl, E.term_first rfl h⟩
      · rintro ⟨w', e, h⟩
        cases e
        exact .term (E.mem hwu.pid) h
  have hon : On S md t ⟨source, d, toks c ++ s :: l⟩ (.success x) ⟨source, d ++ c, s :: l⟩ := by
    refine on_of_does hv (C.finds (fx := false) hx d (s :: l) rfl hv ⟨.refl, hwt.pid⟩ ?_)
    intro tok htok
    refine .inl ?_
    cases htok
    exact FollowOf.between (pre := []) (mid := []) (post := []) (E.reachable hw.pid) (E.mem hw.pid) (by simp) hfs
  obtain ⟨f, h⟩ := h
  cases f with
  | zero => cases h
  | succ f =>
    change produceRecover View.ops (md.first.get t.pid) (md.first.get (Ty.term i k : Ty m n).pid)
      (produce View.ops S md f t) (produce View.ops S md f (.term i k)) f _ = _ at h
    simp only [produceRecover, bind_ok] at h
    obtain ⟨hd, v1, h1, ⟨tl, errs, pending⟩, v2, h2, h3⟩ := h
    simp only [recoverHead, bind_ok, mPeekSrc_ok] at h1
    obtain ⟨tok, _, ⟨rfl, rfl, -⟩, h1⟩ := h1
    rw [if_pos] at h1
    · simp only [bind_ok] at h1
      obtain ⟨r1, v3, h4, h5⟩ := h1
      obtain ⟨rfl, rfl⟩ := on_det ⟨f, h4⟩ hon
      simp only [pure_ok] at h5
      obtain ⟨rfl, rfl⟩ := h5
      obtain ⟨-, -, g3, g4, -, g5⟩ := tail_to hf f i f [] _ _ _ _ _ s l (hv.adv hon.adv) h2 rfl (by simp) hs
        (by intro e he; cases he)
      obtain ⟨g6, g7⟩ := g5 rfl
      clear g5
      simp only at g3 g4 g6
      subst g3 g4 g6
      simp only [pure_ok] at h3
      obtain ⟨rfl, rfl⟩ := h3
      exact ⟨rfl, g7⟩
    · rw [Bool.or_eq_true]
      rcases E.part hl hwt hx with ⟨_, hn⟩ | ⟨w, hf, _, hla⟩
      · exact .inr (C.containsE.2 hn)
      · left; rw [hv.la, hla]; exact C.contains.2 hf

/-- A statement begins with a token that can begin a statement. -/
theorem first_good (E : Found S md root G) {t : Ty m n} {i : Nat}
    (hw : Within S root root (.recover t (.term i k))) (hl : LoopFree S t)
    {c : List (Cell n)} {x : Tree n} {pos : Nat} {s : Token n} (l : List (Token n))
    (hx : Parses S source pos t c x) (hs : s.Is source k) :
    ∃ a b, toks c ++ s :: l = a :: b ∧ FirstOf G (Ty.recover t (.term i k)).pid (a.word source) := by
  have hwt : Within S root root t := ⟨.step hw.ty (by simp [Schema.tyParts]),
    hw.pid.part (by simp [Ty.pid, Ty.prod, PId.id, Schema.rule, Rule.parts])⟩
  have hwu : Within S root root (.term i k) := ⟨.step hw.ty (by simp [Schema.tyParts]),
    hw.pid.part (by simp [Ty.pid, Ty.prod, PId.id, Schema.rule, Rule.parts])⟩
  have hfs : FirstI G (Ty.term i k : Ty m n).pid (s.word source) := .term (E.mem hwu.pid) hs
  rcases E.part hl hwt hx with ⟨rfl, hn⟩ | ⟨w, hf, hne, hla⟩
  · exact ⟨s, l, rfl, firstOf_iff.2 (.seq (pre := [t.pid]) (post := []) (E.mem hw.pid) (by simpa using hn) hfs)⟩
  · have := hla (s :: l)
    cases hc : toks c ++ s :: l with
    | nil => simp at hc
    | cons a b =>
      rw [hc] at this
      cases this
      exact ⟨a, b, rfl, firstOf_iff.2 (.seq (pre := []) (E.mem hw.pid) (by simp) hf)⟩

/-- What is in the store stays there. -/
theorem on_prefix {t : Ty m n} {v v' : View n} {r} (hv : Ready source v) (h : On S md t v r v') :
    ∃ c, v'.cells = v.cells ++ c := by
  obtain ⟨f, h⟩ := h
  have e : v.source = source := hv.inSource.src
  have hin : ∀ a ∈ v.cells.map (·.token) ++ v.rest, a.span.InSource v.source := by
    intro a ha
    rw [e]
    rcases List.mem_append.1 ha with ha | ha
    · exact hv.inSource.good.cells a ha
    · exact hv.inSource.good.rest a ha
  have hT : Twins (⟨v.source, v.rest, v.cells⟩ : Layout n) ⟨v.source, v.rest, v.cells⟩ :=
    ⟨hv.sorted.tokens, hv.sorted.tokens, hin, hin, rfl⟩
  have hr := produce_rel hT S md f t v v
    ⟨rfl, rfl, [], [], (List.append_nil _).symm, (List.append_nil _).symm, rfl, rfl, rfl⟩
  rw [h] at hr
  cases hr with
  | ok _ ha =>
    obtain ⟨new, _, h1, -⟩ := ha.toks
    exact ⟨new, h1⟩

/-! ### Positions -/

theorem after_append (pos : Nat) (a b : List (Token n)) : afterTokens pos (a ++ b) = afterTokens (afterTokens pos a) b := by
  unfold afterTokens
  rw [List.getLast?_append]
  cases b.getLast? <;> simp

theorem endOf_after (d : List (Cell n)) : endOf 0 d = afterTokens 0 (d.map (·.token)) := by
  unfold endOf afterTokens
  rw [List.getLast?_map]
  cases d.getLast? <;> rfl

theorem le_after {pos : Nat} {l : List (Token n)} (hs : SortedTokens l) {a : Token n} (ha : a ∈ l) :
    a.span.hi ≤ afterTokens pos l := by
  unfold afterTokens
  rcases List.eq_nil_or_concat l with rfl | ⟨l, b, rfl⟩
  · cases ha
  · rw [List.concat_eq_append] at hs ha ⊢
    rw [List.getLast?_concat]
    rcases List.mem_append.1 ha with ha | ha
    · have h1 := (List.pairwise_append.1 hs.2).2.2 a ha b (by simp)
      have := hs.1 b (by simp)
      simp only [Option.map_some, Option.getD_some]
      omega
    · cases List.mem_singleton.1 ha
      exact Nat.le_refl _

/-- The first terminator in a list. -/
theorem first_sep : ∀ (pre : List (Token n)), (∃ a ∈ pre, a.Is source k) →
    ∃ ts s pre', pre = ts ++ s :: pre' ∧ (∀ a ∈ ts, ¬ a.Is source k) ∧ s.Is source k := by
  intro pre
  induction pre with
  | nil => rintro ⟨a, h, -⟩; cases h
  | cons b pre ih =>
    rintro ⟨a, h, hs⟩
    by_cases hb : b.Is source k
    · exact ⟨[], b, pre, rfl, by simp, hb⟩
    · obtain ⟨ts, s, pre', h1, h2, h3⟩ := ih (by
        rcases List.mem_cons.1 h with rfl | h
        · exact absurd hs hb
        · exact ⟨a, h, hs⟩)
      refine ⟨b :: ts, s, pre', by rw [h1]; rfl, fun x hx => ?_, h3⟩
      rcases List.mem_cons.1 hx with rfl | hx
      · exact hb
      · exact h2 x hx

theorem ended_right {a b : List (Token n)} (h : Ended source k (a ++ b)) : Ended source k b := by
  intro x hx
  refine h x ?_
  rw [List.getLast?_append, hx]
  rfl

theorem adv_tokens {v w : View n} (h : Adv v w) {us : List (Token n)} (hr : v.rest = us ++ w.rest) :
    w.cells.map (·.token) = v.cells.map (·.token) ++ us := by
  obtain ⟨ts, h1, h2⟩ := h.cons
  rw [hr] at h1
  rw [h2, List.append_cancel_right h1]

/-- A good statement among the steps of the loop. -/
theorem line (E : Found S md root G) {t : Ty m n} {i : Nat} (ht : Reach S.tyParts root (.loop (.recover t (.term i k))))
    (hc : Confined S k t)
    (hfl : ∀ w, (md.first.get (Ty.loop (.recover t (.term i k))).pid).contains (some w) = true ↔
      FirstOf G (Ty.recover t (.term i k)).pid w)
    {c : List (Cell n)} {x : Tree n} {s : Token n} {post : List (Token n)} (hs : s.Is source k)
    {v v' : View n} {steps : List (LoopStep n)} {stuck : Bool}
    (h : LoopSteps S md G (.recover t (.term i k)) v steps stuck v') :
    ∀ pre, Ready source v → v.rest = pre ++ (toks c ++ s :: post) → Ended source k pre →
      Parses S source (afterTokens 0 (v.cells.map (·.token) ++ pre)) t c x →
      (∃ l1 l2, loopTrees steps = l1 ++ .recover x.span x (.tok s) :: l2) ∧
      (∀ e ∈ loopErrs steps stuck v',
        e.span.Outside (afterTokens 0 (v.cells.map (·.token) ++ pre)) s.span.hi) ∧
      ∃ d c', v'.cells = d ++ (c ++ Cell.ofToken s :: c') ∧ d.map (·.token) = v.cells.map (·.token) ++ pre := by
  have hw : Within S root root (.recover t (.term i k)) := .of_reach (.step ht (by simp [Schema.tyParts]))
  have hl : LoopFree S t := by
    intro u hu a e
    subst e
    exact hc _ hu
  have hwu : Within S root root (.term i k) := ⟨.step hw.ty (by simp [Schema.tyParts]),
    hw.pid.part (by simp [Ty.pid, Ty.prod, PId.id, Schema.rule, Rule.parts])⟩
  have hf : ∀ y, (md.first.get (Ty.term i k : Ty m n).pid).contains y = true ↔ ∃ w, y = some w ∧ k.Matches w := by
    have C : Comp S md source t root G := E.comp (.step hw.ty (by simp [Schema.tyParts])) hl
    intro y
    cases y with
    | none =>
      have : ¬ Null G (Ty.term i k : Ty m n).pid := E.term_null rfl
      simp only [reduceCtorEq, false_and, exists_false, iff_false]
      intro hc
      exact this (C.containsE.1 hc)
    | some w =>
      rw [C.contains]
      constructor
      · intro h; exact ⟨w, rfl, E.term_first rfl h⟩
      · rintro ⟨w', e, h⟩
        cases e
        exact .term (E.mem hwu.pid) h
  -- an element that is produced ends after the next terminator
  have elem : ∀ {v v1 : View n} {r} (pre : List (Token n)), Ready source v → v.rest = pre ++ (toks c ++ s :: post) →
      Ended source k pre → Parses S source (afterTokens 0 (v.cells.map (·.token) ++ pre)) t c x →
      On S md (.recover t (.term i k)) v r v1 →
      (pre = [] ∧ r = .success (.recover x.span x (.tok s)) ∧ v1 = ⟨source, v.cells ++ c ++ [Cell.ofToken s], post⟩) ∨
      (∃ ts s' pre', pre = ts ++ s' :: pre' ∧ v1.rest = pre' ++ (toks c ++ s :: post) ∧ By s' r.errs) := by
    intro v v1 r pre hv hr he hx hon
    cases pre with
    | nil =>
      have e : v = ⟨source, v.cells, toks c ++ s :: post⟩ := by
        have : v.source = source := hv.inSource.src
        cases v
        simp only at hr this
        subst this
        rw [hr]
        rfl
      rw [List.append_nil, ← endOf_after] at hx
      generalize v.cells = d at e hx ⊢
      subst e
      exact .inl ⟨rfl, recover_good E hw hl hx hs hv hon⟩
    | cons b pre =>
      right
      obtain ⟨a, ha⟩ : ∃ a, (b :: pre).getLast? = some a := ⟨_, List.getLast?_eq_some_getLast (by simp)⟩
      obtain ⟨ts, s', pre', e1, h2, h3⟩ := first_sep (b :: pre) ⟨a, List.mem_of_getLast? ha, he a ha⟩
      rw [e1, List.append_assoc, List.cons_append] at hr
      obtain ⟨g1, -, g3⟩ := recover_to hf hc hv hon hr h2 h3
      exact ⟨ts, s', pre', e1, g1, g3⟩
  induction h with
  | done h =>
    intro pre _ hr
    rw [h] at hr
    exact absurd hr.symm (by simp)
  | @skip v ts v1 steps b v' hne hp hts hw1 h ih =>
    intro pre hv hr he hx
    obtain ⟨a0, b0, e0, hf0⟩ := first_good E hw hl post hx hs
    have e : v.source = source := hv.inSource.src
    obtain ⟨us, e1, e2⟩ : ∃ us, pre = ts ++ us ∧ v1.rest = us ++ (toks c ++ s :: post) := by
      have h1 := hp.rest
      rw [hr] at h1
      rcases List.append_eq_append_iff.1 h1 with ⟨us, e2, e3⟩ | ⟨us, e2, e3⟩
      · cases us with
        | nil => exact ⟨[], by simpa using e2.symm, by simpa using e3.symm⟩
        | cons a us =>
          rw [e0] at e3
          simp only [List.cons_append, List.cons.injEq] at e3
          obtain ⟨rfl, -⟩ := e3
          refine absurd ?_ (hts a0 (by rw [e2]; simp))
          rw [e]
          exact hf0
      · exact ⟨us, e2, e3⟩
    subst e1
    have hv1 := hv.adv hp.adv
    have hc1 := adv_tokens hp.adv hp.rest
    have e3 : v1.cells.map (·.token) ++ us = v.cells.map (·.token) ++ (ts ++ us) := by rw [hc1, List.append_assoc]
    obtain ⟨⟨l1, l2, g1⟩, g2, d, c', g3, g4⟩ := ih us hv1 e2 (ended_right he) (by rw [e3]; exact hx)
    rw [e3] at g2 g4
    refine ⟨⟨l1, l2, by simpa [loopTrees, LoopStep.tree?, List.filterMap_cons] using g1⟩, ?_, d, c', g3, g4⟩
    intro y hy
    have hy : y ∈ LoopStep.errs (.skip ts) ++ loopErrs steps b v' := by simpa [loopErrs] using hy
    rcases List.mem_append.1 hy with hy | hy
    · left
      have hsort : SortedTokens (v.cells.map (·.token) ++ (ts ++ us)) := by
        have h5 := hv.sorted.tokens
        rw [hr, ← List.append_assoc] at h5
        exact ⟨fun a ha => h5.1 a (List.mem_append_left _ ha), (List.pairwise_append.1 h5.2).1⟩
      cases ts with
      | nil => exact absurd rfl hne
      | cons a ts =>
        simp only [LoopStep.errs, List.mem_singleton] at hy
        subst hy
        show (ts.getLast?.getD a).span.hi ≤ _
        refine le_after hsort ?_
        cases hg : ts.getLast? with
        | none => simp
        | some q => simp [List.mem_of_getLast? hg]
    · exact g2 y hy
  | @elem v w ts r v1 steps b v' hw1 hfw hon hrest hne h ih =>
    intro pre hv hr he hx
    have hv1 := hv.adv hon.adv
    rcases elem pre hv hr he hx hon with ⟨rfl, rfl, rfl⟩ | ⟨us, s', pre', rfl, e2, e3⟩
    · have hlp := Stray.on_loop hfl hv1 h
      obtain ⟨c', hc'⟩ := on_prefix hv1 hlp
      refine ⟨⟨[], loopTrees steps, by rw [Stray.loopTrees_elem]; rfl⟩, ?_, v.cells, c', ?_, by simp⟩
      · intro y hy
        have hy : y ∈ loopErrs steps b v' := by simpa [loopErrs, LoopStep.errs, Res.errs] using hy
        right
        have hlate := hlp.run.lateCur hv1
        have hy' : y ∈ (Res.ofPair (.list (if loopTrees steps = [] then ⟨v'.pos, v'.pos⟩ else spanOf (loopTrees steps))
            (loopTrees steps)) (loopErrs steps b v') : Res n (Tree n)).errs := by
          cases hl : loopErrs steps b v' with
          | nil => rw [hl] at hy; cases hy
          | cons p q => rw [hl] at hy; exact hy
        have h6 := hlate y hy'
        refine Nat.le_trans ?_ (Nat.le_trans hv1.pos_cur h6)
        simp [View.pos, Cell.ofToken]
      · rw [hc']
        simp
    · have hr1 : v.rest = (us ++ [s']) ++ v1.rest := by rw [hr, e2]; simp
      have hc1 := adv_tokens hon.adv hr1
      have e4 : v1.cells.map (·.token) ++ pre' = v.cells.map (·.token) ++ (us ++ s' :: pre') := by rw [hc1]; simp
      obtain ⟨⟨l1, l2, g1⟩, g2, d, c', g3, g4⟩ := ih pre' hv1 e2
        (ended_right (a := us ++ [s']) (by simpa using he)) (by rw [e4]; exact hx)
      rw [e4] at g2 g4
      refine ⟨⟨r.tree?.toList ++ l1, l2, by rw [Stray.loopTrees_elem, g1, List.append_assoc]⟩, ?_, d, c', g3, g4⟩
      intro y hy
      have hy : y ∈ r.errs ++ loopErrs steps b v' := by simpa [loopErrs, LoopStep.errs] using hy
      rcases List.mem_append.1 hy with hy | hy
      · left
        have hsort : SortedTokens (v.cells.map (·.token) ++ (us ++ s' :: pre')) := by
          have h5 := hv.sorted.tokens
          rw [hr, ← List.append_assoc] at h5
          exact ⟨fun a ha => h5.1 a (List.mem_append_left _ ha), (List.pairwise_append.1 h5.2).1⟩
        exact Nat.le_trans (e3 y hy) (le_after hsort (by simp))
      · exact g2 y hy
  | @stuck v w r v1 hw1 hfw hon he1 =>
    intro pre hv hr he hx
    exfalso
    rcases elem pre hv hr he hx hon with ⟨rfl, rfl, rfl⟩ | ⟨us, s', pre', rfl, e2, e3⟩
    · rw [hr] at he1
      have := congrArg List.length he1
      simp at this
      omega
    · rw [hr, e2] at he1
      have := congrArg List.length he1
      simp at this
      omega

end Lines
end Teleparse
