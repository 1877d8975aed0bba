import Verif.Proof.Whole
/-
What is expected according to an error is not what is there.
-/
namespace Teleparse
variable {m n : Nat}

/-- `s` is allowed by `Q`, and what comes next is not in `s`. At the end of input only required if `strict`. -/
def Absent (strict : Prop) (Q : TSet n → Prop) (s : TSet n) (v : View n) : Prop :=
  Q s ∧ (v.rest ≠ [] → s.contains v.look = false) ∧ (v.rest = [] → strict → s.e = false)

/-- If the error is an expectation, then it is about a position after `v0` at which something else is. -/
def Tells (strict : Prop) (Q : TSet n → Prop) (v0 : View n) (e : Err n) : Prop :=
  ∀ s, e.kind = .expecting s → ∃ v, Adv v0 v ∧ e.span.lo = v.cur.lo ∧ Absent strict Q s v

def TellsL (strict : Prop) (Q : TSet n → Prop) (v0 : View n) (l : List (Err n)) : Prop := ∀ e ∈ l, Tells strict Q v0 e

/-- All errors of a result tell, and a panic without errors is at the end of input. -/
def TellP (strict : Prop) (Q : TSet n → Prop) (p : P (View n) n) : Prop :=
  ∀ v0 v r v', Adv v0 v → p v = .ok r v' → Adv v0 v' ∧ TellsL strict Q v0 r.errs ∧ (r = .panic [] → v'.rest = [])

variable {strict : Prop} {Q : TSet n → Prop}

theorem TellsL.nil {v0 : View n} : TellsL strict Q v0 [] := by intro e he; cases he

theorem TellsL.append {v0 : View n} {a b : List (Err n)} (h1 : TellsL strict Q v0 a) (h2 : TellsL strict Q v0 b) :
    TellsL strict Q v0 (a ++ b) := by
  intro e he
  rcases List.mem_append.1 he with h | h
  · exact h1 e h
  · exact h2 e h

theorem TellsL.one {v0 : View n} {e : Err n} (h : Tells strict Q v0 e) : TellsL strict Q v0 [e] := by
  intro e' he'; rw [List.mem_singleton.1 he']; exact h

theorem Tells.new {v0 v : View n} {s : TSet n} (ha : Adv v0 v) (h : Absent strict Q s v) :
    Tells strict Q v0 ⟨v.cur, .expecting s⟩ := by
  intro s' hs'
  cases hs'
  exact ⟨v, ha, rfl, h⟩

theorem Tells.other {v0 : View n} {sp : Span} {k : ErrKind n} (h : ∀ s, k ≠ .expecting s) :
    Tells strict Q v0 ⟨sp, k⟩ := fun s hs => absurd hs (h s)

theorem Tells.hi {v0 : View n} {e : Err n} (h : Tells strict Q v0 e) (x : Nat) :
    Tells strict Q v0 { e with span := { e.span with hi := x } } := h

theorem mergePanic_tells {v0 : View n} {p : Option (Err n)} {e : List (Err n)}
    (hp : TellsL strict Q v0 p.toList) (he : TellsL strict Q v0 e) : TellsL strict Q v0 (mergePanic p e).toList := by
  unfold mergePanic
  cases hl : e.getLast? with
  | none => exact hp
  | some d =>
    have hd := he d (List.mem_of_getLast? hl)
    cases p with
    | none => exact .one hd
    | some q => exact .one ((hp q (by simp)).hi _)

theorem ofPair_tells {v0 : View n} {x : Tree n} {e : List (Err n)} (he : TellsL strict Q v0 e) :
    TellsL strict Q v0 (Res.ofPair x e).errs ∧ Res.ofPair x e ≠ .panic [] := by
  unfold Res.ofPair
  split
  · exact ⟨.nil, by simp⟩
  · exact ⟨he, by simp⟩

theorem Absent.look {s : TSet n} {v : View n} (hq : Q s) (h : s.contains v.look = false) : Absent strict Q s v := by
  refine ⟨hq, fun _ => h, fun hr _ => ?_⟩
  have : v.look = none := by simp [View.look, hr]
  rw [this] at h
  exact h

theorem Absent.one_ty {v : View n} {t : Token n} {l : List (Token n)} {ty : Fin n} {lit : Option Str}
    (hq : Q (TSet.one ty lit)) (hr : v.rest = t :: l) (h : t.ty ≠ ty ∨ ∃ x, lit = some x ∧ t.span.get v.source ≠ x) :
    Absent strict Q (TSet.one ty lit) v := by
  apply Absent.look hq
  simp only [View.look, hr, List.head?_cons, Option.map_some]
  rw [Bool.eq_false_iff]
  intro hc
  have := (TSet.mem_one ty lit _).1 hc
  simp only [Terminal.Matches, Token.toSrc, Token.src] at this
  rcases h with h | ⟨x, hx, h⟩
  · exact h this.1
  · exact h (this.2 x hx)

theorem Absent.one_eof {v : View n} {ty : Fin n} {lit : Option Str} (hq : Q (TSet.one ty lit))
    (hr : v.rest = []) :
    Absent strict Q (TSet.one ty lit) v := by
  refine ⟨hq, fun h => absurd hr h, fun _ _ => ?_⟩
  exact TSet.insert_e _ ty lit

theorem tell_term {k : Terminal n} (hq : Q (TSet.one k.ty k.lit)) (follow : TSet n) : TellP strict Q (produceTerm View.ops k follow) := by
  intro v0 v r v' ha h
  unfold produceTerm at h
  cases hl : k.lit with
  | none =>
    rw [hl] at hq
    simp only [hl, bind_ok, pure_ok] at h
    obtain ⟨r1, v1, h, rfl, rfl⟩ := h
    unfold Ops.parseToken at h
    simp only [bind_ok, mPeek_ok] at h
    obtain ⟨x, _, ⟨rfl, rfl⟩, h⟩ := h
    rename_i v
    cases hr : v.rest with
    | nil =>
      simp only [hr, List.head?_nil, bind_ok, mExpecting_ok, pure_ok] at h
      obtain ⟨e, _, ⟨rfl, rfl⟩, rfl, rfl⟩ := h
      exact ⟨ha, .one (.new ha (.one_eof hq hr)), by simp [Res.map]⟩
    | cons t l =>
      simp only [hr, List.head?_cons] at h
      split at h
      · simp only [bind_ok, mConsume_ok, pure_ok] at h
        obtain ⟨_, _, ⟨rfl, rfl⟩, rfl, rfl⟩ := h
        exact ⟨ha.trans (.skip _), .nil, by simp [Res.map]⟩
      · rename_i ht
        simp only [bind_ok, mExpecting_ok, pure_ok] at h
        obtain ⟨e, _, ⟨rfl, rfl⟩, rfl, rfl⟩ := h
        exact ⟨ha, .one (.new ha (.one_ty hq hr (.inl ht))), by simp [Res.map]⟩
  | some lit =>
    rw [hl] at hq
    simp only [hl, bind_ok, pure_ok] at h
    obtain ⟨r1, v1, h, rfl, rfl⟩ := h
    unfold Ops.parseTokenLit at h
    simp only [bind_ok, mPeek_ok] at h
    obtain ⟨x, _, ⟨rfl, rfl⟩, h⟩ := h
    rename_i v
    cases hr : v.rest with
    | nil =>
      simp only [hr, List.head?_nil] at h
      split at h
      · simp only [bind_ok, mCurrentSpan_ok, mExpecting_ok, pure_ok] at h
        obtain ⟨_, _, ⟨rfl, rfl⟩, e, _, ⟨rfl, rfl⟩, rfl, rfl⟩ := h
        exact ⟨ha, .one (.new ha (.one_eof hq hr)), by simp [Res.map]⟩
      · simp only [bind_ok, mUnexpectedEof_ok, pure_ok] at h
        obtain ⟨e, _, ⟨rfl, rfl⟩, rfl, rfl⟩ := h
        exact ⟨ha, .one (.other (by intro s h; cases h)), by simp [Res.map]⟩
    | cons t l =>
      simp only [hr, List.head?_cons, bind_ok, mGetSrc_ok] at h
      obtain ⟨src, _, ⟨hs, rfl⟩, h⟩ := h
      rename_i v
      have hneg : ¬ (t.ty = k.ty ∧ src = lit) → Absent strict Q (TSet.one k.ty (some lit)) v := by
        intro hn
        refine .one_ty hq hr ?_
        by_cases ht : t.ty = k.ty
        · exact .inr ⟨lit, rfl, by simp only [Span.get, hs, Option.getD_some]; exact fun h => hn ⟨ht, h⟩⟩
        · exact .inl ht
      split at h
      · simp only [bind_ok, mConsume_ok, pure_ok] at h
        obtain ⟨_, _, ⟨rfl, rfl⟩, rfl, rfl⟩ := h
        exact ⟨ha.trans (.skip _), .nil, by simp [Res.map]⟩
      · rename_i hn
        split at h
        · simp only [bind_ok, mEmptySpan_ok, mExpecting_ok, pure_ok] at h
          obtain ⟨_, _, ⟨rfl, rfl⟩, e, _, ⟨rfl, rfl⟩, rfl, rfl⟩ := h
          exact ⟨ha, .one (.new ha (hneg hn)), by simp [Res.map]⟩
        · simp only [bind_ok, mExpecting_ok, pure_ok] at h
          obtain ⟨e, _, ⟨rfl, rfl⟩, rfl, rfl⟩ := h
          exact ⟨ha, .one (.new ha (hneg hn)), by simp [Res.map]⟩

/-! ### Sequences -/

theorem tell_seq (ps : List (P (View n) n)) (hps : ∀ p ∈ ps, TellP strict Q p) : ∀ v0 v acc errs r v',
    Adv v0 v → TellsL strict Q v0 errs → seqLoop ps acc errs v = .ok r v' →
    Adv v0 v' ∧ match r with
      | .error e => TellsL strict Q v0 e ∧ (e = [] → v'.rest = [])
      | .ok (_, e) => TellsL strict Q v0 e := by
  induction ps with
  | nil =>
    intro v0 v acc errs r v' ha he h
    simp only [seqLoop, pure_ok] at h
    obtain ⟨rfl, rfl⟩ := h
    exact ⟨ha, he⟩
  | cons p ps ih =>
    intro v0 v acc errs r v' ha he h
    simp only [seqLoop, bind_ok] at h
    obtain ⟨r1, v1, h1, h2⟩ := h
    obtain ⟨ha1, he1, hs1⟩ := hps p (by simp) v0 _ _ _ ha h1
    have hps' : ∀ p ∈ ps, TellP strict Q p := fun p hp => hps p (by simp [hp])
    cases r1 with
    | success t => exact ih hps' _ _ _ _ _ _ ha1 he h2
    | recovered t e => exact ih hps' _ _ _ _ _ _ ha1 (he.append he1) h2
    | panic e =>
      simp only [pure_ok] at h2
      obtain ⟨rfl, rfl⟩ := h2
      refine ⟨ha1, he.append he1, ?_⟩
      intro h0
      simp only [List.append_eq_nil_iff] at h0
      exact hs1 (by rw [h0.2])

theorem tell_tuple {ps : List (P (View n) n)} (hps : ∀ p ∈ ps, TellP strict Q p) :
    TellP strict Q (produceTuple ps) := by
  intro v0 v r v' ha h
  simp only [produceTuple, bind_ok] at h
  obtain ⟨r1, v1, h1, h2⟩ := h
  obtain ⟨ha1, he1⟩ := tell_seq ps hps _ _ _ _ _ _ ha .nil h1
  cases r1 with
  | error e =>
    simp only [pure_ok] at h2
    obtain ⟨rfl, rfl⟩ := h2
    exact ⟨ha1, he1.1, fun h => he1.2 (by simpa using h)⟩
  | ok x =>
    obtain ⟨l, e⟩ := x
    simp only [pure_ok] at h2
    obtain ⟨rfl, rfl⟩ := h2
    obtain ⟨h3, h4⟩ := ofPair_tells (x := Tree.seq (spanOf l) l) he1
    exact ⟨ha1, h3, fun h => absurd h h4⟩

theorem tell_struct {fs : List (P (View n) n × Option (LSet n))} (hps : ∀ f ∈ fs, TellP strict Q f.1) :
    TellP strict Q (produceStruct View.ops fs) := by
  intro v0 v r v' ha h
  simp only [produceStruct, bind_ok] at h
  obtain ⟨r1, v1, h1, h2⟩ := h
  obtain ⟨ha1, he1⟩ := tell_seq _ (by
    intro p hp
    obtain ⟨f, hf, rfl⟩ := List.mem_map.1 hp
    exact hps f hf) _ _ _ _ _ _ ha .nil h1
  cases r1 with
  | error e =>
    simp only [pure_ok] at h2
    obtain ⟨rfl, rfl⟩ := h2
    exact ⟨ha1, he1.1, fun h => he1.2 (by simpa using h)⟩
  | ok x =>
    obtain ⟨l, e⟩ := x
    simp only [bind_ok, applyFields_ok, pure_ok] at h2
    obtain ⟨_, _, rfl, rfl, rfl⟩ := h2
    obtain ⟨h3, h4⟩ := ofPair_tells (x := Tree.seq (spanOf l) l) he1
    exact ⟨ha1.trans (.applyAll _ _), h3, fun h => absurd h h4⟩

theorem tell_enum {look : Option (TokenSrc n) → Option Nat} {first : TSet n} (hq : Q first)
    {vs : List (P (View n) n × Option (LSet n))} (hps : ∀ f ∈ vs, TellP strict Q f.1)
    (hnone : ∀ x, look x = none → first.contains x = false)
    (hlt : ∀ x i, look x = some i → i < vs.length) :
    TellP strict Q (produceEnum View.ops look first vs) := by
  intro v0 v r v' ha h
  simp only [produceEnum, bind_ok, mPeekSrc_ok] at h
  obtain ⟨x, v, ⟨rfl, rfl, _⟩, h⟩ := h
  cases hl : look v.look with
  | none =>
    simp only [hl, bind_ok, mExpecting_ok, pure_ok] at h
    obtain ⟨e, _, ⟨rfl, rfl⟩, rfl, rfl⟩ := h
    exact ⟨ha, .one (.new ha (.look hq (hnone _ hl))), by simp⟩
  | some i =>
    have hi := hlt _ _ hl
    simp only [hl, List.getElem?_eq_getElem hi, bind_ok] at h
    obtain ⟨r1, v1, h1, h2⟩ := h
    obtain ⟨ha1, he1, hs1⟩ := hps _ (List.getElem_mem hi) v0 _ _ _ ha h1
    cases r1 with
    | success t =>
      simp only [mapVariant, bind_ok, applyFields_ok, pure_ok] at h2
      obtain ⟨_, _, rfl, rfl, rfl⟩ := h2
      exact ⟨ha1.trans (.applyAll _ _), .nil, by simp⟩
    | recovered t e =>
      simp only [mapVariant, bind_ok, applyFields_ok, pure_ok] at h2
      obtain ⟨_, _, rfl, rfl, rfl⟩ := h2
      exact ⟨ha1.trans (.applyAll _ _), he1, by simp⟩
    | panic e =>
      simp only [mapVariant, pure_ok] at h2
      obtain ⟨rfl, rfl⟩ := h2
      exact ⟨ha1, he1, hs1⟩

theorem tell_option {first : TSet n} {p : P (View n) n} (h : TellP strict Q p)
    (mk : Span → Option (Tree n) → Tree n) : TellP strict Q (produceOption View.ops first p mk) := by
  intro v0 v r v' ha hv
  simp only [produceOption, bind_ok, mPeekSrc_ok] at hv
  obtain ⟨x, _, ⟨rfl, rfl, _⟩, hv⟩ := hv
  split at hv
  · simp only [bind_ok] at hv
    obtain ⟨r1, v1, h1, h2⟩ := hv
    obtain ⟨ha1, he1, hs1⟩ := h v0 _ _ _ ha h1
    cases r1 with
    | success t =>
      simp only [pure_ok] at h2
      obtain ⟨rfl, rfl⟩ := h2
      exact ⟨ha1, .nil, by simp⟩
    | recovered t e =>
      simp only [pure_ok] at h2
      obtain ⟨rfl, rfl⟩ := h2
      exact ⟨ha1, he1, by simp⟩
    | panic e =>
      simp only [bind_ok, mEmptySpan_ok, pure_ok] at h2
      obtain ⟨_, _, ⟨rfl, rfl⟩, rfl, rfl⟩ := h2
      exact ⟨ha1, he1, by simp⟩
  · simp only [bind_ok, mEmptySpan_ok, pure_ok] at hv
    obtain ⟨_, _, ⟨rfl, rfl⟩, rfl, rfl⟩ := hv
    exact ⟨ha, .nil, by simp⟩

theorem tell_text {p : P (View n) n} (h : TellP strict Q p) : TellP strict Q (produceText View.ops p) := by
  intro v0 v r v' ha hv
  simp only [produceText, bind_ok] at hv
  obtain ⟨r1, v1, h1, h2⟩ := hv
  obtain ⟨ha1, he1, hs1⟩ := h v0 _ _ _ ha h1
  cases r1 with
  | success t =>
    simp only [bind_ok, mGetSrc_ok, pure_ok] at h2
    obtain ⟨_, _, ⟨_, rfl⟩, rfl, rfl⟩ := h2
    exact ⟨ha1, .nil, by simp⟩
  | recovered t e =>
    simp only [bind_ok, mGetSrc_ok, pure_ok] at h2
    obtain ⟨_, _, ⟨_, rfl⟩, rfl, rfl⟩ := h2
    exact ⟨ha1, he1, by simp⟩
  | panic e =>
    simp only [pure_ok] at h2
    obtain ⟨rfl, rfl⟩ := h2
    exact ⟨ha1, he1, hs1⟩

/-! ### Repetitions -/

theorem tell_iter {first : TSet n} {p : P (View n) n} (h : TellP strict Q p) (fuel : Nat) :
    ∀ v0 v acc errs hi r v', Adv v0 v → TellsL strict Q v0 errs →
    iterLoop View.ops first p fuel acc errs hi v = .ok r v' → Adv v0 v' ∧ TellsL strict Q v0 r.2.1 := by
  induction fuel with
  | zero => intro v0 v acc errs hi r v' _ _ hv; cases hv
  | succ fuel ih =>
    intro v0 v acc errs hi r v' ha he hv
    simp only [iterLoop, bind_ok, mPeekSrc_ok] at hv
    obtain ⟨x, _, ⟨rfl, rfl, _⟩, hv⟩ := hv
    split at hv
    · simp only [bind_ok] at hv
      obtain ⟨r1, v1, h1, h2⟩ := hv
      obtain ⟨ha1, he1, hs1⟩ := h v0 _ _ _ ha h1
      cases r1 with
      | success t => exact ih _ _ _ _ _ _ _ ha1 he h2
      | recovered t e => exact ih _ _ _ _ _ _ _ ha1 (he.append he1) h2
      | panic e =>
        simp only [pure_ok] at h2
        obtain ⟨rfl, rfl⟩ := h2
        exact ⟨ha1, he.append he1⟩
    · simp only [pure_ok] at hv
      obtain ⟨rfl, rfl⟩ := hv
      exact ⟨ha, he⟩

theorem tell_plusRest {first : TSet n} {p : P (View n) n} (h : TellP strict Q p) {fuel : Nat} {v0 v v' : View n}
    {t : Tree n} {errs : List (Err n)} {r : Res n (Tree n)} (ha : Adv v0 v) (he : TellsL strict Q v0 errs)
    (hv : plusRest View.ops first p fuel t errs v = .ok r v') :
    Adv v0 v' ∧ TellsL strict Q v0 r.errs ∧ (r = .panic [] → v'.rest = []) := by
  simp only [plusRest, bind_ok] at hv
  obtain ⟨⟨l, e, hi⟩, v1, h1, h2⟩ := hv
  obtain ⟨ha1, he1⟩ := tell_iter h fuel _ _ _ _ _ _ _ ha he h1
  simp only [pure_ok] at h2
  obtain ⟨rfl, rfl⟩ := h2
  obtain ⟨h3, h4⟩ := ofPair_tells (x := Tree.list ⟨t.span.lo, hi⟩ l) he1
  exact ⟨ha1, h3, fun h => absurd h h4⟩

theorem tell_plus {first : TSet n} {p : P (View n) n} (h : TellP strict Q p) (fuel : Nat) :
    TellP strict Q (producePlus View.ops first p fuel) := by
  intro v0 v r v' ha hv
  simp only [producePlus, bind_ok] at hv
  obtain ⟨r1, v1, h1, h2⟩ := hv
  obtain ⟨ha1, he1, hs1⟩ := h v0 _ _ _ ha h1
  cases r1 with
  | success t => exact tell_plusRest h ha1 .nil h2
  | recovered t e => exact tell_plusRest h ha1 he1 h2
  | panic e =>
    simp only [pure_ok] at h2
    obtain ⟨rfl, rfl⟩ := h2
    exact ⟨ha1, he1, hs1⟩

theorem adv_skipLoop (first : TSet n) (fuel : Nat) : ∀ (v0 v : View n) hi r v', Adv v0 v →
    skipLoop View.ops first fuel hi v = .ok r v' → Adv v0 v' := by
  induction fuel with
  | zero => intro v0 v hi r v' _ hv; cases hv
  | succ fuel ih =>
    intro v0 v hi r v' ha hv
    simp only [skipLoop, bind_ok, mPeekSrc_ok] at hv
    obtain ⟨x, _, ⟨rfl, rfl, _⟩, hv⟩ := hv
    split at hv
    · simp only [bind_ok, mCurrentSpan_ok, mConsume_ok] at hv
      obtain ⟨_, _, ⟨rfl, rfl⟩, _, _, ⟨rfl, rfl⟩, hv⟩ := hv
      exact ih _ _ _ _ _ (ha.trans (.skip _)) hv
    · simp only [pure_ok] at hv
      obtain ⟨rfl, rfl⟩ := hv
      exact ha

theorem tell_loopSkip {first : TSet n} {fuel : Nat} {v0 v v' : View n} {errs r} (ha : Adv v0 v)
    (he : TellsL strict Q v0 errs) (hv : loopSkip View.ops first fuel errs v = .ok r v') :
    Adv v0 v' ∧ TellsL strict Q v0 r.1 := by
  simp only [loopSkip, bind_ok, mCurrentSpan_ok, mConsume_ok] at hv
  obtain ⟨_, _, ⟨rfl, rfl⟩, _, _, ⟨rfl, rfl⟩, ⟨hi, more⟩, v1, h1, h2⟩ := hv
  simp only [pure_ok] at h2
  obtain ⟨rfl, rfl⟩ := h2
  exact ⟨adv_skipLoop first fuel _ _ _ _ _ (ha.trans (.skip _)) h1, he.append (.one (.other (by simp)))⟩

theorem tell_loopElem {p : P (View n) n} (h : TellP strict Q p) {v0 v v' : View n} {out errs r} (ha : Adv v0 v)
    (he : TellsL strict Q v0 errs) (hv : loopElem View.ops p out errs v = .ok r v') :
    Adv v0 v' ∧ TellsL strict Q v0 r.2.2 := by
  simp only [loopElem, bind_ok, mCurrentSpan_ok] at hv
  obtain ⟨_, _, ⟨rfl, rfl⟩, r1, v1, h1, _, _, ⟨rfl, rfl⟩, h2⟩ := hv
  obtain ⟨ha1, he1, hs1⟩ := h v0 _ _ _ ha h1
  have hn : ∀ sp, Tells strict Q v0 ⟨sp, .noAdvance⟩ := fun sp => .other (by intro s h; cases h)
  cases r1 <;> simp only at h2 <;> split at h2 <;> simp only [pure_ok] at h2 <;> obtain ⟨rfl, rfl⟩ := h2 <;>
    refine ⟨ha1, ?_⟩
  · exact he.append (.one (hn _))
  · exact he
  · exact (he.append he1).append (.one (hn _))
  · exact he.append he1
  · exact (he.append he1).append (.one (hn _))
  · exact he.append he1

theorem tell_loopLoop {first : TSet n} {p : P (View n) n} (h : TellP strict Q p) (fuel : Nat) :
    ∀ v0 v out errs r v', Adv v0 v → TellsL strict Q v0 errs →
    loopLoop View.ops first p fuel out errs v = .ok r v' → Adv v0 v' ∧ TellsL strict Q v0 r.2 := by
  induction fuel with
  | zero => intro v0 v out errs r v' _ _ hv; cases hv
  | succ fuel ih =>
    intro v0 v out errs r v' ha he hv
    simp only [loopLoop, bind_ok, mPeekSrc_ok] at hv
    obtain ⟨x, _, ⟨rfl, rfl, _⟩, hv⟩ := hv
    split at hv
    · simp only [pure_ok] at hv
      obtain ⟨rfl, rfl⟩ := hv
      exact ⟨ha, he⟩
    · simp only [bind_ok] at hv
      obtain ⟨⟨errs1, more⟩, v1, h1, hv⟩ := hv
      have h1' : Adv v0 v1 ∧ TellsL strict Q v0 errs1 := by
        split at h1
        · exact tell_loopSkip ha he h1
        · simp only [pure_ok] at h1
          obtain ⟨h1, rfl⟩ := h1
          cases h1
          exact ⟨ha, he⟩
      split at hv
      · simp only [pure_ok] at hv
        obtain ⟨rfl, rfl⟩ := hv
        exact h1'
      · simp only [bind_ok] at hv
        obtain ⟨⟨go, out2, errs2⟩, v2, h2, hv⟩ := hv
        obtain ⟨ha2, he2⟩ := tell_loopElem h h1'.1 h1'.2 h2
        split at hv
        · exact ih _ _ _ _ _ _ ha2 he2 hv
        · simp only [pure_ok] at hv
          obtain ⟨rfl, rfl⟩ := hv
          exact ⟨ha2, he2⟩

theorem tell_loop {first : TSet n} {p : P (View n) n} (h : TellP strict Q p) (fuel : Nat) :
    TellP strict Q (produceLoop View.ops first p fuel) := by
  intro v0 v r v' ha hv
  simp only [produceLoop, bind_ok] at hv
  obtain ⟨⟨out, errs⟩, v1, h1, hv⟩ := hv
  obtain ⟨ha1, he1⟩ := tell_loopLoop h fuel _ _ _ _ _ _ ha .nil h1
  split at hv
  · simp only [bind_ok, mEmptySpan_ok, pure_ok] at hv
    obtain ⟨_, _, ⟨rfl, rfl⟩, rfl, rfl⟩ := hv
    obtain ⟨h3, h4⟩ := ofPair_tells (x := Tree.list _ out) he1
    exact ⟨ha1, h3, fun h => absurd h h4⟩
  · simp only [pure_ok] at hv
    obtain ⟨rfl, rfl⟩ := hv
    obtain ⟨h3, h4⟩ := ofPair_tells (x := Tree.list _ out) he1
    exact ⟨ha1, h3, fun h => absurd h h4⟩

/-! ### Separated lists -/

theorem tell_extend {v0 : View n} {p : Err n} (hp : TellsL strict Q v0 (some p).toList) (x : Nat) :
    TellsL strict Q v0 (some ({ p with span := { p.span with hi := x } } : Err n)).toList :=
  .one ((hp p (by simp)).hi x)

theorem tell_splitTry {p : P (View n) n} (h : TellP strict Q p) {ef : TSet n} (hq : Q ef) {q : Tree n} {a : Acc n}
    {panic : Option (Err n)} {v0 v v' : View n} {r} (ha : Adv v0 v) (he : TellsL strict Q v0 a.errs)
    (hp : TellsL strict Q v0 panic.toList) (hr : splitTry View.ops ef p q a panic v = .ok r v') :
    Adv v0 v' ∧ match r with
      | .error a' => TellsL strict Q v0 a'.errs
      | .ok (_, panic') => TellsL strict Q v0 panic'.toList := by
  simp only [splitTry, bind_ok, mPeekSrc_ok] at hr
  obtain ⟨tok, v, ⟨rfl, rfl, -⟩, hr⟩ := hr
  split at hr
  · simp only [bind_ok] at hr
    obtain ⟨r1, v1, h1, h2⟩ := hr
    obtain ⟨ha1, he1, hs1⟩ := h v0 _ _ _ ha h1
    cases r1 with
    | success x =>
      simp only [pure_ok] at h2
      obtain ⟨rfl, rfl⟩ := h2
      exact ⟨ha1, he.append hp⟩
    | recovered x e =>
      simp only [pure_ok] at h2
      obtain ⟨rfl, rfl⟩ := h2
      exact ⟨ha1, (he.append he1).append hp⟩
    | panic e =>
      simp only [bind_ok, mPeekSrc_ok, pure_ok] at h2
      obtain ⟨_, _, ⟨rfl, rfl, -⟩, rfl, rfl⟩ := h2
      exact ⟨ha1, mergePanic_tells hp he1⟩
  · rename_i hc
    cases panic with
    | some p =>
      simp only [bind_ok, extendPanic_ok, pure_ok] at hr
      obtain ⟨_, _, ⟨rfl, rfl⟩, rfl, rfl⟩ := hr
      exact ⟨ha, tell_extend hp _⟩
    | none =>
      simp only [bind_ok, mExpecting_ok, pure_ok] at hr
      obtain ⟨_, _, ⟨rfl, rfl⟩, rfl, rfl⟩ := hr
      simp only [Bool.or_eq_true, not_or, Bool.not_eq_true] at hc
      exact ⟨ha, .one (.new ha (.look hq hc.1))⟩

theorem tell_splitInner {p : P (View n) n} (h : TellP strict Q p) {ef : TSet n} (hq : Q ef) (pf fol : TSet n) (q : Tree n) (fuel : Nat) :
    ∀ v0 v a panic r v', Adv v0 v → TellsL strict Q v0 a.errs → TellsL strict Q v0 panic.toList →
    splitInner View.ops ef pf fol p q fuel a panic v = .ok r v' → Adv v0 v' ∧ TellsL strict Q v0 r.2.errs := by
  induction fuel with
  | zero => intro v0 v a panic r v' _ _ _ hr; cases hr
  | succ fuel ih =>
    intro v0 v a panic r v' ha he hp hr
    simp only [splitInner, bind_ok] at hr
    obtain ⟨r1, v1, h1, hr⟩ := hr
    obtain ⟨ha1, ht⟩ := tell_splitTry h hq ha he hp h1
    cases r1 with
    | error a' =>
      simp only [pure_ok] at hr
      obtain ⟨rfl, rfl⟩ := hr
      exact ⟨ha1, ht⟩
    | ok x =>
      obtain ⟨tok, panic1⟩ := x
      simp only at hr
      split at hr
      · simp only [pure_ok] at hr
        obtain ⟨rfl, rfl⟩ := hr
        exact ⟨ha1, he.append ht⟩
      · split at hr
        · simp only [pure_ok] at hr
          obtain ⟨rfl, rfl⟩ := hr
          exact ⟨ha1, he.append ht⟩
        · simp only [bind_ok, mConsume_ok] at hr
          obtain ⟨_, _, ⟨rfl, rfl⟩, hr⟩ := hr
          exact ih _ _ _ _ _ _ (ha1.trans (.skip _)) he ht hr

theorem tell_splitOuter {pt pp : P (View n) n} (ht : TellP strict Q pt) (hp : TellP strict Q pp) {ef : TSet n} (hq : Q ef) (pf fol : TSet n)
    (fuel : Nat) : ∀ v0 v a r v', Adv v0 v → TellsL strict Q v0 a.errs →
    splitOuter View.ops ef pf fol pt pp fuel a v = .ok r v' → Adv v0 v' ∧ TellsL strict Q v0 r.errs := by
  induction fuel with
  | zero => intro v0 v a r v' _ _ hr; cases hr
  | succ fuel ih =>
    intro v0 v a r v' ha he hr
    simp only [splitOuter, bind_ok, mPeekSrc_ok] at hr
    obtain ⟨tok, v, ⟨rfl, rfl, -⟩, hr⟩ := hr
    split at hr
    · simp only [bind_ok] at hr
      obtain ⟨r1, v1, h1, h2⟩ := hr
      obtain ⟨ha1, he1, hs1⟩ := hp v0 _ _ _ ha h1
      cases r1 with
      | panic e =>
        simp only [pure_ok] at h2
        obtain ⟨rfl, rfl⟩ := h2
        exact ⟨ha1, he.append he1⟩
      | success q =>
        simp only [bind_ok] at h2
        obtain ⟨⟨go, a2⟩, v2, h2, h3⟩ := h2
        obtain ⟨ha2, he2⟩ := tell_splitInner ht hq pf fol q fuel _ _ _ _ _ _ ha1 he .nil h2
        split at h3
        · exact ih _ _ _ _ _ ha2 he2 h3
        · simp only [pure_ok] at h3
          obtain ⟨rfl, rfl⟩ := h3
          exact ⟨ha2, he2⟩
      | recovered q e =>
        simp only [bind_ok] at h2
        obtain ⟨⟨go, a2⟩, v2, h2, h3⟩ := h2
        obtain ⟨ha2, he2⟩ := tell_splitInner ht hq pf fol q fuel _ _ _ _ _ _ ha1 (he.append he1) .nil h2
        split at h3
        · exact ih _ _ _ _ _ ha2 he2 h3
        · simp only [pure_ok] at h3
          obtain ⟨rfl, rfl⟩ := h3
          exact ⟨ha2, he2⟩
    · simp only [pure_ok] at hr
      obtain ⟨rfl, rfl⟩ := hr
      exact ⟨ha, he⟩

theorem tell_split {pt pp : P (View n) n} (ht : TellP strict Q pt) (hp : TellP strict Q pp) {ef : TSet n} (hq : Q ef) (pf fol : TSet n)
    (fuel : Nat) : TellP strict Q (produceSplit View.ops ef pf fol pt pp fuel) := by
  intro v0 v r v' ha hv
  simp only [produceSplit, bind_ok] at hv
  obtain ⟨r1, v1, h1, h2⟩ := hv
  obtain ⟨ha1, he1, hs1⟩ := ht v0 _ _ _ ha h1
  cases r1 with
  | panic e =>
    simp only [pure_ok] at h2
    obtain ⟨rfl, rfl⟩ := h2
    exact ⟨ha1, he1, hs1⟩
  | success t =>
    simp only [bind_ok, pure_ok] at h2
    obtain ⟨a, v2, h2, rfl, rfl⟩ := h2
    obtain ⟨ha2, he2⟩ := tell_splitOuter ht hp hq pf fol fuel _ _ _ _ _ ha1 .nil h2
    exact ⟨ha2, (ofPair_tells he2).1, fun h => absurd h (ofPair_tells he2).2⟩
  | recovered t e =>
    simp only [bind_ok, pure_ok] at h2
    obtain ⟨a, v2, h2, rfl, rfl⟩ := h2
    obtain ⟨ha2, he2⟩ := tell_splitOuter ht hp hq pf fol fuel _ _ _ _ _ ha1 he1 h2
    exact ⟨ha2, (ofPair_tells he2).1, fun h => absurd h (ofPair_tells he2).2⟩

/-- The set `Punct` asks for, without the end of input. -/
theorem punctExpecting_contains (ef fol : TSet n) {x : Option (TokenSrc n)} (hx : x ≠ none)
    (h1 : ef.contains x = false) (h2 : fol.contains x = false) : (punctExpecting ef fol).contains x = false := by
  cases x with
  | none => exact absurd rfl hx
  | some w =>
    rw [Bool.eq_false_iff]
    intro hc
    have : TSet.Mem w (punctExpecting ef fol) := hc
    unfold punctExpecting at this
    rw [TSet.mem_union] at this
    rcases this with h | h
    · have : fol.contains (some w) = true := h
      simp [h2] at this
    · have : ef.contains (some w) = true := h
      simp [h1] at this

theorem tell_punctTry {p : P (View n) n} (h : TellP strict Q p) {ef fol : TSet n} (hq : Q (punctExpecting ef fol)) {a : Acc n}
    {panic : Option (Err n)} {v0 v v' : View n} {r} (ha : Adv v0 v) (he : TellsL strict Q v0 a.errs)
    (hp : TellsL strict Q v0 panic.toList) (hr : punctTry View.ops ef fol p a panic v = .ok r v') :
    Adv v0 v' ∧ match r with
      | .error x => TellsL strict Q v0 x.2.errs
      | .ok panic' => TellsL strict Q v0 panic'.toList := by
  simp only [punctTry, bind_ok, mPeekSrc_ok] at hr
  obtain ⟨tok, v, ⟨rfl, rfl, -⟩, hr⟩ := hr
  split at hr
  · simp only [pure_ok] at hr
    obtain ⟨rfl, rfl⟩ := hr
    exact ⟨ha, he.append hp⟩
  rename_i hnone
  split at hr
  · simp only [bind_ok] at hr
    obtain ⟨r1, v1, h1, h2⟩ := hr
    obtain ⟨ha1, he1, hs1⟩ := h v0 _ _ _ ha h1
    cases r1 with
    | success x =>
      simp only [pure_ok] at h2
      obtain ⟨rfl, rfl⟩ := h2
      exact ⟨ha1, he.append hp⟩
    | recovered x e =>
      simp only [pure_ok] at h2
      obtain ⟨rfl, rfl⟩ := h2
      exact ⟨ha1, (he.append hp).append he1⟩
    | panic e =>
      simp only [pure_ok] at h2
      obtain ⟨rfl, rfl⟩ := h2
      exact ⟨ha1, mergePanic_tells hp he1⟩
  rename_i hef
  split at hr
  · simp only [pure_ok] at hr
    obtain ⟨rfl, rfl⟩ := hr
    exact ⟨ha, he.append hp⟩
  · rename_i hfol
    cases panic with
    | some p =>
      simp only [bind_ok, extendPanic_ok, pure_ok] at hr
      obtain ⟨_, _, ⟨rfl, rfl⟩, rfl, rfl⟩ := hr
      exact ⟨ha, tell_extend hp _⟩
    | none =>
      simp only [bind_ok, mCurrentSpan_ok, pure_ok] at hr
      obtain ⟨_, _, ⟨rfl, rfl⟩, rfl, rfl⟩ := hr
      refine ⟨ha, .one (.new ha (.look hq (punctExpecting_contains ef fol ?_ (by simpa using hef) (by simpa using hfol))))⟩
      intro hn
      simp [hn] at hnone

theorem tell_punctInner {p : P (View n) n} (h : TellP strict Q p) {ef fol : TSet n} (hq : Q (punctExpecting ef fol)) (pf : TSet n) (fuel : Nat) :
    ∀ v0 v a panic r v', Adv v0 v → TellsL strict Q v0 a.errs → TellsL strict Q v0 panic.toList →
    punctInner View.ops ef pf fol p fuel a panic v = .ok r v' → Adv v0 v' ∧ TellsL strict Q v0 r.2.errs := by
  induction fuel with
  | zero => intro v0 v a panic r v' _ _ _ hr; cases hr
  | succ fuel ih =>
    intro v0 v a panic r v' ha he hp hr
    simp only [punctInner, bind_ok] at hr
    obtain ⟨r1, v1, h1, hr⟩ := hr
    obtain ⟨ha1, ht⟩ := tell_punctTry h hq ha he hp h1
    cases r1 with
    | error a' =>
      simp only [pure_ok] at hr
      obtain ⟨rfl, rfl⟩ := hr
      exact ⟨ha1, ht⟩
    | ok panic1 =>
      simp only [bind_ok, mPeekSrc_ok] at hr
      obtain ⟨_, _, ⟨rfl, rfl, -⟩, hr⟩ := hr
      split at hr
      · simp only [pure_ok] at hr
        obtain ⟨rfl, rfl⟩ := hr
        exact ⟨ha1, he.append ht⟩
      · split at hr
        · simp only [pure_ok] at hr
          obtain ⟨rfl, rfl⟩ := hr
          exact ⟨ha1, he.append ht⟩
        · simp only [bind_ok, mConsume_ok] at hr
          obtain ⟨_, _, ⟨rfl, rfl⟩, hr⟩ := hr
          exact ih _ _ _ _ _ _ (ha1.trans (.skip _)) he ht hr

theorem tell_punctOuter {pt pp : P (View n) n} (ht : TellP strict Q pt) (hp : TellP strict Q pp) {ef fol : TSet n} (hq : Q (punctExpecting ef fol)) (pf : TSet n)
    (fuel : Nat) : ∀ v0 v a r v', Adv v0 v → TellsL strict Q v0 a.errs →
    punctOuter View.ops ef pf fol pt pp fuel a v = .ok r v' → Adv v0 v' ∧ TellsL strict Q v0 r.errs := by
  induction fuel with
  | zero => intro v0 v a r v' _ _ hr; cases hr
  | succ fuel ih =>
    intro v0 v a r v' ha he hr
    simp only [punctOuter, bind_ok, mPeekSrc_ok] at hr
    obtain ⟨tok, v, ⟨rfl, rfl, -⟩, hr⟩ := hr
    split at hr
    · simp only [bind_ok] at hr
      obtain ⟨r1, v1, h1, h2⟩ := hr
      obtain ⟨ha1, he1, hs1⟩ := hp v0 _ _ _ ha h1
      cases r1 with
      | panic e =>
        simp only [pure_ok] at h2
        obtain ⟨rfl, rfl⟩ := h2
        exact ⟨ha1, he.append he1⟩
      | success q =>
        simp only [bind_ok] at h2
        obtain ⟨⟨go, a2⟩, v2, h2, h3⟩ := h2
        obtain ⟨ha2, he2⟩ := tell_punctInner ht hq pf fuel _ _
          { a with puncts := a.puncts ++ [q] } none _ _ ha1 he .nil h2
        split at h3
        · exact ih _ _ _ _ _ ha2 he2 h3
        · simp only [pure_ok] at h3
          obtain ⟨rfl, rfl⟩ := h3
          exact ⟨ha2, he2⟩
      | recovered q e =>
        simp only [bind_ok] at h2
        obtain ⟨⟨go, a2⟩, v2, h2, h3⟩ := h2
        obtain ⟨ha2, he2⟩ := tell_punctInner ht hq pf fuel _ _ _ _ _ _ ha1 (he.append he1) .nil h2
        split at h3
        · exact ih _ _ _ _ _ ha2 he2 h3
        · simp only [pure_ok] at h3
          obtain ⟨rfl, rfl⟩ := h3
          exact ⟨ha2, he2⟩
    · simp only [pure_ok] at hr
      obtain ⟨rfl, rfl⟩ := hr
      exact ⟨ha, he⟩

theorem tell_punct {pt pp : P (View n) n} (ht : TellP strict Q pt) (hp : TellP strict Q pp) {ef fol : TSet n} (hq : Q (punctExpecting ef fol)) (pf : TSet n)
    (fuel : Nat) : TellP strict Q (producePunct View.ops ef pf fol pt pp fuel) := by
  intro v0 v r v' ha hv
  simp only [producePunct, bind_ok] at hv
  obtain ⟨r1, v1, h1, h2⟩ := hv
  obtain ⟨ha1, he1, hs1⟩ := ht v0 _ _ _ ha h1
  cases r1 with
  | panic e =>
    simp only [pure_ok] at h2
    obtain ⟨rfl, rfl⟩ := h2
    exact ⟨ha1, he1, hs1⟩
  | success t =>
    simp only [bind_ok, pure_ok] at h2
    obtain ⟨a, v2, h2, rfl, rfl⟩ := h2
    obtain ⟨ha2, he2⟩ := tell_punctOuter ht hp hq pf fuel _ _ _ _ _ ha1 .nil h2
    exact ⟨ha2, (ofPair_tells he2).1, fun h => absurd h (ofPair_tells he2).2⟩
  | recovered t e =>
    simp only [bind_ok, pure_ok] at h2
    obtain ⟨a, v2, h2, rfl, rfl⟩ := h2
    obtain ⟨ha2, he2⟩ := tell_punctOuter ht hp hq pf fuel _ _ _ _ _ ha1 he1 h2
    exact ⟨ha2, (ofPair_tells he2).1, fun h => absurd h (ofPair_tells he2).2⟩

/-! ### Recover -/

theorem tell_recoverHead {hf : TSet n} (hq : Q hf) {pt : P (View n) n} (h : TellP strict Q pt) {v0 v v' : View n} {r}
    (ha : Adv v0 v) (hr : recoverHead View.ops hf pt v = .ok r v') :
    Adv v0 v' ∧ TellsL strict Q v0 r.errs ∧ TellsL strict Q v0 r.panic.toList := by
  simp only [recoverHead, bind_ok, mPeekSrc_ok] at hr
  obtain ⟨tok, v, ⟨rfl, rfl, -⟩, hr⟩ := hr
  split at hr
  · simp only [bind_ok] at hr
    obtain ⟨r1, v1, h1, h2⟩ := hr
    obtain ⟨ha1, he1, hs1⟩ := h v0 _ _ _ ha h1
    cases r1 with
    | success x =>
      simp only [pure_ok] at h2
      obtain ⟨rfl, rfl⟩ := h2
      exact ⟨ha1, .nil, .nil⟩
    | recovered x e =>
      simp only [pure_ok] at h2
      obtain ⟨rfl, rfl⟩ := h2
      exact ⟨ha1, he1, .nil⟩
    | panic e =>
      simp only [bind_ok, mEmptySpan_ok, pure_ok] at h2
      obtain ⟨_, _, ⟨rfl, rfl⟩, rfl, rfl⟩ := h2
      refine ⟨ha1, .nil, ?_⟩
      intro d hd
      have hd : e.getLast? = some d := by simpa using hd
      exact he1 d (List.mem_of_getLast? hd)
  · rename_i hc
    simp only [bind_ok, mExpecting_ok, mEmptySpan_ok, pure_ok] at hr
    obtain ⟨_, _, ⟨rfl, rfl⟩, _, _, ⟨rfl, rfl⟩, rfl, rfl⟩ := hr
    simp only [Bool.or_eq_true, not_or, Bool.not_eq_true] at hc
    exact ⟨ha, .nil, .one (.new ha (.look hq hc.1))⟩

theorem tell_recoverSkip {tf : TSet n} {panic : Option (Err n)} {v0 v v' : View n} {r} (ha : Adv v0 v)
    (hp : TellsL strict Q v0 panic.toList) (hn : panic = none → Absent strict Q tf v)
    (hr : recoverSkip View.ops tf panic v = .ok r v') : Adv v0 v' ∧ TellsL strict Q v0 r.toList := by
  cases panic with
  | some p =>
    simp only [recoverSkip, bind_ok, extendPanic_ok, mConsume_ok, pure_ok] at hr
    obtain ⟨_, _, ⟨rfl, rfl⟩, _, _, ⟨rfl, rfl⟩, rfl, rfl⟩ := hr
    exact ⟨ha.trans (.skip _), tell_extend hp _⟩
  | none =>
    simp only [recoverSkip, bind_ok, mExpecting_ok, mConsume_ok, pure_ok] at hr
    obtain ⟨_, _, ⟨rfl, rfl⟩, _, _, ⟨rfl, rfl⟩, rfl, rfl⟩ := hr
    exact ⟨ha.trans (.skip _), .one (.new ha (hn rfl))⟩

theorem tell_recoverLoop {tf : TSet n} (hq : Q tf) {pr : P (View n) n} (h : TellP strict Q pr) (hs : strict → tf.e = false)
    (fuel : Nat) : ∀ v0 v errs panic r v', Adv v0 v → TellsL strict Q v0 errs → TellsL strict Q v0 panic.toList →
    recoverLoop View.ops tf pr fuel errs panic v = .ok r v' →
    Adv v0 v' ∧ TellsL strict Q v0 r.2.1 ∧ TellsL strict Q v0 r.2.2.toList ∧ (r.1 = none → v'.rest = []) := by
  induction fuel with
  | zero => intro v0 v errs panic r v' _ _ _ hr; cases hr
  | succ fuel ih =>
    intro v0 v errs panic r v' ha he hp hr
    simp only [recoverLoop, bind_ok, mPeekSrc_ok] at hr
    obtain ⟨tok, v, ⟨rfl, rfl, -⟩, hr⟩ := hr
    split at hr
    · rename_i hn
      have hnil := (look_isNone _).1 hn
      split at hr
      · simp only [bind_ok] at hr
        obtain ⟨r1, v1, h1, h2⟩ := hr
        obtain ⟨ha1, he1, hs1⟩ := h v0 _ _ _ ha h1
        have hav := (h v _ _ _ (.refl v) h1).1
        cases r1 with
        | success x =>
          simp only [pure_ok] at h2
          obtain ⟨rfl, rfl⟩ := h2
          exact ⟨ha1, he, hp, by simp⟩
        | recovered x e =>
          simp only [pure_ok] at h2
          obtain ⟨rfl, rfl⟩ := h2
          exact ⟨ha1, he.append he1, hp, by simp⟩
        | panic e =>
          simp only [pure_ok] at h2
          obtain ⟨rfl, rfl⟩ := h2
          exact ⟨ha1, he, mergePanic_tells hp he1, fun _ => hav.rest_nil hnil⟩
      · simp only [pure_ok] at hr
        obtain ⟨rfl, rfl⟩ := hr
        exact ⟨ha, he, hp, fun _ => hnil⟩
    · split at hr
      · simp only [bind_ok] at hr
        obtain ⟨r1, v1, h1, h2⟩ := hr
        obtain ⟨ha1, he1, hs1⟩ := h v0 _ _ _ ha h1
        cases r1 with
        | success x =>
          simp only [pure_ok] at h2
          obtain ⟨rfl, rfl⟩ := h2
          exact ⟨ha1, he, hp, by simp⟩
        | recovered x e =>
          simp only [pure_ok] at h2
          obtain ⟨rfl, rfl⟩ := h2
          exact ⟨ha1, he.append he1, hp, by simp⟩
        | panic e =>
          simp only [bind_ok] at h2
          obtain ⟨p1, v2, h2, h3⟩ := h2
          obtain ⟨ha2, hp2⟩ := tell_recoverSkip ha1 (mergePanic_tells hp he1) (fun hn => by
            obtain ⟨_, rfl⟩ := mergePanic_none hn
            exact ⟨hq, fun hne => absurd (hs1 rfl) hne, fun _ => hs⟩) h2
          exact ih _ _ _ _ _ _ ha2 he hp2 h3
      · rename_i hc
        simp only [bind_ok] at hr
        obtain ⟨p1, v2, h2, h3⟩ := hr
        simp only [Bool.or_eq_true, not_or, Bool.not_eq_true] at hc
        obtain ⟨ha2, hp2⟩ := tell_recoverSkip ha hp (fun _ => .look hq hc.1) h2
        exact ih _ _ _ _ _ _ ha2 he hp2 h3

theorem tell_recover {hf tf : TSet n} (hq : Q hf) (hq' : Q tf) {pt pr : P (View n) n} (ht : TellP strict Q pt) (hr : TellP strict Q pr)
    (hs : strict → tf.e = false) (fuel : Nat) : TellP strict Q (produceRecover View.ops hf tf pt pr fuel) := by
  intro v0 v r v' ha hv
  simp only [produceRecover, bind_ok] at hv
  obtain ⟨h, v1, h1, ⟨tl, errs, panic⟩, v2, h2, h3⟩ := hv
  obtain ⟨ha1, he1, hp1⟩ := tell_recoverHead hq ht ha h1
  obtain ⟨ha2, he2, hp2, hn⟩ := tell_recoverLoop hq' hr hs fuel _ _ _ _ _ _ ha1 he1 hp1 h2
  cases tl with
  | some x =>
    simp only [pure_ok] at h3
    obtain ⟨rfl, rfl⟩ := h3
    have := ofPair_tells (x := mkRecover h x) (he2.append hp2)
    exact ⟨ha2, this.1, fun h => absurd h this.2⟩
  | none =>
    simp only [pure_ok] at h3
    obtain ⟨rfl, rfl⟩ := h3
    exact ⟨ha2, he2.append hp2, fun _ => hn rfl⟩

/-! ### All types -/

variable {S : Schema m n} {md : Metadata (PId m n) n} {root : Ty m n} {G : Grammar (PId m n) n}

/-- The set is what can begin `t`, or for a `Punct` without the end of input also what is taken to follow it. -/
def Asked (S : Schema m n) (md : Metadata (PId m n) n) (root : Ty m n) (G : Grammar (PId m n) n) (s : TSet n) :
    Prop :=
  (∃ t, Reach S.tyParts root t ∧ ∀ x, s.contains x = true ↔ Starts G t.pid x) ∨
  (∃ t p, Reach S.tyParts root (.punct t p) ∧
    ∀ x, s.contains x = true ↔ x ≠ none ∧ (Starts G t.pid x ∨ (md.follow.get (Ty.punct t p).pid).contains x = true))

theorem punctExpecting_iff (ef fol : TSet n) (x : Option (TokenSrc n)) :
    (punctExpecting ef fol).contains x = true ↔ x ≠ none ∧ (ef.contains x = true ∨ fol.contains x = true) := by
  cases x with
  | none =>
    simp only [ne_eq, not_true_eq_false, false_and, iff_false]
    rw [show (punctExpecting ef fol).contains none = (punctExpecting ef fol).e from rfl]
    unfold punctExpecting
    rw [TSet.union_e]
    simp [TSet.removeE]
  | some w =>
    have h : TSet.Mem w (punctExpecting ef fol) ↔ TSet.Mem w fol ∨ TSet.Mem w ef := by
      unfold punctExpecting
      rw [TSet.mem_union]
      exact Iff.rfl
    constructor
    · intro hc
      exact ⟨by simp, (h.1 hc).symm⟩
    · rintro ⟨-, hc⟩
      exact h.2 hc.symm

theorem tell_produce {fuel : Nat} (h : S.metadata fuel root = some (.ok md)) (hG : S.IsGrammar root G)
    (hs : strict → ∀ t r, Reach S.tyParts root (.recover t r) → ¬ Nullable G r.pid) (f : Nat) :
    ∀ t, Reach S.tyParts root t → TellP strict (Asked S md root G) (produce View.ops S md f t) := by
  have hfirst : ∀ t, Reach S.tyParts root t → Asked S md root G (md.first.get t.pid) := fun t ht =>
    .inl ⟨t, ht, metadata_first h hG t.pid⟩
  induction f with
  | zero => intro t _ v0 v r v' _ h; cases h
  | succ f ih =>
    intro t ht
    show TellP _ _ (produceStep View.ops S md f (produce View.ops S md f) t)
    have hp : ∀ u ∈ S.tyParts t, TellP strict (Asked S md root G) (produce View.ops S md f u) :=
      fun u hu => ih u (.step ht hu)
    cases t with
    | term i k =>
      refine tell_term ?_ _
      refine .inl ⟨_, ht, fun x => ?_⟩
      have E : Rules S root G := ⟨hG⟩
      have hrule : S.rule (Ty.term i k).pid = .term k := rfl
      cases x with
      | none =>
        rw [show (TSet.one k.ty k.lit).contains none = false from TSet.insert_e _ k.ty k.lit]
        simp only [Bool.false_eq_true, false_iff]
        exact fun hn => E.term_null hrule (nullable_iff.1 hn)
      | some w =>
        refine (TSet.mem_one k.ty k.lit w).trans ?_
        refine Iff.trans ?_ (firstOf_iff (G := G)).symm
        exact ⟨fun hm => .term (hrule ▸ E.mem (reach_pid ht)) hm, E.term_first hrule⟩
    | user k =>
      cases hS : S k with
      | struct g gs =>
        simp only [produceStep, hS]
        refine tell_struct ?_
        intro x hx
        obtain ⟨y, hy, rfl⟩ := List.mem_map.1 hx
        exact hp _ (by simp only [Schema.tyParts, hS]; exact List.mem_map.2 ⟨y, hy, rfl⟩)
      | enum g gs =>
        simp only [produceStep, hS]
        have hrule : S.rule (.user k) = .alt ((g :: gs).map fun f => f.1.pid) := by simp only [Schema.rule, hS]
        have hreach : Reachable G root.pid (.user k) := (reach_iff_schema hG _).2 (reach_pid ht)
        refine tell_enum (hfirst _ ht) ?_ ?_ ?_
        · intro x hx
          obtain ⟨y, hy, rfl⟩ := List.mem_map.1 hx
          exact hp _ (by simp only [Schema.tyParts, hS]; exact List.mem_map.2 ⟨y, hy, rfl⟩)
        · intro x hx
          rw [Bool.eq_false_iff]
          intro hc
          have hs := (metadata_first h hG (.user k) x).1 hc
          have E : Rules S root G := ⟨hG⟩
          have key : ∃ c ∈ (g :: gs).map (fun f => f.1.pid), Starts G c x := by
            cases x with
            | none =>
              have hn : Null G (.user k) := nullable_iff.1 hs
              cases hn with
              | eps hm => have := E.rule hm; rw [hrule] at this; cases this
              | seq hm _ => have := E.rule hm; rw [hrule] at this; cases this
              | alt hm h1 h2 => have := E.rule hm; rw [hrule] at this; cases this; exact ⟨_, h1, h2.nullable⟩
            | some w =>
              obtain ⟨c, h1, h2⟩ := E.alt_first hrule (firstOf_iff.1 hs)
              exact ⟨c, h1, h2.firstOf⟩
          obtain ⟨c, h1, h2⟩ := key
          obtain ⟨i, hi⟩ := List.mem_iff_getElem?.1 h1
          have := (metadata_jump h hG hreach hrule x).2.1 i c hi h2
          rw [hx] at this
          cases this
        · intro x i hi
          obtain ⟨c, hc, _⟩ := (metadata_jump h hG hreach hrule x).1 i hi
          have := (List.getElem?_eq_some_iff.1 hc).1
          simpa using this
    | box t => exact hp t (by simp [Schema.tyParts])
    | option t => exact tell_option (hp t (by simp [Schema.tyParts])) _
    | exist t => exact tell_option (hp t (by simp [Schema.tyParts])) _
    | quote t => exact tell_text (hp t (by simp [Schema.tyParts]))
    | parse t => exact tell_text (hp t (by simp [Schema.tyParts]))
    | plus t => exact tell_plus (hp t (by simp [Schema.tyParts])) _
    | star t =>
      exact tell_option (tell_plus (ih t (.step (.step ht (by simp [Schema.tyParts]) : Reach S.tyParts root (.plus t))
        (by simp [Schema.tyParts]))) _) _
    | loop t => exact tell_loop (hp t (by simp [Schema.tyParts])) _
    | split t p =>
      exact tell_split (hp t (by simp [Schema.tyParts])) (hp p (by simp [Schema.tyParts]))
        (hfirst t (.step ht (by simp [Schema.tyParts]))) _ _ _
    | punct t p =>
      refine tell_punct (hp t (by simp [Schema.tyParts])) (hp p (by simp [Schema.tyParts])) ?_ _ _
      refine .inr ⟨t, p, ht, fun x => ?_⟩
      rw [punctExpecting_iff, metadata_first h hG]
    | recover t r =>
      refine tell_recover (hfirst t (.step ht (by simp [Schema.tyParts])))
        (hfirst r (.step ht (by simp [Schema.tyParts])))
        (hp t (by simp [Schema.tyParts])) (hp r (by simp [Schema.tyParts])) ?_ _
      intro hst
      have := hs hst t r ht
      rw [Bool.eq_false_iff]
      intro hc
      exact this ((metadata_first h hG r.pid none).1 hc)
    | tup2 a b =>
      refine tell_tuple ?_
      intro x hx
      simp only [List.mem_cons, List.not_mem_nil, or_false] at hx
      rcases hx with rfl | rfl <;> exact hp _ (by simp [Schema.tyParts])
    | tup3 a b c =>
      refine tell_tuple ?_
      intro x hx
      simp only [List.mem_cons, List.not_mem_nil, or_false] at hx
      rcases hx with rfl | rfl | rfl <;> exact hp _ (by simp [Schema.tyParts])
    | tup4 a b c d =>
      refine tell_tuple ?_
      intro x hx
      simp only [List.mem_cons, List.not_mem_nil, or_false] at hx
      rcases hx with rfl | rfl | rfl | rfl <;> exact hp _ (by simp [Schema.tyParts])
    | tup5 a b c d e =>
      refine tell_tuple ?_
      intro x hx
      simp only [List.mem_cons, List.not_mem_nil, or_false] at hx
      rcases hx with rfl | rfl | rfl | rfl | rfl <;> exact hp _ (by simp [Schema.tyParts])

end Teleparse
