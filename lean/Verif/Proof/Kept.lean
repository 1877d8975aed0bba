import Verif.Model.RepairKeep
import Verif.Proof.RecoverFix
import Verif.Proof.Viable
/-
The parser that keeps the first error of a failed part: descriptions of its results, as in `Proof/Run.lean` for the
code as it is, and what the tokens before the first error are, as in `Proof/Viable.lean`.
-/
namespace Teleparse.Kept
variable {m n : Nat} {S : Schema m n}

/-! ### The first error -/

theorem earliest_mem {l : List (Err n)} {e : Err n} (h : e ∈ (earliest l).toList) : e ∈ l := by
  induction l with
  | nil => cases h
  | cons a l ih =>
    unfold earliest at h
    cases hl : earliest l with
    | none => rw [hl] at h; simp only [Option.toList, List.mem_singleton] at h; rw [h]; simp
    | some x =>
      rw [hl] at h ih
      simp only at h
      split at h
      · exact List.mem_cons_of_mem _ (ih h)
      · simp only [Option.toList, List.mem_singleton] at h; rw [h]; simp

theorem earliest_some {l : List (Err n)} (h : l ≠ []) : ∃ e, earliest l = some e := by
  cases l with
  | nil => exact absurd rfl h
  | cons a l =>
    unfold earliest
    cases earliest l with
    | none => exact ⟨_, rfl⟩
    | some x => simp only; split <;> exact ⟨_, rfl⟩

theorem earliest_le {l : List (Err n)} {e : Err n} (h : earliest l = some e) : ∀ x ∈ l, e.span.lo ≤ x.span.lo := by
  induction l generalizing e with
  | nil => cases h
  | cons a l ih =>
    intro x hx
    unfold earliest at h
    cases hl : earliest l with
    | none =>
      rw [hl] at h
      cases h
      rcases List.mem_cons.1 hx with rfl | hx
      · exact Nat.le_refl _
      · obtain ⟨y, hy⟩ := earliest_some (List.ne_nil_of_mem hx)
        rw [hl] at hy; cases hy
    | some y =>
      rw [hl] at h
      simp only at h
      have ih := ih hl
      split at h <;> cases h <;> rcases List.mem_cons.1 hx with rfl | hx
      · omega
      · exact ih x hx
      · exact Nat.le_refl _
      · have := ih x hx; omega

theorem _root_.Teleparse.Viab.earliest {source : Str} {Q : List (TokenSrc n) → Prop} {rest rest' : List (Token n)}
    {e : List (Err n)} (h : Viab Q source rest e rest') : Viab Q source rest (earliest e).toList rest' := by
  obtain ⟨ts, us, ws, h1, h2, h3, h4⟩ := h
  obtain ⟨a, ha, h5⟩ := List.mem_map.1 h3
  obtain ⟨x, hx⟩ := earliest_some (List.ne_nil_of_mem ha)
  refine ⟨ts, us, ws, h1, fun e he => h2 e (earliest_mem he), ?_, h4⟩
  have hm : x ∈ (Teleparse.earliest e).toList := by rw [hx]; simp
  have h6 := h2 x (earliest_mem hm)
  have h7 := earliest_le hx a ha
  refine List.mem_map.2 ⟨x, hm, ?_⟩
  show x.span.lo = _
  replace h5 : a.span.lo = _ := h5
  omega

theorem clip_ok {σ : Type} {p : P σ n} {s s' : σ} {r} (h : clip p s = .ok r s') :
    (p s = .ok r s' ∧ ∀ e, r ≠ .panic e) ∨ ∃ e, p s = .ok (.panic e) s' ∧ r = .panic (earliest e).toList := by
  simp only [clip, bind_ok] at h
  obtain ⟨r1, s1, h1, h2⟩ := h
  cases r1 with
  | success x => simp only [pure_ok] at h2; obtain ⟨rfl, rfl⟩ := h2; exact .inl ⟨h1, fun _ h => by cases h⟩
  | recovered x e => simp only [pure_ok] at h2; obtain ⟨rfl, rfl⟩ := h2; exact .inl ⟨h1, fun _ h => by cases h⟩
  | panic e => simp only [pure_ok] at h2; obtain ⟨rfl, rfl⟩ := h2; exact .inr ⟨e, h1, rfl⟩

/-! ### Description -/

inductive Run (S : Schema m n) : Judg m n → Prop
  -- terminals
  | tok {i k v t l} : v.rest = t :: l → t.ty = k.ty →
      (∀ lit, k.lit = some lit → t.span.get? v.source = some lit) →
      Run S (.ty (.term i k) v (.success (.tok t)) v.skip)
  | tokRecovered {i k v lit sp s} : k.lit = some lit →
      (sp = ⟨v.pos, v.pos⟩ ∨ (v.rest = [] ∧ sp = ⟨v.source.length, v.source.length⟩)) →
      Run S (.ty (.term i k) v (.recovered (.tok ⟨sp, k.ty⟩) [⟨v.cur, .expecting s⟩]) v)
  | tokPanic {i k v} {e : ErrKind n} : e ≠ .unexpectedCharacters →
      Run S (.ty (.term i k) v (.panic [⟨v.cur, e⟩]) v)
  -- sequences
  | seqNil {v acc errs} : Run S (.seq [] v acc errs (.ok (acc, errs)) v)
  | seqGive {t ts v acc errs r x e v1 res v'} : Run S (.ty t v r v1) → r.Gives x e →
      Run S (.seq ts v1 (acc ++ [x]) (errs ++ e) res v') → Run S (.seq (t :: ts) v acc errs res v')
  | seqPanic {t ts v acc errs e v1} : Run S (.ty t v (.panic e) v1) →
      Run S (.seq (t :: ts) v acc errs (.error (errs ++ e)) v1)
  | struct {k f fs v l errs v1} : S k = .struct f fs →
      Run S (.seq ((f :: fs).map (·.1)) v [] [] (.ok (l, errs)) v1) →
      Run S (.ty (.user k) v (Res.ofPair (.seq (spanOf l) l) errs)
        (v1.applyAll (l.zip ((f :: fs).map (·.2)))))
  | structPanic {k f fs v e v1} : S k = .struct f fs →
      Run S (.seq ((f :: fs).map (·.1)) v [] [] (.error e) v1) → Run S (.ty (.user k) v (.panic e) v1)
  | tuple {t ts v l errs v1} : TupLike t ts → Run S (.seq ts v [] [] (.ok (l, errs)) v1) →
      Run S (.ty t v (Res.ofPair (.seq (spanOf l) l) errs) v1)
  | tuplePanic {t ts v e v1} : TupLike t ts → Run S (.seq ts v [] [] (.error e) v1) →
      Run S (.ty t v (.panic e) v1)
  -- enums
  | enumSuccess {k f fs i t sem v x v1} : S k = .enum f fs → (f :: fs)[(i : Nat)]? = some (t, sem) →
      Run S (.ty t v (.success x) v1) →
      Run S (.ty (.user k) v (.success (.variant i x)) (v1.applyAll [(x, sem)]))
  | enumRecovered {k f fs i t sem v x e v1} : S k = .enum f fs →
      (f :: fs)[(i : Nat)]? = some (t, sem) → Run S (.ty t v (.recovered x e) v1) →
      Run S (.ty (.user k) v (.recovered (.variant i x) e) (v1.applyAll [(x, sem)]))
  | enumPanic {k f fs i t sem v e v1} : S k = .enum f fs → (f :: fs)[(i : Nat)]? = some (t, sem) →
      Run S (.ty t v (.panic e) v1) → Run S (.ty (.user k) v (.panic e) v1)
  | enumNone {k f fs v s} : S k = .enum f fs →
      Run S (.ty (.user k) v (.panic [⟨v.cur, .expecting s⟩]) v)
  -- wrappers
  | box {t v r v1} : Run S (.ty t v r v1) → Run S (.ty (.box t) v r v1)
  | optNone {t' t mk v} : OptLike t' t mk → Run S (.ty t' v (.success (mk ⟨v.pos, v.pos⟩ none)) v)
  | optSuccess {t' t mk v x v1} : OptLike t' t mk → Run S (.ty t v (.success x) v1) →
      Run S (.ty t' v (.success (mk x.span (some x))) v1)
  | optRecovered {t' t mk v x e v1} : OptLike t' t mk → Run S (.ty t v (.recovered x e) v1) →
      Run S (.ty t' v (.recovered (mk x.span (some x)) e) v1)
  | optPanic {t' t mk v e v1} : OptLike t' t mk → Run S (.ty t v (.panic e) v1) →
      Run S (.ty t' v (.recovered (mk ⟨v1.pos, v1.pos⟩ none) e) v1)
  | textSuccess {t' t v x s v1} : TextLike t' t → Run S (.ty t v (.success x) v1) →
      x.span.get? v1.source = some s → Run S (.ty t' v (.success (.text x.span s)) v1)
  | textRecovered {t' t v x s e v1} : TextLike t' t → Run S (.ty t v (.recovered x e) v1) →
      x.span.get? v1.source = some s → Run S (.ty t' v (.recovered (.text x.span s) e) v1)
  | textPanic {t' t v e v1} : TextLike t' t → Run S (.ty t v (.panic e) v1) →
      Run S (.ty t' v (.panic e) v1)
  -- one or more
  | plus {t v r x e v1 l errs hi v'} : Run S (.ty t v r v1) → r.Gives x e →
      Run S (.iter t v1 [x] e x.span.hi l errs hi v') →
      Run S (.ty (.plus t) v (Res.ofPair (.list ⟨x.span.lo, hi⟩ l) errs) v')
  | plusPanic {t v e v1} : Run S (.ty t v (.panic e) v1) → Run S (.ty (.plus t) v (.panic e) v1)
  | iterStop {t v acc errs hi} : Run S (.iter t v acc errs hi acc errs hi v)
  | iterGive {t v acc errs hi r x e v1 acc' errs' hi' v'} : v.rest ≠ [] → Run S (.ty t v r v1) →
      r.Gives x e → Run S (.iter t v1 (acc ++ [x]) (errs ++ e) x.span.hi acc' errs' hi' v') →
      Run S (.iter t v acc errs hi acc' errs' hi' v')
  | iterPanic {t v acc errs hi e v1} : Run S (.ty t v (.panic e) v1) →
      Run S (.iter t v acc errs hi acc (errs ++ e) hi v1)
  -- loop
  | loopEmpty {t v errs v'} : Run S (.loop t v [] [] [] errs v') →
      Run S (.ty (.loop t) v (Res.ofPair (.list ⟨v'.pos, v'.pos⟩ []) errs) v')
  | loopList {t v out errs v'} : Run S (.loop t v [] [] out errs v') → out ≠ [] →
      Run S (.ty (.loop t) v (Res.ofPair (.list (spanOf out) out) errs) v')
  | loopStop {t v out errs} : v.rest = [] → Run S (.loop t v out errs out errs v)
  | loopSkip {t v out errs v1 out' errs' v'} : Skips v v1 →
      Run S (.loop t v1 out (errs ++ [⟨⟨v.cur.lo, v1.pos⟩, .unexpectedTokens⟩]) out' errs' v') →
      Run S (.loop t v out errs out' errs' v')
  | loopGive {t v out errs r x e v1 out' errs' v'} : Run S (.ty t v r v1) → r.Gives x e →
      Run S (.loop t v1 (out ++ [x]) (errs ++ e) out' errs' v') →
      Run S (.loop t v out errs out' errs' v')
  | loopPanic {t v out errs e v1 out' errs' v'} : Run S (.ty t v (.panic e) v1) →
      Run S (.loop t v1 out (errs ++ e) out' errs' v') →
      Run S (.loop t v out errs out' errs' v')
  | loopGiveStuck {t v out errs r x e v1} : Run S (.ty t v r v1) → r.Gives x e →
      Run S (.loop t v out errs (out ++ [x]) (errs ++ e ++ [⟨v1.cur, .noAdvance⟩]) v1)
  | loopPanicStuck {t v out errs e v1} : Run S (.ty t v (.panic e) v1) →
      Run S (.loop t v out errs out (errs ++ e ++ [⟨v1.cur, .noAdvance⟩]) v1)
  -- split
  | split {t p v r x e v1 a v'} : Run S (.ty t v r v1) → r.Gives x e →
      Run S (.outer t p v1 ⟨[x], [], e⟩ a v') → Run S (.ty (.split t p) v (splitDone x.span.lo a) v')
  | splitPanic {t p v e v1} : Run S (.ty t v (.panic e) v1) →
      Run S (.ty (.split t p) v (.panic e) v1)
  | outerStop {t p v a} : Run S (.outer t p v a a v)
  | outerPanic {t p v a e v1} : Run S (.ty p v (.panic e) v1) →
      Run S (.outer t p v a { a with errs := a.errs ++ e } v1)
  | outerGo {t p v a r q e v1 a1 v2 a' v'} : v.rest ≠ [] → Run S (.ty p v r v1) → r.Gives q e →
      Run S (.inner t q v1 { a with errs := a.errs ++ e } none true a1 v2) →
      Run S (.outer t p v2 a1 a' v') → Run S (.outer t p v a a' v')
  | outerBreak {t p v a r q e v1 a1 v2} : v.rest ≠ [] → Run S (.ty p v r v1) → r.Gives q e →
      Run S (.inner t q v1 { a with errs := a.errs ++ e } none false a1 v2) →
      Run S (.outer t p v a a1 v2)
  | innerGive {t q v a panic r x e v1} : Run S (.ty t v r v1) → r.Gives x e →
      Run S (.inner t q v a panic true
        ⟨a.elems ++ [x], a.puncts ++ [q], a.errs ++ e ++ panic.toList⟩ v1)
  | innerFailLeave {t q v a panic e v1 go} : e.length ≤ 1 → Run S (.ty t v (.panic e) v1) →
      Run S (.inner t q v a panic go { a with errs := a.errs ++ (mergePanic panic e).toList } v1)
  | innerFailGo {t q v a panic e v1 go a' v'} : e.length ≤ 1 → Run S (.ty t v (.panic e) v1) →
      Run S (.inner t q v1.skip a (mergePanic panic e) go a' v') →
      Run S (.inner t q v a panic go a' v')
  | innerNoteLeave {t q v a panic panic1 go} : Note v panic panic1 →
      Run S (.inner t q v a panic go { a with errs := a.errs ++ panic1.toList } v)
  | innerNoteGo {t q v a panic panic1 go a' v'} : Note v panic panic1 →
      Run S (.inner t q v.skip a panic1 go a' v') → Run S (.inner t q v a panic go a' v')
  -- punct
  | punct {t p v r x e v1 a v'} : Run S (.ty t v r v1) → r.Gives x e →
      Run S (.pouter t p v1 ⟨[x], [], e⟩ a v') → Run S (.ty (.punct t p) v (punctDone x.span.lo a) v')
  | punctPanic {t p v e v1} : Run S (.ty t v (.panic e) v1) →
      Run S (.ty (.punct t p) v (.panic e) v1)
  | pouterStop {t p v a} : Run S (.pouter t p v a a v)
  | pouterPanic {t p v a e v1} : Run S (.ty p v (.panic e) v1) →
      Run S (.pouter t p v a { a with errs := a.errs ++ e } v1)
  | pouterGo {t p v a r q e v1 a1 v2 a' v'} : v.rest ≠ [] → Run S (.ty p v r v1) → r.Gives q e →
      Run S (.pinner t v1 ⟨a.elems, a.puncts ++ [q], a.errs ++ e⟩ none true a1 v2) →
      Run S (.pouter t p v2 a1 a' v') → Run S (.pouter t p v a a' v')
  | pouterBreak {t p v a r q e v1 a1 v2} : v.rest ≠ [] → Run S (.ty p v r v1) → r.Gives q e →
      Run S (.pinner t v1 ⟨a.elems, a.puncts ++ [q], a.errs ++ e⟩ none false a1 v2) →
      Run S (.pouter t p v a a1 v2)
  | pinnerGive {t v a panic r x e v1} : Run S (.ty t v r v1) → r.Gives x e →
      Run S (.pinner t v a panic true ⟨a.elems ++ [x], a.puncts, a.errs ++ panic.toList ++ e⟩ v1)
  | pinnerStop {t v a panic} :
      Run S (.pinner t v a panic false { a with errs := a.errs ++ panic.toList } v)
  | pinnerFailLeave {t v a panic e v1 go} : e.length ≤ 1 → Run S (.ty t v (.panic e) v1) →
      Run S (.pinner t v a panic go { a with errs := a.errs ++ (mergePanic panic e).toList } v1)
  | pinnerFailGo {t v a panic e v1 go a' v'} : e.length ≤ 1 → Run S (.ty t v (.panic e) v1) →
      Run S (.pinner t v1.skip a (mergePanic panic e) go a' v') →
      Run S (.pinner t v a panic go a' v')
  | pinnerNoteLeave {t v a panic panic1 go} : Note v panic panic1 →
      Run S (.pinner t v a panic go { a with errs := a.errs ++ panic1.toList } v)
  | pinnerNoteGo {t v a panic panic1 go a' v'} : Note v panic panic1 →
      Run S (.pinner t v.skip a panic1 go a' v') → Run S (.pinner t v a panic go a' v')
  -- recover
  | recover {t r v h v1 x errs panic v'} : Run S (.head t v h v1) →
      Run S (.tail r v1 h.errs h.panic (some x) errs panic v') →
      Run S (.ty (.recover t r) v (Res.ofPair (mkRecover h x) (errs ++ panic.toList)) v')
  | recoverPanic {t r v h v1 errs panic v'} : Run S (.head t v h v1) →
      Run S (.tail r v1 h.errs h.panic none errs panic v') →
      Run S (.ty (.recover t r) v (.panic (errs ++ panic.toList)) v')
  | headGive {t v r x e v1} : Run S (.ty t v r v1) → r.Gives x e →
      Run S (.head t v ⟨e, none, x.span, some x⟩ v1)
  | headPanic {t v e v1} : e.length ≤ 1 → Run S (.ty t v (.panic e) v1) →
      Run S (.head t v ⟨[], e.getLast?, ⟨v1.pos, v1.pos⟩, none⟩ v1)
  | headNone {t v s} :
      Run S (.head t v ⟨[], some ⟨v.cur, .expecting s⟩, ⟨v.pos, v.pos⟩, none⟩ v)
  | tailGive {t v errs panic r x e v1} : Run S (.ty t v r v1) → r.Gives x e →
      Run S (.tail t v errs panic (some x) (errs ++ e) panic v1)
  | tailPanic {t v errs panic e v1} : e.length ≤ 1 → v.rest = [] → Run S (.ty t v (.panic e) v1) →
      Run S (.tail t v errs panic none errs (mergePanic panic e) v1)
  | tailStop {t v errs panic} : v.rest = [] → panic ≠ none →
      Run S (.tail t v errs panic none errs panic v)
  | tailNote {t v errs s} : v.rest = [] →
      Run S (.tail t v errs none none errs (some ⟨v.cur, .expecting s⟩) v)
  | tailFail {t v errs panic e v1 panic1 x errs' panic' v'} : e.length ≤ 1 → v.rest ≠ [] →
      Run S (.ty t v (.panic e) v1) →
      Note v1 (mergePanic panic e) panic1 → Run S (.tail t v1.skip errs panic1 x errs' panic' v') →
      Run S (.tail t v errs panic x errs' panic' v')
  | tailSkip {t v errs panic panic1 x errs' panic' v'} : v.rest ≠ [] → Note v panic panic1 →
      Run S (.tail t v.skip errs panic1 x errs' panic' v') →
      Run S (.tail t v errs panic x errs' panic' v')
  -- a failure of which the first error is kept
  | clip {t v e v1} : Run S (.ty t v (.panic e) v1) → Run S (.ty t v (.panic (earliest e).toList) v1)

section
variable {v v' : View n}

/-- All results of a computation for a type are described. -/
def Desc (S : Schema m n) (p : P (View n) n) (t : Ty m n) : Prop :=
  ∀ v r v', p v = .ok r v' → Run S (.ty t v r v')

/-- And failures have one error at most. -/
def DescC (S : Schema m n) (p : P (View n) n) (t : Ty m n) : Prop :=
  Desc S p t ∧ ∀ v e v', p v = .ok (.panic e) v' → e.length ≤ 1

theorem desc_clip {p : P (View n) n} {t : Ty m n} (h : Desc S p t) : DescC S (clip p) t := by
  constructor
  · intro v r v' hr
    rcases clip_ok hr with ⟨h1, -⟩ | ⟨e, h1, rfl⟩
    · exact h _ _ _ h1
    · exact .clip (h _ _ _ h1)
  · intro v e v' hr
    rcases clip_ok hr with ⟨-, h1⟩ | ⟨e, -, h2⟩
    · exact absurd rfl (h1 e)
    · cases h2
      cases earliest e <;> simp

theorem desc_term (i : Nat) (k : Terminal n) (follow : TSet n) :
    Desc S (produceTerm View.ops k follow) (.term i k) := by
  intro v r v' h
  unfold produceTerm at h
  cases hl : k.lit with
  | none =>
    simp only [hl, bind_ok, pure_ok] at h
    obtain ⟨r1, v1, h, rfl, rfl⟩ := h
    unfold Ops.parseToken at h
    simp only [bind_ok, mPeek_ok] at h
    obtain ⟨x, _, ⟨rfl, rfl⟩, h⟩ := h
    rename_i v
    cases hr : v.rest with
    | nil =>
      simp only [hr, List.head?_nil, bind_ok, mExpecting_ok, pure_ok] at h
      obtain ⟨e, _, ⟨rfl, rfl⟩, rfl, rfl⟩ := h
      exact .tokPanic (by simp)
    | cons t l =>
      simp only [hr, List.head?_cons] at h
      split at h
      · rename_i ht
        simp only [bind_ok, mConsume_ok, pure_ok] at h
        obtain ⟨_, _, ⟨rfl, rfl⟩, rfl, rfl⟩ := h
        exact .tok hr ht (by simp [hl])
      · simp only [bind_ok, mExpecting_ok, pure_ok] at h
        obtain ⟨e, _, ⟨rfl, rfl⟩, rfl, rfl⟩ := h
        exact .tokPanic (by simp)
  | some lit =>
    simp only [hl, bind_ok, pure_ok] at h
    obtain ⟨r1, v1, h, rfl, rfl⟩ := h
    unfold Ops.parseTokenLit at h
    simp only [bind_ok, mPeek_ok] at h
    obtain ⟨x, _, ⟨rfl, rfl⟩, h⟩ := h
    rename_i v
    cases hr : v.rest with
    | nil =>
      simp only [hr, List.head?_nil] at h
      split at h
      · simp only [bind_ok, mCurrentSpan_ok, mExpecting_ok, pure_ok] at h
        obtain ⟨_, _, ⟨rfl, rfl⟩, e, _, ⟨rfl, rfl⟩, rfl, rfl⟩ := h
        exact .tokRecovered hl (.inr ⟨hr, by simp [View.cur, hr]⟩)
      · simp only [bind_ok, mUnexpectedEof_ok, pure_ok] at h
        obtain ⟨e, _, ⟨rfl, rfl⟩, rfl, rfl⟩ := h
        exact .tokPanic (by simp)
    | cons t l =>
      simp only [hr, List.head?_cons, bind_ok, mGetSrc_ok] at h
      obtain ⟨src, _, ⟨hs, rfl⟩, h⟩ := h
      split at h
      · rename_i ht
        simp only [bind_ok, mConsume_ok, pure_ok] at h
        obtain ⟨_, _, ⟨rfl, rfl⟩, rfl, rfl⟩ := h
        refine .tok hr ht.1 ?_
        intro lit' hl'
        rw [hl] at hl'
        cases hl'
        rw [hs, ht.2]
      · split at h
        · simp only [bind_ok, mEmptySpan_ok, mExpecting_ok, pure_ok] at h
          obtain ⟨_, _, ⟨rfl, rfl⟩, e, _, ⟨rfl, rfl⟩, rfl, rfl⟩ := h
          exact .tokRecovered hl (.inl rfl)
        · simp only [bind_ok, mExpecting_ok, pure_ok] at h
          obtain ⟨e, _, ⟨rfl, rfl⟩, rfl, rfl⟩ := h
          exact .tokPanic (by simp)

theorem run_seq {α : Type} (f : α → P (View n) n) (g : α → Ty m n) (l : List α)
    (h : ∀ a ∈ l, Desc S (f a) (g a)) :
    ∀ (v : View n) acc errs r v', seqLoop (l.map f) acc errs v = .ok r v' →
      Run S (.seq (l.map g) v acc errs r v') := by
  induction l with
  | nil =>
    intro v acc errs r v' hr
    simp only [List.map_nil, seqLoop, pure_ok] at hr
    obtain ⟨rfl, rfl⟩ := hr
    exact .seqNil
  | cons a l ih =>
    intro v acc errs r v' hr
    simp only [List.map_cons, seqLoop, bind_ok] at hr
    obtain ⟨r1, v1, h1, h2⟩ := hr
    have hd := h a (List.mem_cons_self ..) _ _ _ h1
    have ih := ih (fun b hb => h b (List.mem_cons_of_mem _ hb))
    cases r1 with
    | success x =>
      have := ih _ _ _ _ _ h2
      exact .seqGive hd (.success x) (by simpa using this)
    | recovered x e => exact .seqGive hd (.recovered x e) (ih _ _ _ _ _ h2)
    | panic e =>
      simp only [pure_ok] at h2
      obtain ⟨rfl, rfl⟩ := h2
      exact .seqPanic hd

theorem desc_tuple {t : Ty m n} {ts : List (Ty m n)} (ht : TupLike t ts) {f : Ty m n → P (View n) n}
    (h : ∀ t, Desc S (f t) t) : Desc S (produceTuple (ts.map f)) t := by
  intro v r v' hr
  simp only [produceTuple, bind_ok] at hr
  obtain ⟨r1, v1, h1, h2⟩ := hr
  have hs := run_seq f id ts (fun a _ => h a) _ _ _ _ _ h1
  rw [List.map_id] at hs
  cases r1 with
  | error e =>
    simp only [pure_ok] at h2
    obtain ⟨rfl, rfl⟩ := h2
    exact .tuplePanic ht hs
  | ok p =>
    simp only [pure_ok] at h2
    obtain ⟨rfl, rfl⟩ := h2
    exact .tuple ht hs

theorem desc_struct {k : Fin m} {fd : Field m n} {fs : List (Field m n)} (hk : S k = .struct fd fs)
    {f : Ty m n → P (View n) n} (h : ∀ t, Desc S (f t) t) :
    Desc S (produceStruct View.ops ((fd :: fs).map fun x => (f x.1, x.2))) (.user k) := by
  intro v r v' hr
  simp only [produceStruct, bind_ok, List.map_map] at hr
  obtain ⟨r1, v1, h1, h2⟩ := hr
  have hs := run_seq (fun x : Field m n => f x.1) (fun x => x.1) (fd :: fs) (fun a _ => h a.1) _ _ _ _ _
    (by simpa [Function.comp_def] using h1)
  cases r1 with
  | error e =>
    simp only [pure_ok] at h2
    obtain ⟨rfl, rfl⟩ := h2
    exact .structPanic hk hs
  | ok p =>
    obtain ⟨l, errs⟩ := p
    simp only [bind_ok, applyFields_ok, pure_ok] at h2
    obtain ⟨_, _, rfl, rfl, rfl⟩ := h2
    exact .struct hk hs

theorem desc_enum {k : Fin m} {fd : Field m n} {fs : List (Field m n)} (hk : S k = .enum fd fs)
    {f : Ty m n → P (View n) n} (h : ∀ t, Desc S (f t) t) (look : Option (TokenSrc n) → Option Nat)
    (first : TSet n) :
    Desc S (produceEnum View.ops look first ((fd :: fs).map fun x => (f x.1, x.2))) (.user k) := by
  intro v r v' hr
  simp only [produceEnum, bind_ok, mPeekSrc_ok] at hr
  obtain ⟨tok, _, ⟨rfl, rfl, -⟩, hr⟩ := hr
  rename_i v
  cases hl : look v.look with
  | none =>
    simp only [hl, bind_ok, mExpecting_ok, pure_ok] at hr
    obtain ⟨_, _, ⟨rfl, rfl⟩, rfl, rfl⟩ := hr
    exact .enumNone hk
  | some i =>
    simp only [hl] at hr
    rw [List.getElem?_map] at hr
    cases hi : (fd :: fs)[i]? with
    | none =>
      simp only [hi, Option.map_none, bind_ok, mExpecting_ok, pure_ok] at hr
      obtain ⟨_, _, ⟨rfl, rfl⟩, rfl, rfl⟩ := hr
      exact .enumNone hk
    | some x =>
      obtain ⟨t, sem⟩ := x
      simp only [hi, Option.map_some, bind_ok] at hr
      obtain ⟨r1, v1, h1, h2⟩ := hr
      have hd := h t _ _ _ h1
      cases r1 with
      | success x =>
        simp only [mapVariant, bind_ok, applyFields_ok, pure_ok] at h2
        obtain ⟨_, _, rfl, rfl, rfl⟩ := h2
        exact .enumSuccess hk hi hd
      | recovered x e =>
        simp only [mapVariant, bind_ok, applyFields_ok, pure_ok] at h2
        obtain ⟨_, _, rfl, rfl, rfl⟩ := h2
        exact .enumRecovered hk hi hd
      | panic e =>
        simp only [mapVariant, pure_ok] at h2
        obtain ⟨rfl, rfl⟩ := h2
        exact .enumPanic hk hi hd

theorem desc_option {t' t : Ty m n} {mk : Span → Option (Tree n) → Tree n} (ho : OptLike t' t mk)
    {p : P (View n) n} (h : Desc S p t) (first : TSet n) :
    Desc S (produceOption View.ops first p mk) t' := by
  intro v r v' hr
  simp only [produceOption, bind_ok, mPeekSrc_ok] at hr
  obtain ⟨tok, _, ⟨rfl, rfl, -⟩, hr⟩ := hr
  rename_i v
  split at hr
  · simp only [bind_ok] at hr
    obtain ⟨r1, v1, h1, h2⟩ := hr
    have hd := h _ _ _ h1
    cases r1 with
    | success x =>
      simp only [pure_ok] at h2
      obtain ⟨rfl, rfl⟩ := h2
      exact .optSuccess ho hd
    | recovered x e =>
      simp only [pure_ok] at h2
      obtain ⟨rfl, rfl⟩ := h2
      exact .optRecovered ho hd
    | panic e =>
      simp only [bind_ok, mEmptySpan_ok, pure_ok] at h2
      obtain ⟨_, _, ⟨rfl, rfl⟩, rfl, rfl⟩ := h2
      exact .optPanic ho hd
  · simp only [bind_ok, mEmptySpan_ok, pure_ok] at hr
    obtain ⟨_, _, ⟨rfl, rfl⟩, rfl, rfl⟩ := hr
    exact .optNone ho

theorem desc_text {t' t : Ty m n} (ho : TextLike t' t) {p : P (View n) n} (h : Desc S p t) :
    Desc S (produceText View.ops p) t' := by
  intro v r v' hr
  simp only [produceText, bind_ok] at hr
  obtain ⟨r1, v1, h1, h2⟩ := hr
  have hd := h _ _ _ h1
  cases r1 with
  | success x =>
    simp only [bind_ok, mGetSrc_ok, pure_ok] at h2
    obtain ⟨_, _, ⟨hs, rfl⟩, rfl, rfl⟩ := h2
    exact .textSuccess ho hd hs
  | recovered x e =>
    simp only [bind_ok, mGetSrc_ok, pure_ok] at h2
    obtain ⟨_, _, ⟨hs, rfl⟩, rfl, rfl⟩ := h2
    exact .textRecovered ho hd hs
  | panic e =>
    simp only [pure_ok] at h2
    obtain ⟨rfl, rfl⟩ := h2
    exact .textPanic ho hd

theorem run_iter {t : Ty m n} {p : P (View n) n} (h : Desc S p t) (first : TSet n) :
    ∀ (fuel : Nat) (v : View n) acc errs hi r v', iterLoop View.ops first p fuel acc errs hi v = .ok r v' →
      Run S (.iter t v acc errs hi r.1 r.2.1 r.2.2 v') := by
  intro fuel
  induction fuel with
  | zero => intro v acc errs hi r v' hr; cases hr
  | succ fuel ih =>
    intro v acc errs hi r v' hr
    simp only [iterLoop, bind_ok, mPeekSrc_ok] at hr
    obtain ⟨tok, _, ⟨rfl, rfl, -⟩, hr⟩ := hr
    rename_i v
    split at hr
    · rename_i hc
      have hne : v.rest ≠ [] := (look_isSome v).1 (by simp only [Bool.and_eq_true] at hc; exact hc.1)
      simp only [bind_ok] at hr
      obtain ⟨r1, v1, h1, h2⟩ := hr
      have hd := h _ _ _ h1
      cases r1 with
      | success x => exact .iterGive hne hd (.success x) (by simpa using ih _ _ _ _ _ _ h2)
      | recovered x e => exact .iterGive hne hd (.recovered x e) (ih _ _ _ _ _ _ h2)
      | panic e =>
        simp only [pure_ok] at h2
        obtain ⟨rfl, rfl⟩ := h2
        exact .iterPanic hd
    · simp only [pure_ok] at hr
      obtain ⟨rfl, rfl⟩ := hr
      exact .iterStop

theorem desc_plus {t : Ty m n} {p : P (View n) n} (h : Desc S p t) (first : TSet n) (fuel : Nat) :
    Desc S (producePlus View.ops first p fuel) (.plus t) := by
  intro v r v' hr
  simp only [producePlus, bind_ok] at hr
  obtain ⟨r1, v1, h1, h2⟩ := hr
  have hd := h _ _ _ h1
  cases r1 with
  | success x =>
    simp only [plusRest, bind_ok, pure_ok] at h2
    obtain ⟨⟨l, errs, hi⟩, v2, h2, rfl, rfl⟩ := h2
    exact .plus hd (.success x) (run_iter h _ _ _ _ _ _ _ _ h2)
  | recovered x e =>
    simp only [plusRest, bind_ok, pure_ok] at h2
    obtain ⟨⟨l, errs, hi⟩, v2, h2, rfl, rfl⟩ := h2
    exact .plus hd (.recovered x e) (run_iter h _ _ _ _ _ _ _ _ h2)
  | panic e =>
    simp only [pure_ok] at h2
    obtain ⟨rfl, rfl⟩ := h2
    exact .plusPanic hd

theorem loopElem_ok {t : Ty m n} {p : P (View n) n} (h : Desc S p t) {v v' : View n} {out errs r}
    (hr : loopElem View.ops p out errs v = .ok r v') :
    (r.1 = false ∧ Run S (.loop t v out errs r.2.1 r.2.2 v')) ∨
    (r.1 = true ∧ ∀ out' errs' v2, Run S (.loop t v' r.2.1 r.2.2 out' errs' v2) →
      Run S (.loop t v out errs out' errs' v2)) := by
  simp only [loopElem, bind_ok, mCurrentSpan_ok] at hr
  obtain ⟨_, _, ⟨rfl, rfl⟩, r1, v1, h1, _, _, ⟨rfl, rfl⟩, hr⟩ := hr
  have hd := h _ _ _ h1
  split at hr
  · simp only [pure_ok] at hr
    obtain ⟨rfl, rfl⟩ := hr
    refine .inl ⟨rfl, ?_⟩
    cases r1 with
    | success x => simpa using Run.loopGiveStuck hd (.success x) (out := out) (errs := errs)
    | recovered x e => exact .loopGiveStuck hd (.recovered x e)
    | panic e => exact .loopPanicStuck hd
  · simp only [pure_ok] at hr
    obtain ⟨rfl, rfl⟩ := hr
    refine .inr ⟨rfl, fun out' errs' v2 hl => ?_⟩
    cases r1 with
    | success x => exact .loopGive hd (.success x) (by simpa using hl)
    | recovered x e => exact .loopGive hd (.recovered x e) hl
    | panic e => exact .loopPanic hd hl

theorem run_loop {t : Ty m n} {p : P (View n) n} (h : Desc S p t) (first : TSet n) :
    ∀ (fuel : Nat) (v : View n) out errs r v', loopLoop View.ops first p fuel out errs v = .ok r v' →
      Run S (.loop t v out errs r.1 r.2 v') := by
  intro fuel
  induction fuel with
  | zero => intro v out errs r v' hr; cases hr
  | succ fuel ih =>
    intro v out errs r v' hr
    simp only [loopLoop, bind_ok, mPeekSrc_ok] at hr
    obtain ⟨tok, _, ⟨rfl, rfl, -⟩, hr⟩ := hr
    rename_i v
    split at hr
    · rename_i hn
      simp only [pure_ok] at hr
      obtain ⟨rfl, rfl⟩ := hr
      exact .loopStop ((look_isNone _).1 hn)
    · rename_i hn
      have hne : v.rest ≠ [] := fun h => hn ((look_isNone _).2 h)
      simp only [bind_ok] at hr
      obtain ⟨⟨errs1, more⟩, v1, h1, hr⟩ := hr
      have key : (more = false → v1.rest = []) ∧
          ∀ out' errs' v2, Run S (.loop t v1 out errs1 out' errs' v2) →
          Run S (.loop t v out errs out' errs' v2) := by
        split at h1
        · simp only [loopSkip, bind_ok, mCurrentSpan_ok, mConsume_ok, pure_ok] at h1
          obtain ⟨_, _, ⟨rfl, rfl⟩, _, _, ⟨rfl, rfl⟩, ⟨hi, more'⟩, v2, h2, h3, rfl⟩ := h1
          obtain ⟨hs, hp, hm⟩ := skipLoop_ok first _ _ _ _ _ _ (.one hne) (skip_pos _ hne).symm h2
          simp only [Prod.mk.injEq] at h3
          obtain ⟨rfl, rfl⟩ := h3
          simp only at hp hm
          subst hp
          refine ⟨fun hf => ?_, fun out' errs' v3 hl => .loopSkip hs hl⟩
          rw [hf] at hm
          cases hr2 : v2.rest with
          | nil => rfl
          | cons a l => exact absurd (hm.2 (by simp [hr2])) (by simp)
        · simp only [pure_ok, Prod.mk.injEq] at h1
          obtain ⟨⟨rfl, rfl⟩, rfl⟩ := h1
          exact ⟨(by intro h; cases h), fun _ _ _ hl => hl⟩
      split at hr
      · rename_i hm
        simp only [pure_ok] at hr
        obtain ⟨rfl, rfl⟩ := hr
        refine key.2 _ _ _ (.loopStop (key.1 ?_))
        simpa using hm
      · simp only [bind_ok] at hr
        obtain ⟨⟨go, out2, errs2⟩, v2, h2, hr⟩ := hr
        rcases loopElem_ok h h2 with ⟨hg, hl⟩ | ⟨hg, hl⟩
        · simp only at hg
          subst hg
          simp only [Bool.false_eq_true, if_false, pure_ok] at hr
          obtain ⟨rfl, rfl⟩ := hr
          exact key.2 _ _ _ hl
        · simp only at hg
          subst hg
          simp only [if_true] at hr
          exact key.2 _ _ _ (hl _ _ _ (ih _ _ _ _ _ hr))

theorem desc_loop {t : Ty m n} {p : P (View n) n} (h : Desc S p t) (first : TSet n) (fuel : Nat) :
    Desc S (produceLoop View.ops first p fuel) (.loop t) := by
  intro v r v' hr
  simp only [produceLoop, bind_ok] at hr
  obtain ⟨⟨out, errs⟩, v1, h1, hr⟩ := hr
  have hl := run_loop h _ _ _ _ _ _ _ h1
  split at hr
  · rename_i he
    simp only [bind_ok, mEmptySpan_ok, pure_ok] at hr
    obtain ⟨_, _, ⟨rfl, rfl⟩, rfl, rfl⟩ := hr
    have : out = [] := by simpa using he
    subst this
    exact .loopEmpty hl
  · rename_i he
    simp only [pure_ok] at hr
    obtain ⟨rfl, rfl⟩ := hr
    exact .loopList hl (by simpa using he)

/-- What the first part of an inner loop does if the element is not produced. -/
inductive Try (S : Schema m n) (t : Ty m n) : View n → Option (Err n) → Option (Err n) → View n → Prop
  | fail {v panic e v1} : e.length ≤ 1 → Run S (.ty t v (.panic e) v1) → Try S t v panic (mergePanic panic e) v1
  | note {v panic panic1} : Note v panic panic1 → Try S t v panic panic1 v

theorem splitTry_ok {t : Ty m n} {p : P (View n) n} (h : DescC S p t) {ef : TSet n} {q : Tree n} {a : Acc n}
    {panic : Option (Err n)} {v v' : View n} {r}
    (hr : splitTry View.ops ef p q a panic v = .ok r v') :
    (∃ a', r = .error a' ∧ Run S (.inner t q v a panic true a' v')) ∨
    (∃ panic1, r = .ok (v'.look, panic1) ∧ Try S t v panic panic1 v') := by
  simp only [splitTry, bind_ok, mPeekSrc_ok] at hr
  obtain ⟨tok, _, ⟨rfl, rfl, -⟩, hr⟩ := hr
  rename_i v
  split at hr
  · simp only [bind_ok] at hr
    obtain ⟨r1, v1, h1, h2⟩ := hr
    have hd := h.1 _ _ _ h1
    cases r1 with
    | success x =>
      simp only [pure_ok] at h2
      obtain ⟨rfl, rfl⟩ := h2
      exact .inl ⟨_, rfl, by simpa using Run.innerGive hd (.success x) (q := q) (a := a) (panic := panic)⟩
    | recovered x e =>
      simp only [pure_ok] at h2
      obtain ⟨rfl, rfl⟩ := h2
      exact .inl ⟨_, rfl, .innerGive hd (.recovered x e)⟩
    | panic e =>
      simp only [bind_ok, mPeekSrc_ok, pure_ok] at h2
      obtain ⟨_, _, ⟨rfl, rfl, -⟩, rfl, rfl⟩ := h2
      exact .inr ⟨_, rfl, .fail (h.2 _ _ _ h1) hd⟩
  · cases panic with
    | some p =>
      simp only [bind_ok, extendPanic_ok, pure_ok] at hr
      obtain ⟨_, _, ⟨rfl, rfl⟩, rfl, rfl⟩ := hr
      exact .inr ⟨_, rfl, .note (.ext _ _)⟩
    | none =>
      simp only [bind_ok, mExpecting_ok, pure_ok] at hr
      obtain ⟨_, _, ⟨rfl, rfl⟩, rfl, rfl⟩ := hr
      exact .inr ⟨_, rfl, .note (.new _ _)⟩

theorem run_inner {t : Ty m n} {p : P (View n) n} (h : DescC S p t) (ef pf fol : TSet n) (q : Tree n) :
    ∀ (fuel : Nat) (v : View n) a panic r v',
      splitInner View.ops ef pf fol p q fuel a panic v = .ok r v' →
      Run S (.inner t q v a panic r.1 r.2 v') := by
  intro fuel
  induction fuel with
  | zero => intro v a panic r v' hr; cases hr
  | succ fuel ih =>
    intro v a panic r v' hr
    simp only [splitInner, bind_ok] at hr
    obtain ⟨r1, v1, h1, hr⟩ := hr
    rcases splitTry_ok h h1 with ⟨a', rfl, hi⟩ | ⟨panic1, rfl, ht⟩
    · simp only [pure_ok] at hr
      obtain ⟨rfl, rfl⟩ := hr
      exact hi
    · have leave : ∀ go, Run S (.inner t q v a panic go { a with errs := a.errs ++ panic1.toList } v1) := by
        intro go
        cases ht with
        | fail hl hd => exact .innerFailLeave hl hd
        | note hn => exact .innerNoteLeave hn
      simp only at hr
      split at hr
      · simp only [pure_ok] at hr
        obtain ⟨rfl, rfl⟩ := hr
        exact leave true
      · split at hr
        · simp only [pure_ok] at hr
          obtain ⟨rfl, rfl⟩ := hr
          exact leave false
        · simp only [bind_ok, mConsume_ok] at hr
          obtain ⟨_, _, ⟨rfl, rfl⟩, hr⟩ := hr
          have hi := ih _ _ _ _ _ hr
          cases ht with
          | fail hl hd => exact .innerFailGo hl hd hi
          | note hn => exact .innerNoteGo hn hi

theorem run_outer {t u : Ty m n} {pt pp : P (View n) n} (ht : DescC S pt t) (hu : Desc S pp u)
    (ef pf fol : TSet n) : ∀ (fuel : Nat) (v : View n) a r v',
      splitOuter View.ops ef pf fol pt pp fuel a v = .ok r v' → Run S (.outer t u v a r v') := by
  intro fuel
  induction fuel with
  | zero => intro v a r v' hr; cases hr
  | succ fuel ih =>
    intro v a r v' hr
    simp only [splitOuter, bind_ok, mPeekSrc_ok] at hr
    obtain ⟨tok, _, ⟨rfl, rfl, -⟩, hr⟩ := hr
    rename_i v
    split at hr
    · rename_i hc
      have hne : v.rest ≠ [] := (look_isSome v).1 (by simp only [Bool.and_eq_true] at hc; exact hc.1)
      simp only [bind_ok] at hr
      obtain ⟨r1, v1, h1, h2⟩ := hr
      have hd := hu _ _ _ h1
      cases r1 with
      | panic e =>
        simp only [pure_ok] at h2
        obtain ⟨rfl, rfl⟩ := h2
        exact .outerPanic hd
      | success q =>
        simp only [bind_ok] at h2
        obtain ⟨⟨go, a1⟩, v2, h2, h3⟩ := h2
        have hi := run_inner ht _ _ _ _ _ _ _ _ _ _ h2
        cases go with
        | true =>
          simp only [if_true] at h3
          exact .outerGo hne hd (.success q) (by simpa using hi) (ih _ _ _ _ h3)
        | false =>
          simp only [Bool.false_eq_true, if_false, pure_ok] at h3
          obtain ⟨rfl, rfl⟩ := h3
          exact .outerBreak hne hd (.success q) (by simpa using hi)
      | recovered q e =>
        simp only [bind_ok] at h2
        obtain ⟨⟨go, a1⟩, v2, h2, h3⟩ := h2
        have hi := run_inner ht _ _ _ _ _ _ _ _ _ _ h2
        cases go with
        | true =>
          simp only [if_true] at h3
          exact .outerGo hne hd (.recovered q e) hi (ih _ _ _ _ h3)
        | false =>
          simp only [Bool.false_eq_true, if_false, pure_ok] at h3
          obtain ⟨rfl, rfl⟩ := h3
          exact .outerBreak hne hd (.recovered q e) hi
    · simp only [pure_ok] at hr
      obtain ⟨rfl, rfl⟩ := hr
      exact .outerStop

theorem desc_split {t u : Ty m n} {pt pp : P (View n) n} (ht : Desc S pt t) (hu : Desc S pp u)
    (ef pf fol : TSet n) (fuel : Nat) :
    Desc S (produceSplitKeep View.ops ef pf fol pt pp fuel) (.split t u) := by
  intro v r v' hr
  simp only [produceSplitKeep, bind_ok] at hr
  obtain ⟨r1, v1, h1, h2⟩ := hr
  have hd := ht _ _ _ h1
  cases r1 with
  | success x =>
    simp only [bind_ok, pure_ok] at h2
    obtain ⟨a, v2, h2, rfl, rfl⟩ := h2
    exact .split hd (.success x) (run_outer (desc_clip ht) hu _ _ _ _ _ _ _ _ h2)
  | recovered x e =>
    simp only [bind_ok, pure_ok] at h2
    obtain ⟨a, v2, h2, rfl, rfl⟩ := h2
    exact .split hd (.recovered x e) (run_outer (desc_clip ht) hu _ _ _ _ _ _ _ _ h2)
  | panic e =>
    simp only [pure_ok] at h2
    obtain ⟨rfl, rfl⟩ := h2
    exact .splitPanic hd

theorem punctTry_ok {t : Ty m n} {p : P (View n) n} (h : DescC S p t) {ef fol : TSet n} {a : Acc n}
    {panic : Option (Err n)} {v v' : View n} {r}
    (hr : punctTry View.ops ef fol p a panic v = .ok r v') :
    (∃ b, r = .error b ∧ Run S (.pinner t v a panic b.1 b.2 v')) ∨
    (∃ panic1, r = .ok panic1 ∧ Try S t v panic panic1 v') := by
  simp only [punctTry, bind_ok, mPeekSrc_ok] at hr
  obtain ⟨tok, _, ⟨rfl, rfl, -⟩, hr⟩ := hr
  rename_i v
  split at hr
  · simp only [pure_ok] at hr
    obtain ⟨rfl, rfl⟩ := hr
    exact .inl ⟨_, rfl, .pinnerStop⟩
  split at hr
  · simp only [bind_ok] at hr
    obtain ⟨r1, v1, h1, h2⟩ := hr
    have hd := h.1 _ _ _ h1
    cases r1 with
    | success x =>
      simp only [pure_ok] at h2
      obtain ⟨rfl, rfl⟩ := h2
      exact .inl ⟨_, rfl, by simpa using Run.pinnerGive hd (.success x) (a := a) (panic := panic)⟩
    | recovered x e =>
      simp only [pure_ok] at h2
      obtain ⟨rfl, rfl⟩ := h2
      exact .inl ⟨_, rfl, .pinnerGive hd (.recovered x e)⟩
    | panic e =>
      simp only [pure_ok] at h2
      obtain ⟨rfl, rfl⟩ := h2
      exact .inr ⟨_, rfl, .fail (h.2 _ _ _ h1) hd⟩
  split at hr
  · simp only [pure_ok] at hr
    obtain ⟨rfl, rfl⟩ := hr
    exact .inl ⟨_, rfl, .pinnerStop⟩
  · cases panic with
    | some p =>
      simp only [bind_ok, extendPanic_ok, pure_ok] at hr
      obtain ⟨_, _, ⟨rfl, rfl⟩, rfl, rfl⟩ := hr
      exact .inr ⟨_, rfl, .note (.ext _ _)⟩
    | none =>
      simp only [bind_ok, mCurrentSpan_ok, pure_ok] at hr
      obtain ⟨_, _, ⟨rfl, rfl⟩, rfl, rfl⟩ := hr
      exact .inr ⟨_, rfl, .note (.new _ _)⟩

theorem run_pinner {t : Ty m n} {p : P (View n) n} (h : DescC S p t) (ef pf fol : TSet n) :
    ∀ (fuel : Nat) (v : View n) a panic r v',
      punctInner View.ops ef pf fol p fuel a panic v = .ok r v' →
      Run S (.pinner t v a panic r.1 r.2 v') := by
  intro fuel
  induction fuel with
  | zero => intro v a panic r v' hr; cases hr
  | succ fuel ih =>
    intro v a panic r v' hr
    simp only [punctInner, bind_ok] at hr
    obtain ⟨r1, v1, h1, hr⟩ := hr
    rcases punctTry_ok h h1 with ⟨b, rfl, hi⟩ | ⟨panic1, rfl, ht⟩
    · simp only [pure_ok] at hr
      obtain ⟨rfl, rfl⟩ := hr
      exact hi
    · have leave : ∀ go, Run S (.pinner t v a panic go { a with errs := a.errs ++ panic1.toList } v1) := by
        intro go
        cases ht with
        | fail hl hd => exact .pinnerFailLeave hl hd
        | note hn => exact .pinnerNoteLeave hn
      simp only [bind_ok, mPeekSrc_ok] at hr
      obtain ⟨_, _, ⟨rfl, rfl, -⟩, hr⟩ := hr
      split at hr
      · simp only [pure_ok] at hr
        obtain ⟨rfl, rfl⟩ := hr
        exact leave true
      · split at hr
        · simp only [pure_ok] at hr
          obtain ⟨rfl, rfl⟩ := hr
          exact leave false
        · simp only [bind_ok, mConsume_ok] at hr
          obtain ⟨_, _, ⟨rfl, rfl⟩, hr⟩ := hr
          have hi := ih _ _ _ _ _ hr
          cases ht with
          | fail hl hd => exact .pinnerFailGo hl hd hi
          | note hn => exact .pinnerNoteGo hn hi

theorem run_pouter {t u : Ty m n} {pt pp : P (View n) n} (ht : DescC S pt t) (hu : Desc S pp u)
    (ef pf fol : TSet n) : ∀ (fuel : Nat) (v : View n) a r v',
      punctOuter View.ops ef pf fol pt pp fuel a v = .ok r v' → Run S (.pouter t u v a r v') := by
  intro fuel
  induction fuel with
  | zero => intro v a r v' hr; cases hr
  | succ fuel ih =>
    intro v a r v' hr
    simp only [punctOuter, bind_ok, mPeekSrc_ok] at hr
    obtain ⟨tok, _, ⟨rfl, rfl, -⟩, hr⟩ := hr
    rename_i v
    split at hr
    · rename_i hc
      have hne : v.rest ≠ [] := (look_isSome v).1 (by simp only [Bool.and_eq_true] at hc; exact hc.1)
      simp only [bind_ok] at hr
      obtain ⟨r1, v1, h1, h2⟩ := hr
      have hd := hu _ _ _ h1
      cases r1 with
      | panic e =>
        simp only [pure_ok] at h2
        obtain ⟨rfl, rfl⟩ := h2
        exact .pouterPanic hd
      | success q =>
        simp only [bind_ok] at h2
        obtain ⟨⟨go, a1⟩, v2, h2, h3⟩ := h2
        have hi := run_pinner ht _ _ _ _ _ _ _ _ _ h2
        cases go with
        | true =>
          simp only [if_true] at h3
          exact .pouterGo hne hd (.success q) (by simpa using hi) (ih _ _ _ _ h3)
        | false =>
          simp only [Bool.false_eq_true, if_false, pure_ok] at h3
          obtain ⟨rfl, rfl⟩ := h3
          exact .pouterBreak hne hd (.success q) (by simpa using hi)
      | recovered q e =>
        simp only [bind_ok] at h2
        obtain ⟨⟨go, a1⟩, v2, h2, h3⟩ := h2
        have hi := run_pinner ht _ _ _ _ _ _ _ _ _ h2
        cases go with
        | true =>
          simp only [if_true] at h3
          exact .pouterGo hne hd (.recovered q e) hi (ih _ _ _ _ h3)
        | false =>
          simp only [Bool.false_eq_true, if_false, pure_ok] at h3
          obtain ⟨rfl, rfl⟩ := h3
          exact .pouterBreak hne hd (.recovered q e) hi
    · simp only [pure_ok] at hr
      obtain ⟨rfl, rfl⟩ := hr
      exact .pouterStop

theorem desc_punct {t u : Ty m n} {pt pp : P (View n) n} (ht : Desc S pt t) (hu : Desc S pp u)
    (ef pf fol : TSet n) (fuel : Nat) :
    Desc S (producePunctKeep View.ops ef pf fol pt pp fuel) (.punct t u) := by
  intro v r v' hr
  simp only [producePunctKeep, bind_ok] at hr
  obtain ⟨r1, v1, h1, h2⟩ := hr
  have hd := ht _ _ _ h1
  cases r1 with
  | success x =>
    simp only [bind_ok, pure_ok] at h2
    obtain ⟨a, v2, h2, rfl, rfl⟩ := h2
    exact .punct hd (.success x) (run_pouter (desc_clip ht) hu _ _ _ _ _ _ _ _ h2)
  | recovered x e =>
    simp only [bind_ok, pure_ok] at h2
    obtain ⟨a, v2, h2, rfl, rfl⟩ := h2
    exact .punct hd (.recovered x e) (run_pouter (desc_clip ht) hu _ _ _ _ _ _ _ _ h2)
  | panic e =>
    simp only [pure_ok] at h2
    obtain ⟨rfl, rfl⟩ := h2
    exact .punctPanic hd

theorem run_head {t : Ty m n} {p : P (View n) n} (h : DescC S p t) {hf : TSet n} {v v' : View n} {r}
    (hr : recoverHead View.ops hf p v = .ok r v') : Run S (.head t v r v') := by
  simp only [recoverHead, bind_ok, mPeekSrc_ok] at hr
  obtain ⟨tok, _, ⟨rfl, rfl, -⟩, hr⟩ := hr
  rename_i v
  split at hr
  · simp only [bind_ok] at hr
    obtain ⟨r1, v1, h1, h2⟩ := hr
    have hd := h.1 _ _ _ h1
    cases r1 with
    | success x =>
      simp only [pure_ok] at h2
      obtain ⟨rfl, rfl⟩ := h2
      exact .headGive hd (.success x)
    | recovered x e =>
      simp only [pure_ok] at h2
      obtain ⟨rfl, rfl⟩ := h2
      exact .headGive hd (.recovered x e)
    | panic e =>
      simp only [bind_ok, mEmptySpan_ok, pure_ok] at h2
      obtain ⟨_, _, ⟨rfl, rfl⟩, rfl, rfl⟩ := h2
      exact .headPanic (h.2 _ _ _ h1) hd
  · simp only [bind_ok, mEmptySpan_ok, mExpecting_ok, pure_ok] at hr
    obtain ⟨_, _, ⟨rfl, rfl⟩, _, _, ⟨rfl, rfl⟩, rfl, rfl⟩ := hr
    exact .headNone

theorem run_tailFix {S : Schema m n} {t : Ty m n} {p : P (View n) n} (h : DescC S p t) (tf : TSet n) :
    ∀ (fuel : Nat) (v : View n) errs panic r v',
      recoverLoopFix View.ops tf p fuel errs panic v = .ok r v' →
      Run S (.tail t v errs panic r.1 r.2.1 r.2.2 v') := by
  intro fuel
  induction fuel with
  | zero => intro v errs panic r v' hr; cases hr
  | succ fuel ih =>
    intro v errs panic r v' hr
    simp only [recoverLoopFix, bind_ok, mPeekSrc_ok] at hr
    obtain ⟨tok, _, ⟨rfl, rfl, -⟩, hr⟩ := hr
    rename_i v
    split at hr
    · rename_i hn
      have hnil := (look_isNone _).1 hn
      split at hr
      · simp only [bind_ok] at hr
        obtain ⟨r1, v1, h1, h2⟩ := hr
        have hd := h.1 _ _ _ h1
        cases r1 with
        | success x =>
          simp only [pure_ok] at h2
          obtain ⟨rfl, rfl⟩ := h2
          simpa using Run.tailGive hd (.success x) (errs := errs) (panic := panic)
        | recovered x e =>
          simp only [pure_ok] at h2
          obtain ⟨rfl, rfl⟩ := h2
          exact .tailGive hd (.recovered x e)
        | panic e =>
          simp only [pure_ok] at h2
          obtain ⟨rfl, rfl⟩ := h2
          exact .tailPanic (h.2 _ _ _ h1) hnil hd
      · cases panic with
        | some e =>
          simp only [pure_ok] at hr
          obtain ⟨rfl, rfl⟩ := hr
          exact .tailStop hnil (by simp)
        | none =>
          simp only [bind_ok, mExpecting_ok, pure_ok] at hr
          obtain ⟨_, _, ⟨rfl, rfl⟩, rfl, rfl⟩ := hr
          exact .tailNote hnil
    · rename_i hn
      have hne : v.rest ≠ [] := fun h => hn ((look_isNone _).2 h)
      split at hr
      · simp only [bind_ok] at hr
        obtain ⟨r1, v1, h1, h2⟩ := hr
        have hd := h.1 _ _ _ h1
        cases r1 with
        | success x =>
          simp only [pure_ok] at h2
          obtain ⟨rfl, rfl⟩ := h2
          simpa using Run.tailGive hd (.success x) (errs := errs) (panic := panic)
        | recovered x e =>
          simp only [pure_ok] at h2
          obtain ⟨rfl, rfl⟩ := h2
          exact .tailGive hd (.recovered x e)
        | panic e =>
          simp only [bind_ok] at h2
          obtain ⟨p1, v2, h2, h3⟩ := h2
          obtain ⟨hn, rfl⟩ := recoverSkip_ok h2
          exact .tailFail (h.2 _ _ _ h1) hne hd hn (ih _ _ _ _ _ h3)
      · simp only [bind_ok] at hr
        obtain ⟨p1, v2, h2, h3⟩ := hr
        obtain ⟨hn, rfl⟩ := recoverSkip_ok h2
        exact .tailSkip hne hn (ih _ _ _ _ _ h3)

theorem desc_recoverFix {S : Schema m n} {t u : Ty m n} {pt pp : P (View n) n} (ht : DescC S pt t)
    (hu : DescC S pp u) (hf tf : TSet n) (fuel : Nat) :
    Desc S (produceRecoverFix View.ops hf tf pt pp fuel) (.recover t u) := by
  intro v r v' hr
  simp only [produceRecoverFix, bind_ok] at hr
  obtain ⟨h, v1, h1, ⟨tl, errs, panic⟩, v2, h2, h3⟩ := hr
  have hh := run_head ht h1
  have ht := run_tailFix hu _ _ _ _ _ _ _ h2
  cases tl with
  | some x =>
    simp only [pure_ok] at h3
    obtain ⟨rfl, rfl⟩ := h3
    exact .recover hh ht
  | none =>
    simp only [pure_ok] at h3
    obtain ⟨rfl, rfl⟩ := h3
    exact .recoverPanic hh ht


theorem step_eq {σ : Type} {o : Ops σ n} {S : Schema m n} {md : Metadata (PId m n) n} {fuel : Nat}
    {rec : Ty m n → P σ n} {t : Ty m n} (h1 : ∀ a b, t ≠ .split a b) (h2 : ∀ a b, t ≠ .punct a b)
    (h3 : ∀ a b, t ≠ .recover a b) : produceStepKeep o S md fuel rec t = produceStep o S md fuel rec t := by
  cases t with
  | split a b => exact absurd rfl (h1 a b)
  | punct a b => exact absurd rfl (h2 a b)
  | recover a b => exact absurd rfl (h3 a b)
  | _ => rfl

/-- Every result of `produceKeep` is described. -/
theorem run_of_produce (S : Schema m n) (md : Metadata (PId m n) n) :
    ∀ (fuel : Nat) (t : Ty m n), Desc S (produceKeep View.ops S md fuel t) t := by
  intro fuel
  induction fuel with
  | zero => intro t v r v' h; cases h
  | succ fuel ih =>
    intro t
    show Desc S (produceStepKeep View.ops S md fuel (produceKeep View.ops S md fuel) t) t
    cases t with
    | term i k => exact desc_term i k _
    | user k =>
      rw [step_eq (by simp) (by simp) (by simp)]
      cases hS : S k with
      | struct f fs => simp only [produceStep, hS]; exact desc_struct hS ih
      | enum f fs => simp only [produceStep, hS]; exact desc_enum hS ih _ _
    | box t => exact fun v r v' h => .box (ih t v r v' h)
    | option t => exact desc_option (.option t) (ih t) _
    | exist t => exact desc_option (.exist t) (ih t) _
    | quote t => exact desc_text (.quote t) (ih t)
    | parse t => exact desc_text (.parse t) (ih t)
    | plus t => exact desc_plus (ih t) _ _
    | star t => exact desc_option (.star t) (desc_plus (ih t) _ _) _
    | loop t => exact desc_loop (ih t) _ _
    | split t p => exact desc_split (ih t) (ih p) _ _ _ _
    | punct t p => exact desc_punct (ih t) (ih p) _ _ _ _
    | recover t r => exact desc_recoverFix (desc_clip (ih t)) (desc_clip (ih r)) _ _ _
    | tup2 a b => exact desc_tuple (.tup2 a b) ih
    | tup3 a b c => exact desc_tuple (.tup3 a b c) ih
    | tup4 a b c d => exact desc_tuple (.tup4 a b c d) ih
    | tup5 a b c d e => exact desc_tuple (.tup5 a b c d e) ih

end

/-! ### Progress -/

theorem Run.adv {j : Judg m n} (h : Run S j) : Adv j.pre j.post := by
  induction h with
  | tok => exact .skip _
  | tokRecovered => exact .refl _
  | tokPanic => exact .refl _
  | seqNil => exact .refl _
  | seqGive _ _ _ i1 i2 => exact i1.trans i2
  | seqPanic _ i => exact i
  | struct _ _ i => exact i.trans (.applyAll _ _)
  | structPanic _ _ i => exact i
  | tuple _ _ i => exact i
  | tuplePanic _ _ i => exact i
  | enumSuccess _ _ _ i => exact i.trans (.applyAll _ _)
  | enumRecovered _ _ _ i => exact i.trans (.applyAll _ _)
  | enumPanic _ _ _ i => exact i
  | enumNone => exact .refl _
  | box _ i => exact i
  | optNone => exact .refl _
  | optSuccess _ _ i => exact i
  | optRecovered _ _ i => exact i
  | optPanic _ _ i => exact i
  | textSuccess _ _ _ i => exact i
  | textRecovered _ _ _ i => exact i
  | textPanic _ _ i => exact i
  | plus _ _ _ i1 i2 => exact i1.trans i2
  | plusPanic _ i => exact i
  | iterStop => exact .refl _
  | iterGive _ _ _ _ i1 i2 => exact i1.trans i2
  | iterPanic _ i => exact i
  | loopEmpty _ i => exact i
  | loopList _ _ i => exact i
  | loopStop => exact .refl _
  | loopSkip hs _ i => exact hs.adv.trans i
  | loopGive _ _ _ i1 i2 => exact i1.trans i2
  | loopPanic _ _ i1 i2 => exact i1.trans i2
  | loopGiveStuck _ _ i => exact i
  | loopPanicStuck _ i => exact i
  | split _ _ _ i1 i2 => exact i1.trans i2
  | splitPanic _ i => exact i
  | outerStop => exact .refl _
  | outerPanic _ i => exact i
  | outerGo _ _ _ _ _ i1 i2 i3 => exact (i1.trans i2).trans i3
  | outerBreak _ _ _ _ i1 i2 => exact i1.trans i2
  | innerGive _ _ i => exact i
  | innerFailLeave _ _ i => exact i
  | innerFailGo _ _ _ i1 i2 => exact (i1.trans (.skip _)).trans i2
  | innerNoteLeave => exact .refl _
  | innerNoteGo _ _ i => exact (Adv.skip _).trans i
  | punct _ _ _ i1 i2 => exact i1.trans i2
  | punctPanic _ i => exact i
  | pouterStop => exact .refl _
  | pouterPanic _ i => exact i
  | pouterGo _ _ _ _ _ i1 i2 i3 => exact (i1.trans i2).trans i3
  | pouterBreak _ _ _ _ i1 i2 => exact i1.trans i2
  | pinnerGive _ _ i => exact i
  | pinnerStop => exact .refl _
  | pinnerFailLeave _ _ i => exact i
  | pinnerFailGo _ _ _ i1 i2 => exact (i1.trans (.skip _)).trans i2
  | pinnerNoteLeave => exact .refl _
  | pinnerNoteGo _ _ i => exact (Adv.skip _).trans i
  | recover _ _ i1 i2 => exact i1.trans i2
  | recoverPanic _ _ i1 i2 => exact i1.trans i2
  | headGive _ _ i => exact i
  | headPanic _ _ i => exact i
  | headNone => exact .refl _
  | tailGive _ _ i => exact i
  | tailPanic _ _ _ i => exact i
  | tailNote => exact .refl _
  | tailStop => exact .refl _
  | tailFail _ _ _ _ _ i1 i2 => exact (i1.trans (.skip _)).trans i2
  | tailSkip _ _ _ i => exact (Adv.skip _).trans i
  | clip _ i => exact i

theorem past_run {B : Nat} {source : Str} {v v' : View n} {t : Ty m n} {r} (h : Past B source v)
    (hr : Run S (.ty t v r v')) : Past B source v' := h.adv hr.adv

theorem Run.late {B : Nat} {source : Str} {j : Judg m n} (h : Run S j) : Past B source j.pre → j.Late B := by
  induction h with
  | tok => intro _; exact .nil
  | tokRecovered => intro hp; exact .single hp.le
  | tokPanic => intro hp; exact .single hp.le
  | seqNil => intro _ he; exact he
  | @seqGive t ts v acc errs r x e v1 res v' h1 hg h2 i1 i2 =>
    intro hp
    have i1 := i1 hp
    have i2 := i2 (past_run hp h1)
    match res with
    | .ok (l, errs') => exact fun he => i2 (he.append (Late.gives i1 hg))
    | .error e' => exact fun he => i2 (he.append (Late.gives i1 hg))
  | seqPanic _ i => intro hp he; exact he.append (i hp)
  | struct _ _ i => intro hp; exact .ofPair (i hp .nil)
  | structPanic _ _ i => intro hp; exact i hp .nil
  | tuple _ _ i => intro hp; exact .ofPair (i hp .nil)
  | tuplePanic _ _ i => intro hp; exact i hp .nil
  | enumSuccess => intro _; exact .nil
  | enumRecovered _ _ _ i => intro hp; exact i hp
  | enumPanic _ _ _ i => intro hp; exact i hp
  | enumNone => intro hp; exact .single hp.le
  | box _ i => intro hp; exact i hp
  | optNone => intro _; exact .nil
  | optSuccess => intro _; exact .nil
  | optRecovered _ _ i => intro hp; exact i hp
  | optPanic _ _ i => intro hp; exact i hp
  | textSuccess => intro _; exact .nil
  | textRecovered _ _ _ i => intro hp; exact i hp
  | textPanic _ _ i => intro hp; exact i hp
  | plus h1 hg _ i1 i2 => intro hp; exact .ofPair (i2 (past_run hp h1) (Late.gives (i1 hp) hg))
  | plusPanic _ i => intro hp; exact i hp
  | iterStop => intro _ he; exact he
  | iterGive _ h1 hg _ i1 i2 => intro hp he; exact i2 (past_run hp h1) (he.append (Late.gives (i1 hp) hg))
  | iterPanic _ i => intro hp he; exact he.append (i hp)
  | loopEmpty _ i => intro hp; exact .ofPair (i hp .nil)
  | loopList _ _ i => intro hp; exact .ofPair (i hp .nil)
  | loopStop => intro _ he; exact he
  | loopSkip hs _ i => intro hp he; exact i (hp.adv hs.adv) (he.append (.single hp.le))
  | loopGive h1 hg _ i1 i2 => intro hp he; exact i2 (past_run hp h1) (he.append (Late.gives (i1 hp) hg))
  | loopPanic h1 _ i1 i2 => intro hp he; exact i2 (past_run hp h1) (he.append (i1 hp))
  | loopGiveStuck h1 hg i =>
    intro hp he
    exact (he.append (Late.gives (i hp) hg)).append (.single (past_run hp h1).le)
  | loopPanicStuck h1 i => intro hp he; exact (he.append (i hp)).append (.single (past_run hp h1).le)
  | split h1 hg _ i1 i2 => intro hp; exact .ofPair (i2 (past_run hp h1) (Late.gives (i1 hp) hg))
  | splitPanic _ i => intro hp; exact i hp
  | outerStop => intro _ he; exact he
  | outerPanic _ i => intro hp he; exact he.append (i hp)
  | outerGo _ h1 hg h2 _ i1 i2 i3 =>
    intro hp he
    have hp1 := past_run hp h1
    exact i3 (hp1.adv h2.adv) (i2 hp1 (he.append (Late.gives (i1 hp) hg)) .nil)
  | outerBreak _ h1 hg _ i1 i2 => intro hp he; exact i2 (past_run hp h1) (he.append (Late.gives (i1 hp) hg)) .nil
  | innerGive _ hg i => intro hp he hq; exact (he.append (Late.gives (i hp) hg)).append hq
  | innerFailLeave _ _ i => intro hp he hq; exact he.append (hq.merge (i hp))
  | innerFailGo _ h1 _ i1 i2 => intro hp he hq; exact i2 ((past_run hp h1).adv (.skip _)) he (hq.merge (i1 hp))
  | innerNoteLeave hn => intro hp he hq; exact he.append (hq.note hn hp.le)
  | innerNoteGo hn _ i => intro hp he hq; exact i (hp.adv (.skip _)) he (hq.note hn hp.le)
  | punct h1 hg _ i1 i2 => intro hp; exact .ofPair (i2 (past_run hp h1) (Late.gives (i1 hp) hg))
  | punctPanic _ i => intro hp; exact i hp
  | pouterStop => intro _ he; exact he
  | pouterPanic _ i => intro hp he; exact he.append (i hp)
  | pouterGo _ h1 hg h2 _ i1 i2 i3 =>
    intro hp he
    have hp1 := past_run hp h1
    exact i3 (hp1.adv h2.adv) (i2 hp1 (he.append (Late.gives (i1 hp) hg)) .nil)
  | pouterBreak _ h1 hg _ i1 i2 => intro hp he; exact i2 (past_run hp h1) (he.append (Late.gives (i1 hp) hg)) .nil
  | pinnerGive _ hg i => intro hp he hq; exact (he.append hq).append (Late.gives (i hp) hg)
  | pinnerStop => intro _ he hq; exact he.append hq
  | pinnerFailLeave _ _ i => intro hp he hq; exact he.append (hq.merge (i hp))
  | pinnerFailGo _ h1 _ i1 i2 => intro hp he hq; exact i2 ((past_run hp h1).adv (.skip _)) he (hq.merge (i1 hp))
  | pinnerNoteLeave hn => intro hp he hq; exact he.append (hq.note hn hp.le)
  | pinnerNoteGo hn _ i => intro hp he hq; exact i (hp.adv (.skip _)) he (hq.note hn hp.le)
  | recover h1 _ i1 i2 =>
    intro hp
    have := i2 (hp.adv h1.adv) (i1 hp).1 (i1 hp).2
    exact .ofPair (this.1.append this.2)
  | recoverPanic h1 _ i1 i2 =>
    intro hp
    have := i2 (hp.adv h1.adv) (i1 hp).1 (i1 hp).2
    exact this.1.append this.2
  | headGive _ hg i => intro hp; exact ⟨Late.gives (i hp) hg, .nil⟩
  | headPanic _ _ i => intro hp; exact ⟨.nil, Late.last (i hp)⟩
  | headNone => intro hp; exact ⟨.nil, .single hp.le⟩
  | tailGive _ hg i => intro hp he hq; exact ⟨he.append (Late.gives (i hp) hg), hq⟩
  | tailPanic _ _ _ i => intro hp he hq; exact ⟨he, hq.merge (i hp)⟩
  | tailNote => intro hp he hq; exact ⟨he, .single hp.le⟩
  | tailStop => intro _ he hq; exact ⟨he, hq⟩
  | tailFail _ _ h1 hn _ i1 i2 =>
    intro hp he hq
    exact i2 ((past_run hp h1).adv (.skip _)) he ((hq.merge (i1 hp)).note hn (past_run hp h1).le)
  | tailSkip _ hn _ i => intro hp he hq; exact i (hp.adv (.skip _)) he (hq.note hn hp.le)
  | clip _ i => intro hp e he; exact i hp e (earliest_mem he)

theorem Run.keep {j : Judg m n} (h : Run S j) : j.Keep := by
  induction h with
  | seqNil => intro x hx; exact hx
  | @seqGive t ts v acc errs r x e v1 res v' h1 hg h2 i1 i2 =>
    match res with
    | .ok (l, errs') => exact fun x hx => i2 x (mem_los_left hx)
    | .error e' => exact fun x hx => i2 x (mem_los_left hx)
  | seqPanic => intro x hx; exact mem_los_left hx
  | iterStop => intro x hx; exact hx
  | iterGive _ _ _ _ _ i2 => intro x hx; exact i2 x (mem_los_left hx)
  | iterPanic => intro x hx; exact mem_los_left hx
  | loopStop => intro x hx; exact hx
  | loopSkip _ _ i => intro x hx; exact i x (mem_los_left hx)
  | loopGive _ _ _ _ i2 => intro x hx; exact i2 x (mem_los_left hx)
  | loopPanic _ _ _ i2 => intro x hx; exact i2 x (mem_los_left hx)
  | loopGiveStuck => intro x hx; exact mem_los_left (mem_los_left hx)
  | loopPanicStuck => intro x hx; exact mem_los_left (mem_los_left hx)
  | outerStop => intro x hx; exact hx
  | outerPanic => intro x hx; exact mem_los_left hx
  | outerGo _ _ _ _ _ _ i2 i3 => intro x hx; exact i3 x (i2 x (mem_los_left (mem_los_left hx)))
  | outerBreak _ _ _ _ _ i2 => intro x hx; exact i2 x (mem_los_left (mem_los_left hx))
  | innerGive =>
    intro x hx
    rcases los_cases hx with hx | hx
    · exact mem_los_left (mem_los_left hx)
    · exact mem_los_right hx
  | innerFailLeave =>
    intro x hx
    rcases los_cases hx with hx | hx
    · exact mem_los_left hx
    · exact mem_los_right (los_merge hx)
  | innerFailGo _ _ _ _ i2 =>
    intro x hx
    rcases los_cases hx with hx | hx
    · exact i2 x (mem_los_left hx)
    · exact i2 x (mem_los_right (los_merge hx))
  | innerNoteLeave hn =>
    intro x hx
    rcases los_cases hx with hx | hx
    · exact mem_los_left hx
    · exact mem_los_right (los_note hn hx)
  | innerNoteGo hn _ i2 =>
    intro x hx
    rcases los_cases hx with hx | hx
    · exact i2 x (mem_los_left hx)
    · exact i2 x (mem_los_right (los_note hn hx))
  | pouterStop => intro x hx; exact hx
  | pouterPanic => intro x hx; exact mem_los_left hx
  | pouterGo _ _ _ _ _ _ i2 i3 => intro x hx; exact i3 x (i2 x (mem_los_left (mem_los_left hx)))
  | pouterBreak _ _ _ _ _ i2 => intro x hx; exact i2 x (mem_los_left (mem_los_left hx))
  | pinnerGive => intro x hx; exact mem_los_left hx
  | pinnerStop => intro x hx; exact hx
  | pinnerFailLeave =>
    intro x hx
    rcases los_cases hx with hx | hx
    · exact mem_los_left hx
    · exact mem_los_right (los_merge hx)
  | pinnerFailGo _ _ _ _ i2 =>
    intro x hx
    rcases los_cases hx with hx | hx
    · exact i2 x (mem_los_left hx)
    · exact i2 x (mem_los_right (los_merge hx))
  | pinnerNoteLeave hn =>
    intro x hx
    rcases los_cases hx with hx | hx
    · exact mem_los_left hx
    · exact mem_los_right (los_note hn hx)
  | pinnerNoteGo hn _ i2 =>
    intro x hx
    rcases los_cases hx with hx | hx
    · exact i2 x (mem_los_left hx)
    · exact i2 x (mem_los_right (los_note hn hx))
  | tailGive =>
    intro x hx
    rcases los_cases hx with hx | hx
    · exact mem_los_left (mem_los_left hx)
    · exact mem_los_right hx
  | tailPanic =>
    intro x hx
    rcases los_cases hx with hx | hx
    · exact mem_los_left hx
    · exact mem_los_right (los_merge hx)
  | tailNote =>
    intro x hx
    rcases los_cases hx with hx | hx
    · exact mem_los_left hx
    · cases hx
  | tailStop => intro x hx; exact hx
  | tailFail _ _ _ hn _ _ i2 =>
    intro x hx
    rcases los_cases hx with hx | hx
    · exact i2 x (mem_los_left hx)
    · exact i2 x (mem_los_right (los_note hn (los_merge hx)))
  | tailSkip _ hn _ i2 =>
    intro x hx
    rcases los_cases hx with hx | hx
    · exact i2 x (mem_los_left hx)
    · exact i2 x (mem_los_right (los_note hn hx))
  | _ => trivial

/-! ### Failures have errors -/

def JLoud : Judg m n → Prop
  | .ty _ _ r _ => ∀ e, r = .panic e → e ≠ []
  | .seq _ _ _ _ (.error e) _ => e ≠ []
  | .tail _ _ _ _ none _ panic' _ => panic' ≠ none
  | _ => True

theorem jloud {j : Judg m n} (h : Run S j) : JLoud j := by
  induction h with
  | tokPanic => intro e he; cases he; simp
  | @seqGive t ts v acc errs r x e v1 res v' h1 hg h2 i1 i2 =>
    match res with
    | .ok (l, errs') => trivial
    | .error e' => exact i2
  | @seqPanic t ts v acc errs e v1 h1 i1 =>
    show errs ++ e ≠ []
    have := i1 e rfl
    intro h
    exact this (List.append_eq_nil_iff.1 h).2
  | struct => intro e he; exact (ofPair_not_panic he).elim
  | structPanic _ _ i => intro e he; cases he; exact i
  | tuple => intro e he; exact (ofPair_not_panic he).elim
  | tuplePanic _ _ i => intro e he; cases he; exact i
  | enumPanic _ _ _ i => exact i
  | enumNone => intro e he; cases he; simp
  | box _ i => exact i
  | textPanic _ _ i => exact i
  | plus => intro e he; exact (ofPair_not_panic he).elim
  | plusPanic _ i => exact i
  | loopEmpty => intro e he; exact (ofPair_not_panic he).elim
  | loopList => intro e he; exact (ofPair_not_panic he).elim
  | split => intro e he; exact (ofPair_not_panic he).elim
  | splitPanic _ i => exact i
  | punct => intro e he; exact (ofPair_not_panic he).elim
  | punctPanic _ i => exact i
  | recover => intro e he; exact (ofPair_not_panic he).elim
  | @recoverPanic t r v h v1 errs panic v' h1 h2 i1 i2 =>
    intro e he
    cases he
    intro h
    exact i2 (toList_nil.1 (List.append_eq_nil_iff.1 h).2)
  | @tailPanic t v errs panic e v1 _ _ h1 i =>
    show mergePanic panic e ≠ none
    have := i e rfl
    unfold mergePanic
    cases hl : e.getLast? with
    | none => exact absurd (List.getLast?_eq_none_iff.1 hl) this
    | some a => cases panic <;> simp
  | tailStop _ h => exact h
  | tailNote => exact fun h => by cases h
  | @tailFail t v errs panic e v1 panic1 x errs' panic' v' _ _ h1 hn h2 i1 i2 =>
    cases x with
    | none => exact i2
    | some x => trivial
  | @tailSkip t v errs panic panic1 x errs' panic' v' _ hn h2 i2 =>
    cases x with
    | none => exact i2
    | some x => trivial
  | @clip t v e v1 h1 i =>
    intro e' he'
    cases he'
    obtain ⟨a, ha⟩ := earliest_some (i e rfl)
    rw [ha]
    simp
  | _ => first | trivial | (intro e he; cases he)

theorem Run.loud {t : Ty m n} {v v' : View n} {r} (h : Run S (.ty t v r v')) : ∀ e, r = .panic e → e ≠ [] := jloud h

/-! ### Prefixes -/

section
structure VEnv (S : Schema m n) (source : Str) (root : Ty m n) (G : Grammar (PId m n) n) : Prop where
  hG : S.IsGrammar root G
  prod : ∀ i, PReach S root i → ∃ w, Der G i w

variable {source : Str} {root : Ty m n} {G : Grammar (PId m n) n}

/-- What holds for runs that begin without errors. -/
def JV (S : Schema m n) (source : Str) (root : Ty m n) (G : Grammar (PId m n) n) : Judg m n → Prop
  | .ty t v r v' => Reach S.tyParts root t →
      (∀ x e, r.Gives x e → Fine (Der G t.pid) source v.rest e v'.rest) ∧
      (∀ e, r = .panic e → e ≠ [] → Viab (Der G t.pid) source v.rest e v'.rest)
  | .seq ts v _ errs (.ok (_, errs')) v' => (∀ t ∈ ts, Reach S.tyParts root t) → errs = [] →
      Fine (DerSeq G (ts.map Ty.pid)) source v.rest errs' v'.rest
  | .seq ts v _ errs (.error e) v' => (∀ t ∈ ts, Reach S.tyParts root t) → errs = [] → e ≠ [] →
      Viab (DerSeq G (ts.map Ty.pid)) source v.rest e v'.rest
  | .iter t v _ errs _ _ errs' _ v' => Reach S.tyParts root t → True → errs = [] →
      Fine (Many G t.pid) source v.rest errs' v'.rest
  | .loop t v _ errs _ errs' v' => Reach S.tyParts root t → True → errs = [] →
      Fine (Many G t.pid) source v.rest errs' v'.rest ∧ (errs' = [] → v'.rest = [])
  | .inner t _ v a panic _ a' v' => Reach S.tyParts root t → True → True → a.errs = [] →
      panic = none → Fine (Der G t.pid) source v.rest a'.errs v'.rest
  | .outer t p v a a' v' => Reach S.tyParts root t → True → True → Reach S.tyParts root p →
      True → a.errs = [] → Fine (Pairs G p.pid t.pid) source v.rest a'.errs v'.rest
  | .pinner t v a panic go a' v' => Reach S.tyParts root t → True → True → a.errs = [] →
      panic = none → (a'.errs = [] → go = true ∧ Pref (Der G t.pid) source v.rest v'.rest ∨
          go = false ∧ v'.rest = v.rest) ∧
        (a'.errs ≠ [] → Viab (Der G t.pid) source v.rest a'.errs v'.rest)
  | .pouter t p v a a' v' => Reach S.tyParts root t → True → True → Reach S.tyParts root p →
      True → a.errs = [] → Fine (Alts G p.pid t.pid) source v.rest a'.errs v'.rest
  | .head t v h v' => Reach S.tyParts root t → True → True →
      Fine (Der G t.pid) source v.rest (h.errs ++ h.panic.toList) v'.rest
  | .tail r v errs panic x errs' panic' v' => Reach S.tyParts root r → True → errs = [] →
      panic = none → (x.isSome = true → Fine (Der G r.pid) source v.rest (errs' ++ panic'.toList) v'.rest) ∧
        (errs' ++ panic'.toList ≠ [] → Viab (Der G r.pid) source v.rest (errs' ++ panic'.toList) v'.rest)

section
variable (E : VEnv S source root G)
include E

theorem VEnv.der {t : Ty m n} (h : Reach S.tyParts root t) : ∃ w, Der G t.pid w := E.prod _ (reach_pid h)

theorem VEnv.derSeq {l : List (Ty m n)} (h : ∀ t ∈ l, Reach S.tyParts root t) :
    ∃ w, DerSeq G (l.map Ty.pid) w := by
  induction l with
  | nil => exact ⟨[], .nil⟩
  | cons t l ih =>
    obtain ⟨w, hw⟩ := E.der (h t (List.mem_cons_self ..))
    obtain ⟨w', hw'⟩ := ih fun t ht => h t (List.mem_cons_of_mem _ ht)
    exact ⟨_, .cons hw hw'⟩

theorem VEnv.mem {t : Ty m n} (h : Reach S.tyParts root t) : (t.pid, S.rule t.pid) ∈ G :=
  IsGrammar.mem E.hG (reach_pid h)

theorem VEnv.seq {t : Ty m n} {l : List (PId m n)} (h : Reach S.tyParts root t) (hr : S.rule t.pid = .seq l) {w}
    (hw : DerSeq G l w) : Der G t.pid w := by
  obtain ⟨ws, h1, rfl⟩ := hw
  have := E.mem h
  rw [hr] at this
  exact Der.seq this h1

theorem VEnv.plus {t : Ty m n} (h : Reach S.tyParts root (.plus t)) {w w'} (hw : Der G t.pid w)
    (hm : Many G t.pid w') : Der G (Ty.plus t).pid (w ++ w') := by
  obtain ⟨k, ws, h1, rfl⟩ := hm
  exact der_plus E.hG (reach_pid h) k (w :: ws) (.cons hw h1)

theorem VEnv.split {t p : Ty m n} (h : Reach S.tyParts root (.split t p)) {w w'} (hw : Der G t.pid w)
    (hm : Pairs G p.pid t.pid w') : Der G (Ty.split t p).pid (w ++ w') := by
  obtain ⟨k, ws, h1, rfl⟩ := hm
  refine der_split E.hG (reach_pid h) k (w :: ws) ?_
  rw [show k + 1 + k = k + k + 1 by omega]
  exact .cons hw h1

theorem VEnv.punct {t p : Ty m n} (h : Reach S.tyParts root (.punct t p)) {w w'} (hw : Der G t.pid w)
    (hm : Alts G p.pid t.pid w') : Der G (Ty.punct t p).pid (w ++ w') := by
  obtain ⟨k, ws, h1, rfl⟩ := hm
  exact der_punct E.hG (reach_pid h) k (w :: ws) (.cons hw h1)

theorem VEnv.loop {t : Ty m n} (h : Reach S.tyParts root (.loop t)) {w} (hm : Many G t.pid w) :
    ∃ w', Der G (Ty.loop t).pid (w ++ w') := by
  obtain ⟨k, hm⟩ := hm
  obtain ⟨w', hw'⟩ := E.der (t := t) (.step h (by simp [Schema.tyParts]))
  refine ⟨w', ?_⟩
  have := hm.append (.cons hw' .nil)
  rw [List.append_nil, ← List.replicate_succ'] at this
  obtain ⟨ws, h1, h2⟩ := this
  rw [← h2]
  exact der_plus E.hG (reach_pid (t := .loop t) h) k ws h1

theorem VEnv.optSome {t' t : Ty m n} {mk} (ho : OptLike t' t mk) (h : Reach S.tyParts root t') {w}
    (hw : Der G t.pid w) : Der G t'.pid w := by
  have := reach_pid h
  cases ho <;> exact der_opt_some this E.hG hw

theorem VEnv.optNone {t' t : Ty m n} {mk} (ho : OptLike t' t mk) (h : Reach S.tyParts root t') :
    Der G t'.pid [] := by
  have := reach_pid h
  cases ho <;> exact der_opt_none this E.hG

theorem VEnv.panic {t : Ty m n} {v v' : View n} {e} (h : Run S (.ty t v (.panic e) v')) (_ : Ready source v)
    (_ : Reach S.tyParts root t) (_ : True) : e ≠ [] := h.loud e rfl

end

theorem Run.viable (E : VEnv S source root G) {j : Judg m n} (h : Run S j) :
    Ready source j.pre → JV S source root G j := by
  induction h with
  | @tok i k v t l hr hty hlit =>
    intro hv ht
    refine ⟨fun x e hg => ?_, fun e he => by cases he⟩
    cases hg
    refine ⟨fun _ => ⟨[t], [], ?_, ?_, fun _ => rfl⟩, fun h => absurd rfl h⟩
    · simp [View.skip, View.consume, hr]
    · refine Der.term (E.mem ht) ⟨hty, fun lit hk => ?_⟩
      have h3 := get?_textOf (hlit lit hk)
      rw [show v.source = source from hv.inSource.src] at h3
      exact h3.symm
  | tokRecovered =>
    intro hv ht
    obtain ⟨w, hw⟩ := E.der ht
    refine ⟨fun x e hg => ?_, fun e he => by cases he⟩
    cases hg
    exact (Viab.here hv rfl hw).fine
  | tokPanic =>
    intro hv ht
    obtain ⟨w, hw⟩ := E.der ht
    refine ⟨fun x e hg => (by cases hg), fun e he _ => ?_⟩
    cases he
    exact Viab.here hv rfl hw
  | seqNil =>
    intro _ _ he
    rw [he]
    exact .nil .nil
  | @seqGive t ts v acc errs r x e v1 res v' h1 hg h2 i1 i2 =>
    intro hv
    have ha1 : Adv v v1 := h1.adv
    have ha2 : Adv v1 v' := h2.adv
    have i2 := i2 (hv.adv ha1)
    have hlate := fun B (hp : Past B source v1) => h2.late (B := B) hp
    have hkeep := h2.keep
    match res with
    | .ok (l, errs') =>
      intro ht he
      subst he
      have ht' := fun t ht' => ht t (List.mem_cons_of_mem _ ht')
      exact fine_step hv ha1 ha2 ((i1 hv (ht t (List.mem_cons_self ..))).1 x e hg) (fun he => i2 ht' he) hlate hkeep
        (fun _ _ => .cons) (E.derSeq ht')
    | .error e' =>
      intro ht he hne
      subst he
      have ht' := fun t ht' => ht t (List.mem_cons_of_mem _ ht')
      exact viab_step hv ha1 ha2 ((i1 hv (ht t (List.mem_cons_self ..))).1 x e hg) (fun he => i2 ht' he hne) hlate
        hkeep (fun _ _ => .cons) (E.derSeq ht')
  | @seqPanic t ts v acc errs e v1 h1 i1 =>
    intro hv ht he hne
    subst he
    obtain ⟨w', hw'⟩ := E.derSeq fun t ht' => ht t (List.mem_cons_of_mem _ ht')
    exact ((i1 hv (ht t (List.mem_cons_self ..))).2 e rfl hne).mono fun w hw => ⟨w', .cons hw hw'⟩
  | @struct k f fs v l errs v1 hk h1 i1 =>
    intro hv ht
    have hrule : S.rule (.user k) = .seq (((f :: fs).map (·.1)).map Ty.pid) := by
      simp only [Schema.rule, hk, List.map_map]; rfl
    refine ⟨fun x e hg => ?_, fun e he => (ofPair_not_panic he).elim⟩
    rw [(gives_ofPair hg).1, applyAll_rest]
    refine (i1 hv (fun t' ht' => .step ht (by simp only [Schema.tyParts, hk]; exact ht')) rfl).mono fun w hw => ?_
    exact E.seq ht hrule hw
  | @structPanic k f fs v e v1 hk h1 i1 =>
    intro hv ht
    have hrule : S.rule (.user k) = .seq (((f :: fs).map (·.1)).map Ty.pid) := by
      simp only [Schema.rule, hk, List.map_map]; rfl
    refine ⟨fun x e hg => (by cases hg), fun e he hne => ?_⟩
    cases he
    refine (i1 hv (fun t' ht' => .step ht (by simp only [Schema.tyParts, hk]; exact ht')) rfl hne).mono
      fun w hw => ⟨[], ?_⟩
    rw [List.append_nil]
    exact E.seq ht hrule hw
  | @tuple t ts v l errs v1 htu h1 i1 =>
    intro hv ht
    have hrule : S.rule t.pid = .seq (ts.map Ty.pid) := tuple_pid (isTuple_of htu)
    refine ⟨fun x e hg => ?_, fun e he => (ofPair_not_panic he).elim⟩
    rw [(gives_ofPair hg).1]
    exact (i1 hv (fun t' ht' => .step ht (by rw [tupLike_parts htu]; exact ht')) rfl).mono fun w hw =>
      E.seq ht hrule hw
  | @tuplePanic t ts v e v1 htu h1 i1 =>
    intro hv ht
    have hrule : S.rule t.pid = .seq (ts.map Ty.pid) := tuple_pid (isTuple_of htu)
    refine ⟨fun x e hg => (by cases hg), fun e he hne => ?_⟩
    cases he
    refine (i1 hv (fun t' ht' => .step ht (by rw [tupLike_parts htu]; exact ht')) rfl hne).mono
      fun w hw => ⟨[], ?_⟩
    rw [List.append_nil]
    exact E.seq ht hrule hw
  | @enumSuccess k f fs i t sem v x v1 hk hi h1 i1 =>
    intro hv ht
    have hrule : S.rule (.user k) = .alt ((f :: fs).map fun f => f.1.pid) := by simp only [Schema.rule, hk]
    have hm : t.pid ∈ (f :: fs).map fun f => f.1.pid := List.mem_map.2 ⟨_, List.mem_of_getElem? hi, rfl⟩
    have htt : Reach S.tyParts root t := .step ht (by
      simp only [Schema.tyParts, hk]; exact List.mem_map.2 ⟨_, List.mem_of_getElem? hi, rfl⟩)
    have hmem := E.mem ht
    rw [show (Ty.user k : Ty m n).pid = PId.user k from rfl, hrule] at hmem
    refine ⟨fun y e hg => ?_, fun e he => by cases he⟩
    cases hg
    rw [applyAll_rest]
    exact ((i1 hv htt).1 x [] (.success x)).mono fun w hw => Der.alt hmem hm hw
  | @enumRecovered k f fs i t sem v x e v1 hk hi h1 i1 =>
    intro hv ht
    have hrule : S.rule (.user k) = .alt ((f :: fs).map fun f => f.1.pid) := by simp only [Schema.rule, hk]
    have hm : t.pid ∈ (f :: fs).map fun f => f.1.pid := List.mem_map.2 ⟨_, List.mem_of_getElem? hi, rfl⟩
    have htt : Reach S.tyParts root t := .step ht (by
      simp only [Schema.tyParts, hk]; exact List.mem_map.2 ⟨_, List.mem_of_getElem? hi, rfl⟩)
    have hmem := E.mem ht
    rw [show (Ty.user k : Ty m n).pid = PId.user k from rfl, hrule] at hmem
    refine ⟨fun y e hg => ?_, fun e he => by cases he⟩
    cases hg
    rw [applyAll_rest]
    exact ((i1 hv htt).1 x e (.recovered x e)).mono fun w hw => Der.alt hmem hm hw
  | @enumPanic k f fs i t sem v e v1 hk hi h1 i1 =>
    intro hv ht
    have hrule : S.rule (.user k) = .alt ((f :: fs).map fun f => f.1.pid) := by simp only [Schema.rule, hk]
    have hm : t.pid ∈ (f :: fs).map fun f => f.1.pid := List.mem_map.2 ⟨_, List.mem_of_getElem? hi, rfl⟩
    have htt : Reach S.tyParts root t := .step ht (by
      simp only [Schema.tyParts, hk]; exact List.mem_map.2 ⟨_, List.mem_of_getElem? hi, rfl⟩)
    have hmem := E.mem ht
    rw [show (Ty.user k : Ty m n).pid = PId.user k from rfl, hrule] at hmem
    refine ⟨fun y e hg => (by cases hg), fun e he hne => ?_⟩
    cases he
    exact ((i1 hv htt).2 e rfl hne).mono fun w hw => ⟨[], by rw [List.append_nil]; exact Der.alt hmem hm hw⟩
  | enumNone =>
    intro hv ht
    obtain ⟨w, hw⟩ := E.der ht
    refine ⟨fun x e hg => (by cases hg), fun e he _ => ?_⟩
    cases he
    exact Viab.here hv rfl hw
  | box _ i => intro hv ht; exact i hv (.step ht (by simp [Schema.tyParts]))
  | optNone ho =>
    intro hv ht
    refine ⟨fun y e hg => ?_, fun e he => by cases he⟩
    cases hg
    exact .nil (E.optNone ho ht)
  | @optSuccess t' t mk v x v1 ho h1 i1 =>
    intro hv ht
    have htt : Reach S.tyParts root t := .step ht (by rw [(optLike_parts ho).1]; exact List.mem_singleton.2 rfl)
    refine ⟨fun y e hg => ?_, fun e he => by cases he⟩
    cases hg
    exact ((i1 hv htt).1 x [] (.success x)).mono fun w hw => E.optSome ho ht hw
  | @optRecovered t' t mk v x e v1 ho h1 i1 =>
    intro hv ht
    have htt : Reach S.tyParts root t := .step ht (by rw [(optLike_parts ho).1]; exact List.mem_singleton.2 rfl)
    refine ⟨fun y e hg => ?_, fun e he => by cases he⟩
    cases hg
    exact ((i1 hv htt).1 x e (.recovered x e)).mono fun w hw => E.optSome ho ht hw
  | @optPanic t' t mk v e v1 ho h1 i1 =>
    intro hv ht
    have htt : Reach S.tyParts root t := .step ht (by rw [(optLike_parts ho).1]; exact List.mem_singleton.2 rfl)
    have hs : True := trivial
    refine ⟨fun y e hg => ?_, fun e he => by cases he⟩
    cases hg
    exact (((i1 hv htt).2 e rfl (E.panic h1 hv htt hs)).mono
      fun w hw => ⟨[], by rw [List.append_nil]; exact E.optSome ho ht hw⟩).fine
  | @textSuccess t' t v x s v1 ho h1 _ i1 =>
    intro hv ht
    have htt : Reach S.tyParts root t := .step ht (by cases ho <;> simp [Schema.tyParts])
    have hp : t'.pid = t.pid := by cases ho <;> rfl
    refine ⟨fun y e hg => ?_, fun e he => by cases he⟩
    cases hg
    rw [hp]
    exact (i1 hv htt).1 x [] (.success x)
  | @textRecovered t' t v x s e v1 ho h1 _ i1 =>
    intro hv ht
    have htt : Reach S.tyParts root t := .step ht (by cases ho <;> simp [Schema.tyParts])
    have hp : t'.pid = t.pid := by cases ho <;> rfl
    refine ⟨fun y e hg => ?_, fun e he => by cases he⟩
    cases hg
    rw [hp]
    exact (i1 hv htt).1 x e (.recovered x e)
  | @textPanic t' t v e v1 ho h1 i1 =>
    intro hv ht
    have htt : Reach S.tyParts root t := .step ht (by cases ho <;> simp [Schema.tyParts])
    have hp : t'.pid = t.pid := by cases ho <;> rfl
    refine ⟨fun y e hg => (by cases hg), fun e he hne => ?_⟩
    cases he
    rw [hp]
    exact (i1 hv htt).2 e rfl hne
  | @plus t v r x e v1 l errs hi v' h1 hg h2 i1 i2 =>
    intro hv ht
    have htt : Reach S.tyParts root t := .step ht (by simp [Schema.tyParts])
    have hs : True := trivial
    have ha1 : Adv v v1 := h1.adv
    have ha2 : Adv v1 v' := h2.adv
    refine ⟨fun y e' hg' => ?_, fun e he => (ofPair_not_panic he).elim⟩
    rw [(gives_ofPair hg').1]
    exact fine_step hv ha1 ha2 ((i1 hv htt).1 x e hg) (fun he => i2 (hv.adv ha1) htt hs he)
      (fun B hp => h2.late (B := B) hp) h2.keep (fun _ _ => E.plus ht) ⟨_, Many.nil⟩
  | @plusPanic t v e v1 h1 i1 =>
    intro hv ht
    refine ⟨fun y e' hg' => (by cases hg'), fun e he hne => ?_⟩
    cases he
    exact ((i1 hv (.step ht (by simp [Schema.tyParts]))).2 e rfl hne).mono fun w hw => ⟨[], E.plus ht hw .nil⟩
  | iterStop =>
    intro _ _ _ he
    rw [he]
    exact .nil .nil
  | @iterGive t v acc errs hi r x e v1 acc' errs' hi' v' _ h1 hg h2 i1 i2 =>
    intro hv ht hs he
    subst he
    have ha1 : Adv v v1 := h1.adv
    have ha2 : Adv v1 v' := h2.adv
    exact fine_step hv ha1 ha2 ((i1 hv ht).1 x e hg) (fun he => i2 (hv.adv ha1) ht hs he)
      (fun B hp => h2.late (B := B) hp) h2.keep (fun _ _ => .cons) ⟨_, Many.nil⟩
  | @iterPanic t v acc errs hi e v1 h1 i1 =>
    intro hv ht hs he
    subst he
    exact (((i1 hv ht).2 e rfl (E.panic h1 hv ht hs)).mono fun w hw => ⟨[], .cons hw .nil⟩).fine
  | @loopEmpty t v errs v' h1 i1 =>
    intro hv ht
    have htt : Reach S.tyParts root t := .step ht (by simp [Schema.tyParts])
    have hs : True := trivial
    refine ⟨fun y e' hg' => ?_, fun e he => (ofPair_not_panic he).elim⟩
    rw [(gives_ofPair hg').1]
    obtain ⟨h3, h4⟩ := i1 hv htt hs rfl
    refine ⟨fun he => ?_, fun he => (h3.2 he).mono fun w hw => E.loop ht hw⟩
    obtain ⟨ts, ws, h5, h6, -⟩ := h3.1 he
    obtain ⟨w', hw'⟩ := E.loop ht h6
    exact ⟨ts, ws ++ w', h5, by rw [← List.append_assoc]; exact hw', fun hn => absurd (h4 he) hn⟩
  | @loopList t v out errs v' h1 _ i1 =>
    intro hv ht
    have htt : Reach S.tyParts root t := .step ht (by simp [Schema.tyParts])
    have hs : True := trivial
    refine ⟨fun y e' hg' => ?_, fun e he => (ofPair_not_panic he).elim⟩
    rw [(gives_ofPair hg').1]
    obtain ⟨h3, h4⟩ := i1 hv htt hs rfl
    refine ⟨fun he => ?_, fun he => (h3.2 he).mono fun w hw => E.loop ht hw⟩
    obtain ⟨ts, ws, h5, h6, -⟩ := h3.1 he
    obtain ⟨w', hw'⟩ := E.loop ht h6
    exact ⟨ts, ws ++ w', h5, by rw [← List.append_assoc]; exact hw', fun hn => absurd (h4 he) hn⟩
  | loopStop hr =>
    intro _ _ _ he
    rw [he]
    exact ⟨.nil .nil, fun _ => hr⟩
  | @loopSkip t v out errs v1 out' errs' v' hsk h2 i2 =>
    intro hv ht hs he
    subst he
    have ha1 : Adv v v1 := hsk.adv
    have ha2 : Adv v1 v' := h2.adv
    have := Viab.later (Q := Many G t.pid) hv
      (Viab.here (Q := Many G t.pid) (e := ⟨⟨v.cur.lo, v1.pos⟩, .unexpectedTokens⟩) hv rfl Many.nil)
      (.refl v) (ha1.trans ha2) (fun B hp hl => h2.late (B := B) (hp.adv ha1) hl) h2.keep
      (fun w hw => ⟨[], by rw [List.append_nil]; exact hw⟩)
    exact ⟨this.fine, fun he => absurd he this.ne⟩
  | @loopGive t v out errs r x e v1 out' errs' v' h1 hg h2 i1 i2 =>
    intro hv ht hs he
    subst he
    have ha1 : Adv v v1 := h1.adv
    have ha2 : Adv v1 v' := h2.adv
    refine ⟨fine_step hv ha1 ha2 ((i1 hv ht).1 x e hg) (fun he => (i2 (hv.adv ha1) ht hs he).1)
      (fun B hp => h2.late (B := B) hp) h2.keep (fun _ _ => .cons) ⟨_, Many.nil⟩, fun he' => ?_⟩
    have he : e = [] := Classical.byContradiction fun he => los_ne h2.keep he he'
    exact (i2 (hv.adv ha1) ht hs he).2 he'
  | @loopPanic t v out errs e v1 out' errs' v' h1 h2 i1 i2 =>
    intro hv ht hs he
    subst he
    have ha1 : Adv v v1 := h1.adv
    have ha2 : Adv v1 v' := h2.adv
    have := Viab.later (Q := Many G t.pid) hv ((i1 hv ht).2 e rfl (E.panic h1 hv ht hs)) ha1 ha2
      (fun B hp hl => h2.late (B := B) hp hl) h2.keep (fun w hw => ⟨[], .cons hw .nil⟩)
    exact ⟨this.fine, fun he => absurd he this.ne⟩
  | @loopGiveStuck t v out errs r x e v1 h1 hg i1 =>
    intro hv ht hs he
    subst he
    have ha1 : Adv v v1 := h1.adv
    refine ⟨fine_step (Q2 := Many G t.pid) hv ha1 (.refl v1) ((i1 hv ht).1 x e hg) (fun he => ?_)
      (fun B hp hl => Late.append (Late.append .nil hl) (.single hp.le)) (fun x hx => mem_los_left hx)
      (fun _ _ => .cons) ⟨_, Many.nil⟩, fun he => by simp at he⟩
    subst he
    exact (Viab.here (hv.adv ha1) rfl Many.nil).fine
  | @loopPanicStuck t v out errs e v1 h1 i1 =>
    intro hv ht hs he
    subst he
    have ha1 : Adv v v1 := h1.adv
    have := Viab.later (Q := Many G t.pid) (errs' := [] ++ e ++ [⟨v1.cur, .noAdvance⟩]) hv
      ((i1 hv ht).2 e rfl (E.panic h1 hv ht hs)) ha1 (.refl v1)
      (fun B hp hl => Late.append (Late.append .nil hl) (.single hp.le)) (fun x hx => mem_los_left hx)
      (fun w hw => ⟨[], .cons hw .nil⟩)
    exact ⟨this.fine, fun he => absurd he this.ne⟩
  | @split t p v r x e v1 a v' h1 hg h2 i1 i2 =>
    intro hv ht
    have htt : Reach S.tyParts root t := .step ht (by simp [Schema.tyParts])
    have htp : Reach S.tyParts root p := .step ht (by simp [Schema.tyParts])
    have hs : True := trivial
    have hsp : True := trivial
    have ha1 : Adv v v1 := h1.adv
    have ha2 : Adv v1 v' := h2.adv
    refine ⟨fun y e' hg' => ?_, fun e he => (ofPair_not_panic he).elim⟩
    rw [(gives_ofPair hg').1]
    exact fine_step hv ha1 ha2 ((i1 hv htt).1 x e hg)
      (fun he => i2 (hv.adv ha1) htt hs trivial htp hsp he) (fun B hp => h2.late (B := B) hp) h2.keep
      (fun _ _ => E.split ht) ⟨_, Pairs.nil⟩
  | @splitPanic t p v e v1 h1 i1 =>
    intro hv ht
    refine ⟨fun y e' hg' => (by cases hg'), fun e he hne => ?_⟩
    cases he
    exact ((i1 hv (.step ht (by simp [Schema.tyParts]))).2 e rfl hne).mono fun w hw => ⟨[], E.split ht hw .nil⟩
  | outerStop =>
    intro _ _ _ _ _ _ he
    rw [he]
    exact .nil .nil
  | @outerPanic t p v a e v1 h1 i1 =>
    intro hv ht hs ho htp hsp he
    obtain ⟨w', hw'⟩ := E.der ht
    rw [he]
    exact (((i1 hv htp).2 e rfl (E.panic h1 hv htp hsp)).mono
      fun w hw => ⟨w' ++ [], Pairs.cons hw hw' .nil⟩).fine
  | @outerGo t p v a r q e v1 a1 v2 a' v' _ h1 hg h2 h3 i1 i2 i3 =>
    intro hv ht hs ho htp hsp he
    obtain ⟨el, pu, er⟩ := a
    replace he : er = [] := he
    subst he
    have ha1 : Adv v v1 := h1.adv
    have ha2 : Adv v1 v2 := h2.adv
    have ha3 : Adv v2 v' := h3.adv
    have hv1 := hv.adv ha1
    obtain ⟨w', hw'⟩ := E.der ht
    refine fine_step (Q2 := fun w => ∃ a b, w = a ++ b ∧ Der G t.pid a ∧ Pairs G p.pid t.pid b) hv ha1
      (ha2.trans ha3) ((i1 hv htp).1 q e hg) (fun he => ?_) (fun B hp hl => h3.late (hp.adv ha2) (h2.late hp hl .nil))
      (fun x hx => h3.keep x (h2.keep x (mem_los_left hx))) ?_ ⟨_, w', [], rfl, hw', .nil⟩
    · exact fine_step hv1 ha2 ha3 (i2 hv1 ht hs ho he rfl)
        (fun he => i3 (hv1.adv ha2) ht hs ho htp hsp he) (fun B hp => h3.late (B := B) hp) h3.keep
        (fun a b ha hb => ⟨a, b, rfl, ha, hb⟩) ⟨_, Pairs.nil⟩
    · rintro w1 _ hw1 ⟨a, b, rfl, ha, hb⟩
      exact .cons hw1 ha hb
  | @outerBreak t p v a r q e v1 a1 v2 _ h1 hg h2 i1 i2 =>
    intro hv ht hs ho htp hsp he
    obtain ⟨el, pu, er⟩ := a
    replace he : er = [] := he
    subst he
    have ha1 : Adv v v1 := h1.adv
    have ha2 : Adv v1 v2 := h2.adv
    have hv1 := hv.adv ha1
    exact fine_step hv ha1 ha2 ((i1 hv htp).1 q e hg) (fun he => i2 hv1 ht hs ho he rfl)
      (fun B hp hl => h2.late hp hl .nil) (fun x hx => h2.keep x (mem_los_left hx))
      (fun w1 w2 hw1 hw2 => by have := Pairs.cons hw1 hw2 .nil; rwa [List.append_nil] at this) (E.der ht)
  | @innerGive t q v a panic r x e v1 h1 hg i1 =>
    intro hv ht hs ho he hp
    subst hp
    have : a.errs ++ e ++ (none : Option (Err n)).toList = e := by rw [he]; simp
    show Fine _ _ _ (a.errs ++ e ++ (none : Option (Err n)).toList) _
    rw [this]
    exact (i1 hv ht).1 x e hg
  | @innerFailLeave t q v a panic e v1 go hlen h1 i1 =>
    intro hv ht hs ho he hp
    subst hp
    show Fine _ _ _ (a.errs ++ (mergePanic none e).toList) _
    rw [he, merge_one hlen]
    exact ((i1 hv ht).2 e rfl (E.panic h1 hv ht hs)).fine
  | @innerFailGo t q v a panic e v1 go a' v' hlen h1 h2 i1 i2 =>
    intro hv ht hs ho he hp
    subst hp
    have hm := merge_one hlen
    have ha1 : Adv v v1 := h1.adv
    have ha2 : Adv v1.skip v' := h2.adv
    refine (Viab.later hv ((i1 hv ht).2 e rfl (E.panic h1 hv ht hs)) ha1 ((Adv.skip v1).trans ha2)
      (fun B hp hl => h2.late (B := B) (hp.adv (.skip v1)) (by rw [he]; exact .nil) (by rw [hm]; exact hl))
      (fun x hx => h2.keep x (mem_los_right (by rw [hm]; exact hx)))
      (fun w hw => ⟨[], by rw [List.append_nil]; exact hw⟩)).fine
  | @innerNoteLeave t q v a panic panic1 go hn =>
    intro hv ht hs ho he hp
    subst hp
    obtain ⟨w, hw⟩ := E.der ht
    cases hn
    show Fine _ _ _ (a.errs ++ [_]) _
    rw [he]
    exact (Viab.here hv rfl hw).fine
  | @innerNoteGo t q v a panic panic1 go a' v' hn h2 i2 =>
    intro hv ht hs ho he hp
    subst hp
    obtain ⟨w, hw⟩ := E.der ht
    have ha2 : Adv v.skip v' := h2.adv
    cases hn
    exact (Viab.later hv (Viab.here hv rfl hw) (.refl v) ((Adv.skip v).trans ha2)
      (fun B hp hl => h2.late (B := B) (hp.adv (.skip v)) (by rw [he]; exact .nil) hl)
      (fun x hx => h2.keep x (mem_los_right hx)) (fun w hw => ⟨[], by rw [List.append_nil]; exact hw⟩)).fine
  | @punct t p v r x e v1 a v' h1 hg h2 i1 i2 =>
    intro hv ht
    have htt : Reach S.tyParts root t := .step ht (by simp [Schema.tyParts])
    have htp : Reach S.tyParts root p := .step ht (by simp [Schema.tyParts])
    have hs : True := trivial
    have hsp : True := trivial
    have ha1 : Adv v v1 := h1.adv
    have ha2 : Adv v1 v' := h2.adv
    refine ⟨fun y e' hg' => ?_, fun e he => (ofPair_not_panic he).elim⟩
    rw [(gives_ofPair hg').1]
    exact fine_step hv ha1 ha2 ((i1 hv htt).1 x e hg)
      (fun he => i2 (hv.adv ha1) htt hs trivial htp hsp he) (fun B hp => h2.late (B := B) hp) h2.keep
      (fun _ _ => E.punct ht) ⟨_, Alts.nil⟩
  | @punctPanic t p v e v1 h1 i1 =>
    intro hv ht
    refine ⟨fun y e' hg' => (by cases hg'), fun e he hne => ?_⟩
    cases he
    exact ((i1 hv (.step ht (by simp [Schema.tyParts]))).2 e rfl hne).mono fun w hw => ⟨[], E.punct ht hw .nil⟩
  | pouterStop =>
    intro _ _ _ _ _ _ he
    rw [he]
    exact .nil .nil
  | @pouterPanic t p v a e v1 h1 i1 =>
    intro hv ht hs ho htp hsp he
    rw [he]
    exact (((i1 hv htp).2 e rfl (E.panic h1 hv htp hsp)).mono
      fun w hw => ⟨[], by rw [List.append_nil]; exact Alts.one hw⟩).fine
  | @pouterGo t p v a r q e v1 a1 v2 a' v' _ h1 hg h2 h3 i1 i2 i3 =>
    intro hv ht hs ho htp hsp he
    obtain ⟨el, pu, er⟩ := a
    replace he : er = [] := he
    subst he
    have ha1 : Adv v v1 := h1.adv
    have ha2 : Adv v1 v2 := h2.adv
    have ha3 : Adv v2 v' := h3.adv
    have hv1 := hv.adv ha1
    obtain ⟨w', hw'⟩ := E.der ht
    refine fine_step (Q2 := fun w => ∃ a b, w = a ++ b ∧ Der G t.pid a ∧ Alts G p.pid t.pid b) hv ha1
      (ha2.trans ha3) ((i1 hv htp).1 q e hg) (fun he => ?_) (fun B hp hl => h3.late (hp.adv ha2) (h2.late hp hl .nil))
      (fun x hx => h3.keep x (h2.keep x (mem_los_left hx))) ?_ ⟨_, w', [], rfl, hw', .nil⟩
    · have hin := i2 hv1 ht hs ho he rfl
      have hin : Fine (Der G t.pid) source v1.rest a1.errs v2.rest := by
        refine ⟨fun h => ?_, hin.2⟩
        rcases hin.1 h with h | h
        · exact h.2
        · cases h.1
      exact fine_step hv1 ha2 ha3 hin
        (fun he => i3 (hv1.adv ha2) ht hs ho htp hsp he) (fun B hp => h3.late (B := B) hp) h3.keep
        (fun a b ha hb => ⟨a, b, rfl, ha, hb⟩) ⟨_, Alts.nil⟩
    · rintro w1 _ hw1 ⟨a, b, rfl, ha, hb⟩
      exact .cons hw1 ha hb
  | @pouterBreak t p v a r q e v1 a1 v2 _ h1 hg h2 i1 i2 =>
    intro hv ht hs ho htp hsp he
    obtain ⟨el, pu, er⟩ := a
    replace he : er = [] := he
    subst he
    have ha1 : Adv v v1 := h1.adv
    have ha2 : Adv v1 v2 := h2.adv
    have hv1 := hv.adv ha1
    refine fine_step (Q2 := fun w => w = [] ∨ Der G t.pid w) hv ha1 ha2 ((i1 hv htp).1 q e hg) (fun he => ?_)
      (fun B hp hl => h2.late hp hl .nil) (fun x hx => h2.keep x (mem_los_left hx)) ?_ ⟨_, .inl rfl⟩
    · have hin := i2 hv1 ht hs ho he rfl
      refine ⟨fun h => ?_, fun h => (hin.2 h).mono fun w hw => ⟨[], by rw [List.append_nil]; exact .inr hw⟩⟩
      rcases hin.1 h with h | h
      · cases h.1
      · exact ⟨[], [], h.2.symm, .inl rfl, fun _ => rfl⟩
    · rintro w1 w2 hw1 (rfl | hw2)
      · rw [List.append_nil]; exact .one hw1
      · have := Alts.cons hw1 hw2 .nil; rwa [List.append_nil] at this
  | @pinnerGive t v a panic r x e v1 h1 hg i1 =>
    intro hv ht hs ho he hp
    subst hp
    have : a.errs ++ (none : Option (Err n)).toList ++ e = e := by rw [he]; simp
    show (a.errs ++ (none : Option (Err n)).toList ++ e = [] → _) ∧ (a.errs ++ (none : Option (Err n)).toList ++ e ≠ [] →
      Viab _ _ _ (a.errs ++ (none : Option (Err n)).toList ++ e) _)
    rw [this]
    have := (i1 hv ht).1 x e hg
    exact ⟨fun h => .inl ⟨rfl, this.1 h⟩, this.2⟩
  | @pinnerStop t v a panic =>
    intro hv ht hs ho he hp
    subst hp
    refine ⟨fun _ => .inr ⟨rfl, rfl⟩, fun h => ?_⟩
    exact absurd (show a.errs ++ (none : Option (Err n)).toList = [] by rw [he]; rfl) h
  | @pinnerFailLeave t v a panic e v1 go hlen h1 i1 =>
    intro hv ht hs ho he hp
    subst hp
    have hm : a.errs ++ (mergePanic none e).toList = e := by rw [he, merge_one hlen]; rfl
    have := (i1 hv ht).2 e rfl (E.panic h1 hv ht hs)
    show (a.errs ++ (mergePanic none e).toList = [] → _) ∧ (_ → Viab _ _ _ (a.errs ++ (mergePanic none e).toList) _)
    rw [hm]
    exact ⟨fun h => absurd h this.ne, fun _ => this⟩
  | @pinnerFailGo t v a panic e v1 go a' v' hlen h1 h2 i1 i2 =>
    intro hv ht hs ho he hp
    subst hp
    have hm := merge_one hlen
    have ha1 : Adv v v1 := h1.adv
    have ha2 : Adv v1.skip v' := h2.adv
    have := Viab.later (Q := Der G t.pid) hv ((i1 hv ht).2 e rfl (E.panic h1 hv ht hs)) ha1 ((Adv.skip v1).trans ha2)
      (fun B hp hl => h2.late (B := B) (hp.adv (.skip v1)) (by rw [he]; exact .nil) (by rw [hm]; exact hl))
      (fun x hx => h2.keep x (mem_los_right (by rw [hm]; exact hx)))
      (fun w hw => ⟨[], by rw [List.append_nil]; exact hw⟩)
    exact ⟨fun h => absurd h this.ne, fun _ => this⟩
  | @pinnerNoteLeave t v a panic panic1 go hn =>
    intro hv ht hs ho he hp
    subst hp
    obtain ⟨w, hw⟩ := E.der ht
    cases hn with
    | new s =>
      have := Viab.here (e := ⟨v.cur, .expecting s⟩) hv rfl hw
      show (a.errs ++ [_] = [] → _) ∧ (_ → Viab _ _ _ (a.errs ++ [_]) _)
      rw [he]
      exact ⟨fun h => absurd h this.ne, fun _ => this⟩
  | @pinnerNoteGo t v a panic panic1 go a' v' hn h2 i2 =>
    intro hv ht hs ho he hp
    subst hp
    obtain ⟨w, hw⟩ := E.der ht
    have ha2 : Adv v.skip v' := h2.adv
    cases hn
    have := Viab.later (Q := Der G t.pid) hv (Viab.here hv rfl hw) (.refl v) ((Adv.skip v).trans ha2)
      (fun B hp hl => h2.late (B := B) (hp.adv (.skip v)) (by rw [he]; exact .nil) hl)
      (fun x hx => h2.keep x (mem_los_right hx)) (fun w hw => ⟨[], by rw [List.append_nil]; exact hw⟩)
    exact ⟨fun h => absurd h this.ne, fun _ => this⟩
  | @recover t r v h v1 x errs panic v' h1 h2 i1 i2 =>
    intro hv ht
    have htt : Reach S.tyParts root t := .step ht (by simp [Schema.tyParts])
    have htr : Reach S.tyParts root r := .step ht (by simp [Schema.tyParts])
    have hs : True := trivial
    have hk : True ∧ True := ⟨trivial, trivial⟩
    have ha1 : Adv v v1 := h1.adv
    have ha2 : Adv v1 v' := h2.adv
    refine ⟨fun y e' hg' => ?_, fun e he => (ofPair_not_panic he).elim⟩
    rw [(gives_ofPair hg').1]
    refine fine_step hv ha1 ha2 (i1 hv htt hs hk.1) (fun he => ?_)
      (fun B hp hl => have := h2.late (B := B) hp hl.left hl.right; this.1.append this.2) h2.keep ?_ (E.der htr)
    · obtain ⟨h3, h4⟩ := List.append_eq_nil_iff.1 he
      exact (i2 (hv.adv ha1) htr hk.2 h3 (toList_nil.1 h4)).1 rfl
    · intro w1 w2 hw1 hw2
      refine E.seq (l := [t.pid, r.pid]) ht rfl ?_
      have := DerSeq.cons hw1 (.cons hw2 .nil)
      rwa [List.append_nil] at this
  | @recoverPanic t r v h v1 errs panic v' h1 h2 i1 i2 =>
    intro hv ht
    have htt : Reach S.tyParts root t := .step ht (by simp [Schema.tyParts])
    have htr : Reach S.tyParts root r := .step ht (by simp [Schema.tyParts])
    have hs : True := trivial
    have hk : True ∧ True := ⟨trivial, trivial⟩
    have ha1 : Adv v v1 := h1.adv
    have ha2 : Adv v1 v' := h2.adv
    refine ⟨fun y e' hg' => (by cases hg'), fun e he hne => ?_⟩
    cases he
    refine viab_step hv ha1 ha2 (i1 hv htt hs hk.1) (fun he => ?_)
      (fun B hp hl => have := h2.late (B := B) hp hl.left hl.right; this.1.append this.2) h2.keep ?_ (E.der htr)
    · obtain ⟨h3, h4⟩ := List.append_eq_nil_iff.1 he
      exact (i2 (hv.adv ha1) htr hk.2 h3 (toList_nil.1 h4)).2 hne
    · intro w1 w2 hw1 hw2
      refine E.seq (l := [t.pid, r.pid]) ht rfl ?_
      have := DerSeq.cons hw1 (.cons hw2 .nil)
      rwa [List.append_nil] at this
  | @headGive t v r x e v1 h1 hg i1 =>
    intro hv ht hs ho
    show Fine _ _ _ (e ++ (none : Option (Err n)).toList) _
    rw [show e ++ (none : Option (Err n)).toList = e by simp]
    exact (i1 hv ht).1 x e hg
  | @headPanic t v e v1 hlen h1 i1 =>
    intro hv ht hs ho
    show Fine _ _ _ ([] ++ e.getLast?.toList) _
    rw [last_one hlen]
    exact ((i1 hv ht).2 e rfl (E.panic h1 hv ht hs)).fine
  | headNone =>
    intro hv ht hs ho
    obtain ⟨w, hw⟩ := E.der ht
    exact (Viab.here hv rfl hw).fine
  | @tailGive t v errs panic r x e v1 h1 hg i1 =>
    intro hv ht ho he hp
    subst he hp
    rw [show ([] ++ e) ++ (none : Option (Err n)).toList = e by simp]
    exact ⟨fun _ => (i1 hv ht).1 x e hg, ((i1 hv ht).1 x e hg).2⟩
  | @tailPanic t v errs panic e v1 hlen _ h1 i1 =>
    intro hv ht ho he hp
    subst he hp
    rw [show [] ++ (mergePanic none e).toList = e from merge_one hlen]
    exact ⟨fun h => (by cases h), (i1 hv ht).2 e rfl⟩
  | tailNote =>
    intro hv ht ho he hp
    subst he
    obtain ⟨w, hw⟩ := E.der ht
    exact ⟨fun h => (by cases h), fun _ => Viab.here hv rfl hw⟩
  | tailStop _ hp' =>
    intro hv ht ho he hp
    exact absurd hp hp'
  | @tailFail t v errs panic e v1 panic1 x errs' panic' v' hlen _ h1 hn h2 i1 i2 =>
    intro hv ht ho he hp
    subst he hp
    have hm := merge_one hlen
    have ha1 : Adv v v1 := h1.adv
    have ha2 : Adv v1.skip v' := h2.adv
    have := Viab.later (Q := Der G t.pid) (errs' := errs' ++ panic'.toList) hv
      ((i1 hv ht).2 e rfl (E.panic h1 hv ht trivial)) ha1 ((Adv.skip v1).trans ha2)
      (fun B hp hl => have := h2.late (B := B) (hp.adv (.skip v1)) .nil (Late.note hn hp.le (by rw [hm]; exact hl))
        this.1.append this.2)
      (fun x hx => h2.keep x (los_note hn (by rw [hm]; exact hx)))
      (fun w hw => ⟨[], by rw [List.append_nil]; exact hw⟩)
    exact ⟨fun _ => this.fine, fun _ => this⟩
  | @tailSkip t v errs panic panic1 x errs' panic' v' _ hn h2 i2 =>
    intro hv ht ho he hp
    subst he hp
    obtain ⟨w, hw⟩ := E.der ht
    have ha2 : Adv v.skip v' := h2.adv
    cases hn
    have := Viab.later (Q := Der G t.pid) (errs' := errs' ++ panic'.toList) hv (Viab.here hv rfl hw) (.refl v)
      ((Adv.skip v).trans ha2)
      (fun B hp hl => have := h2.late (B := B) (hp.adv (.skip v)) .nil hl
        this.1.append this.2)
      (fun x hx => h2.keep x hx) (fun w hw => ⟨[], by rw [List.append_nil]; exact hw⟩)
    exact ⟨fun _ => this.fine, fun _ => this⟩
  | @clip t v e v1 h1 i1 =>
    intro hv ht
    refine ⟨fun x e hg => (by cases hg), fun e' he' hne => ?_⟩
    cases he'
    exact ((i1 hv ht).2 e rfl (E.panic h1 hv ht trivial)).earliest

end
end Teleparse.Kept
