import Verif.Proof.Fits
import Verif.Proof.Shape
/-
Soundness of `produce`: a success is a match in the sense of `Parses`; any other result has errors.
-/
namespace Teleparse
variable {m n : Nat} {S : Schema m n}

theorem get?_textOf {source s : Str} {sp : Span} (h : sp.get? source = some s) : s = textOf source sp := by
  unfold Span.get? at h
  unfold textOf
  by_cases h1 : sp.hi ≤ sp.lo
  · rw [if_pos h1] at h
    cases h
    rw [show sp.hi - sp.lo = 0 by omega]; simp
  · rw [if_neg h1] at h
    simp only [sliceStr?] at h
    split at h
    · cases h
      rw [Nat.min_def]
      split
      · rfl
      · rw [List.take_of_length_le (by rw [List.length_drop]; omega), List.take_of_length_le (by rw [List.length_drop]; omega)]
    · cases h

/-- Streams with tokens in order. -/
structure Sorted (source : Str) (v : View n) : Prop where
  src : v.source = source
  tokens : SortedTokens (v.cells.map (·.token) ++ v.rest)

theorem Sorted.adv {source : Str} {v v' : View n} (h : Sorted source v) (ha : Adv v v') : Sorted source v' := by
  obtain ⟨ts, h1, h2⟩ := ha.cons
  refine ⟨ha.src.trans h.src, ?_⟩
  rw [h2, List.append_assoc, ← h1]
  exact h.tokens

theorem Sorted.run {fx : Bool} {source : Str} {v v' : View n} (h : Sorted source v) {t : Ty m n} {r}
    (hr : RunX fx S (.ty t v r v')) : Sorted source v' := h.adv hr.adv

theorem Sorted.store {source : Str} {v : View n} (h : Sorted source v) : SortedStore v.cells :=
  ⟨fun t ht => h.tokens.1 t (List.mem_append_left _ ht), (List.pairwise_append.1 h.tokens.2).1⟩

theorem View.pos_eq (v : View n) : v.pos = endOf 0 v.cells := rfl

theorem pos_of_cells {v v' : View n} {c : List (Cell n)} (h : v'.cells = v.cells ++ c) :
    v'.pos = endOf v.pos c := by rw [View.pos_eq, h, endOf_append]; rfl

theorem Sorted.after {source : Str} {v v' : View n} (h : Sorted source v') {c : List (Cell n)}
    (hc : v'.cells = v.cells ++ c) : After v.pos c := by
  have : After 0 (v.cells ++ c) := ⟨by rw [← hc]; exact h.store, fun _ _ => Nat.zero_le _⟩
  exact this.right

theorem isTuple_of {t : Ty m n} {ts : List (Ty m n)} (h : TupLike t ts) : t.isTuple ts := by
  cases h
  · exact .inl ⟨_, _, rfl, rfl⟩
  · exact .inr (.inl ⟨_, _, _, rfl, rfl⟩)
  · exact .inr (.inr (.inl ⟨_, _, _, _, rfl, rfl⟩))
  · exact .inr (.inr (.inr ⟨_, _, _, _, _, rfl, rfl⟩))

theorem tupLike_parts {t : Ty m n} {ts : List (Ty m n)} (h : TupLike t ts) : S.tyParts t = ts := by
  cases h <;> rfl

theorem optLike_parts {t t0 : Ty m n} {mk : Span → Option (Tree n) → Tree n} (h : OptLike t t0 mk) :
    S.tyParts t = [t0] ∧ t.absorbed = [t0] := by
  cases h <;> exact ⟨rfl, rfl⟩

/-! ### Spans of lists -/

theorem spanOf_last (x : Tree n) (l : List (Tree n)) :
    (⟨x.span.lo, (l.getLast?.map (·.span.hi)).getD x.span.hi⟩ : Span) = spanOf (x :: l) := by
  unfold spanOf
  simp only [List.getLast?_cons]
  cases l.getLast? <;> rfl

theorem interleave_cons {α : Type} (x : α) (a b : List α) : interleave (x :: a) b = x :: interleave b a := by
  rw [interleave]

theorem getLast?_tail {α : Type} (x : α) {l : List α} (h : l ≠ []) : (x :: l).getLast? = l.getLast? := by
  cases l with
  | nil => exact absurd rfl h
  | cons y l => rw [List.getLast?_cons_cons]

theorem getLast?_interleave {α : Type} : ∀ (b a : List α), a.length = b.length + 1 →
    (interleave a b).getLast? = a.getLast? := by
  intro b
  induction b with
  | nil =>
    intro a h
    match a, h with
    | [x], _ => rw [interleave_cons]; simp [interleave]
  | cons y b ih =>
    intro a h
    match a, h with
    | x :: a, h =>
      have ha : a ≠ [] := by rintro rfl; simp at h
      rw [interleave_cons, interleave_cons, List.getLast?_cons_cons,
        getLast?_tail y (interleave_ne ha), ih a (by simpa using h), getLast?_tail x ha]

theorem getLast?_interleave_eq {α : Type} (a b : List α) (h : a.length = b.length) (ha : a ≠ []) :
    (interleave a b).getLast? = b.getLast? := by
  cases a with
  | nil => exact absurd rfl ha
  | cons x a =>
    have hb : b ≠ [] := by rintro rfl; simp at h
    rw [interleave_cons, getLast?_tail _ (interleave_ne hb)]
    exact getLast?_interleave a b (by simpa using h.symm)

theorem mem_interleave {α : Type} : ∀ (a b : List α), a.length = b.length + 1 ∨ a.length = b.length →
    ∀ x, x ∈ a ∨ x ∈ b → x ∈ interleave a b := by
  intro a b
  induction a, b using interleave.induct with
  | case1 b => intro h x hx; simp at h; rw [List.eq_nil_of_length_eq_zero h.symm] at hx; simp at hx
  | case2 b y a ih =>
    intro h x hx
    rw [interleave_cons]
    simp only [List.length_cons] at h
    have ih := ih (by omega) x
    rcases hx with hx | hx
    · rcases List.mem_cons.1 hx with rfl | hx
      · exact List.mem_cons_self ..
      · exact List.mem_cons_of_mem _ (ih (.inr hx))
    · exact List.mem_cons_of_mem _ (ih (.inl hx))

theorem split_span (x : Tree n) (es ps : List (Tree n)) (h : es.length = ps.length) :
    (⟨x.span.lo, ((x :: es).getLast?.map (·.span.hi)).getD x.span.lo⟩ : Span) =
      spanOf (interleave (x :: es) ps) := by
  have := getLast?_interleave ps (x :: es) (by simp [h])
  rw [interleave_cons] at this ⊢
  unfold spanOf
  simp only [← this]
  rw [List.getLast?_cons]
  rfl

theorem punct_span {pos : Nat} {cs : List (List (Cell n))} (x : Tree n) (es ps : List (Tree n))
    (h : ps.length = es.length ∨ ps.length = es.length + 1)
    (hf : FitsSeq pos cs (interleave (x :: es) ps)) (ha : After pos cs.flatten) :
    (⟨x.span.lo, max (((x :: es).getLast?.map (·.span.hi)).getD x.span.lo)
      ((ps.getLast?.map (·.span.hi)).getD x.span.lo)⟩ : Span) = spanOf (interleave (x :: es) ps) := by
  have hlen : (x :: es).length = ps.length + 1 ∨ (x :: es).length = ps.length := by
    simp only [List.length_cons]; omega
  have hfit := hf.spanOf (interleave_ne (by simp)) ha
  have hmem : ∀ y, y ∈ x :: es ∨ y ∈ ps → y.span.hi ≤ (spanOf (interleave (x :: es) ps)).hi := by
    intro y hy
    rw [hfit.hi]
    exact hf.mem_le ha (mem_interleave _ _ hlen y hy)
  have hlo : (spanOf (interleave (x :: es) ps)).lo = x.span.lo := by rw [interleave_cons]; rfl
  have hlohi := hfit.lo_le ha
  rw [hlo] at hlohi
  have h1 : (((x :: es).getLast?.map (·.span.hi)).getD x.span.lo) ≤ (spanOf (interleave (x :: es) ps)).hi := by
    cases hl : (x :: es).getLast? with
    | none => simpa using hlohi
    | some y => exact hmem y (.inl (List.mem_of_getLast? hl))
  have h2 : ((ps.getLast?.map (·.span.hi)).getD x.span.lo) ≤ (spanOf (interleave (x :: es) ps)).hi := by
    cases hl : ps.getLast? with
    | none => simpa using hlohi
    | some y => exact hmem y (.inr (List.mem_of_getLast? hl))
  have h3 : (spanOf (interleave (x :: es) ps)).hi = ((interleave (x :: es) ps).getLast?.map (·.span.hi)).getD 0 := by
    rw [interleave_cons]; unfold spanOf; simp only [List.getLast?_cons]
  have h4 : max (((x :: es).getLast?.map (·.span.hi)).getD x.span.lo)
      ((ps.getLast?.map (·.span.hi)).getD x.span.lo) = (spanOf (interleave (x :: es) ps)).hi := by
    apply Nat.le_antisymm
    · exact Nat.max_le.2 ⟨h1, h2⟩
    · rw [h3]
      rcases hlen with hl | hl
      · rw [getLast?_interleave ps _ hl]
        refine Nat.le_trans ?_ (Nat.le_max_left _ _)
        rw [List.getLast?_cons]; exact Nat.le_refl _
      · rw [getLast?_interleave_eq _ _ hl (by simp)]
        refine Nat.le_trans ?_ (Nat.le_max_right _ _)
        cases hp : ps.getLast? with
        | none => simp
        | some y => exact Nat.le_refl _
  rw [h4, ← hlo]

/-! ### The induction -/

/-- May fail without an error. -/
def SilentX (fx : Bool) (S : Schema m n) (t : Ty m n) : Prop := Silent S t ∧ fx = false

theorem SilentX.box {fx : Bool} {t : Ty m n} (h : SilentX fx S t) : SilentX fx S (.box t) := ⟨.box h.1, h.2⟩
theorem SilentX.quote {fx : Bool} {t : Ty m n} (h : SilentX fx S t) : SilentX fx S (.quote t) := ⟨.quote h.1, h.2⟩
theorem SilentX.parse {fx : Bool} {t : Ty m n} (h : SilentX fx S t) : SilentX fx S (.parse t) := ⟨.parse h.1, h.2⟩
theorem SilentX.plus {fx : Bool} {t : Ty m n} (h : SilentX fx S t) : SilentX fx S (.plus t) := ⟨.plus h.1, h.2⟩
theorem SilentX.split {fx : Bool} {t p : Ty m n} (h : SilentX fx S t) : SilentX fx S (.split t p) := ⟨.split h.1, h.2⟩
theorem SilentX.punct {fx : Bool} {t p : Ty m n} (h : SilentX fx S t) : SilentX fx S (.punct t p) := ⟨.punct h.1, h.2⟩
theorem SilentX.tuple {fx : Bool} {t : Ty m n} {ts u} (ht : t.isTuple ts) (hu : u ∈ ts) (h : SilentX fx S u) :
    SilentX fx S t := ⟨.tuple ht hu h.1, h.2⟩
theorem SilentX.user {fx : Bool} {k : Fin m} {u} (hu : u ∈ S.tyParts (.user k)) (h : SilentX fx S u) :
    SilentX fx S (.user k) := ⟨.user hu h.1, h.2⟩

/-- No silent failure is absorbed on the way to `v`: either it cannot happen in the root, or there is input left, and
silent failures are at the end of the input, or `Recover` is repaired. -/
def SureX (fx : Bool) (S : Schema m n) (root : Ty m n) (v : View n) : Prop :=
  (Loud S root ∨ fx = true) ∨ v.rest ≠ []

/-- No silent failure of `t` on the way to `v`. -/
def HeardX (fx : Bool) (S : Schema m n) (t : Ty m n) (v : View n) : Prop := ¬ SilentX fx S t ∨ v.rest ≠ []

abbrev Sure (S : Schema m n) (root : Ty m n) (v : View n) : Prop := SureX false S root v
abbrev Heard (S : Schema m n) (t : Ty m n) (v : View n) : Prop := HeardX false S t v

theorem Sure.of {root : Ty m n} {v : View n} (h : Loud S root ∨ v.rest ≠ []) : Sure S root v := h.imp .inl id

variable {fx : Bool}

theorem SureX.back {root : Ty m n} {v v' : View n} (h : SureX fx S root v') (ha : Adv v v') : SureX fx S root v :=
  h.imp id fun h hv => h (ha.rest_nil hv)

theorem HeardX.back {t : Ty m n} {v v' : View n} (h : HeardX fx S t v') (ha : Adv v v') : HeardX fx S t v :=
  h.imp id fun h hv => h (ha.rest_nil hv)

theorem SureX.heard {root t u : Ty m n} {v : View n} (h : SureX fx S root v) (ht : Reach S.tyParts root t)
    (hu : u ∈ t.absorbed) : HeardX fx S u v := h.imp (fun h h2 => h.elim (fun h => h t ht u hu h2.1) (fun h => by have := h2.2; rw [h] at this; cases this)) id

/-- A success is a match, other results have errors (or stem from a silent failure). -/
structure TySoundX (fx : Bool) (S : Schema m n) (source : Str) (t : Ty m n) (v : View n) (r : Res n (Tree n))
    (v' : View n) : Prop where
  success : ∀ x, r = .success x → ∃ c, v'.cells = v.cells ++ c ∧ Parses S source v.pos t c x
  recovered : ∀ x e, r = .recovered x e → e ≠ []
  panic : ∀ e, r = .panic e → e ≠ [] ∨ SilentX fx S t

theorem TySoundX.loud {source : Str} {t : Ty m n} {v v' : View n} {e : List (Err n)}
    (h : TySoundX fx S source t v (.panic e) v') (hr : RunX fx S (.ty t v (.panic e) v')) (hs : HeardX fx S t v') : e ≠ [] := by
  rintro rfl
  rcases h.panic [] rfl with h | h
  · exact h rfl
  · exact hs.elim (fun hs => hs h) (fun hs => hs (hr.shape rfl))

theorem TySoundX.gives {source : Str} {t : Ty m n} {v v' : View n} {r : Res n (Tree n)}
    (h : TySoundX fx S source t v r v') {x : Tree n} {e : List (Err n)} (hg : r.Gives x e) (he : e = []) :
    ∃ c, v'.cells = v.cells ++ c ∧ Parses S source v.pos t c x := by
  cases hg with
  | success => exact h.success _ rfl
  | recovered => exact absurd he (h.recovered _ _ rfl)

abbrev TySound (S : Schema m n) (source : Str) (t : Ty m n) (v : View n) (r : Res n (Tree n)) (v' : View n) : Prop :=
  TySoundX false S source t v r v'

theorem TySoundX.ofPair {source : Str} {t : Ty m n} {v v' : View n} {x : Tree n} {e : List (Err n)}
    (h : e = [] → ∃ c, v'.cells = v.cells ++ c ∧ Parses S source v.pos t c x) :
    TySoundX fx S source t v (Res.ofPair x e) v' := by
  unfold Res.ofPair
  cases e with
  | nil => exact ⟨fun y hy => by cases hy; exact h rfl, by simp, by simp⟩
  | cons a e => exact ⟨by simp, fun y e' hy => by cases hy; simp, by simp⟩

theorem TySoundX.ofPanic {source : Str} {t : Ty m n} {v v' : View n} {e : List (Err n)}
    (h : e ≠ [] ∨ SilentX fx S t) : TySoundX fx S source t v (.panic e) v' :=
  ⟨by simp, by simp, fun e' he => by cases he; exact h⟩

theorem TySoundX.ofSuccess {source : Str} {t : Ty m n} {v v' : View n} {x : Tree n}
    (h : ∃ c, v'.cells = v.cells ++ c ∧ Parses S source v.pos t c x) :
    TySoundX fx S source t v (.success x) v' :=
  ⟨fun y hy => by cases hy; exact h, by simp, by simp⟩

theorem TySoundX.ofRecovered {source : Str} {t : Ty m n} {v v' : View n} {x : Tree n} {e : List (Err n)}
    (h : e ≠ []) : TySoundX fx S source t v (.recovered x e) v' :=
  ⟨by simp, fun y e' hy => by cases hy; exact h, by simp⟩

def JSoundX (fx : Bool) (S : Schema m n) (source : Str) (root : Ty m n) : Judg m n → Prop
  | .ty t v r v' => Reach S.tyParts root t → TySoundX fx S source t v r v'
  | .seq ts v acc errs (.ok (l, errs')) v' => (∀ t ∈ ts, Reach S.tyParts root t) →
      ∃ new e, l = acc ++ new ∧ errs' = errs ++ e ∧
        (e = [] → ∃ cs, v'.cells = v.cells ++ cs.flatten ∧ ParsesSeq S source v.pos ts cs new)
  | .seq ts _ _ errs (.error e') _ => (∀ t ∈ ts, Reach S.tyParts root t) →
      ∃ e, e' = errs ++ e ∧ (e ≠ [] ∨ ∃ t ∈ ts, SilentX fx S t)
  | .iter t v acc errs hi acc' errs' hi' v' => Reach S.tyParts root t → HeardX fx S t v' →
      ∃ new e, acc' = acc ++ new ∧ errs' = errs ++ e ∧
        (e = [] → hi' = (new.getLast?.map (·.span.hi)).getD hi ∧ ∃ cs, v'.cells = v.cells ++ cs.flatten ∧
          ParsesSeq S source v.pos (List.replicate new.length t) cs new)
  | .loop t v out errs out' errs' v' => Reach S.tyParts root t → HeardX fx S t v' →
      ∃ new e, out' = out ++ new ∧ errs' = errs ++ e ∧
        (e = [] → ∃ cs, v'.cells = v.cells ++ cs.flatten ∧
          ParsesSeq S source v.pos (List.replicate new.length t) cs new)
  | .inner t q v a panic go a' v' => Reach S.tyParts root t → HeardX fx S t v' →
      ∃ e, a'.errs = a.errs ++ e ∧ (e = [] → panic = none ∧ go = true ∧
        ∃ x c, a'.elems = a.elems ++ [x] ∧ a'.puncts = a.puncts ++ [q] ∧ v'.cells = v.cells ++ c ∧
          Parses S source v.pos t c x)
  | .outer t p v a a' v' => Reach S.tyParts root t → HeardX fx S t v' → Reach S.tyParts root p → HeardX fx S p v' →
      ∃ e, a'.errs = a.errs ++ e ∧ (e = [] → ∃ es ps cs, ps.length = es.length ∧
        a'.elems = a.elems ++ es ∧ a'.puncts = a.puncts ++ ps ∧ v'.cells = v.cells ++ cs.flatten ∧
          ParsesSeq S source v.pos (alternate p t (ps.length + es.length)) cs (interleave ps es))
  | .pinner t v a panic go a' v' => Reach S.tyParts root t → HeardX fx S t v' →
      ∃ e, a'.errs = a.errs ++ e ∧ (e = [] → panic = none ∧ a'.puncts = a.puncts ∧
        (go = true ∧ (∃ x c, a'.elems = a.elems ++ [x] ∧ v'.cells = v.cells ++ c ∧
          Parses S source v.pos t c x) ∨
        go = false ∧ a'.elems = a.elems ∧ v' = v))
  | .pouter t p v a a' v' => Reach S.tyParts root t → HeardX fx S t v' → Reach S.tyParts root p → HeardX fx S p v' →
      ∃ e, a'.errs = a.errs ++ e ∧ (e = [] → ∃ es ps cs, (ps.length = es.length ∨ ps.length = es.length + 1) ∧
        a'.elems = a.elems ++ es ∧ a'.puncts = a.puncts ++ ps ∧ v'.cells = v.cells ++ cs.flatten ∧
          ParsesSeq S source v.pos (alternate p t (ps.length + es.length)) cs (interleave ps es))
  | .head t v h v' => Reach S.tyParts root t → HeardX fx S t v' → h.errs = [] → h.panic = none →
      ∃ x c, h.span = x.span ∧ h.head = some x ∧ v'.cells = v.cells ++ c ∧ Parses S source v.pos t c x
  | .tail t v errs panic x errs' panic' v' => Reach S.tyParts root t →
      (fx = true → x = none → panic' ≠ none) ∧ ∀ y, x = some y →
      errs' ++ panic'.toList = [] → errs = [] ∧ panic = none ∧
        ∃ c, v'.cells = v.cells ++ c ∧ Parses S source v.pos t c y

theorem skip_cells {v : View n} {t : Token n} {l : List (Token n)} (h : v.rest = t :: l) :
    v.skip.cells = v.cells ++ [Cell.ofToken t] := by
  unfold View.skip View.consume
  rw [h]; rfl

theorem ParsesSeq.after {source : Str} {pos pos' : Nat} {t : Ty m n} {ts c cs x xs} (h1 : Parses S source pos t c x)
    (hp : pos' = endOf pos c) (h2 : ParsesSeq S source pos' ts cs xs) :
    ParsesSeq S source pos (t :: ts) (c :: cs) (x :: xs) := by
  subst hp; exact .cons h1 h2

theorem RunX.sound {source : Str} {root : Ty m n} {j : Judg m n} (h : RunX fx S j) :
    SureX fx S root j.post → Sorted source j.pre → JSoundX fx S source root j := by
  induction h with
  | @tok i k v t l hr hty hlit =>
    intro hl hv _
    refine .ofSuccess ⟨[Cell.ofToken t], skip_cells hr, .term ⟨hty, ?_⟩⟩
    intro lit hk
    have := get?_textOf (hlit lit hk)
    rw [show source = v.source from hv.src.symm]
    exact this.symm
  | tokRecovered => intro _ _ _; exact .ofRecovered (by simp)
  | tokPanic => intro _ _ _; exact .ofPanic (.inl (by simp))
  | seqNil => intro _ _ _; exact ⟨[], [], by simp, by simp, fun _ => ⟨[], by simp, .nil⟩⟩
  | @seqGive t ts v acc errs r x e v1 res v' h1 hg h2 i1 i2 =>
    intro hl hv
    have hl1 := hl.back h2.adv
    have i1 := i1 hl1 hv
    have i2 := i2 hl (Sorted.run (S := S) hv h1)
    match res with
    | .ok (l, errs') =>
      intro hr
      obtain ⟨new, e2, h3, h4, h5⟩ := i2 (fun t' ht' => hr t' (List.mem_cons_of_mem _ ht'))
      refine ⟨x :: new, e ++ e2, by simp [h3], by simp [h4], ?_⟩
      intro he
      obtain ⟨he1, he2⟩ := List.append_eq_nil_iff.1 he
      obtain ⟨c, hc, hp⟩ := (i1 (hr t (List.mem_cons_self ..))).gives hg he1
      obtain ⟨cs, hcs, hps⟩ := h5 he2
      exact ⟨c :: cs, by rw [hcs, hc]; simp, .after hp (pos_of_cells hc) hps⟩
    | .error e' =>
      intro hr
      obtain ⟨e2, h3, h4⟩ := i2 (fun t' ht' => hr t' (List.mem_cons_of_mem _ ht'))
      refine ⟨e ++ e2, by simp [h3], ?_⟩
      rcases h4 with h4 | ⟨t', ht', hs⟩
      · exact .inl (by simp [h4])
      · exact .inr ⟨t', List.mem_cons_of_mem _ ht', hs⟩
  | @seqPanic t ts v acc errs e v1 h1 i1 =>
    intro hl hv hr
    refine ⟨e, rfl, ?_⟩
    rcases (i1 hl hv (hr t (List.mem_cons_self ..))).panic e rfl with h | h
    · exact .inl h
    · exact .inr ⟨t, List.mem_cons_self .., h⟩
  | @struct k f fs v l errs v1 hk h1 i1 =>
    intro hl hv hr
    have hp : S.tyParts (.user k) = (f :: fs).map (·.1) := by simp only [Schema.tyParts, hk]
    obtain ⟨new, e, h3, h4, h5⟩ := i1 (hl.back (.applyAll _ _)) hv (fun t ht => .step hr (by rw [hp]; exact ht))
    refine .ofPair fun he => ?_
    obtain ⟨cs, hcs, hps⟩ := h5 (by simpa [he] using h4.symm)
    have hl' : l = new := by simpa using h3
    subst hl'
    have hs1 : Sorted source v1 := hv.adv h1.adv
    have hlen := hps.lengths
    refine ⟨addAll cs ((f :: fs).map (·.2)), ?_, .struct hk hps⟩
    rw [applyAll_groups (pre := v.cells) hcs hs1.store rfl (hps.fits (hs1.after hcs)) (by rw [hlen.1]; simp)]
  | @structPanic k f fs v e v1 hk h1 i1 =>
    intro hl hv hr
    have hp : S.tyParts (.user k) = (f :: fs).map (·.1) := by simp only [Schema.tyParts, hk]
    obtain ⟨e2, h3, h4⟩ := i1 hl hv (fun t ht => .step hr (by rw [hp]; exact ht))
    refine .ofPanic ?_
    rcases h4 with h4 | ⟨t, ht, hs⟩
    · exact .inl (by simpa [h3] using h4)
    · exact .inr (.user (by rw [hp]; exact ht) hs)
  | @tuple t ts v l errs v1 ht h1 i1 =>
    intro hl hv hr
    obtain ⟨new, e, h3, h4, h5⟩ := i1 hl hv (fun u hu => .step hr (by rw [tupLike_parts ht]; exact hu))
    refine .ofPair fun he => ?_
    obtain ⟨cs, hcs, hps⟩ := h5 (by simpa [he] using h4.symm)
    have hl' : l = new := by simpa using h3
    subst hl'
    exact ⟨_, hcs, .tuple (isTuple_of ht) hps⟩
  | @tuplePanic t ts v e v1 ht h1 i1 =>
    intro hl hv hr
    obtain ⟨e2, h3, h4⟩ := i1 hl hv (fun u hu => .step hr (by rw [tupLike_parts ht]; exact hu))
    refine .ofPanic ?_
    rcases h4 with h4 | ⟨u, hu, hs⟩
    · exact .inl (by simpa [h3] using h4)
    · exact .inr (.tuple (isTuple_of ht) hu hs)
  | @enumSuccess k f fs i t sem v x v1 hk hi h1 i1 =>
    intro hl hv hr
    have hp : S.tyParts (.user k) = (f :: fs).map (·.1) := by simp only [Schema.tyParts, hk]
    have hm : t ∈ (f :: fs).map (·.1) := List.mem_map.2 ⟨_, List.mem_of_getElem? hi, rfl⟩
    obtain ⟨c, hc, hpar⟩ := (i1 (hl.back (.applyAll _ _)) hv (.step hr (by rw [hp]; exact hm))).success x rfl
    have hs1 : Sorted source v1 := hv.adv h1.adv
    refine .ofSuccess ⟨_, ?_, .enum hk hi hpar⟩
    have := applyAll_groups (l := [x]) (cs := [c]) (sems := [sem]) (pre := v.cells) (v := v1)
      (by rw [hc]; simp) hs1.store rfl (.cons (hpar.fits (hs1.after hc)) .nil) rfl
    rw [show [(x, sem)] = [x].zip [sem] from rfl, this]
    simp [addAll]
  | @enumRecovered k f fs i t sem v x e v1 hk hi h1 i1 =>
    intro hl hv hr
    have hp : S.tyParts (.user k) = (f :: fs).map (·.1) := by simp only [Schema.tyParts, hk]
    have hm : t ∈ (f :: fs).map (·.1) := List.mem_map.2 ⟨_, List.mem_of_getElem? hi, rfl⟩
    exact .ofRecovered ((i1 (hl.back (.applyAll _ _)) hv (.step hr (by rw [hp]; exact hm))).recovered x e rfl)
  | @enumPanic k f fs i t sem v e v1 hk hi h1 i1 =>
    intro hl hv hr
    have hp : S.tyParts (.user k) = (f :: fs).map (·.1) := by simp only [Schema.tyParts, hk]
    have hm : t ∈ (f :: fs).map (·.1) := List.mem_map.2 ⟨_, List.mem_of_getElem? hi, rfl⟩
    refine .ofPanic ?_
    rcases (i1 hl hv (.step hr (by rw [hp]; exact hm))).panic e rfl with h | h
    · exact .inl h
    · exact .inr (.user (by rw [hp]; exact hm) h)
  | enumNone => intro _ _ _; exact .ofPanic (.inl (by simp))
  | @box t v r v1 h1 i1 =>
    intro hl hv hr
    have := i1 hl hv (.step hr (by simp [Schema.tyParts]))
    refine ⟨?_, this.recovered, ?_⟩
    · intro x hx
      obtain ⟨c, hc, hp⟩ := this.success x hx
      exact ⟨c, hc, .box hp⟩
    · intro e he
      exact (this.panic e he).imp id .box
  | @optNone t' t mk v ho =>
    intro hl hv hr
    refine .ofSuccess ⟨[], by simp, ?_⟩
    cases ho
    · exact .optNone
    · exact .existNone
    · exact .starNone
  | @optSuccess t' t mk v x v1 ho h1 i1 =>
    intro hl hv hr
    obtain ⟨c, hc, hp⟩ := (i1 hl hv (.step hr (by rw [(optLike_parts ho).1]; simp))).success x rfl
    refine .ofSuccess ⟨c, hc, ?_⟩
    cases ho
    · exact .optSome hp
    · exact .existSome hp
    · cases hp with
      | plus hp => exact .starSome hp
      | tuple ht => rcases ht with ⟨_, _, h, _⟩ | ⟨_, _, _, h, _⟩ | ⟨_, _, _, _, h, _⟩ | ⟨_, _, _, _, _, h, _⟩ <;> cases h
  | @optRecovered t' t mk v x e v1 ho h1 i1 =>
    intro hl hv hr
    exact .ofRecovered ((i1 hl hv (.step hr (by rw [(optLike_parts ho).1]; simp))).recovered x e rfl)
  | @optPanic t' t mk v e v1 ho h1 i1 =>
    intro hl hv hr
    exact .ofRecovered ((i1 hl hv (.step hr (by rw [(optLike_parts ho).1]; simp))).loud h1
      (hl.heard hr (by rw [(optLike_parts (S := S) ho).2]; simp)))
  | @textSuccess t' t v x s v1 ho h1 hs i1 =>
    intro hl hv hr
    have hs' := get?_textOf hs
    rw [show v1.source = source from (Sorted.run (S := S) hv h1).src] at hs'
    subst hs'
    cases ho <;> obtain ⟨c, hc, hp⟩ := (i1 hl hv (.step hr (by simp [Schema.tyParts]))).success x rfl
    · exact .ofSuccess ⟨c, hc, .quote hp⟩
    · exact .ofSuccess ⟨c, hc, .parse hp⟩
  | @textRecovered t' t v x s e v1 ho h1 hs i1 =>
    intro hl hv hr
    cases ho <;> exact .ofRecovered ((i1 hl hv (.step hr (by simp [Schema.tyParts]))).recovered x e rfl)
  | @textPanic t' t v e v1 ho h1 i1 =>
    intro hl hv hr
    cases ho
    · exact .ofPanic (((i1 hl hv (.step hr (by simp [Schema.tyParts]))).panic e rfl).imp id .quote)
    · exact .ofPanic (((i1 hl hv (.step hr (by simp [Schema.tyParts]))).panic e rfl).imp id .parse)
  | @plus t v r x e v1 l errs hi v' h1 hg h2 i1 i2 =>
    intro hl hv hr
    have hl1 := hl.back h2.adv
    have hrt : Reach S.tyParts root t := .step hr (by simp [Schema.tyParts])
    obtain ⟨new, e2, h3, h4, h5⟩ := i2 hl (Sorted.run (S := S) hv h1) hrt (hl.heard hr (by simp [Ty.absorbed]))
    refine .ofPair fun he => ?_
    obtain ⟨he1, he2⟩ := List.append_eq_nil_iff.1 (h4.symm.trans he)
    obtain ⟨c, hc, hp⟩ := (i1 hl1 hv hrt).gives hg he1
    obtain ⟨hhi, cs, hcs, hps⟩ := h5 he2
    refine ⟨(c :: cs).flatten, by rw [hcs, hc]; simp, ?_⟩
    rw [hhi, spanOf_last, h3]
    exact .plus (k := new.length) (ParsesSeq.after hp (pos_of_cells hc) hps)
  | plusPanic _ i1 =>
    intro hl hv hr
    exact .ofPanic (((i1 hl hv (.step hr (by simp [Schema.tyParts]))).panic _ rfl).imp id .plus)
  | iterStop => intro _ _ _ _; exact ⟨[], [], by simp, by simp, fun _ => ⟨rfl, [], by simp, .nil⟩⟩
  | @iterGive t v acc errs hi r x e v1 acc' errs' hi' v' _ h1 hg h2 i1 i2 =>
    intro hl hv hr hs
    have hl1 := hl.back h2.adv
    obtain ⟨new, e2, h3, h4, h5⟩ := i2 hl (Sorted.run (S := S) hv h1) hr hs
    refine ⟨x :: new, e ++ e2, by simp [h3], by simp [h4], fun he => ?_⟩
    obtain ⟨he1, he2⟩ := List.append_eq_nil_iff.1 he
    obtain ⟨c, hc, hp⟩ := (i1 hl1 hv hr).gives hg he1
    obtain ⟨hhi, cs, hcs, hps⟩ := h5 he2
    refine ⟨?_, c :: cs, by rw [hcs, hc]; simp, ParsesSeq.after hp (pos_of_cells hc) hps⟩
    rw [hhi, List.getLast?_cons]
    cases new.getLast? <;> rfl
  | @iterPanic t v acc errs hi e v1 h1 i1 =>
    intro hl hv hr hs
    refine ⟨[], e, by simp, rfl, fun he => ?_⟩
    exact absurd he ((i1 hl hv hr).loud h1 hs)
  | @loopEmpty t v errs v' h1 i1 =>
    intro hl hv hr
    have hrt : Reach S.tyParts root t := .step hr (by simp [Schema.tyParts])
    obtain ⟨new, e2, h3, h4, h5⟩ := i1 hl hv hrt (hl.heard hr (by simp [Ty.absorbed]))
    refine .ofPair fun he => ?_
    obtain ⟨cs, hcs, hps⟩ := h5 (by simpa [he] using h4.symm)
    have hn : new = [] := by simpa using h3.symm
    subst hn
    cases hps
    refine ⟨[], hcs, ?_⟩
    have := pos_of_cells hcs
    rw [this]
    exact .loopNone
  | @loopList t v out errs v' h1 ho i1 =>
    intro hl hv hr
    have hrt : Reach S.tyParts root t := .step hr (by simp [Schema.tyParts])
    obtain ⟨new, e2, h3, h4, h5⟩ := i1 hl hv hrt (hl.heard hr (by simp [Ty.absorbed]))
    refine .ofPair fun he => ?_
    obtain ⟨cs, hcs, hps⟩ := h5 (by simpa [he] using h4.symm)
    have hn : out = new := by simpa using h3
    subst hn
    refine ⟨_, hcs, .loopSome (k := out.length - 1) ?_⟩
    rw [Nat.sub_add_cancel (List.length_pos_iff.2 ho)]
    exact hps
  | loopStop => intro _ _ _ _; exact ⟨[], [], by simp, by simp, fun _ => ⟨[], by simp, .nil⟩⟩
  | loopSkip hsk _ i1 =>
    intro hl hv hr hs
    obtain ⟨new, e2, h3, h4, h5⟩ := i1 hl (hv.adv hsk.adv) hr hs
    exact ⟨new, _ :: e2, h3, by rw [h4]; simp; rfl, fun he => by simp at he⟩
  | @loopGive t v out errs r x e v1 out' errs' v' h1 hg h2 i1 i2 =>
    intro hl hv hr hs
    have hl1 := hl.back h2.adv
    obtain ⟨new, e2, h3, h4, h5⟩ := i2 hl (Sorted.run (S := S) hv h1) hr hs
    refine ⟨x :: new, e ++ e2, by simp [h3], by simp [h4], fun he => ?_⟩
    obtain ⟨he1, he2⟩ := List.append_eq_nil_iff.1 he
    obtain ⟨c, hc, hp⟩ := (i1 hl1 hv hr).gives hg he1
    obtain ⟨cs, hcs, hps⟩ := h5 he2
    exact ⟨c :: cs, by rw [hcs, hc]; simp, ParsesSeq.after hp (pos_of_cells hc) hps⟩
  | @loopPanic t v out errs e v1 out' errs' v' h1 h2 i1 i2 =>
    intro hl hv hr hs
    have hl1 := hl.back h2.adv
    obtain ⟨new, e2, h3, h4, h5⟩ := i2 hl (Sorted.run (S := S) hv h1) hr hs
    refine ⟨new, e ++ e2, h3, by simp [h4], fun he => ?_⟩
    exact absurd (List.append_eq_nil_iff.1 he).1 ((i1 hl1 hv hr).loud h1 (hs.back h2.adv))
  | loopGiveStuck _ _ _ =>
    intro _ _ _ _
    exact ⟨[_], _, rfl, by rw [List.append_assoc], fun he => by simp at he⟩
  | loopPanicStuck _ _ =>
    intro _ _ _ _
    exact ⟨[], _, by simp, by rw [List.append_assoc], fun he => by simp at he⟩
  | @split t p v r x e v1 a v' h1 hg h2 i1 i2 =>
    intro hl hv hr
    have hl1 := hl.back h2.adv
    have hrt : Reach S.tyParts root t := .step hr (by simp [Schema.tyParts])
    have hrp : Reach S.tyParts root p := .step hr (by simp [Schema.tyParts])
    obtain ⟨e2, h4, h5⟩ := i2 hl (Sorted.run (S := S) hv h1) hrt (hl.heard hr (by simp [Ty.absorbed])) hrp
      (hl.heard hr (by simp [Ty.absorbed]))
    refine .ofPair fun he => ?_
    obtain ⟨he1, he2⟩ := List.append_eq_nil_iff.1 (h4.symm.trans he)
    obtain ⟨c, hc, hp⟩ := (i1 hl1 hv hrt).gives hg he1
    obtain ⟨es, ps, cs, hlen, hes, hpsl, hcs, hps⟩ := h5 he2
    refine ⟨(c :: cs).flatten, by rw [hcs, hc]; simp, ?_⟩
    have hes' : a.elems = x :: es := hes
    have hpsl' : a.puncts = ps := by simpa using hpsl
    rw [hes', hpsl', split_span x es ps hlen.symm]
    refine .split (by simp [hlen]) ?_
    rw [interleave_cons, List.length_cons, show es.length + 1 + ps.length = (ps.length + es.length) + 1 by omega]
    exact ParsesSeq.after hp (pos_of_cells hc) hps
  | splitPanic _ i1 =>
    intro hl hv hr
    exact .ofPanic (((i1 hl hv (.step hr (by simp [Schema.tyParts]))).panic _ rfl).imp id .split)
  | outerStop =>
    intro _ _ _ _ _ _
    exact ⟨[], by simp, fun _ => ⟨[], [], [], rfl, by simp, by simp, by simp, by simp [interleave, alternate]; exact .nil⟩⟩
  | @outerPanic t p v a e v1 h1 i1 =>
    intro hl hv _ _ hr hs
    refine ⟨e, rfl, fun he => ?_⟩
    exact absurd he ((i1 hl hv hr).loud h1 hs)
  | @outerGo t p v a r q e v1 a1 v2 a' v' _ h1 hg h2 h3 i1 i2 i3 =>
    intro hl hv hrt hst hrp hsp
    have hl2 := hl.back h3.adv
    have hl1 := hl2.back h2.adv
    have hv1 := Sorted.run (S := S) hv h1
    have hv2 : Sorted source v2 := hv1.adv h2.adv
    obtain ⟨e2, g2, k2⟩ := i2 hl2 hv1 hrt (hst.back h3.adv)
    obtain ⟨e3, g3, k3⟩ := i3 hl hv2 hrt hst hrp hsp
    refine ⟨e ++ e2 ++ e3, by rw [g3, g2]; simp, fun he => ?_⟩
    obtain ⟨he12, he3⟩ := List.append_eq_nil_iff.1 he
    obtain ⟨he1, he2⟩ := List.append_eq_nil_iff.1 he12
    obtain ⟨c, hc, hp⟩ := (i1 hl1 hv hrp).gives hg he1
    obtain ⟨_, _, x, c2, hx, hq, hc2, hp2⟩ := k2 he2
    obtain ⟨es, ps, cs, hlen, hes, hpsl, hcs, hps⟩ := k3 he3
    refine ⟨x :: es, q :: ps, c :: c2 :: cs, by simp [hlen], by rw [hes, hx]; simp, by rw [hpsl, hq]; simp,
      by rw [hcs, hc2, hc]; simp, ?_⟩
    rw [interleave_cons, interleave_cons,
      show (q :: ps).length + (x :: es).length = (ps.length + es.length) + 1 + 1 by simp; omega]
    exact ParsesSeq.after hp (pos_of_cells hc) (ParsesSeq.after hp2 (pos_of_cells hc2) hps)
  | @outerBreak t p v a r q e v1 a1 v2 _ h1 hg h2 i1 i2 =>
    intro hl hv hrt hst hrp hsp
    have hl1 := hl.back h2.adv
    obtain ⟨e2, g2, k2⟩ := i2 hl (Sorted.run (S := S) hv h1) hrt hst
    refine ⟨e ++ e2, by rw [g2]; simp, fun he => ?_⟩
    obtain ⟨_, hgo, _⟩ := k2 (List.append_eq_nil_iff.1 he).2
    cases hgo
  | @innerGive t q v a panic r x e v1 h1 hg i1 =>
    intro hl hv hr hs
    refine ⟨e ++ panic.toList, by simp, fun he => ?_⟩
    obtain ⟨he1, he2⟩ := List.append_eq_nil_iff.1 he
    obtain ⟨c, hc, hp⟩ := (i1 hl hv hr).gives hg he1
    exact ⟨by simpa using he2, rfl, x, c, rfl, rfl, hc, hp⟩
  | @innerFailLeave t q v a panic e v1 go h1 i1 =>
    intro hl hv hr hs
    refine ⟨_, rfl, fun he => ?_⟩
    obtain ⟨_, he⟩ := mergePanic_none (by simpa using he)
    exact absurd he ((i1 hl hv hr).loud h1 hs)
  | @innerFailGo t q v a panic e v1 go a' v' h1 h2 i1 i2 =>
    intro hl hv hr hs
    have hl1 := hl.back ((Adv.skip _).trans h2.adv)
    obtain ⟨e2, g2, k2⟩ := i2 hl ((Sorted.run (S := S) hv h1).adv (.skip _)) hr hs
    refine ⟨e2, g2, fun he => ?_⟩
    obtain ⟨hm, _⟩ := k2 he
    obtain ⟨_, he⟩ := mergePanic_none hm
    exact absurd he ((i1 hl1 hv hr).loud h1 (hs.back ((Adv.skip _).trans h2.adv)))
  | innerNoteLeave hn =>
    intro _ _ _ _
    exact ⟨_, rfl, fun he => absurd (by simpa using he) hn.some⟩
  | innerNoteGo hn _ i1 =>
    intro hl hv hr hs
    obtain ⟨e2, g2, k2⟩ := i1 hl (hv.adv (.skip _)) hr hs
    exact ⟨e2, g2, fun he => absurd (k2 he).1 hn.some⟩
  | @punct t p v r x e v1 a v' h1 hg h2 i1 i2 =>
    intro hl hv hr
    have hl1 := hl.back h2.adv
    have hrt : Reach S.tyParts root t := .step hr (by simp [Schema.tyParts])
    have hrp : Reach S.tyParts root p := .step hr (by simp [Schema.tyParts])
    obtain ⟨e2, h4, h5⟩ := i2 hl (Sorted.run (S := S) hv h1) hrt (hl.heard hr (by simp [Ty.absorbed])) hrp
      (hl.heard hr (by simp [Ty.absorbed]))
    refine .ofPair fun he => ?_
    obtain ⟨he1, he2⟩ := List.append_eq_nil_iff.1 (h4.symm.trans he)
    obtain ⟨c, hc, hp⟩ := (i1 hl1 hv hrt).gives hg he1
    obtain ⟨es, ps, cs, hlen, hes, hpsl, hcs, hps⟩ := h5 he2
    have hcells : v'.cells = v.cells ++ (c :: cs).flatten := by rw [hcs, hc]; simp
    refine ⟨(c :: cs).flatten, hcells, ?_⟩
    have hes' : a.elems = x :: es := hes
    have hpsl' : a.puncts = ps := by simpa using hpsl
    have hall : ParsesSeq S source v.pos (alternate t p ((x :: es).length + ps.length)) (c :: cs)
        (interleave (x :: es) ps) := by
      rw [interleave_cons, List.length_cons, show es.length + 1 + ps.length = (ps.length + es.length) + 1 by omega]
      exact ParsesSeq.after hp (pos_of_cells hc) hps
    have hv' : Sorted source v' := (Sorted.run (S := S) hv h1).adv h2.adv
    rw [hes', hpsl', punct_span x es ps hlen (hall.fits (hv'.after hcells)) (hv'.after hcells)]
    exact .punct (by simp) (by simp only [List.length_cons]; omega) hall
  | punctPanic _ i1 =>
    intro hl hv hr
    exact .ofPanic (((i1 hl hv (.step hr (by simp [Schema.tyParts]))).panic _ rfl).imp id .punct)
  | pouterStop =>
    intro _ _ _ _ _ _
    exact ⟨[], by simp, fun _ => ⟨[], [], [], .inl rfl, by simp, by simp, by simp, by simp [interleave, alternate]; exact .nil⟩⟩
  | @pouterPanic t p v a e v1 h1 i1 =>
    intro hl hv _ _ hr hs
    refine ⟨e, rfl, fun he => ?_⟩
    exact absurd he ((i1 hl hv hr).loud h1 hs)
  | @pouterGo t p v a r q e v1 a1 v2 a' v' _ h1 hg h2 h3 i1 i2 i3 =>
    intro hl hv hrt hst hrp hsp
    have hl2 := hl.back h3.adv
    have hl1 := hl2.back h2.adv
    have hv1 := Sorted.run (S := S) hv h1
    have hv2 : Sorted source v2 := hv1.adv h2.adv
    obtain ⟨e2, g2, k2⟩ := i2 hl2 hv1 hrt (hst.back h3.adv)
    obtain ⟨e3, g3, k3⟩ := i3 hl hv2 hrt hst hrp hsp
    refine ⟨e ++ e2 ++ e3, by rw [g3, g2]; simp, fun he => ?_⟩
    obtain ⟨he12, he3⟩ := List.append_eq_nil_iff.1 he
    obtain ⟨he1, he2⟩ := List.append_eq_nil_iff.1 he12
    obtain ⟨c, hc, hp⟩ := (i1 hl1 hv hrp).gives hg he1
    obtain ⟨_, hq, ⟨_, x, c2, hx, hc2, hp2⟩ | ⟨hgo, _⟩⟩ := k2 he2
    case inr => cases hgo
    obtain ⟨es, ps, cs, hlen, hes, hpsl, hcs, hps⟩ := k3 he3
    refine ⟨x :: es, q :: ps, c :: c2 :: cs, by simpa using hlen, by rw [hes, hx]; simp, by rw [hpsl, hq]; simp,
      by rw [hcs, hc2, hc]; simp, ?_⟩
    rw [interleave_cons, interleave_cons,
      show (q :: ps).length + (x :: es).length = (ps.length + es.length) + 1 + 1 by simp; omega]
    exact ParsesSeq.after hp (pos_of_cells hc) (ParsesSeq.after hp2 (pos_of_cells hc2) hps)
  | @pouterBreak t p v a r q e v1 a1 v2 _ h1 hg h2 i1 i2 =>
    intro hl hv hrt hst hrp hsp
    have hl1 := hl.back h2.adv
    obtain ⟨e2, g2, k2⟩ := i2 hl (Sorted.run (S := S) hv h1) hrt hst
    refine ⟨e ++ e2, by rw [g2]; simp, fun he => ?_⟩
    obtain ⟨he1, he2⟩ := List.append_eq_nil_iff.1 he
    obtain ⟨_, hq, ⟨hgo, _⟩ | ⟨_, hel, rfl⟩⟩ := k2 he2
    · cases hgo
    obtain ⟨c, hc, hp⟩ := (i1 hl1 hv hrp).gives hg he1
    refine ⟨[], [q], [c], .inr rfl, by simp [hel], by rw [hq], by rw [hc]; simp, ?_⟩
    rw [interleave_cons]
    exact ParsesSeq.after hp rfl (by simp [interleave, alternate]; exact .nil)
  | @pinnerGive t v a panic r x e v1 h1 hg i1 =>
    intro hl hv hr hs
    refine ⟨panic.toList ++ e, by simp, fun he => ?_⟩
    obtain ⟨he1, he2⟩ := List.append_eq_nil_iff.1 he
    obtain ⟨c, hc, hp⟩ := (i1 hl hv hr).gives hg he2
    exact ⟨by simpa using he1, rfl, .inl ⟨rfl, x, c, rfl, hc, hp⟩⟩
  | pinnerStop =>
    intro _ _ _ _
    exact ⟨_, rfl, fun he => ⟨by simpa using he, rfl, .inr ⟨rfl, rfl, rfl⟩⟩⟩
  | @pinnerFailLeave t v a panic e v1 go h1 i1 =>
    intro hl hv hr hs
    refine ⟨_, rfl, fun he => ?_⟩
    obtain ⟨_, he⟩ := mergePanic_none (by simpa using he)
    exact absurd he ((i1 hl hv hr).loud h1 hs)
  | @pinnerFailGo t v a panic e v1 go a' v' h1 h2 i1 i2 =>
    intro hl hv hr hs
    have hl1 := hl.back ((Adv.skip _).trans h2.adv)
    obtain ⟨e2, g2, k2⟩ := i2 hl ((Sorted.run (S := S) hv h1).adv (.skip _)) hr hs
    refine ⟨e2, g2, fun he => ?_⟩
    obtain ⟨hm, _⟩ := k2 he
    obtain ⟨_, he⟩ := mergePanic_none hm
    exact absurd he ((i1 hl1 hv hr).loud h1 (hs.back ((Adv.skip _).trans h2.adv)))
  | pinnerNoteLeave hn =>
    intro _ _ _ _
    exact ⟨_, rfl, fun he => absurd (by simpa using he) hn.some⟩
  | pinnerNoteGo hn _ i1 =>
    intro hl hv hr hs
    obtain ⟨e2, g2, k2⟩ := i1 hl (hv.adv (.skip _)) hr hs
    exact ⟨e2, g2, fun he => absurd (k2 he).1 hn.some⟩
  | @recover t r v h v1 x errs panic v' h1 h2 i1 i2 =>
    intro hl hv hr
    have hl1 := hl.back h2.adv
    have hrt : Reach S.tyParts root t := .step hr (by simp [Schema.tyParts])
    have hrr : Reach S.tyParts root r := .step hr (by simp [Schema.tyParts])
    refine .ofPair fun he => ?_
    obtain ⟨he1, he2, c2, hc2, hp2⟩ := (i2 hl (hv.adv h1.adv) hrr).2 x rfl he
    obtain ⟨y, c, hsp, hy, hc, hp⟩ := i1 hl1 hv hrt (hl1.heard (u := t) hr (by simp [Ty.absorbed])) he1 he2
    refine ⟨[c, c2].flatten, by rw [hc2, hc]; simp, ?_⟩
    unfold mkRecover
    rw [hy, hsp]
    exact .recover (ParsesSeq.after hp (pos_of_cells hc) (ParsesSeq.after hp2 rfl .nil))
  | recoverPanic h1 _ _ i2 =>
    intro hl hv hr
    refine .ofPanic ?_
    cases hfx : fx with
    | false => exact .inr ⟨.recover _ _, rfl⟩
    | true =>
      have h := (i2 hl (hv.adv h1.adv) (.step hr (by simp [Schema.tyParts]))).1 hfx rfl
      exact .inl (by simp [h])
  | @headGive t v r x e v1 h1 hg i1 =>
    intro hl hv hr hs he _
    obtain ⟨c, hc, hp⟩ := (i1 hl hv hr).gives hg he
    exact ⟨x, c, rfl, rfl, hc, hp⟩
  | @headPanic t v e v1 h1 i1 =>
    intro hl hv hr hs _ hp
    exact absurd (List.getLast?_eq_none_iff.1 hp) ((i1 hl hv hr).loud h1 hs)
  | headNone => intro _ _ _ _ _ hp; cases hp
  | @tailGive t v errs panic r x e v1 h1 hg i1 =>
    intro hl hv hr
    refine ⟨fun _ h => (by cases h), fun y hy he => ?_⟩
    cases hy
    obtain ⟨he1, he2⟩ := List.append_eq_nil_iff.1 he
    obtain ⟨he3, he4⟩ := List.append_eq_nil_iff.1 he1
    exact ⟨he3, by simpa using he2, (i1 hl hv hr).gives hg he4⟩
  | tailPanic _ h1 i1 =>
    intro hl hv hr
    refine ⟨fun hfx _ hp => ?_, fun y hy => by cases hy⟩
    exact (i1 hl hv hr).loud h1 (.inl fun h => by have := h.2; rw [hfx] at this; cases this) (mergePanic_none hp).2
  | tailStop _ h => intro _ _ _; exact ⟨fun hfx _ => h hfx, fun y hy => by cases hy⟩
  | tailNote => intro _ _ _; exact ⟨fun _ _ => by simp, fun y hy => by cases hy⟩
  | tailFail _ h1 hn _ _ i2 =>
    intro hl hv hr
    have i2 := i2 hl ((Sorted.run (S := S) hv h1).adv (.skip _)) hr
    exact ⟨i2.1, fun y hy he => absurd (i2.2 y hy he).2.1 hn.some⟩
  | tailSkip _ hn _ i2 =>
    intro hl hv hr
    have i2 := i2 hl (hv.adv (.skip _)) hr
    exact ⟨i2.1, fun y hy he => absurd (i2.2 y hy he).2.1 hn.some⟩

end Teleparse
