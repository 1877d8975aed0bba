import Verif.Spec.Relabel
import Verif.Proof.LayoutStep
/-
Every syntax type does the same in a program with other names: one lemma for each part of `Model/Produce.lean`, for any
relation between states that the stream API respects.
-/
namespace Teleparse.Relab
variable {n n' : Nat} {σ τ : Type} {ρ : Fin n → Fin n'} {o : Ops σ n} {o' : Ops τ n'} {SR : σ → τ → Prop}

/-- What is needed of the stream API. -/
structure Prims (ρ : Fin n → Fin n') (o : Ops σ n) (o' : Ops τ n') (SR : σ → τ → Prop) : Prop where
  inj : ∀ a b, ρ a = ρ b → a = b
  peek : ∀ s s', SR s s' → (o'.peek s').1 = (o.peek s).1.map (Token.retok ρ) ∧ SR (o.peek s).2 (o'.peek s').2
  consume : ∀ s s', SR s s' → SR (o.consume s).2 (o'.consume s').2
  source : ∀ s s', SR s s' → o'.source s' = o.source s
  emptySpan : ∀ s s', SR s s' → o'.emptySpan s' = o.emptySpan s
  apply : ∀ s s' sp a a', SR s s' → SemAs ρ a a' → SR (o.applySemantic s sp a) (o'.applySemantic s' sp a')

inductive OutRel (SR : σ → τ → Prop) {α β : Type} (R : α → β → Prop) : Out σ α → Out τ β → Prop
  | fuel : OutRel SR R .fuel .fuel
  | crash : OutRel SR R .crash .crash
  | ok {a b s s'} : R a b → SR s s' → OutRel SR R (.ok a s) (.ok b s')

def MRel (SR : σ → τ → Prop) {α β : Type} (R : α → β → Prop) (x : M σ α) (y : M τ β) : Prop :=
  ∀ s s', SR s s' → OutRel SR R (x s) (y s')

theorem MRel.pure {α β : Type} {R : α → β → Prop} {a b} (h : R a b) :
    MRel SR R (Pure.pure a : M σ α) (Pure.pure b : M τ β) := fun _ _ hv => .ok h hv

theorem MRel.fuel {α β : Type} {R : α → β → Prop} : MRel SR R (M.fuel : M σ α) (M.fuel : M τ β) :=
  fun _ _ _ => .fuel

theorem MRel.crash {α β : Type} {R : α → β → Prop} : MRel SR R (M.crash : M σ α) (M.crash : M τ β) :=
  fun _ _ _ => .crash

theorem MRel.bind {α β γ δ : Type} {R : α → β → Prop} {Q : γ → δ → Prop} {x : M σ α} {y : M τ β}
    {f : α → M σ γ} {g : β → M τ δ} (h : MRel SR R x y) (hf : ∀ a b, R a b → MRel SR Q (f a) (g b)) :
    MRel SR Q (x >>= f) (y >>= g) := by
  intro v v' hv
  have := h v v' hv
  show OutRel SR Q (M.bind x f v) (M.bind y g v')
  unfold M.bind
  generalize hx : x v = o at this
  generalize hy : y v' = o' at this
  cases this with
  | fuel => exact .fuel
  | crash => exact .crash
  | ok hab hs => exact hf _ _ hab _ _ hs

theorem MRel.mono {α β : Type} {R Q : α → β → Prop} {x : M σ α} {y : M τ β} (h : MRel SR R x y)
    (hq : ∀ a b, R a b → Q a b) : MRel SR Q x y := by
  intro v v' hv
  have := h v v' hv
  generalize x v = o at this
  generalize y v' = o' at this
  cases this with
  | fuel => exact .fuel
  | crash => exact .crash
  | ok hab hs => exact .ok (hq _ _ hab) hs

/-! ### Sets and errors -/

theorem _root_.Teleparse.SetAs.contains {s : TSet n} {s' : TSet n'} (h : SetAs ρ s s') (x : Option (TokenSrc n)) :
    s'.contains (x.map (TokenSrc.retok ρ)) = s.contains x := by
  cases x with
  | none => exact h.eof
  | some t => exact h.tok t

theorem _root_.Teleparse.SetAs.containsE {s : TSet n} {s' : TSet n'} (h : SetAs ρ s s') : s'.containsE = s.containsE := h.eof

theorem setAs_of (hi : ∀ a b, ρ a = ρ b → a = b) {s : TSet n} {s' : TSet n'} (he : s'.e = s.e)
    (h : ∀ t', TSet.Mem t' s' ↔ ∃ t, t' = t.retok ρ ∧ TSet.Mem t s) : SetAs ρ s s' where
  eof := he
  tok t := by
    apply Bool.eq_iff_iff.2
    refine (h (t.retok ρ)).trans ⟨?_, fun h => ⟨t, rfl, h⟩⟩
    rintro ⟨u, e, hu⟩
    have : t = u := by
      obtain ⟨a, b⟩ := t
      obtain ⟨c, d⟩ := u
      simp only [TokenSrc.retok, TokenSrc.mk.injEq] at e
      rw [hi _ _ e.1, e.2]
    exact this ▸ hu
  only t' ht := ((h t').1 ht).imp fun _ h => h.1

theorem _root_.Teleparse.SetAs.mem {s : TSet n} {s' : TSet n'} (h : SetAs ρ s s') (t' : TokenSrc n') :
    TSet.Mem t' s' ↔ ∃ t, t' = t.retok ρ ∧ TSet.Mem t s := by
  constructor
  · intro ht
    obtain ⟨t, rfl⟩ := h.only t' ht
    exact ⟨t, rfl, (h.tok t).symm.trans ht⟩
  · rintro ⟨t, rfl, ht⟩
    exact (h.tok t).trans ht

theorem setAs_one (hi : ∀ a b, ρ a = ρ b → a = b) (t : Terminal n) :
    SetAs ρ (TSet.one t.ty t.lit) (TSet.one (ρ t.ty) t.lit) := by
  refine setAs_of hi ?_ fun t' => ?_
  · unfold TSet.one TSet.insert
    cases t.lit <;> rfl
  · rw [TSet.mem_one]
    constructor
    · rintro ⟨h1, h2⟩
      refine ⟨⟨t.ty, t'.src⟩, ?_, (TSet.mem_one ..).2 ⟨rfl, h2⟩⟩
      cases t'
      simp only [TokenSrc.retok, TokenSrc.mk.injEq, and_true]
      exact h1
    · rintro ⟨t, rfl, ht⟩
      obtain ⟨h1, h2⟩ := (TSet.mem_one ..).1 ht
      exact ⟨congrArg ρ h1, h2⟩

theorem setAs_punct (hi : ∀ a b, ρ a = ρ b → a = b) {a b : TSet n} {a' b' : TSet n'} (ha : SetAs ρ a a') (hb : SetAs ρ b b') :
    SetAs ρ (punctExpecting a b) (punctExpecting a' b') := by
  refine setAs_of hi ?_ fun t' => ?_
  · rfl
  · unfold punctExpecting
    rw [TSet.mem_union]
    constructor
    · rintro (h | h)
      · obtain ⟨t, rfl, ht⟩ := (hb.mem t').1 h
        exact ⟨t, rfl, (TSet.mem_union ..).2 (.inl ht)⟩
      · obtain ⟨t, rfl, ht⟩ := (ha.mem t').1 h
        exact ⟨t, rfl, (TSet.mem_union ..).2 (.inr ht)⟩
    · rintro ⟨t, rfl, ht⟩
      rcases (TSet.mem_union ..).1 ht with h | h
      · exact .inl ((hb.mem _).2 ⟨t, rfl, h⟩)
      · exact .inr ((ha.mem _).2 ⟨t, rfl, h⟩)

theorem _root_.Teleparse.ErrAs.span {e : Err n} {e' : Err n'} (h : ErrAs ρ e e') : e'.span = e.span := by
  cases h <;> rfl

theorem _root_.Teleparse.ErrAs.extend {e : Err n} {e' : Err n'} (h : ErrAs ρ e e') (hi : Nat) :
    ErrAs ρ { e with span := { e.span with hi := hi } } { e' with span := { e'.span with hi := hi } } := by
  cases h with
  | expecting h => exact .expecting h
  | unexpectedCharacters => exact .unexpectedCharacters
  | unexpectedTokens => exact .unexpectedTokens
  | unexpectedEof => exact .unexpectedEof
  | noAdvance => exact .noAdvance

abbrev ErrsAs (ρ : Fin n → Fin n') : List (Err n) → List (Err n') → Prop := Pointwise (ErrAs ρ)

theorem pw_append {α β : Type} {R : α → β → Prop} {a c : List α} {b d : List β} (h : Pointwise R a b) (h' : Pointwise R c d) :
    Pointwise R (a ++ c) (b ++ d) := by
  induction h with
  | nil => exact h'
  | cons h _ ih => exact .cons h ih

theorem pw_one {α β : Type} {R : α → β → Prop} {a : α} {b : β} (h : R a b) : Pointwise R [a] [b] := .cons h .nil

theorem pw_last {α β : Type} {R : α → β → Prop} {a : List α} {b : List β} (h : Pointwise R a b) :
    OptRel R a.getLast? b.getLast? := by
  induction h with
  | nil => exact .none
  | cons h1 h2 ih =>
    cases h2 with
    | nil => exact .some h1
    | cons h3 h4 =>
      rw [List.getLast?_cons_cons, List.getLast?_cons_cons]
      exact ih

/-! ### Reading -/

section
variable (hP : Prims ρ o o' SR)
include hP

theorem peek_rel : MRel SR (fun a b => b = a.map (Token.retok ρ)) o.mPeek o'.mPeek :=
  fun s s' h => .ok (hP.peek s s' h).1 (hP.peek s s' h).2

theorem consume_rel : MRel SR (fun _ _ => True) o.mConsume o'.mConsume :=
  fun s s' h => .ok trivial (hP.consume s s' h)

theorem source_rel : MRel SR (fun a b => b = a) o.mSource o'.mSource := fun s s' h => .ok (hP.source s s' h) h

theorem emptySpan_rel : MRel SR (fun a b => b = a) o.mEmptySpan o'.mEmptySpan := fun s s' h => .ok (hP.emptySpan s s' h) h

theorem apply_rel (sp : Span) {a : LSet n} {a' : LSet n'} (h : SemAs ρ a a') :
    MRel SR (fun _ _ => True) (o.mApply sp a) (o'.mApply sp a') := fun s s' hs => .ok trivial (hP.apply s s' sp a a' hs h)

theorem getSrc_rel (sp : Span) : MRel SR (fun a b => b = a) (o.mGetSrc sp) (o'.mGetSrc sp) := by
  unfold Ops.mGetSrc
  refine (source_rel hP).bind ?_
  rintro _ src rfl
  cases sp.get? src with
  | none => exact .crash
  | some s => exact .pure rfl

theorem peekSrc_rel : MRel SR (fun a b => b = a.map (TokenSrc.retok ρ)) o.mPeekSrc o'.mPeekSrc := by
  unfold Ops.mPeekSrc
  refine (peek_rel hP).bind ?_
  rintro a _ rfl
  cases a with
  | none => exact .pure rfl
  | some t =>
    refine (getSrc_rel hP t.span).bind ?_
    rintro _ s rfl
    exact .pure rfl

theorem currentSpan_rel : MRel SR (fun a b => b = a) o.mCurrentSpan o'.mCurrentSpan := by
  unfold Ops.mCurrentSpan
  refine (peek_rel hP).bind ?_
  rintro a _ rfl
  cases a with
  | none =>
    refine (source_rel hP).bind ?_
    rintro _ s rfl
    exact .pure rfl
  | some t => exact .pure rfl

theorem expecting_rel {s : TSet n} {s' : TSet n'} (hs : SetAs ρ s s') :
    MRel SR (ErrAs ρ) (o.mExpecting s) (o'.mExpecting s') := by
  unfold Ops.mExpecting
  refine (currentSpan_rel hP).bind ?_
  rintro a _ rfl
  exact .pure (.expecting hs)

theorem unexpectedEof_rel : MRel SR (ErrAs ρ) o.mUnexpectedEof o'.mUnexpectedEof := by
  unfold Ops.mUnexpectedEof
  refine (currentSpan_rel hP).bind ?_
  rintro a _ rfl
  exact .pure .unexpectedEof

end

/-- The same result: trees related by `T`, the same errors. -/
inductive ResRel (ρ : Fin n → Fin n') {α β : Type} (T : α → β → Prop) : Res n α → Res n' β → Prop
  | success {t t'} : T t t' → ResRel ρ T (.success t) (.success t')
  | recovered {t t' e e'} : T t t' → ErrsAs ρ e e' → ResRel ρ T (.recovered t e) (.recovered t' e')
  | panic {e e'} : ErrsAs ρ e e' → ResRel ρ T (.panic e) (.panic e')

theorem ResRel.ofPair {α β : Type} {T : α → β → Prop} {t : α} {t' : β} {e : List (Err n)} {e' : List (Err n')} (h : T t t')
    (he : ErrsAs ρ e e') : ResRel ρ T (Res.ofPair t e) (Res.ofPair t' e') := by
  unfold Res.ofPair
  cases he with
  | nil => exact .success h
  | cons h1 h2 => exact .recovered h (.cons h1 h2)

theorem ResRel.map {α β γ δ : Type} {T : α → β → Prop} {Q : γ → δ → Prop} {f : α → γ} {g : β → δ} {r : Res n α}
    {r' : Res n' β} (h : ResRel ρ T r r') (hf : ∀ a b, T a b → Q (f a) (g b)) : ResRel ρ Q (r.map f) (r'.map g) := by
  cases h with
  | success h => exact .success (hf _ _ h)
  | recovered h he => exact .recovered (hf _ _ h) he
  | panic he => exact .panic he

/-- Relations between trees with the same span. -/
structure TRel (n n' : Nat) where
  rel : Tree n → Tree n' → Prop
  span : ∀ x y, rel x y → y.span = x.span

instance : CoeFun (TRel n n') (fun _ => Tree n → Tree n' → Prop) := ⟨TRel.rel⟩

variable {T Q : TRel n n'}

abbrev PRel (ρ : Fin n → Fin n') (SR : σ → τ → Prop) (T : Tree n → Tree n' → Prop) (x : P σ n) (y : P τ n') : Prop :=
  MRel SR (ResRel ρ T) x y

theorem PRel.mono {T Q : Tree n → Tree n' → Prop} {x : P σ n} {y : P τ n'} (h : PRel ρ SR T x y)
    (hq : ∀ a b, T a b → Q a b) : PRel ρ SR Q x y := by
  refine MRel.mono h ?_
  intro a b hab
  cases hab with
  | success h => exact .success (hq _ _ h)
  | recovered h he => exact .recovered (hq _ _ h) he
  | panic he => exact .panic he

section
variable (hP : Prims ρ o o' SR)
include hP

theorem parseToken_rel (ty : Fin n) :
    MRel SR (ResRel ρ fun t t' => t' = t.retok ρ) (o.parseToken ty) (o'.parseToken (ρ ty)) := by
  have hfail : MRel SR (ResRel ρ fun (t : Token n) t' => t' = t.retok ρ)
      (do let e ← o.mExpecting (TSet.one ty none); pure (Res.panic [e] : Res n (Token n)))
      (do let e ← o'.mExpecting (TSet.one (ρ ty) none); pure (Res.panic [e] : Res n' (Token n'))) := by
    refine (expecting_rel hP (setAs_one hP.inj ⟨ty, none⟩)).bind ?_
    intro e e' h
    exact .pure (.panic (pw_one h))
  unfold Ops.parseToken
  refine (peek_rel hP).bind ?_
  rintro a _ rfl
  cases a with
  | none => exact hfail
  | some t =>
    show MRel SR _ (if t.ty = ty then _ else _) (if ρ t.ty = ρ ty then _ else _)
    by_cases ht : t.ty = ty
    · rw [if_pos ht, if_pos (congrArg ρ ht)]
      refine (consume_rel hP).bind ?_
      intro _ _ _
      exact .pure (.success rfl)
    · rw [if_neg ht, if_neg (fun h => ht (hP.inj _ _ h))]
      exact hfail

theorem parseTokenLit_rel (ty : Fin n) (lit : Str) {fol : TSet n} {fol' : TSet n'} (hf : SetAs ρ fol fol') :
    MRel SR (ResRel ρ fun t t' => t' = t.retok ρ) (o.parseTokenLit ty lit fol) (o'.parseTokenLit (ρ ty) lit fol') := by
  have h1 := setAs_one hP.inj ⟨ty, some lit⟩
  unfold Ops.parseTokenLit
  refine (peek_rel hP).bind ?_
  rintro a _ rfl
  cases a with
  | none =>
    dsimp only [Option.map]
    rw [hf.containsE]
    split
    · refine (currentSpan_rel hP).bind ?_
      rintro _ sp rfl
      refine (expecting_rel hP h1).bind ?_
      intro e e' h
      exact .pure (.recovered rfl (pw_one h))
    · refine (unexpectedEof_rel hP).bind ?_
      intro e e' h
      exact .pure (.panic (pw_one h))
  | some t =>
    dsimp only [Option.map, Token.retok]
    refine (getSrc_rel hP t.span).bind ?_
    rintro _ s rfl
    have hq : (ρ t.ty = ρ ty ∧ s = lit) ↔ (t.ty = ty ∧ s = lit) :=
      and_congr_left fun _ => ⟨hP.inj _ _, congrArg ρ⟩
    have hc : fol'.contains (some ⟨ρ t.ty, s⟩) = fol.contains (some ⟨t.ty, s⟩) := hf.tok ⟨t.ty, s⟩
    by_cases ht : t.ty = ty ∧ s = lit
    · rw [if_pos ht, if_pos (hq.2 ht)]
      refine (consume_rel hP).bind ?_
      intro _ _ _
      exact .pure (.success rfl)
    · rw [if_neg ht, if_neg (fun h => ht (hq.1 h)), hc]
      split
      · refine (emptySpan_rel hP).bind ?_
        rintro _ sp rfl
        refine (expecting_rel hP h1).bind ?_
        intro e e' h
        exact .pure (.recovered rfl (pw_one h))
      · refine (expecting_rel hP h1).bind ?_
        intro e e' h
        exact .pure (.panic (pw_one h))

theorem term_rel (t : Terminal n) {fol : TSet n} {fol' : TSet n'} (hf : SetAs ρ fol fol') :
    PRel ρ SR (fun x y => ∃ t : Token n, x = .tok t ∧ y = .tok (t.retok ρ)) (produceTerm o t fol)
      (produceTerm o' (t.retok ρ) fol') := by
  unfold produceTerm Terminal.retok
  dsimp only
  cases t.lit with
  | some lit =>
    refine (parseTokenLit_rel hP _ _ hf).bind ?_
    intro r r' h
    exact .pure (h.map fun a b e => ⟨a, rfl, congrArg _ e⟩)
  | none =>
    refine (parseToken_rel hP _).bind ?_
    intro r r' h
    exact .pure (h.map fun a b e => ⟨a, rfl, congrArg _ e⟩)

end

/-! ### Trees and results -/

abbrev TreesRel (T : Tree n → Tree n' → Prop) : List (Tree n) → List (Tree n') → Prop := Pointwise T

theorem lastHi {T : TRel n n'} {a : List (Tree n)} {b : List (Tree n')} (h : TreesRel T a b) (x : Nat) :
    ((b.getLast?.map (·.span.hi)).getD x) = ((a.getLast?.map (·.span.hi)).getD x) := by
  have := pw_last h
  generalize a.getLast? = o at this
  generalize b.getLast? = o' at this
  cases this with
  | none => rfl
  | some h =>
    show Span.hi (Tree.span _) = _
    rw [T.span _ _ h]
    rfl

theorem spanOf_rel {T : TRel n n'} {a : List (Tree n)} {b : List (Tree n')} (h : TreesRel T a b) : spanOf b = spanOf a := by
  have h1 := lastHi h 0
  cases h with
  | nil => rfl
  | cons h h' =>
    unfold spanOf
    rw [h1]
    show Span.mk (Span.lo (Tree.span _)) _ = _
    rw [T.span _ _ h]
    rfl

theorem errs_rel {p : Option (Err n)} {p' : Option (Err n')} (h : OptRel (ErrAs ρ) p p') : ErrsAs ρ p.toList p'.toList := by
  cases h with
  | none => exact .nil
  | some h => exact pw_one h

theorem mergePanic_rel {p : Option (Err n)} {p' : Option (Err n')} {e : List (Err n)} {e' : List (Err n')}
    (hp : OptRel (ErrAs ρ) p p') (he : ErrsAs ρ e e') : OptRel (ErrAs ρ) (mergePanic p e) (mergePanic p' e') := by
  unfold mergePanic
  have := pw_last he
  generalize e.getLast? = o at this
  generalize e'.getLast? = o' at this
  cases this with
  | none => exact hp
  | some h =>
    cases hp with
    | none => exact .some h
    | some h' =>
      dsimp only
      rw [h.span]
      exact .some (h'.extend _)

/-! ### Tuples, structs and enums -/

/-- One relation for every element. -/
inductive Each : List (TRel n n') → List (Tree n) → List (Tree n') → Prop
  | nil : Each [] [] []
  | cons {T : TRel n n'} {Ts x y l l'} : T x y → Each Ts l l' → Each (T :: Ts) (x :: l) (y :: l')

theorem Each.snoc {Ts : List (TRel n n')} {l l'} (h : Each Ts l l') {T : TRel n n'} {x y} (hx : T x y) :
    Each (Ts ++ [T]) (l ++ [x]) (l' ++ [y]) := by
  induction h with
  | nil => exact .cons hx .nil
  | cons h _ ih => exact .cons h ih

theorem Each.spans {Ts : List (TRel n n')} {l l'} (h : Each Ts l l') : l'.map Tree.span = l.map Tree.span := by
  induction h with
  | nil => rfl
  | @cons T _ _ _ _ _ h _ ih =>
    simp only [List.map_cons]
    rw [ih, T.span _ _ h]

theorem spanOf_spans (l : List (Tree n)) : spanOf l = ⟨((l.map Tree.span).head?.map (·.lo)).getD 0,
    ((l.map Tree.span).getLast?.map (·.hi)).getD 0⟩ := by
  simp [spanOf, List.head?_map, List.getLast?_map, Option.map_map, Function.comp_def]

theorem Each.spanOf {Ts : List (TRel n n')} {l l'} (h : Each Ts l l') : spanOf l' = spanOf l := by
  rw [spanOf_spans, spanOf_spans, h.spans]

/-- Parsers of the elements, with the relations of their trees. -/
inductive Parsers (ρ : Fin n → Fin n') (SR : σ → τ → Prop) : List (TRel n n') → List (P σ n) → List (P τ n') → Prop
  | nil : Parsers ρ SR [] [] []
  | cons {T : TRel n n'} {Ts p p' ps ps'} : PRel ρ SR T p p' → Parsers ρ SR Ts ps ps' →
      Parsers ρ SR (T :: Ts) (p :: ps) (p' :: ps')

theorem seqLoop_rel {Ts : List (TRel n n')} {ps : List (P σ n)} {ps' : List (P τ n')} (hp : Parsers ρ SR Ts ps ps') :
    ∀ {Qs : List (TRel n n')} {acc acc' errs errs'}, Each Qs acc acc' → ErrsAs ρ errs errs' →
    MRel SR (ExRel (ErrsAs ρ) (PairRel (Each (Qs ++ Ts)) (ErrsAs ρ))) (seqLoop ps acc errs) (seqLoop ps' acc' errs') := by
  induction hp with
  | nil => intro Qs acc acc' errs errs' h1 h2; exact .pure (.ok ⟨by simpa using h1, h2⟩)
  | @cons T Ts p p' ps ps' hp _ ih =>
    intro Qs acc acc' errs errs' h1 h2
    unfold seqLoop
    have e : Qs ++ T :: Ts = (Qs ++ [T]) ++ Ts := by simp
    rw [e]
    refine MRel.bind hp ?_
    intro r r' hr
    cases hr with
    | success ht => exact ih (h1.snoc ht) h2
    | recovered ht he => exact ih (h1.snoc ht) (pw_append h2 he)
    | panic he => exact .pure (.error (pw_append h2 he))

/-- A struct or tuple with related parts. -/
def SeqRel (Ts : List (TRel n n')) (x : Tree n) (y : Tree n') : Prop :=
  ∃ sp l l', x = .seq sp l ∧ y = .seq sp l' ∧ Each Ts l l'

theorem tuple_rel {Ts : List (TRel n n')} {ps : List (P σ n)} {ps' : List (P τ n')} (hp : Parsers ρ SR Ts ps ps') :
    PRel ρ SR (SeqRel Ts) (produceTuple ps) (produceTuple ps') := by
  unfold produceTuple
  refine (seqLoop_rel hp .nil .nil).bind ?_
  intro r r' hr
  cases hr with
  | error he => exact .pure (.panic he)
  | ok h =>
    refine .pure (.ofPair ⟨_, _, _, rfl, ?_, h.1⟩ h.2)
    rw [h.1.spanOf]

section
variable (hP : Prims ρ o o' SR)
include hP

theorem applyFields_rel : ∀ {l : List (Tree n × Option (LSet n))} {l' : List (Tree n' × Option (LSet n'))},
    Pointwise (fun a b => b.1.span = a.1.span ∧ BothOr (SemAs ρ) a.2 b.2) l l' →
    MRel SR (fun _ _ => True) (applyFields o l) (applyFields o' l') := by
  intro l l' h
  induction h with
  | nil => exact .pure trivial
  | @cons a b l l' h _ ih =>
    obtain ⟨t, s⟩ := a
    obtain ⟨t', s'⟩ := b
    obtain ⟨h1, h2⟩ := h
    cases h2 with
    | none => exact ih
    | some h2 =>
      unfold applyFields
      dsimp only at h1
      rw [h1]
      refine (apply_rel hP _ h2).bind ?_
      intro _ _ _
      exact ih

theorem struct_rel {Ts : List (TRel n n')} {f : List (P σ n × Option (LSet n))} {f' : List (P τ n' × Option (LSet n'))}
    (hp : Parsers ρ SR Ts (f.map (·.1)) (f'.map (·.1))) (hs : Pointwise (BothOr (SemAs ρ)) (f.map (·.2)) (f'.map (·.2))) :
    PRel ρ SR (SeqRel Ts) (produceStruct o f) (produceStruct o' f') := by
  unfold produceStruct
  refine (seqLoop_rel hp .nil .nil).bind ?_
  intro r r' hr
  cases hr with
  | error he => exact .pure (.panic he)
  | @ok a b h =>
    obtain ⟨l, e⟩ := a
    obtain ⟨l', e'⟩ := b
    obtain ⟨h3, h4⟩ := h
    dsimp only at h3 h4 ⊢
    have hz : Pointwise (fun (a : Tree n × Option (LSet n)) (b : Tree n' × Option (LSet n')) =>
        b.1.span = a.1.span ∧ BothOr (SemAs ρ) a.2 b.2) (l.zip (f.map (·.2))) (l'.zip (f'.map (·.2))) := by
      generalize f.map (·.2) = s at hs
      generalize f'.map (·.2) = s' at hs
      rw [List.nil_append] at h3
      clear hp
      induction h3 generalizing s s' with
      | nil => exact .nil
      | @cons T _ _ _ _ _ hx _ ih =>
        cases hs with
        | nil => exact .nil
        | cons h1 h2 => exact .cons ⟨T.span _ _ hx, h1⟩ (ih _ _ h2)
    refine (applyFields_rel hP hz).bind ?_
    intro _ _ _
    refine .pure (.ofPair ⟨_, _, _, rfl, ?_, h3⟩ h4)
    rw [h3.spanOf]

/-- Variants with related trees. -/
def VarRel (T : Tree n → Tree n' → Prop) (i i' : Nat) (x : Tree n) (y : Tree n') : Prop :=
  ∃ t t', x = .variant i t ∧ y = .variant i' t' ∧ T t t'

theorem mapVariant_rel {T : TRel n n'} (i i' : Nat) {sem : Option (LSet n)} {sem' : Option (LSet n')}
    (hs : BothOr (SemAs ρ) sem sem') {r : Res n (Tree n)} {r' : Res n' (Tree n')} (h : ResRel ρ T r r') :
    PRel ρ SR (VarRel T i i') (mapVariant o i sem r) (mapVariant o' i' sem' r') := by
  unfold mapVariant
  cases h with
  | success ht =>
    refine (applyFields_rel hP (l := [(_, sem)]) (l' := [(_, sem')]) (pw_one ⟨T.span _ _ ht, hs⟩)).bind ?_
    intro _ _ _
    exact .pure (.success ⟨_, _, rfl, rfl, ht⟩)
  | recovered ht he =>
    refine (applyFields_rel hP (l := [(_, sem)]) (l' := [(_, sem')]) (pw_one ⟨T.span _ _ ht, hs⟩)).bind ?_
    intro _ _ _
    exact .pure (.recovered ⟨_, _, rfl, rfl, ht⟩ he)
  | panic he => exact .pure (.panic he)

theorem fail_rel {T : Tree n → Tree n' → Prop} {s : TSet n} {s' : TSet n'} (hs : SetAs ρ s s') :
    PRel ρ SR T (do let e ← o.mExpecting s; pure (.panic [e])) (do let e ← o'.mExpecting s'; pure (.panic [e])) := by
  refine (expecting_rel hP hs).bind ?_
  intro e e' h
  exact .pure (.panic (pw_one h))

/-- Both look-ups fail, or they find related variants. -/
inductive LookRel (ρ : Fin n → Fin n') (SR : σ → τ → Prop) (V : Nat → TRel n n') (q : Nat → Nat)
    (f : List (P σ n × Option (LSet n))) (f' : List (P τ n' × Option (LSet n'))) : Option Nat → Option Nat → Prop
  | none : LookRel ρ SR V q f f' none none
  | some {i p s p' s'} : f[i]? = some (p, s) → f'[q i]? = some (p', s') → PRel ρ SR (V i) p p' →
      BothOr (SemAs ρ) s s' → LookRel ρ SR V q f f' (some i) (some (q i))

theorem enum_rel (V : Nat → TRel n n') (q : Nat → Nat) {look : Option (TokenSrc n) → Option Nat}
    {look' : Option (TokenSrc n') → Option Nat} {first : TSet n} {first' : TSet n'} (hs : SetAs ρ first first')
    {f : List (P σ n × Option (LSet n))} {f' : List (P τ n' × Option (LSet n'))}
    (hl : ∀ x, LookRel ρ SR V q f f' (look x) (look' (x.map (TokenSrc.retok ρ)))) :
    PRel ρ SR (fun x y => ∃ i, VarRel (V i) i (q i) x y) (produceEnum o look first f) (produceEnum o' look' first' f') := by
  unfold produceEnum
  refine (peekSrc_rel hP).bind ?_
  rintro tok _ rfl
  have := hl tok
  generalize look tok = a at this
  generalize look' (tok.map (TokenSrc.retok ρ)) = b at this
  cases this with
  | none => exact fail_rel hP hs
  | some h1 h2 h3 h4 =>
    dsimp only
    rw [h1, h2]
    refine MRel.bind h3 ?_
    intro r r' hr
    exact (mapVariant_rel hP _ _ h4 hr).mono fun a b h => ⟨_, h⟩

end

end Teleparse.Relab
