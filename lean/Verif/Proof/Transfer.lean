import Verif.Proof.Sound
import Verif.Proof.Late
import Verif.Proof.Whole
import Verif.Proof.Order
/-
Two metadata with the same FIRST sets and tables give the same results as long as no error is reported,
up to what `Punct` takes for its end.
-/
namespace Teleparse
variable {m n : Nat} {σ : Type}

/-- What `x` returns from `s`, the result being dirty or not, `y` returns too unless it is dirty. -/
def TferAt {α : Type} (D : α → Prop) (x y : M σ α) (s : σ) : Prop :=
  ∀ a s', x s = .ok a s' → D a ∨ y s = .ok a s'

def Tfer {α : Type} (D : α → Prop) (x y : M σ α) : Prop := ∀ s, TferAt D x y s

/-- Every result is dirty. -/
def Dies {α : Type} (D : α → Prop) (x : M σ α) : Prop := ∀ s a s', x s = .ok a s' → D a

section
variable {α β : Type} {D : α → Prop} {E : β → Prop}

theorem Tfer.refl (x : M σ α) : Tfer D x x := fun _ _ _ h => .inr h

theorem Dies.tr {x y : M σ α} (h : Dies D x) : Tfer D x y := fun s a s' hx => .inl (h s a s' hx)

theorem Dies.bind {x : M σ α} {f : α → M σ β} (h : ∀ a, Dies E (f a)) : Dies E (x >>= f) := by
  intro s b s' hx
  obtain ⟨a, s1, _, h2⟩ := bind_ok.1 hx
  exact h a _ _ _ h2

theorem Dies.bind' {x : M σ α} {f : α → M σ β} (hx : Dies D x) (h : ∀ a, D a → Dies E (f a)) :
    Dies E (x >>= f) := by
  intro s b s' hb
  obtain ⟨a, s1, h1, h2⟩ := bind_ok.1 hb
  exact h a (hx _ _ _ h1) _ _ _ h2

theorem Dies.pure {a : α} (h : D a) : Dies D (Pure.pure a : M σ α) := by
  intro s b s' hb
  obtain ⟨rfl, rfl⟩ := pure_ok.1 hb
  exact h

theorem Dies.fuel : Dies D (M.fuel : M σ α) := by intro s b s' hb; cases hb

/-- Binding, where the rest is compared only in states that can be reached. -/
theorem TferAt.bind {x y : M σ α} {f g : α → M σ β} {s : σ} (hx : TferAt D x y s)
    (hd : ∀ a, D a → Dies E (f a)) (hf : ∀ a s1, x s = .ok a s1 → TferAt E (f a) (g a) s1) :
    TferAt E (x >>= f) (y >>= g) s := by
  intro b s' hb
  obtain ⟨a, s1, h1, h2⟩ := bind_ok.1 hb
  rcases hx a s1 h1 with ha | hy
  · exact .inl (hd a ha _ _ _ h2)
  · rcases hf a s1 h1 b s' h2 with he | he
    · exact .inl he
    · exact .inr (bind_ok.2 ⟨a, s1, hy, he⟩)

theorem Tfer.bind {x y : M σ α} {f g : α → M σ β} (hx : Tfer D x y) (hd : ∀ a, D a → Dies E (f a))
    (hf : ∀ a, Tfer E (f a) (g a)) : Tfer E (x >>= f) (y >>= g) :=
  fun s => (hx s).bind hd fun a s1 _ => hf a s1

/-- The same first step. -/
theorem Tfer.same {x : M σ α} {f g : α → M σ β} (hf : ∀ a, Tfer E (f a) (g a)) : Tfer E (x >>= f) (x >>= g) :=
  Tfer.bind (D := fun _ => False) (Tfer.refl x) (fun _ h => h.elim) hf

end

/-! ### What is dirty -/

/-- A result with errors. -/
def DR : Res n (Tree n) → Prop := fun r => r.errs ≠ []
def DE (e : List (Err n)) : Prop := e ≠ []
def DS : Except (List (Err n)) (List (Tree n) × List (Err n)) → Prop
  | .error e => e ≠ []
  | .ok (_, e) => e ≠ []
def DI (r : List (Tree n) × List (Err n) × Nat) : Prop := r.2.1 ≠ []
def DL (r : List (Tree n) × List (Err n)) : Prop := r.2 ≠ []
def DA (a : Acc n) : Prop := a.errs ≠ []
def DB (r : Bool × Acc n) : Prop := r.2.errs ≠ []
def DH (h : RHead n) : Prop := h.errs ≠ [] ∨ h.panic ≠ none
def DT (r : Option (Tree n) × List (Err n) × Option (Err n)) : Prop := r.2.1 ≠ [] ∨ r.2.2 ≠ none

theorem ofPair_dirty {x : Tree n} {e : List (Err n)} (h : e ≠ []) : DR (Res.ofPair x e) := by
  unfold DR Res.ofPair
  cases e with
  | nil => exact absurd rfl h
  | cons a e => simp [Res.errs]

theorem append_ne_left {α : Type} {a b : List α} (h : a ≠ []) : a ++ b ≠ [] := by simp [h]
theorem append_ne_right {α : Type} {a b : List α} (h : b ≠ []) : a ++ b ≠ [] := by simp [h]

variable {o : Ops σ n}

theorem seqLoop_dies : ∀ (ps : List (P σ n)) acc errs, errs ≠ [] → Dies DS (seqLoop ps acc errs)
  | [], acc, errs, h => .pure h
  | p :: ps, acc, errs, h => by
    refine .bind fun r => ?_
    cases r with
    | success t => exact seqLoop_dies ps _ _ h
    | recovered t e => exact seqLoop_dies ps _ _ (append_ne_left h)
    | panic e => exact .pure (append_ne_left (b := e) h)

theorem seqLoop_tr {ps ps' : List (P σ n)} (h : Core.Forall2 (fun a b => Tfer DR a b) ps ps') :
    ∀ acc errs, Tfer DS (seqLoop ps acc errs) (seqLoop ps' acc errs) := by
  induction h with
  | nil => intro acc errs; exact .refl _
  | @cons p p' ps ps' hp _ ih =>
    intro acc errs
    refine Tfer.bind hp (fun r hr => ?_) fun r => ?_
    · cases r with
      | success t => exact absurd rfl hr
      | recovered t e => exact seqLoop_dies ps _ _ (append_ne_right hr)
      | panic e => exact .pure (append_ne_right (b := e) hr)
    · cases r with
      | success t => exact ih _ _
      | recovered t e => exact ih _ _
      | panic e => exact .refl _

theorem tuple_tr {ps ps' : List (P σ n)} (h : Core.Forall2 (fun a b => Tfer DR a b) ps ps') :
    Tfer DR (produceTuple ps) (produceTuple ps') := by
  refine Tfer.bind (seqLoop_tr h _ _) (fun r hr => ?_) fun r => .refl _
  rcases r with e | ⟨l, e⟩
  · exact .pure (show DR (.panic e) from hr)
  · exact .pure (ofPair_dirty hr)

theorem struct_tr {fs fs' : List (P σ n × Option (LSet n))}
    (h : Core.Forall2 (fun a b => Tfer DR a.1 b.1 ∧ a.2 = b.2) fs fs') :
    Tfer DR (produceStruct o fs) (produceStruct o fs') := by
  have h1 : Core.Forall2 (fun a b => Tfer DR a b) (fs.map (·.1)) (fs'.map (·.1)) := by
    induction h with
    | nil => exact .nil
    | cons hr _ ih => exact .cons hr.1 ih
  have h2 : fs.map (·.2) = fs'.map (·.2) := by
    clear h1
    induction h with
    | nil => rfl
    | cons hr _ ih => simp [hr.2, ih]
  unfold produceStruct
  rw [h2]
  refine Tfer.bind (seqLoop_tr h1 _ _) (fun r hr => ?_) fun r => .refl _
  rcases r with e | ⟨l, e⟩
  · exact .pure (show DR (.panic e) from hr)
  · exact .bind fun _ => .pure (ofPair_dirty hr)

theorem panic_dies (s : TSet n) : Dies DR (do let e ← o.mExpecting s; pure (.panic [e]) : P σ n) :=
  .bind fun e => .pure (by simp [DR, Res.errs])

theorem mapVariant_dies (i : Nat) (sem : Option (LSet n)) {r : Res n (Tree n)} (h : DR r) :
    Dies DR (mapVariant o i sem r) := by
  cases r with
  | success t => exact absurd rfl h
  | recovered t e => exact .bind fun _ => .pure h
  | panic e => exact .pure h

theorem enum_tr {look look' : Option (TokenSrc n) → Option Nat} (hl : ∀ x, look x = look' x) {first first' : TSet n}
    {fs fs' : List (P σ n × Option (LSet n))}
    (h : Core.Forall2 (fun a b => Tfer DR a.1 b.1 ∧ a.2 = b.2) fs fs') :
    Tfer DR (produceEnum o look first fs) (produceEnum o look' first' fs') := by
  refine Tfer.same fun tok => ?_
  have key : ∀ i : Nat, (fs[i]? = none ∧ fs'[i]? = none) ∨
      ∃ a b, fs[i]? = some a ∧ fs'[i]? = some b ∧ Tfer DR a.1 b.1 ∧ a.2 = b.2 := by
    induction h with
    | nil => intro i; exact .inl ⟨rfl, rfl⟩
    | cons hr hs ih =>
      intro i
      cases i with
      | zero => exact .inr ⟨_, _, rfl, rfl, hr⟩
      | succ i => simpa using ih i
  rw [← hl]
  cases look tok with
  | none => exact (panic_dies _).tr
  | some i =>
    rcases key i with ⟨h1, h2⟩ | ⟨⟨p, s⟩, ⟨p', s'⟩, h1, h2, h3, h4⟩
    · simp only [h1, h2]
      exact (panic_dies _).tr
    · simp only [h1, h2]
      simp only at h3 h4
      subst h4
      exact Tfer.bind h3 (fun r hr => mapVariant_dies _ _ hr) fun r => .refl _

theorem option_tr {first first' : TSet n} (hs : first.SemEq first') {p p' : P σ n} (hp : Tfer DR p p')
    (mk : Span → Option (Tree n) → Tree n) : Tfer DR (produceOption o first p mk) (produceOption o first' p' mk) := by
  refine Tfer.same fun tok => ?_
  try dsimp only
  rw [← hs tok]
  cases (tok.isSome && first.contains tok)
  · exact .refl _
  · refine Tfer.bind hp (fun r hr => ?_) fun r => .refl _
    cases r with
    | success t => exact absurd rfl hr
    | recovered t e => exact .pure hr
    | panic e => exact .bind fun _ => .pure hr

theorem text_tr {p p' : P σ n} (hp : Tfer DR p p') : Tfer DR (produceText o p) (produceText o p') := by
  refine Tfer.bind hp (fun r hr => ?_) fun r => .refl _
  cases r with
  | success t => exact absurd rfl hr
  | recovered t e => exact .bind fun _ => .pure hr
  | panic e => exact .pure hr

theorem iterLoop_dies (first : TSet n) (p : P σ n) : ∀ fuel acc errs hi, errs ≠ [] →
    Dies DI (iterLoop o first p fuel acc errs hi)
  | 0, _, _, _, _ => .fuel
  | fuel + 1, acc, errs, hi, h => by
    refine .bind fun tok => ?_
    try dsimp only
    cases (tok.isSome && first.contains tok)
    · exact .pure h
    · refine .bind fun r => ?_
      cases r with
      | success t => exact iterLoop_dies first p fuel _ _ _ h
      | recovered t e => exact iterLoop_dies first p fuel _ _ _ (append_ne_left h)
      | panic e => exact .pure (append_ne_left (b := e) h)

theorem iterLoop_tr {first first' : TSet n} (hs : first.SemEq first') {p p' : P σ n} (hp : Tfer DR p p') :
    ∀ fuel acc errs hi, Tfer DI (iterLoop o first p fuel acc errs hi) (iterLoop o first' p' fuel acc errs hi)
  | 0, _, _, _ => .refl _
  | fuel + 1, acc, errs, hi => by
    refine Tfer.same fun tok => ?_
    try dsimp only
    rw [← hs tok]
    cases (tok.isSome && first.contains tok)
    · exact .refl _
    · refine Tfer.bind hp (fun r hr => ?_) fun r => ?_
      · cases r with
        | success t => exact absurd rfl hr
        | recovered t e => exact iterLoop_dies _ _ _ _ _ _ (append_ne_right hr)
        | panic e => exact .pure (append_ne_right (b := e) hr)
      · cases r with
        | success t => exact iterLoop_tr hs hp fuel _ _ _
        | recovered t e => exact iterLoop_tr hs hp fuel _ _ _
        | panic e => exact .refl _

theorem plusRest_dies (first : TSet n) (p : P σ n) (fuel : Nat) (t : Tree n) {errs : List (Err n)} (h : errs ≠ []) :
    Dies DR (plusRest o first p fuel t errs) :=
  .bind' (iterLoop_dies first p fuel _ _ _ h) fun _ hr => .pure (ofPair_dirty hr)

theorem plusRest_tr {first first' : TSet n} (hs : first.SemEq first') {p p' : P σ n} (hp : Tfer DR p p')
    (fuel : Nat) (t : Tree n) (errs : List (Err n)) :
    Tfer DR (plusRest o first p fuel t errs) (plusRest o first' p' fuel t errs) :=
  Tfer.bind (iterLoop_tr hs hp fuel _ _ _) (fun _ hr => .pure (ofPair_dirty hr)) fun _ => .refl _

theorem plus_tr {first first' : TSet n} (hs : first.SemEq first') {p p' : P σ n} (hp : Tfer DR p p') (fuel : Nat) :
    Tfer DR (producePlus o first p fuel) (producePlus o first' p' fuel) := by
  refine Tfer.bind hp (fun r hr => ?_) fun r => ?_
  · cases r with
    | success t => exact absurd rfl hr
    | recovered t e => exact plusRest_dies _ _ _ _ hr
    | panic e => exact .pure hr
  · cases r with
    | success t => exact plusRest_tr hs hp _ _ _
    | recovered t e => exact plusRest_tr hs hp _ _ _
    | panic e => exact .refl _

theorem loopSkip_dies (first : TSet n) (fuel : Nat) (errs : List (Err n)) :
    Dies (fun r : List (Err n) × Bool => r.1 ≠ []) (loopSkip o first fuel errs) :=
  .bind fun _ => .bind fun _ => .bind fun _ => .pure (append_ne_right (by simp))

theorem loopElem_dies (p : P σ n) (out : List (Tree n)) {errs : List (Err n)} (h : errs ≠ []) :
    Dies (fun r : Bool × List (Tree n) × List (Err n) => r.2.2 ≠ []) (loopElem o p out errs) := by
  refine .bind fun before => .bind fun r => .bind fun sp => ?_
  try dsimp only
  by_cases hl : before.lo = sp.lo
  · rw [if_pos hl]; exact .pure (append_ne_right (by simp))
  · rw [if_neg hl]
    refine .pure ?_
    cases r with
    | success t => exact h
    | recovered t e => exact append_ne_left h
    | panic e => exact append_ne_left h

theorem loopElem_tr {p p' : P σ n} (hp : Tfer DR p p') (out : List (Tree n)) (errs : List (Err n)) :
    Tfer (fun r : Bool × List (Tree n) × List (Err n) => r.2.2 ≠ []) (loopElem o p out errs)
      (loopElem o p' out errs) := by
  refine Tfer.same fun before => Tfer.bind hp (fun r hr => ?_) fun r => .refl _
  refine .bind fun sp => ?_
  try dsimp only
  by_cases hl : before.lo = sp.lo
  · rw [if_pos hl]; exact .pure (append_ne_right (by simp))
  · rw [if_neg hl]
    refine .pure ?_
    cases r with
    | success t => exact absurd rfl hr
    | recovered t e => exact append_ne_right hr
    | panic e => exact append_ne_right hr

theorem loopLoop_dies (first : TSet n) (p : P σ n) : ∀ fuel out errs, errs ≠ [] →
    Dies DL (loopLoop o first p fuel out errs)
  | 0, _, _, _ => .fuel
  | fuel + 1, out, errs, h => by
    refine .bind fun tok => ?_
    try dsimp only
    cases tok.isNone
    · refine .bind' (D := fun r : List (Err n) × Bool => r.1 ≠ []) ?_ fun r hr => ?_
      · cases first.contains tok
        · exact loopSkip_dies _ _ _
        · exact .pure h
      · obtain ⟨errs, more⟩ := r
        cases more
        · exact .pure hr
        · refine .bind' (loopElem_dies p out hr) fun r hr => ?_
          obtain ⟨go, out, errs⟩ := r
          cases go
          · exact .pure hr
          · exact loopLoop_dies first p fuel _ _ hr
    · exact .pure h

theorem loopLoop_tr {first first' : TSet n} (hs : first.SemEq first') {p p' : P σ n} (hp : Tfer DR p p') :
    ∀ fuel out errs, Tfer DL (loopLoop o first p fuel out errs) (loopLoop o first' p' fuel out errs)
  | 0, _, _ => .refl _
  | fuel + 1, out, errs => by
    refine Tfer.same fun tok => ?_
    try dsimp only
    rw [← hs tok]
    cases tok.isNone
    · refine Tfer.bind (D := fun r : List (Err n) × Bool => r.1 ≠ []) ?_ (fun r hr => ?_) fun r => ?_
      · cases first.contains tok
        · exact (loopSkip_dies _ _ _).tr
        · exact .refl _
      · obtain ⟨errs, more⟩ := r
        cases more
        · exact .pure hr
        · refine .bind' (loopElem_dies p out hr) fun r hr => ?_
          obtain ⟨go, out, errs⟩ := r
          cases go
          · exact .pure hr
          · exact loopLoop_dies first p fuel _ _ hr
      · obtain ⟨errs, more⟩ := r
        cases more
        · exact .refl _
        · refine Tfer.bind (loopElem_tr hp _ _) (fun r hr => ?_) fun r => ?_
          · obtain ⟨go, out, errs⟩ := r
            cases go
            · exact .pure hr
            · exact loopLoop_dies first p fuel _ _ hr
          · obtain ⟨go, out, errs⟩ := r
            cases go
            · exact .refl _
            · exact loopLoop_tr hs hp fuel _ _
    · exact .refl _

theorem loop_tr {first first' : TSet n} (hs : first.SemEq first') {p p' : P σ n} (hp : Tfer DR p p') (fuel : Nat) :
    Tfer DR (produceLoop o first p fuel) (produceLoop o first' p' fuel) := by
  refine Tfer.bind (loopLoop_tr hs hp fuel _ _) (fun r hr => ?_) fun r => .refl _
  obtain ⟨out, errs⟩ := r
  try dsimp only
  cases out.isEmpty
  · exact .pure (ofPair_dirty hr)
  · exact .bind fun _ => .pure (ofPair_dirty hr)

/-! ### Lists with separators -/

/-- A failure without errors leaves the parser at the end of input. -/
def SilentEnd (o : Ops σ n) (p : P σ n) : Prop :=
  ∀ s s', p s = .ok (.panic []) s' → ∀ x s'', o.mPeekSrc s' = .ok x s'' → x = none

theorem mergePanic_some {p : Option (Err n)} {e : List (Err n)} (h : p ≠ none ∨ e ≠ []) : mergePanic p e ≠ none := by
  intro hm
  have := mergePanic_none hm
  rcases h with h | h
  · exact h this.1
  · exact h this.2

theorem toList_ne {α : Type} {p : Option α} (h : p ≠ none) : p.toList ≠ [] := fun h' => h (toList_nil.1 h')

/-- The state between the halves of the loop body of `Split`. -/
def DTry : Except (Acc n) (Option (TokenSrc n) × Option (Err n)) → Prop
  | .error a => a.errs ≠ []
  | .ok (_, panic) => panic ≠ none

theorem splitTry_dies (ef : TSet n) (pt : P σ n) (q : Tree n) (a : Acc n) {panic : Option (Err n)}
    (h : panic ≠ none) : Dies DTry (splitTry o ef pt q a panic) := by
  refine .bind fun tok => ?_
  try dsimp only
  cases (ef.contains tok || ef.containsE)
  · cases panic with
    | none => exact absurd rfl h
    | some p => exact .bind fun p => .pure (by simp [DTry])
  · refine .bind fun r => ?_
    cases r with
    | success t => exact .pure (show DTry (.error _) from append_ne_right (toList_ne h))
    | recovered t e => exact .pure (show DTry (.error _) from append_ne_right (toList_ne h))
    | panic e => exact .bind fun tok => .pure (show DTry (.ok _) from mergePanic_some (.inl h))

theorem splitTry_tr {ef ef' : TSet n} (hs : ef.SemEq ef') {pt pt' : P σ n} (hp : Tfer DR pt pt') (q : Tree n)
    (a : Acc n) (panic : Option (Err n)) : Tfer DTry (splitTry o ef pt q a panic) (splitTry o ef' pt' q a panic) := by
  refine Tfer.same fun tok => ?_
  try dsimp only
  rw [← hs tok, show ef'.containsE = ef.containsE from (hs none).symm]
  cases (ef.contains tok || ef.containsE)
  · refine Dies.tr ?_
    cases panic with
    | none => exact .bind fun e => .pure (by simp [DTry])
    | some p => exact .bind fun p => .pure (by simp [DTry])
  · refine Tfer.bind hp (fun r hr => ?_) fun r => .refl _
    cases r with
    | success t => exact absurd rfl hr
    | recovered t e =>
      exact .pure (show DTry (.error _) from append_ne_left (append_ne_right hr))
    | panic e => exact .bind fun tok => .pure (show DTry (.ok _) from mergePanic_some (.inr hr))

/-- After a silent failure the lookahead is the end of input. -/
theorem splitTry_end {ef : TSet n} {pt : P σ n} (he : SilentEnd o pt) {q : Tree n} {a : Acc n} {panic : Option (Err n)}
    {s s' : σ} {tok : Option (TokenSrc n)} (h : splitTry o ef pt q a panic s = .ok (.ok (tok, none)) s') :
    tok = none := by
  unfold splitTry at h
  obtain ⟨tok0, s1, _, h⟩ := bind_ok.1 h
  cases hc : (ef.contains tok0 || ef.containsE) with
  | false =>
    rw [hc] at h
    cases panic with
    | none =>
      obtain ⟨e, s2, _, h⟩ := bind_ok.1 h
      have := (pure_ok.1 h).1
      simp at this
    | some p =>
      obtain ⟨e, s2, _, h⟩ := bind_ok.1 h
      have := (pure_ok.1 h).1
      simp at this
  | true =>
    rw [hc] at h
    obtain ⟨r, s2, h1, h⟩ := bind_ok.1 h
    cases r with
    | success t => have := (pure_ok.1 h).1; cases this
    | recovered t e => have := (pure_ok.1 h).1; cases this
    | panic e =>
      obtain ⟨tok1, s3, h2, h⟩ := bind_ok.1 h
      have hm := (pure_ok.1 h).1
      injection hm with hm
      injection hm with hm1 hm2
      obtain ⟨_, rfl⟩ := mergePanic_none hm2
      rw [← hm1]
      exact he _ _ h1 _ _ h2

/-- The same when errors were recorded before. -/
def DTry' (a : Acc n) : Except (Acc n) (Option (TokenSrc n) × Option (Err n)) → Prop
  | .error a' => a'.errs ≠ []
  | .ok (_, p) => a.errs ≠ [] ∨ p ≠ none

theorem splitTry_dies' (ef : TSet n) (pt : P σ n) (q : Tree n) (a : Acc n) {panic : Option (Err n)}
    (h : a.errs ≠ [] ∨ panic ≠ none) : Dies (DTry' a) (splitTry o ef pt q a panic) := by
  rcases h with h | h
  · refine .bind fun tok => ?_
    try dsimp only
    cases (ef.contains tok || ef.containsE)
    · cases panic with
      | none => exact .bind fun e => .pure (.inl h)
      | some p => exact .bind fun p => .pure (.inl h)
    · refine .bind fun r => ?_
      cases r with
      | success t => exact .pure (show DTry' a (.error _) from append_ne_left h)
      | recovered t e => exact .pure (show DTry' a (.error _) from append_ne_left (append_ne_left h))
      | panic e => exact .bind fun tok => .pure (.inl h)
  · intro s r s' hx
    have := splitTry_dies ef pt q a h s r s' hx
    rcases r with a' | ⟨tok, p⟩
    · exact this
    · exact .inr this

theorem splitInner_dies (ef pf fol : TSet n) (pt : P σ n) (q : Tree n) : ∀ fuel a panic,
    (a.errs ≠ [] ∨ panic ≠ none) → Dies DB (splitInner o ef pf fol pt q fuel a panic)
  | 0, _, _, _ => .fuel
  | fuel + 1, a, panic, h => by
    refine .bind' (splitTry_dies' ef pt q a h) fun r hr => ?_
    rcases r with a' | ⟨tok, p⟩
    · exact .pure hr
    · have fin : a.errs ++ p.toList ≠ [] :=
        hr.elim append_ne_left fun hp => append_ne_right (toList_ne hp)
      try dsimp only
      cases pf.contains tok
      · cases (tok.isNone || fol.contains tok)
        · exact .bind fun _ => splitInner_dies ef pf fol pt q fuel _ _ hr
        · exact .pure fin
      · exact .pure fin

theorem splitInner_tr {ef ef' pf pf' : TSet n} (fol fol' : TSet n) (hs : ef.SemEq ef') (hq : pf.SemEq pf')
    {pt pt' : P σ n} (hp : Tfer DR pt pt') (he : SilentEnd o pt) (q : Tree n) : ∀ fuel a panic,
    Tfer DB (splitInner o ef pf fol pt q fuel a panic) (splitInner o ef' pf' fol' pt' q fuel a panic)
  | 0, _, _ => .refl _
  | fuel + 1, a, panic => by
    intro s
    refine TferAt.bind (splitTry_tr hs hp q a panic s) (fun r hr => ?_) fun r s1 hr => ?_
    · rcases r with a' | ⟨tok, p⟩
      · exact .pure hr
      · try dsimp only
        cases pf.contains tok
        · cases (tok.isNone || fol.contains tok)
          · exact .bind fun _ => splitInner_dies ef pf fol pt q fuel _ _ (.inr hr)
          · exact .pure (append_ne_right (toList_ne hr))
        · exact .pure (append_ne_right (toList_ne hr))
    · rcases r with a' | ⟨tok, p⟩
      · exact Tfer.refl _ s1
      · by_cases hpn : p = none
        · subst hpn
          cases splitTry_end he hr
          try dsimp only
          rw [← hq none]
          exact Tfer.refl _ s1
        · refine Dies.tr ?_ s1
          try dsimp only
          cases pf.contains tok
          · cases (tok.isNone || fol.contains tok)
            · exact .bind fun _ => splitInner_dies ef pf fol pt q fuel _ _ (.inr hpn)
            · exact .pure (append_ne_right (toList_ne hpn))
          · exact .pure (append_ne_right (toList_ne hpn))

theorem splitOuter_dies (ef pf fol : TSet n) (pt pp : P σ n) : ∀ fuel a, a.errs ≠ [] →
    Dies DA (splitOuter o ef pf fol pt pp fuel a)
  | 0, _, _ => .fuel
  | fuel + 1, a, h => by
    refine .bind fun tok => ?_
    try dsimp only
    cases (tok.isSome && pf.contains tok)
    · exact .pure h
    · refine .bind fun r => ?_
      cases r with
      | panic e => exact .pure (append_ne_left (b := e) h)
      | success q =>
        refine .bind' (splitInner_dies ef pf fol pt q fuel a none (.inl h)) fun r hr => ?_
        obtain ⟨go, a⟩ := r
        cases go
        · exact .pure hr
        · exact splitOuter_dies ef pf fol pt pp fuel _ hr
      | recovered q e =>
        refine .bind' (splitInner_dies ef pf fol pt q fuel _ none (.inl (append_ne_left h))) fun r hr => ?_
        obtain ⟨go, a⟩ := r
        cases go
        · exact .pure hr
        · exact splitOuter_dies ef pf fol pt pp fuel _ hr

theorem splitOuter_tr {ef ef' pf pf' : TSet n} (fol fol' : TSet n) (hs : ef.SemEq ef') (hq : pf.SemEq pf')
    {pt pt' pp pp' : P σ n} (hp : Tfer DR pt pt') (hpp : Tfer DR pp pp') (he : SilentEnd o pt) : ∀ fuel a,
    Tfer DA (splitOuter o ef pf fol pt pp fuel a) (splitOuter o ef' pf' fol' pt' pp' fuel a)
  | 0, _ => .refl _
  | fuel + 1, a => by
    have go : ∀ q a, Tfer DA (do
        let (go, a) ← splitInner o ef pf fol pt q fuel a none
        if go then splitOuter o ef pf fol pt pp fuel a else pure a) (do
        let (go, a) ← splitInner o ef' pf' fol' pt' q fuel a none
        if go then splitOuter o ef' pf' fol' pt' pp' fuel a else pure a) := by
      intro q a
      refine Tfer.bind (splitInner_tr fol fol' hs hq hp he q fuel a none) (fun r hr => ?_) fun r => ?_
      · obtain ⟨go, a⟩ := r
        cases go
        · exact .pure hr
        · exact splitOuter_dies ef pf fol pt pp fuel _ hr
      · obtain ⟨go, a⟩ := r
        cases go
        · exact .refl _
        · exact splitOuter_tr fol fol' hs hq hp hpp he fuel _
    refine Tfer.same fun tok => ?_
    try dsimp only
    rw [← hq tok]
    cases (tok.isSome && pf.contains tok)
    · exact .refl _
    · refine Tfer.bind hpp (fun r hr => ?_) fun r => ?_
      · cases r with
        | panic e => exact .pure (append_ne_right (b := e) hr)
        | success q => exact absurd rfl hr
        | recovered q e =>
          refine .bind' (splitInner_dies ef pf fol pt q fuel _ none (.inl (append_ne_right hr))) fun r hr => ?_
          obtain ⟨go, a⟩ := r
          cases go
          · exact .pure hr
          · exact splitOuter_dies ef pf fol pt pp fuel _ hr
      · cases r with
        | panic e => exact .refl _
        | success q => exact go q a
        | recovered q e => exact go q _

theorem split_tr {ef ef' pf pf' : TSet n} (fol fol' : TSet n) (hs : ef.SemEq ef') (hq : pf.SemEq pf')
    {pt pt' pp pp' : P σ n} (hp : Tfer DR pt pt') (hpp : Tfer DR pp pp') (he : SilentEnd o pt) (fuel : Nat) :
    Tfer DR (produceSplit o ef pf fol pt pp fuel) (produceSplit o ef' pf' fol' pt' pp' fuel) := by
  refine Tfer.bind hp (fun r hr => ?_) fun r => ?_
  · cases r with
    | success t => exact absurd rfl hr
    | recovered t e => exact .bind' (splitOuter_dies ef pf fol pt pp fuel _ hr) fun _ ha => .pure (ofPair_dirty ha)
    | panic e => exact .pure hr
  · cases r with
    | panic e => exact .refl _
    | success t =>
      exact Tfer.bind (splitOuter_tr fol fol' hs hq hp hpp he fuel _) (fun _ ha => .pure (ofPair_dirty ha)) fun _ => .refl _
    | recovered t e =>
      exact Tfer.bind (splitOuter_tr fol fol' hs hq hp hpp he fuel _) (fun _ ha => .pure (ofPair_dirty ha)) fun _ => .refl _

/-- The state between the halves of the loop body of `Punct`. -/
def DPun (a : Acc n) : Except (Bool × Acc n) (Option (Err n)) → Prop
  | .error r => r.2.errs ≠ []
  | .ok p => a.errs ≠ [] ∨ p ≠ none

theorem punctTry_dies (ef fol : TSet n) (pt : P σ n) (a : Acc n) {panic : Option (Err n)}
    (h : a.errs ≠ [] ∨ panic ≠ none) : Dies (DPun a) (punctTry o ef fol pt a panic) := by
  have fin : a.errs ++ panic.toList ≠ [] := h.elim append_ne_left fun hp => append_ne_right (toList_ne hp)
  refine .bind fun tok => ?_
  try dsimp only
  cases tok.isNone
  · cases ef.contains tok
    · cases fol.contains tok
      · cases panic with
        | none => exact .bind fun e => .pure (.inr (by simp))
        | some p => exact .bind fun p => .pure (.inr (by simp))
      · exact .pure fin
    · refine .bind fun r => ?_
      cases r with
      | success t => exact .pure fin
      | recovered t e => exact .pure (show DPun a (.error _) from append_ne_left fin)
      | panic e => exact .pure (h.elim .inl fun hp => .inr (mergePanic_some (.inl hp)))
  · exact .pure fin

theorem punctTry_tr {ef ef' fol fol' : TSet n} (hs : ef.SemEq ef')
    (hf : ∀ tok, fol.contains (some tok) = true → fol'.contains (some tok) = true)
    {pt pt' : P σ n} (hp : Tfer DR pt pt') (a : Acc n) (panic : Option (Err n)) :
    Tfer (DPun a) (punctTry o ef fol pt a panic) (punctTry o ef' fol' pt' a panic) := by
  refine Tfer.same fun tok => ?_
  try dsimp only
  rw [← hs tok]
  cases tok with
  | none => exact .refl _
  | some tok =>
    cases hef : ef.contains (some tok) with
    | false =>
      cases hfo : fol.contains (some tok) with
      | false =>
        refine Dies.tr ?_
        cases panic with
        | none => exact .bind fun e => .pure (.inr (by simp))
        | some p => exact .bind fun p => .pure (.inr (by simp))
      | true => rw [hf tok hfo]; exact .refl _
    | true =>
      refine Tfer.bind hp (fun r hr => ?_) fun r => .refl _
      cases r with
      | success t => exact absurd rfl hr
      | recovered t e => exact .pure (show DPun a (.error _) from append_ne_right hr)
      | panic e => exact .pure (.inr (mergePanic_some (.inr hr)))

/-- After a silent failure the parser is at the end of input. -/
theorem punctTry_end {ef fol : TSet n} {pt : P σ n} (he : SilentEnd o pt) {a : Acc n} {panic : Option (Err n)}
    {s s' : σ} (h : punctTry o ef fol pt a panic s = .ok (.ok none) s') :
    ∀ x s'', o.mPeekSrc s' = .ok x s'' → x = none := by
  unfold punctTry at h
  obtain ⟨tok0, s1, _, h⟩ := bind_ok.1 h
  cases hn : tok0.isNone with
  | true => rw [hn] at h; have := (pure_ok.1 h).1; cases this
  | false =>
    rw [hn] at h
    cases hc : ef.contains tok0 with
    | false =>
      rw [hc] at h
      cases hfo : fol.contains tok0 with
      | true => rw [hfo] at h; have := (pure_ok.1 h).1; cases this
      | false =>
        rw [hfo] at h
        cases panic with
        | none =>
          obtain ⟨e, s2, _, h⟩ := bind_ok.1 h
          have := (pure_ok.1 h).1
          simp at this
        | some p =>
          obtain ⟨e, s2, _, h⟩ := bind_ok.1 h
          have := (pure_ok.1 h).1
          simp at this
    | true =>
      rw [hc] at h
      obtain ⟨r, s2, h1, h⟩ := bind_ok.1 h
      cases r with
      | success t => have := (pure_ok.1 h).1; cases this
      | recovered t e => have := (pure_ok.1 h).1; cases this
      | panic e =>
        obtain ⟨hm, rfl⟩ := pure_ok.1 h
        injection hm with hm
        obtain ⟨_, rfl⟩ := mergePanic_none hm
        exact he _ _ h1

theorem punctInner_dies (ef pf fol : TSet n) (pt : P σ n) : ∀ fuel a panic,
    (a.errs ≠ [] ∨ panic ≠ none) → Dies DB (punctInner o ef pf fol pt fuel a panic)
  | 0, _, _, _ => .fuel
  | fuel + 1, a, panic, h => by
    refine .bind' (punctTry_dies ef fol pt a h) fun r hr => ?_
    rcases r with a' | p
    · exact .pure hr
    · have fin : a.errs ++ p.toList ≠ [] :=
        hr.elim append_ne_left fun hp => append_ne_right (toList_ne hp)
      refine .bind fun tok => ?_
      try dsimp only
      cases pf.contains tok
      · cases (tok.isNone || fol.contains tok)
        · exact .bind fun _ => punctInner_dies ef pf fol pt fuel _ _ hr
        · exact .pure fin
      · exact .pure fin

theorem punctRest_dies (ef pf fol : TSet n) (pt : P σ n) (fuel : Nat) (a : Acc n) {p : Option (Err n)}
    (hr : a.errs ≠ [] ∨ p ≠ none) : Dies DB (do
      let tok ← o.mPeekSrc
      if pf.contains tok then pure (true, { a with errs := a.errs ++ p.toList })
      else if tok.isNone || fol.contains tok then pure (false, { a with errs := a.errs ++ p.toList })
      else do
        let _ ← o.mConsume
        punctInner o ef pf fol pt fuel a p) := by
  have fin : a.errs ++ p.toList ≠ [] :=
    hr.elim append_ne_left fun hp => append_ne_right (toList_ne hp)
  refine .bind fun tok => ?_
  try dsimp only
  cases pf.contains tok
  · cases (tok.isNone || fol.contains tok)
    · exact .bind fun _ => punctInner_dies ef pf fol pt fuel _ _ hr
    · exact .pure fin
  · exact .pure fin

theorem punctInner_tr {ef ef' pf pf' fol fol' : TSet n} (hs : ef.SemEq ef') (hq : pf.SemEq pf')
    (hf : ∀ tok, fol.contains (some tok) = true → fol'.contains (some tok) = true)
    {pt pt' : P σ n} (hp : Tfer DR pt pt') (he : SilentEnd o pt) : ∀ fuel a panic,
    Tfer DB (punctInner o ef pf fol pt fuel a panic) (punctInner o ef' pf' fol' pt' fuel a panic)
  | 0, _, _ => .refl _
  | fuel + 1, a, panic => by
    intro s
    refine TferAt.bind (punctTry_tr hs hf hp a panic s) (fun r hr => ?_) fun r s1 hr => ?_
    · rcases r with a' | p
      · exact .pure hr
      · exact punctRest_dies _ _ _ _ _ _ hr
    · rcases r with a' | p
      · exact Tfer.refl _ s1
      · by_cases hpn : p = none
        · subst hpn
          refine TferAt.bind (D := fun _ => False) (Tfer.refl _ s1) (fun _ h => h.elim) fun tok s2 htok => ?_
          cases punctTry_end he hr _ _ htok
          try dsimp only
          rw [← hq none]
          exact Tfer.refl _ s2
        · exact (punctRest_dies _ _ _ _ _ _ (.inr hpn)).tr s1

theorem punctOuter_dies (ef pf fol : TSet n) (pt pp : P σ n) : ∀ fuel a, a.errs ≠ [] →
    Dies DA (punctOuter o ef pf fol pt pp fuel a)
  | 0, _, _ => .fuel
  | fuel + 1, a, h => by
    refine .bind fun tok => ?_
    try dsimp only
    cases (tok.isSome && pf.contains tok)
    · exact .pure h
    · refine .bind fun r => ?_
      cases r with
      | panic e => exact .pure (append_ne_left (b := e) h)
      | success q =>
        refine .bind' (punctInner_dies ef pf fol pt fuel _ none (.inl h)) fun r hr => ?_
        obtain ⟨go, a⟩ := r
        cases go
        · exact .pure hr
        · exact punctOuter_dies ef pf fol pt pp fuel _ hr
      | recovered q e =>
        refine .bind' (punctInner_dies ef pf fol pt fuel _ none (.inl (append_ne_left h))) fun r hr => ?_
        obtain ⟨go, a⟩ := r
        cases go
        · exact .pure hr
        · exact punctOuter_dies ef pf fol pt pp fuel _ hr

theorem punctOuter_tr {ef ef' pf pf' fol fol' : TSet n} (hs : ef.SemEq ef') (hq : pf.SemEq pf')
    (hf : ∀ tok, fol.contains (some tok) = true → fol'.contains (some tok) = true)
    {pt pt' pp pp' : P σ n} (hp : Tfer DR pt pt') (hpp : Tfer DR pp pp') (he : SilentEnd o pt) : ∀ fuel a,
    Tfer DA (punctOuter o ef pf fol pt pp fuel a) (punctOuter o ef' pf' fol' pt' pp' fuel a)
  | 0, _ => .refl _
  | fuel + 1, a => by
    have go : ∀ a, Tfer DA (do
        let (go, a) ← punctInner o ef pf fol pt fuel a none
        if go then punctOuter o ef pf fol pt pp fuel a else pure a) (do
        let (go, a) ← punctInner o ef' pf' fol' pt' fuel a none
        if go then punctOuter o ef' pf' fol' pt' pp' fuel a else pure a) := by
      intro a
      refine Tfer.bind (punctInner_tr hs hq hf hp he fuel a none) (fun r hr => ?_) fun r => ?_
      · obtain ⟨go, a⟩ := r
        cases go
        · exact .pure hr
        · exact punctOuter_dies ef pf fol pt pp fuel _ hr
      · obtain ⟨go, a⟩ := r
        cases go
        · exact .refl _
        · exact punctOuter_tr hs hq hf hp hpp he fuel _
    refine Tfer.same fun tok => ?_
    try dsimp only
    rw [← hq tok]
    cases (tok.isSome && pf.contains tok)
    · exact .refl _
    · refine Tfer.bind hpp (fun r hr => ?_) fun r => ?_
      · cases r with
        | panic e => exact .pure (append_ne_right (b := e) hr)
        | success q => exact absurd rfl hr
        | recovered q e =>
          refine .bind' (punctInner_dies ef pf fol pt fuel _ none (.inl (append_ne_right hr))) fun r hr => ?_
          obtain ⟨go, a⟩ := r
          cases go
          · exact .pure hr
          · exact punctOuter_dies ef pf fol pt pp fuel _ hr
      · cases r with
        | panic e => exact .refl _
        | success q => exact go _
        | recovered q e => exact go _

theorem punct_tr {ef ef' pf pf' fol fol' : TSet n} (hs : ef.SemEq ef') (hq : pf.SemEq pf')
    (hf : ∀ tok, fol.contains (some tok) = true → fol'.contains (some tok) = true)
    {pt pt' pp pp' : P σ n} (hp : Tfer DR pt pt') (hpp : Tfer DR pp pp') (he : SilentEnd o pt) (fuel : Nat) :
    Tfer DR (producePunct o ef pf fol pt pp fuel) (producePunct o ef' pf' fol' pt' pp' fuel) := by
  refine Tfer.bind hp (fun r hr => ?_) fun r => ?_
  · cases r with
    | success t => exact absurd rfl hr
    | recovered t e => exact .bind' (punctOuter_dies ef pf fol pt pp fuel _ hr) fun _ ha => .pure (ofPair_dirty ha)
    | panic e => exact .pure hr
  · cases r with
    | panic e => exact .refl _
    | success t =>
      exact Tfer.bind (punctOuter_tr hs hq hf hp hpp he fuel _) (fun _ ha => .pure (ofPair_dirty ha)) fun _ => .refl _
    | recovered t e =>
      exact Tfer.bind (punctOuter_tr hs hq hf hp hpp he fuel _) (fun _ ha => .pure (ofPair_dirty ha)) fun _ => .refl _

/-! ### Recover -/

theorem recoverHead_tr {hf hf' : TSet n} (hs : hf.SemEq hf') {p p' : P σ n} (hp : Tfer DR p p') :
    Tfer DH (recoverHead o hf p) (recoverHead o hf' p') := by
  refine Tfer.same fun tok => ?_
  try dsimp only
  rw [← hs tok, show hf'.containsE = hf.containsE from (hs none).symm]
  cases (hf.contains tok || hf.containsE)
  · exact Dies.tr (.bind fun e => .bind fun sp => .pure (.inr (by simp)))
  · refine Tfer.bind hp (fun r hr => ?_) fun r => .refl _
    cases r with
    | success t => exact absurd rfl hr
    | recovered t e => exact .pure (.inl hr)
    | panic e => exact .bind fun sp => .pure (.inr (by simpa [DR, Res.errs] using hr))

theorem recoverSkip_dies (tf : TSet n) (panic : Option (Err n)) :
    Dies (fun p : Option (Err n) => p ≠ none) (recoverSkip o tf panic) := by
  cases panic with
  | none => exact .bind fun _ => .bind fun _ => .pure (by simp)
  | some p => exact .bind fun _ => .bind fun _ => .pure (by simp)

theorem recoverLoop_dies (tf : TSet n) (p : P σ n) : ∀ fuel errs panic, (errs ≠ [] ∨ panic ≠ none) →
    Dies DT (recoverLoop o tf p fuel errs panic)
  | 0, _, _, _ => .fuel
  | fuel + 1, errs, panic, h => by
    refine .bind fun tok => ?_
    try dsimp only
    cases tok.isNone
    · cases (tf.contains tok || tf.containsE)
      · exact .bind' (recoverSkip_dies _ _) fun _ hp => recoverLoop_dies tf p fuel _ _ (.inr hp)
      · refine .bind fun r => ?_
        cases r with
        | success t => exact .pure h
        | recovered t e => exact .pure (h.imp append_ne_left id)
        | panic e => exact .bind' (recoverSkip_dies _ _) fun _ hp => recoverLoop_dies tf p fuel _ _ (.inr hp)
    · cases tf.containsE
      · exact .pure h
      · refine .bind fun r => ?_
        cases r with
        | success t => exact .pure h
        | recovered t e => exact .pure (h.imp append_ne_left id)
        | panic e => exact .pure (h.imp id fun hp => mergePanic_some (.inl hp))

theorem recoverLoop_tr {tf tf' : TSet n} (hs : tf.SemEq tf') {p p' : P σ n} (hp : Tfer DR p p') :
    ∀ fuel errs panic, Tfer DT (recoverLoop o tf p fuel errs panic) (recoverLoop o tf' p' fuel errs panic)
  | 0, _, _ => .refl _
  | fuel + 1, errs, panic => by
    refine Tfer.same fun tok => ?_
    try dsimp only
    rw [← hs tok, show tf'.containsE = tf.containsE from (hs none).symm]
    cases tok.isNone
    · cases (tf.contains tok || tf.containsE)
      · exact Dies.tr (.bind' (recoverSkip_dies _ _) fun _ hp => recoverLoop_dies tf p fuel _ _ (.inr hp))
      · refine Tfer.bind hp (fun r hr => ?_) fun r => ?_
        · cases r with
          | success t => exact absurd rfl hr
          | recovered t e => exact .pure (.inl (append_ne_right hr))
          | panic e => exact .bind' (recoverSkip_dies _ _) fun _ hp => recoverLoop_dies tf p fuel _ _ (.inr hp)
        · cases r with
          | success t => exact .refl _
          | recovered t e => exact .refl _
          | panic e =>
            exact Dies.tr (.bind' (recoverSkip_dies _ _) fun _ hp => recoverLoop_dies tf p fuel _ _ (.inr hp))
    · cases tf.containsE
      · exact .refl _
      · refine Tfer.bind hp (fun r hr => ?_) fun r => .refl _
        cases r with
        | success t => exact absurd rfl hr
        | recovered t e => exact .pure (.inl (append_ne_right hr))
        | panic e => exact .pure (.inr (mergePanic_some (.inr hr)))

theorem recover_tr {hf hf' tf tf' : TSet n} (h1 : hf.SemEq hf') (h2 : tf.SemEq tf') {pt pt' pr pr' : P σ n}
    (hp : Tfer DR pt pt') (hr : Tfer DR pr pr') (fuel : Nat) :
    Tfer DR (produceRecover o hf tf pt pr fuel) (produceRecover o hf' tf' pt' pr' fuel) := by
  have fin : ∀ (h : RHead n) r, DT r → Dies (σ := σ) DR (match r with
      | (some tail, errs, panic) => pure (Res.ofPair (mkRecover h tail) (errs ++ panic.toList))
      | (none, errs, panic) => pure (.panic (errs ++ panic.toList)) : P σ n) := by
    rintro h ⟨x, errs, panic⟩ hd
    have : errs ++ panic.toList ≠ [] := hd.elim append_ne_left fun hp => append_ne_right (toList_ne hp)
    cases x with
    | none => exact .pure this
    | some x => exact .pure (ofPair_dirty this)
  refine Tfer.bind (recoverHead_tr h1 hp) (fun h hh => ?_) fun h => ?_
  · exact .bind' (recoverLoop_dies tf pr fuel _ _ hh) fun r hd => by
      obtain ⟨x, errs, panic⟩ := r
      have := fin h _ hd
      cases x <;> exact this
  · refine Tfer.bind (recoverLoop_tr h2 hr fuel _ _) (fun r hd => ?_) fun r => .refl _
    obtain ⟨x, errs, panic⟩ := r
    have := fin h _ hd
    cases x <;> exact this

/-! ### Terminals -/

theorem term_tr (t : Terminal n) (fol fol' : TSet n) : Tfer DR (produceTerm o t fol) (produceTerm o t fol') := by
  unfold produceTerm
  cases hl : t.lit with
  | none => exact .refl _
  | some lit =>
    simp only
    refine Tfer.bind (D := fun r : Res n (Token n) => r.errs ≠ []) ?_ (fun r hr => ?_) fun r => .refl _
    · unfold Ops.parseTokenLit
      refine Tfer.same fun tok => ?_
      cases tok with
      | none =>
        refine Dies.tr ?_
        simp only
        cases fol.containsE
        · exact .bind fun _ => .pure (by simp [Res.errs])
        · exact .bind fun _ => .bind fun _ => .pure (by simp [Res.errs])
      | some tk =>
        refine Tfer.same fun src => ?_
        by_cases ht : tk.ty = t.ty ∧ src = lit
        · rw [if_pos ht, if_pos ht]; exact .refl _
        · rw [if_neg ht, if_neg ht]
          refine Dies.tr ?_
          cases fol.contains (some ⟨tk.ty, src⟩)
          · exact .bind fun _ => .pure (by simp [Res.errs])
          · exact .bind fun _ => .bind fun _ => .pure (by simp [Res.errs])
    · refine .pure ?_
      cases r with
      | success t => exact absurd rfl hr
      | recovered t e => exact hr
      | panic e => exact hr

/-! ### All types -/

/-- Everything the parser consults for the types inside of `root` is the same, except that the FOLLOW sets
of `Punct` may be larger on the right. -/
structure Agree (S : Schema m n) (md md' : Metadata (PId m n) n) (root : Ty m n) : Prop where
  first : ∀ i, PReach S root i → (md.first.get i).SemEq (md'.first.get i)
  jump : ∀ k v vs, PReach S root (.user k) → S k = .enum v vs →
    ∀ x, md.jump.lookUp (.user k) x = md'.jump.lookUp (.user k) x
  punct : ∀ a b, Reach S.tyParts root (.punct a b) → ∀ tok,
    (md.follow.get (Ty.punct a b).pid).contains (some tok) = true →
      (md'.follow.get (Ty.punct a b).pid).contains (some tok) = true

variable {S : Schema m n} {md md' : Metadata (PId m n) n} {root : Ty m n}

theorem Agree.step (h : Agree S md md' root) {fuel : Nat} {rec rec' : Ty m n → P σ n}
    (hr : ∀ u, Reach S.tyParts root u → Tfer DR (rec u) (rec' u)) (he : ∀ u, SilentEnd o (rec u)) {t : Ty m n}
    (ht : Reach S.tyParts root t) : Tfer DR (produceStep o S md fuel rec t) (produceStep o S md' fuel rec' t) := by
  have part : ∀ {u}, u ∈ S.tyParts t → Reach S.tyParts root u := fun hu => .step ht hu
  have fst : ∀ {u}, Reach S.tyParts root u → (md.first.get u.pid).SemEq (md'.first.get u.pid) :=
    fun hu => h.first _ (reach_pid hu)
  have fields : ∀ l : List (Field m n), (∀ f ∈ l, Reach S.tyParts root f.1) →
      Core.Forall2 (fun a b => Tfer DR a.1 b.1 ∧ a.2 = b.2) (l.map fun f => (rec f.1, f.2))
        (l.map fun f => (rec' f.1, f.2)) := by
    intro l
    induction l with
    | nil => intro _; exact .nil
    | cons a l ih =>
      intro hl
      exact .cons ⟨hr _ (hl a (List.mem_cons_self ..)), rfl⟩ (ih fun f hf => hl f (List.mem_cons_of_mem _ hf))
  cases t with
  | term k t => exact term_tr _ _ _
  | user k =>
    cases hS : S k with
    | struct f fs =>
      simp only [produceStep, hS]
      exact struct_tr (fields _ fun g hg => part (by
        simp only [Schema.tyParts, hS]; exact List.mem_map_of_mem hg))
    | enum f fs =>
      simp only [produceStep, hS]
      exact enum_tr (h.jump k f fs (reach_pid ht) hS) (fields _ fun g hg => part (by
        simp only [Schema.tyParts, hS]; exact List.mem_map_of_mem hg))
  | box t => exact hr _ (part (by simp [Schema.tyParts]))
  | option t => exact option_tr (fst (part (by simp [Schema.tyParts]))) (hr _ (part (by simp [Schema.tyParts]))) _
  | exist t => exact option_tr (fst (part (by simp [Schema.tyParts]))) (hr _ (part (by simp [Schema.tyParts]))) _
  | quote t => exact text_tr (hr _ (part (by simp [Schema.tyParts])))
  | parse t => exact text_tr (hr _ (part (by simp [Schema.tyParts])))
  | plus t => exact plus_tr (fst ht) (hr _ (part (by simp [Schema.tyParts]))) _
  | star t =>
    have hp : Reach S.tyParts root (.plus t) := part (by simp [Schema.tyParts])
    exact option_tr (fst hp) (plus_tr (fst hp) (hr _ (.step hp (by simp [Schema.tyParts]))) _) _
  | loop t => exact loop_tr (fst ht) (hr _ (part (by simp [Schema.tyParts]))) _
  | split t p =>
    exact split_tr _ _ (fst (part (by simp [Schema.tyParts]))) (fst (part (by simp [Schema.tyParts])))
      (hr _ (part (by simp [Schema.tyParts]))) (hr _ (part (by simp [Schema.tyParts]))) (he _) _
  | punct t p =>
    exact punct_tr (fst (part (by simp [Schema.tyParts]))) (fst (part (by simp [Schema.tyParts])))
      (h.punct t p ht) (hr _ (part (by simp [Schema.tyParts]))) (hr _ (part (by simp [Schema.tyParts]))) (he _) _
  | recover t r =>
    exact recover_tr (fst (part (by simp [Schema.tyParts]))) (fst (part (by simp [Schema.tyParts])))
      (hr _ (part (by simp [Schema.tyParts]))) (hr _ (part (by simp [Schema.tyParts]))) _
  | tup2 a b =>
    exact tuple_tr (.cons (hr _ (part (by simp [Schema.tyParts]))) (.cons (hr _ (part (by simp [Schema.tyParts]))) .nil))
  | tup3 a b c =>
    exact tuple_tr (.cons (hr _ (part (by simp [Schema.tyParts]))) (.cons (hr _ (part (by simp [Schema.tyParts])))
      (.cons (hr _ (part (by simp [Schema.tyParts]))) .nil)))
  | tup4 a b c d =>
    exact tuple_tr (.cons (hr _ (part (by simp [Schema.tyParts]))) (.cons (hr _ (part (by simp [Schema.tyParts])))
      (.cons (hr _ (part (by simp [Schema.tyParts]))) (.cons (hr _ (part (by simp [Schema.tyParts]))) .nil))))
  | tup5 a b c d e =>
    exact tuple_tr (.cons (hr _ (part (by simp [Schema.tyParts]))) (.cons (hr _ (part (by simp [Schema.tyParts])))
      (.cons (hr _ (part (by simp [Schema.tyParts]))) (.cons (hr _ (part (by simp [Schema.tyParts])))
        (.cons (hr _ (part (by simp [Schema.tyParts]))) .nil)))))

theorem Agree.produce (h : Agree S md md' root) (he : ∀ fuel u, SilentEnd o (produce o S md fuel u)) :
    ∀ fuel u, Reach S.tyParts root u → Tfer DR (produce o S md fuel u) (produce o S md' fuel u)
  | 0, _, _ => .refl _
  | fuel + 1, _, hu => h.step (fun v hv => h.produce he fuel v hv) (he fuel) hu

/-- A parser that failed without an error is at the end of input. -/
theorem silentEnd_parser (ext : Fin n → Bool) (fuel : Nat) (u : Ty m n) :
    SilentEnd (Parser.ops ext) (Teleparse.produce (Parser.ops ext) S md fuel u) := by
  intro p p' h x p'' hx
  have hv := produce_view ext S md fuel u p
  rw [h] at hv
  have hr : (p'.view ext).rest = [] := (run_of_produce S md fuel u _ _ _ hv).shape rfl
  obtain ⟨_, h2⟩ := view_fill ext p'
  unfold Ops.mPeekSrc at hx
  obtain ⟨y, q, h3, h4⟩ := bind_ok.1 hx
  have : y = none := by
    simp only [Ops.mPeek, Parser.ops, Parser.peek] at h3
    have := congrArg (fun o : Out (Parser n) (Option (Token n)) => match o with | .ok a _ => a | _ => none) h3
    simp only at this
    rw [← this, h2, hr]; rfl
  subst this
  exact (pure_ok.1 h4).1.symm

/-- What is produced without errors is produced with the other metadata too. -/
theorem Agree.yields (h : Agree S md md' root) {ext : Fin n → Bool} {p p' : Parser n} {u : Ty m n}
    (hu : Reach S.tyParts root u) {r : Res n (Tree n)} (hr : r.errs = []) (hy : Yields ext S md u p r p') :
    Yields ext S md' u p r p' := by
  obtain ⟨fuel, hy⟩ := hy
  rcases h.produce (silentEnd_parser ext) fuel u hu p r p' hy with hd | hd
  · exact absurd hr hd
  · exact ⟨fuel, hd⟩

end Teleparse
