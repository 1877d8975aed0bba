import Verif.Model.Produce
/-
Whatever relation between computations is respected by the primitives of the model is respected by
`produce` (one proof used for: the parser simulates the abstract stream, more fuel does not change
results, invariants of the state).
-/
namespace Teleparse
variable {m n : Nat} {σ τ : Type}

/-- A relation on computations respected by the primitives. `k` is the fuel the right side has more. -/
structure Closed (k : Nat) (C : ∀ {α : Type}, M σ α → M τ α → Prop) (o : Ops σ n) (o' : Ops τ n) :
    Prop where
  pure : ∀ {α : Type} (a : α), C (Pure.pure a) (Pure.pure a)
  bind : ∀ {α β : Type} {x : M σ α} {y : M τ α} {f : α → M σ β} {g : α → M τ β},
    C x y → (∀ a, C (f a) (g a)) → C (x >>= f) (y >>= g)
  fuel : ∀ {α : Type} (y : M τ α), (k = 0 → y = M.fuel) → C M.fuel y
  crash : ∀ {α : Type}, C (M.crash (α := α)) M.crash
  peek : C o.mPeek o'.mPeek
  consume : C o.mConsume o'.mConsume
  source : C o.mSource o'.mSource
  emptySpan : C o.mEmptySpan o'.mEmptySpan
  apply : ∀ sp sem, C (o.mApply sp sem) (o'.mApply sp sem)

namespace Closed
variable {k : Nat} {C : ∀ {α : Type}, M σ α → M τ α → Prop} {o : Ops σ n} {o' : Ops τ n}

theorem getSrc (h : Closed k C o o') (sp : Span) : C (o.mGetSrc sp) (o'.mGetSrc sp) := by
  unfold Ops.mGetSrc
  refine h.bind h.source fun src => ?_
  cases sp.get? src with
  | none => exact h.crash
  | some s => exact h.pure _

theorem peekSrc (h : Closed k C o o') : C o.mPeekSrc o'.mPeekSrc := by
  unfold Ops.mPeekSrc
  refine h.bind h.peek fun t => ?_
  cases t with
  | none => exact h.pure _
  | some t => exact h.bind (h.getSrc _) fun s => h.pure _

theorem currentSpan (h : Closed k C o o') : C o.mCurrentSpan o'.mCurrentSpan := by
  unfold Ops.mCurrentSpan
  refine h.bind h.peek fun t => ?_
  cases t with
  | some t => exact h.pure _
  | none => exact h.bind h.source fun s => h.pure _

theorem remaining (h : Closed k C o o') : C o.mRemaining o'.mRemaining := by
  unfold Ops.mRemaining
  refine h.bind h.currentSpan fun sp => h.bind h.source fun src => ?_
  cases sliceStr? src sp.lo src.length with
  | none => exact h.crash
  | some s => exact h.pure _

theorem expecting (h : Closed k C o o') (s : TSet n) : C (o.mExpecting s) (o'.mExpecting s) :=
  h.bind h.currentSpan fun _ => h.pure _

theorem unexpectedEof (h : Closed k C o o') : C o.mUnexpectedEof o'.mUnexpectedEof :=
  h.bind h.currentSpan fun _ => h.pure _

theorem parseToken (h : Closed k C o o') (ty : Fin n) : C (o.parseToken ty) (o'.parseToken ty) := by
  unfold Ops.parseToken
  refine h.bind h.peek fun t => ?_
  cases t with
  | none => exact h.bind (h.expecting _) fun e => h.pure _
  | some t =>
    try dsimp only
    by_cases ht : t.ty = ty
    · rw [if_pos ht, if_pos ht]
      exact h.bind h.consume fun _ => h.pure _
    · rw [if_neg ht, if_neg ht]
      exact h.bind (h.expecting _) fun e => h.pure _

theorem parseTokenLit (h : Closed k C o o') (ty : Fin n) (lit : Str) (fol : TSet n) :
    C (o.parseTokenLit ty lit fol) (o'.parseTokenLit ty lit fol) := by
  unfold Ops.parseTokenLit
  refine h.bind h.peek fun t => ?_
  cases t with
  | none =>
    try dsimp only
    cases fol.containsE
    · exact h.bind h.unexpectedEof fun e => h.pure _
    · exact h.bind h.currentSpan fun e => h.bind (h.expecting _) fun _ => h.pure _
  | some t =>
    refine h.bind (h.getSrc _) fun src => ?_
    by_cases ht : t.ty = ty ∧ src = lit
    · rw [if_pos ht, if_pos ht]
      exact h.bind h.consume fun _ => h.pure _
    · rw [if_neg ht, if_neg ht]
      cases fol.contains (some ⟨t.ty, src⟩)
      · exact h.bind (h.expecting _) fun e => h.pure _
      · exact h.bind h.emptySpan fun sp => h.bind (h.expecting _) fun e => h.pure _

theorem term (h : Closed k C o o') (t : Terminal n) (fol : TSet n) :
    C (produceTerm o t fol) (produceTerm o' t fol) := by
  unfold produceTerm
  cases t.lit with
  | none => exact h.bind (h.parseToken _) fun _ => h.pure _
  | some l => exact h.bind (h.parseTokenLit _ _ _) fun _ => h.pure _

end Closed

/-- The part of `Closed` needed for everything except terminals and texts, and terminals. -/
structure Core (k : Nat) (C : ∀ {α : Type}, M σ α → M τ α → Prop) (o : Ops σ n) (o' : Ops τ n) :
    Prop where
  pure : ∀ {α : Type} (a : α), C (Pure.pure a) (Pure.pure a)
  bind : ∀ {α β : Type} {x : M σ α} {y : M τ α} {f : α → M σ β} {g : α → M τ β},
    C x y → (∀ a, C (f a) (g a)) → C (x >>= f) (y >>= g)
  fuel : ∀ {α : Type} (y : M τ α), (k = 0 → y = M.fuel) → C M.fuel y
  peekSrc : C o.mPeekSrc o'.mPeekSrc
  currentSpan : C o.mCurrentSpan o'.mCurrentSpan
  consume : C o.mConsume o'.mConsume
  emptySpan : C o.mEmptySpan o'.mEmptySpan
  apply : ∀ sp sem, C (o.mApply sp sem) (o'.mApply sp sem)
  term : ∀ t fol, C (produceTerm o t fol) (produceTerm o' t fol)

namespace Core
variable {k : Nat} {C : ∀ {α : Type}, M σ α → M τ α → Prop} {o : Ops σ n} {o' : Ops τ n}

theorem expecting (h : Core k C o o') (s : TSet n) : C (o.mExpecting s) (o'.mExpecting s) :=
  h.bind h.currentSpan fun _ => h.pure _

/-- Pointwise relation of lists of parsers. -/
inductive Forall2 {α β : Type} (R : α → β → Prop) : List α → List β → Prop
  | nil : Forall2 R [] []
  | cons {a b l l'} : R a b → Forall2 R l l' → Forall2 R (a :: l) (b :: l')

theorem seqLoop (h : Core k C o o') {ps : List (P σ n)} {ps' : List (P τ n)}
    (hp : Forall2 (fun a b => C a b) ps ps') : ∀ acc errs,
    C (seqLoop ps acc errs) (seqLoop ps' acc errs) := by
  induction hp with
  | nil => intro acc errs; exact h.pure _
  | cons hr hs ih =>
    intro acc errs
    refine h.bind hr fun r => ?_
    cases r with
    | success t => exact ih _ _
    | recovered t e => exact ih _ _
    | panic e => exact h.pure _

theorem tuple (h : Core k C o o') {ps : List (P σ n)} {ps' : List (P τ n)}
    (hp : Forall2 (fun a b => C a b) ps ps') : C (produceTuple ps) (produceTuple ps') := by
  refine h.bind (h.seqLoop hp _ _) fun r => ?_
  rcases r with e | ⟨l, errs⟩ <;> exact h.pure _

theorem fields (h : Core k C o o') : ∀ l, C (applyFields o l) (applyFields o' l) := by
  intro l
  induction l with
  | nil => exact h.pure _
  | cons x l ih =>
    obtain ⟨t, sem⟩ := x
    cases sem with
    | none => exact ih
    | some sem => exact h.bind (h.apply _ _) fun _ => ih

theorem struct (h : Core k C o o') {fs : List (P σ n × Option (LSet n))}
    {fs' : List (P τ n × Option (LSet n))}
    (hp : Forall2 (fun a b => C a.1 b.1 ∧ a.2 = b.2) fs fs') :
    C (produceStruct o fs) (produceStruct o' fs') := by
  have h1 : Forall2 (fun a b => C a b) (fs.map (·.1)) (fs'.map (·.1)) := by
    induction hp with
    | nil => exact .nil
    | cons hr _ ih => exact .cons hr.1 ih
  have h2 : fs.map (·.2) = fs'.map (·.2) := by
    clear h1
    induction hp with
    | nil => rfl
    | cons hr _ ih => simp [hr.2, ih]
  refine h.bind (h.seqLoop h1 _ _) fun r => ?_
  rcases r with e | ⟨l, errs⟩
  · exact h.pure _
  · try dsimp only
    rw [h2]
    exact h.bind (h.fields _) fun _ => h.pure _

theorem mapVariant (h : Core k C o o') (i : Nat) (sem : Option (LSet n)) (r : Res n (Tree n)) :
    C (mapVariant o i sem r) (mapVariant o' i sem r) := by
  cases r with
  | success t => exact h.bind (h.fields _) fun _ => h.pure _
  | recovered t e => exact h.bind (h.fields _) fun _ => h.pure _
  | panic e => exact h.pure _

theorem enum (h : Core k C o o') (look : Option (TokenSrc n) → Option Nat) (first : TSet n)
    {fs : List (P σ n × Option (LSet n))} {fs' : List (P τ n × Option (LSet n))}
    (hp : Forall2 (fun a b => C a.1 b.1 ∧ a.2 = b.2) fs fs') :
    C (produceEnum o look first fs) (produceEnum o' look first fs') := by
  refine h.bind h.peekSrc fun tok => ?_
  have key : ∀ i : Nat, (fs[i]? = none ∧ fs'[i]? = none) ∨
      ∃ a b, fs[i]? = some a ∧ fs'[i]? = some b ∧ C a.1 b.1 ∧ a.2 = b.2 := by
    induction hp with
    | nil => intro i; exact .inl ⟨rfl, rfl⟩
    | cons hr hs ih =>
      intro i
      cases i with
      | zero => exact .inr ⟨_, _, rfl, rfl, hr⟩
      | succ i => simpa using ih i
  try dsimp only
  cases look tok with
  | none => exact h.bind (h.expecting _) fun _ => h.pure _
  | some i =>
    rcases key i with ⟨h1, h2⟩ | ⟨⟨p, s⟩, ⟨p', s'⟩, h1, h2, h3, h4⟩
    · simp only [h1, h2]
      exact h.bind (h.expecting _) fun _ => h.pure _
    · simp only [h1, h2]
      simp only at h3 h4
      subst h4
      exact h.bind h3 fun r => h.mapVariant _ _ _

theorem option (h : Core k C o o') (first : TSet n) {p : P σ n} {p' : P τ n} (hp : C p p')
    (mk : Span → Option (Tree n) → Tree n) :
    C (produceOption o first p mk) (produceOption o' first p' mk) := by
  refine h.bind h.peekSrc fun tok => ?_
  try dsimp only
  cases (tok.isSome && first.contains tok)
  · exact h.bind h.emptySpan fun _ => h.pure _
  · refine h.bind hp fun r => ?_
    cases r with
    | success t => exact h.pure _
    | recovered t e => exact h.pure _
    | panic e => exact h.bind h.emptySpan fun _ => h.pure _

theorem iterLoop (h : Core k C o o') (first : TSet n) {p : P σ n} {p' : P τ n} (hp : C p p')
    {f f' : Nat} (hf : f' = f + k) : ∀ acc errs hi,
    C (iterLoop o first p f acc errs hi) (iterLoop o' first p' f' acc errs hi) := by
  induction f generalizing f' with
  | zero => intro _ _ _; exact h.fuel _ (fun hk => by subst hk; subst hf; rfl)
  | succ f ih =>
    intro acc errs hi
    obtain ⟨f', rfl⟩ : ∃ i, f' = i + 1 := ⟨f' - 1, by omega⟩
    refine h.bind h.peekSrc fun tok => ?_
    try dsimp only
    cases (tok.isSome && first.contains tok)
    · exact h.pure _
    · refine h.bind hp fun r => ?_
      cases r with
      | success t => exact ih (by omega) _ _ _
      | recovered t e => exact ih (by omega) _ _ _
      | panic e => exact h.pure _

theorem plusRest (h : Core k C o o') (first : TSet n) {p : P σ n} {p' : P τ n} (hp : C p p')
    {f f' : Nat} (hf : f' = f + k) (t : Tree n) (errs : List (Err n)) :
    C (plusRest o first p f t errs) (plusRest o' first p' f' t errs) :=
  h.bind (h.iterLoop first hp hf _ _ _) fun _ => h.pure _

theorem plus (h : Core k C o o') (first : TSet n) {p : P σ n} {p' : P τ n} (hp : C p p')
    {f f' : Nat} (hf : f' = f + k) : C (producePlus o first p f) (producePlus o' first p' f') := by
  refine h.bind hp fun r => ?_
  cases r with
  | success t => exact h.plusRest first hp hf _ _
  | recovered t e => exact h.plusRest first hp hf _ _
  | panic e => exact h.pure _

theorem skipLoop (h : Core k C o o') (first : TSet n) {f f' : Nat} (hf : f' = f + k) : ∀ hi,
    C (skipLoop o first f hi) (skipLoop o' first f' hi) := by
  induction f generalizing f' with
  | zero => intro _; exact h.fuel _ (fun hk => by subst hk; subst hf; rfl)
  | succ f ih =>
    intro hi
    obtain ⟨f', rfl⟩ : ∃ i, f' = i + 1 := ⟨f' - 1, by omega⟩
    refine h.bind h.peekSrc fun tok => ?_
    try dsimp only
    cases (tok.isSome && !first.contains tok)
    · exact h.pure _
    · exact h.bind h.currentSpan fun sp => h.bind h.consume fun _ => ih (by omega) _

theorem loopSkip (h : Core k C o o') (first : TSet n) {f f' : Nat} (hf : f' = f + k) (errs : List (Err n)) :
    C (loopSkip o first f errs) (loopSkip o' first f' errs) :=
  h.bind h.currentSpan fun _ => h.bind h.consume fun _ => h.bind (h.skipLoop first hf _) fun _ => h.pure _

theorem loopElem (h : Core k C o o') {p : P σ n} {p' : P τ n} (hp : C p p') (out : List (Tree n))
    (errs : List (Err n)) : C (loopElem o p out errs) (loopElem o' p' out errs) := by
  refine h.bind h.currentSpan fun b => h.bind hp fun r => h.bind h.currentSpan fun sp => ?_
  try dsimp only
  by_cases hl : b.lo = sp.lo
  · rw [if_pos hl, if_pos hl]; exact h.pure _
  · rw [if_neg hl, if_neg hl]; exact h.pure _

theorem loopLoop (h : Core k C o o') (first : TSet n) {p : P σ n} {p' : P τ n} (hp : C p p')
    {f f' : Nat} (hf : f' = f + k) : ∀ out errs,
    C (loopLoop o first p f out errs) (loopLoop o' first p' f' out errs) := by
  induction f generalizing f' with
  | zero => intro _ _; exact h.fuel _ (fun hk => by subst hk; subst hf; rfl)
  | succ f ih =>
    intro out errs
    obtain ⟨f', rfl⟩ : ∃ i, f' = i + 1 := ⟨f' - 1, by omega⟩
    refine h.bind h.peekSrc fun tok => ?_
    try dsimp only
    cases tok.isNone
    · refine h.bind ?_ fun r => ?_
      · cases first.contains tok
        · exact h.loopSkip first (by omega) _
        · exact h.pure _
      · obtain ⟨errs, more⟩ := r
        cases more
        · exact h.pure _
        · refine h.bind (h.loopElem hp _ _) fun r => ?_
          obtain ⟨go, out, errs⟩ := r
          cases go
          · exact h.pure _
          · exact ih (by omega) _ _
    · exact h.pure _

theorem loop (h : Core k C o o') (first : TSet n) {p : P σ n} {p' : P τ n} (hp : C p p')
    {f f' : Nat} (hf : f' = f + k) : C (produceLoop o first p f) (produceLoop o' first p' f') := by
  refine h.bind (h.loopLoop first hp hf _ _) fun r => ?_
  obtain ⟨out, errs⟩ := r
  try dsimp only
  cases out.isEmpty
  · exact h.pure _
  · exact h.bind h.emptySpan fun _ => h.pure _

theorem extendPanic (h : Core k C o o') (p : Err n) : C (extendPanic o p) (extendPanic o' p) :=
  h.bind h.currentSpan fun _ => h.pure _

theorem splitTry (h : Core k C o o') (ef : TSet n) {pt : P σ n} {pt' : P τ n} (hp : C pt pt') (q : Tree n)
    (a : Acc n) (panic : Option (Err n)) :
    C (splitTry o ef pt q a panic) (splitTry o' ef pt' q a panic) := by
  refine h.bind h.peekSrc fun tok => ?_
  try dsimp only
  cases (ef.contains tok || ef.containsE)
  · cases panic with
    | none => exact h.bind (h.expecting _) fun _ => h.pure _
    | some p => exact h.bind (h.extendPanic _) fun _ => h.pure _
  · refine h.bind hp fun r => ?_
    cases r with
    | success t => exact h.pure _
    | recovered t e => exact h.pure _
    | panic e => exact h.bind h.peekSrc fun _ => h.pure _

theorem splitInner (h : Core k C o o') (ef pf fol : TSet n) {pt : P σ n} {pt' : P τ n} (hp : C pt pt')
    (q : Tree n) {f f' : Nat} (hf : f' = f + k) : ∀ a panic,
    C (splitInner o ef pf fol pt q f a panic) (splitInner o' ef pf fol pt' q f' a panic) := by
  induction f generalizing f' with
  | zero => intro _ _; exact h.fuel _ (fun hk => by subst hk; subst hf; rfl)
  | succ f ih =>
    intro a panic
    obtain ⟨f', rfl⟩ : ∃ i, f' = i + 1 := ⟨f' - 1, by omega⟩
    refine h.bind (h.splitTry ef hp q a panic) fun r => ?_
    rcases r with a | ⟨tok, panic⟩
    · exact h.pure _
    · try dsimp only
      cases pf.contains tok
      · cases (tok.isNone || fol.contains tok)
        · exact h.bind h.consume fun _ => ih (by omega) _ _
        · exact h.pure _
      · exact h.pure _

theorem splitOuter (h : Core k C o o') (ef pf fol : TSet n) {pt pp : P σ n} {pt' pp' : P τ n}
    (hp : C pt pt') (hq : C pp pp') {f f' : Nat} (hf : f' = f + k) : ∀ a,
    C (splitOuter o ef pf fol pt pp f a) (splitOuter o' ef pf fol pt' pp' f' a) := by
  induction f generalizing f' with
  | zero => intro _; exact h.fuel _ (fun hk => by subst hk; subst hf; rfl)
  | succ f ih =>
    intro a
    obtain ⟨f', rfl⟩ : ∃ i, f' = i + 1 := ⟨f' - 1, by omega⟩
    refine h.bind h.peekSrc fun tok => ?_
    try dsimp only
    cases (tok.isSome && pf.contains tok)
    · exact h.pure _
    · refine h.bind hq fun r => ?_
      cases r with
      | panic e => exact h.pure _
      | success q =>
        refine h.bind (h.splitInner ef pf fol hp q (by omega) _ _) fun r => ?_
        obtain ⟨go, a⟩ := r
        cases go
        · exact h.pure _
        · exact ih (by omega) _
      | recovered q e =>
        refine h.bind (h.splitInner ef pf fol hp q (by omega) _ _) fun r => ?_
        obtain ⟨go, a⟩ := r
        cases go
        · exact h.pure _
        · exact ih (by omega) _

theorem split (h : Core k C o o') (ef pf fol : TSet n) {pt pp : P σ n} {pt' pp' : P τ n}
    (hp : C pt pt') (hq : C pp pp') {f f' : Nat} (hf : f' = f + k) :
    C (produceSplit o ef pf fol pt pp f) (produceSplit o' ef pf fol pt' pp' f') := by
  refine h.bind hp fun r => ?_
  cases r with
  | panic e => exact h.pure _
  | success t => exact h.bind (h.splitOuter ef pf fol hp hq hf _) fun _ => h.pure _
  | recovered t e => exact h.bind (h.splitOuter ef pf fol hp hq hf _) fun _ => h.pure _

theorem punctTry (h : Core k C o o') (ef fol : TSet n) {pt : P σ n} {pt' : P τ n} (hp : C pt pt')
    (a : Acc n) (panic : Option (Err n)) :
    C (punctTry o ef fol pt a panic) (punctTry o' ef fol pt' a panic) := by
  refine h.bind h.peekSrc fun tok => ?_
  try dsimp only
  cases tok.isNone
  · cases ef.contains tok
    · cases fol.contains tok
      · cases panic with
        | none => exact h.bind h.currentSpan fun _ => h.pure _
        | some p => exact h.bind (h.extendPanic _) fun _ => h.pure _
      · exact h.pure _
    · refine h.bind hp fun r => ?_
      cases r with
      | success t => exact h.pure _
      | recovered t e => exact h.pure _
      | panic e => exact h.pure _
  · exact h.pure _

theorem punctInner (h : Core k C o o') (ef pf fol : TSet n) {pt : P σ n} {pt' : P τ n} (hp : C pt pt')
    {f f' : Nat} (hf : f' = f + k) : ∀ a panic,
    C (punctInner o ef pf fol pt f a panic) (punctInner o' ef pf fol pt' f' a panic) := by
  induction f generalizing f' with
  | zero => intro _ _; exact h.fuel _ (fun hk => by subst hk; subst hf; rfl)
  | succ f ih =>
    intro a panic
    obtain ⟨f', rfl⟩ : ∃ i, f' = i + 1 := ⟨f' - 1, by omega⟩
    refine h.bind (h.punctTry ef fol hp a panic) fun r => ?_
    rcases r with a | panic
    · exact h.pure _
    · refine h.bind h.peekSrc fun tok => ?_
      try dsimp only
      cases pf.contains tok
      · cases (tok.isNone || fol.contains tok)
        · exact h.bind h.consume fun _ => ih (by omega) _ _
        · exact h.pure _
      · exact h.pure _

theorem punctOuter (h : Core k C o o') (ef pf fol : TSet n) {pt pp : P σ n} {pt' pp' : P τ n}
    (hp : C pt pt') (hq : C pp pp') {f f' : Nat} (hf : f' = f + k) : ∀ a,
    C (punctOuter o ef pf fol pt pp f a) (punctOuter o' ef pf fol pt' pp' f' a) := by
  induction f generalizing f' with
  | zero => intro _; exact h.fuel _ (fun hk => by subst hk; subst hf; rfl)
  | succ f ih =>
    intro a
    obtain ⟨f', rfl⟩ : ∃ i, f' = i + 1 := ⟨f' - 1, by omega⟩
    refine h.bind h.peekSrc fun tok => ?_
    try dsimp only
    cases (tok.isSome && pf.contains tok)
    · exact h.pure _
    · refine h.bind hq fun r => ?_
      cases r with
      | panic e => exact h.pure _
      | success q =>
        refine h.bind (h.punctInner ef pf fol hp (by omega) _ _) fun r => ?_
        obtain ⟨go, a⟩ := r
        cases go
        · exact h.pure _
        · exact ih (by omega) _
      | recovered q e =>
        refine h.bind (h.punctInner ef pf fol hp (by omega) _ _) fun r => ?_
        obtain ⟨go, a⟩ := r
        cases go
        · exact h.pure _
        · exact ih (by omega) _

theorem punct (h : Core k C o o') (ef pf fol : TSet n) {pt pp : P σ n} {pt' pp' : P τ n}
    (hp : C pt pt') (hq : C pp pp') {f f' : Nat} (hf : f' = f + k) :
    C (producePunct o ef pf fol pt pp f) (producePunct o' ef pf fol pt' pp' f') := by
  refine h.bind hp fun r => ?_
  cases r with
  | panic e => exact h.pure _
  | success t => exact h.bind (h.punctOuter ef pf fol hp hq hf _) fun _ => h.pure _
  | recovered t e => exact h.bind (h.punctOuter ef pf fol hp hq hf _) fun _ => h.pure _

theorem recoverHead (h : Core k C o o') (hf : TSet n) {pt : P σ n} {pt' : P τ n} (hp : C pt pt') :
    C (recoverHead o hf pt) (recoverHead o' hf pt') := by
  refine h.bind h.peekSrc fun tok => ?_
  try dsimp only
  cases (hf.contains tok || hf.containsE)
  · exact h.bind (h.expecting _) fun _ => h.bind h.emptySpan fun _ => h.pure _
  · refine h.bind hp fun r => ?_
    cases r with
    | success t => exact h.pure _
    | recovered t e => exact h.pure _
    | panic e => exact h.bind h.emptySpan fun _ => h.pure _

theorem recoverSkip (h : Core k C o o') (tf : TSet n) (panic : Option (Err n)) :
    C (recoverSkip o tf panic) (recoverSkip o' tf panic) := by
  cases panic with
  | none => exact h.bind (h.expecting _) fun _ => h.bind h.consume fun _ => h.pure _
  | some p => exact h.bind (h.extendPanic _) fun _ => h.bind h.consume fun _ => h.pure _

theorem recoverLoop (h : Core k C o o') (tf : TSet n) {pr : P σ n} {pr' : P τ n} (hp : C pr pr')
    {f f' : Nat} (hf : f' = f + k) : ∀ errs panic,
    C (recoverLoop o tf pr f errs panic) (recoverLoop o' tf pr' f' errs panic) := by
  induction f generalizing f' with
  | zero => intro _ _; exact h.fuel _ (fun hk => by subst hk; subst hf; rfl)
  | succ f ih =>
    intro errs panic
    obtain ⟨f', rfl⟩ : ∃ i, f' = i + 1 := ⟨f' - 1, by omega⟩
    refine h.bind h.peekSrc fun tok => ?_
    try dsimp only
    cases tok.isNone
    · cases (tf.contains tok || tf.containsE)
      · exact h.bind (h.recoverSkip _ _) fun _ => ih (by omega) _ _
      · refine h.bind hp fun r => ?_
        cases r with
        | success t => exact h.pure _
        | recovered t e => exact h.pure _
        | panic e => exact h.bind (h.recoverSkip _ _) fun _ => ih (by omega) _ _
    · cases tf.containsE
      · exact h.pure _
      · refine h.bind hp fun r => ?_
        cases r with
        | success t => exact h.pure _
        | recovered t e => exact h.pure _
        | panic e => exact h.pure _

theorem recover (h : Core k C o o') (hf tf : TSet n) {pt pr : P σ n} {pt' pr' : P τ n}
    (hp : C pt pt') (hq : C pr pr') {f f' : Nat} (hle : f' = f + k) :
    C (produceRecover o hf tf pt pr f) (produceRecover o' hf tf pt' pr' f') := by
  refine h.bind (h.recoverHead hf hp) fun r => h.bind (h.recoverLoop tf hq hle _ _) fun x => ?_
  obtain ⟨tail, errs, panic⟩ := x
  cases tail <;> exact h.pure _

theorem step (h : Core k C o o') (S : Schema m n) (md : Metadata (PId m n) n) {f f' : Nat} (hf : f' = f + k)
    {rec : Ty m n → P σ n} {rec' : Ty m n → P τ n} (hr : ∀ t, C (rec t) (rec' t))
    (htext : ∀ t, C (produceText o (rec t)) (produceText o' (rec' t))) (t : Ty m n) :
    C (produceStep o S md f rec t) (produceStep o' S md f' rec' t) := by
  have hfs : ∀ l : List (Field m n), Forall2 (fun a b => C a.1 b.1 ∧ a.2 = b.2)
      (l.map fun f => (rec f.1, f.2)) (l.map fun f => (rec' f.1, f.2)) := by
    intro l
    induction l with
    | nil => exact .nil
    | cons a l ih => exact .cons ⟨hr _, rfl⟩ ih
  cases t with
  | term k t => exact h.term _ _
  | user k =>
    cases hS : S k with
    | struct f fs =>
      simp only [produceStep, hS]
      exact h.struct (hfs (f :: fs))
    | enum v vs =>
      simp only [produceStep, hS]
      exact h.enum _ _ (hfs (v :: vs))
  | box t => exact hr t
  | option t => exact h.option _ (hr t) _
  | exist t => exact h.option _ (hr t) _
  | quote t => exact htext t
  | parse t => exact htext t
  | plus t => exact h.plus _ (hr t) hf
  | star t => exact h.option _ (h.plus _ (hr t) hf) _
  | loop t => exact h.loop _ (hr t) hf
  | split t p => exact h.split _ _ _ (hr t) (hr p) hf
  | punct t p => exact h.punct _ _ _ (hr t) (hr p) hf
  | recover t r => exact h.recover _ _ (hr t) (hr r) hf
  | tup2 a b => exact h.tuple (.cons (hr a) (.cons (hr b) .nil))
  | tup3 a b c => exact h.tuple (.cons (hr a) (.cons (hr b) (.cons (hr c) .nil)))
  | tup4 a b c d => exact h.tuple (.cons (hr a) (.cons (hr b) (.cons (hr c) (.cons (hr d) .nil))))
  | tup5 a b c d e =>
    exact h.tuple (.cons (hr a) (.cons (hr b) (.cons (hr c) (.cons (hr d) (.cons (hr e) .nil)))))

/-- The main result: such a relation holds between `produce` with fuel `f` and with fuel `f + k`. -/
theorem produce (h : Core k C o o') (S : Schema m n) (md : Metadata (PId m n) n)
    (htext : ∀ f t, C (produce o S md f t) (produce o' S md (f + k) t) →
      C (produceText o (Teleparse.produce o S md f t)) (produceText o' (Teleparse.produce o' S md (f + k) t))) :
    ∀ (f : Nat) (t : Ty m n), C (produce o S md f t) (produce o' S md (f + k) t)
  | 0, t => h.fuel _ (fun hk => by subst hk; rfl)
  | f + 1, t => by
    have e : f + 1 + k = (f + k) + 1 := by omega
    rw [e]
    exact h.step S md rfl (fun t => Core.produce h S md htext f t)
      (fun t => htext f t (Core.produce h S md htext f t)) t

end Core

namespace Closed
variable {k : Nat} {C : ∀ {α : Type}, M σ α → M τ α → Prop} {o : Ops σ n} {o' : Ops τ n}

theorem text (h : Closed k C o o') {p : P σ n} {p' : P τ n} (hp : C p p') :
    C (produceText o p) (produceText o' p') := by
  refine h.bind hp fun r => ?_
  cases r with
  | success t => exact h.bind (h.getSrc _) fun _ => h.pure _
  | recovered t e => exact h.bind (h.getSrc _) fun _ => h.pure _
  | panic e => exact h.pure _

theorem core (h : Closed k C o o') : Core k C o o' :=
  ⟨h.pure, h.bind, h.fuel, h.peekSrc, h.currentSpan, h.consume, h.emptySpan, h.apply, h.term⟩

/-- A closed relation holds between `produce` with fuel `f` and with fuel `f + k`. -/
theorem produce (h : Closed k C o o') (S : Schema m n) (md : Metadata (PId m n) n) (f : Nat)
    (t : Ty m n) : C (produce o S md f t) (produce o' S md (f + k) t) :=
  h.core.produce S md (fun _ _ hp => h.text hp) f t

end Closed
end Teleparse
