import Verif.Proof.RecoverFix
import Verif.Proof.RelabelStep
import Verif.Proof.Yields
/-
The repaired `Recover` consumes the same tokens and builds the same trees, and reports at least when the code does:
one lemma for each part of `Model/Produce.lean`.
-/
namespace Teleparse
variable {m n : Nat} {σ : Type}

/-- If the second list is empty, so is the first. -/
def Quieter {α : Type} (e e' : List α) : Prop := e' = [] → e = []

namespace Quieter
variable {α : Type} {a a' b b' : List α}
theorem nil : Quieter ([] : List α) b := fun _ => rfl
theorem refl : Quieter a a := id
theorem append (h : Quieter a a') (h' : Quieter b b') : Quieter (a ++ b) (a' ++ b') := by
  intro e
  obtain ⟨h1, h2⟩ := List.append_eq_nil_iff.1 e
  rw [h h1, h' h2, List.append_nil]
theorem left (h : Quieter a a') : Quieter a (a' ++ b) := fun e => h (List.append_eq_nil_iff.1 e).1
theorem some' {x : α} : Quieter a (b ++ [x]) := fun e => by simp at e
end Quieter

/-- The same tree; the second has an error if the first has. -/
inductive Twin : Res n (Tree n) → Res n (Tree n) → Prop
  | succ x : Twin (.success x) (.success x)
  | note x e : Twin (.success x) (.recovered x e)
  | mend x {e e'} : Quieter e e' → Twin (.recovered x e) (.recovered x e')
  | fail {e e'} : Quieter e e' → Twin (.panic e) (.panic e')

theorem Twin.refl (r : Res n (Tree n)) : Twin r r := by
  cases r with
  | success x => exact .succ x
  | recovered x e => exact .mend x .refl
  | panic e => exact .fail .refl

theorem Twin.ofPair {x : Tree n} {e e' : List (Err n)} (h : Quieter e e') : Twin (Res.ofPair x e) (Res.ofPair x e') := by
  unfold Res.ofPair
  cases e' with
  | nil => rw [h rfl]; exact .succ x
  | cons a l =>
    cases e with
    | nil => exact .note x _
    | cons b l' => exact .mend x h

abbrev SRel {α β : Type} (R : α → β → Prop) (x : M σ α) (y : M σ β) : Prop := Relab.MRel Eq R x y
abbrev TP (p p' : P σ n) : Prop := SRel Twin p p'

theorem SRel.refl {α : Type} (x : M σ α) : SRel Eq x x := by
  rintro s _ rfl
  cases x s with
  | fuel => exact .fuel
  | crash => exact .crash
  | ok a s => exact .ok rfl rfl

theorem SRel.same {α γ δ : Type} {Q : γ → δ → Prop} (x : M σ α) {f : α → M σ γ} {g : α → M σ δ}
    (h : ∀ a, SRel Q (f a) (g a)) : SRel Q (x >>= f) (x >>= g) :=
  Relab.MRel.bind (SRel.refl x) fun a _ e => e ▸ h a

namespace TwinStep
variable {o : Ops σ n}

theorem seqLoop {ps ps' : List (P σ n)} (h : Core.Forall2 (fun a b => TP a b) ps ps') : ∀ acc {errs errs'}, Quieter errs errs' →
    SRel (fun a b => (∃ e e', a = .error e ∧ b = .error e' ∧ Quieter e e') ∨
      ∃ l e e', a = .ok (l, e) ∧ b = .ok (l, e') ∧ Quieter e e') (seqLoop ps acc errs) (seqLoop ps' acc errs') := by
  induction h with
  | nil => intro acc errs errs' he; exact .pure (.inr ⟨_, _, _, rfl, rfl, he⟩)
  | cons hr hs ih =>
    intro acc errs errs' he
    refine hr.bind fun r r' h => ?_
    cases h with
    | succ x => exact ih _ he
    | note x e => exact ih _ he.left
    | mend x h => exact ih _ (he.append h)
    | fail h => exact .pure (.inl ⟨_, _, rfl, rfl, he.append h⟩)

theorem tuple {ps ps' : List (P σ n)} (h : Core.Forall2 (fun a b => TP a b) ps ps') :
    TP (produceTuple ps) (produceTuple ps') := by
  refine (seqLoop h [] .nil).bind fun a b h => ?_
  rcases h with ⟨e, e', rfl, rfl, h⟩ | ⟨l, e, e', rfl, rfl, h⟩
  · exact .pure (.fail h)
  · exact .pure (.ofPair h)

theorem fields_fst {R : P σ n → P σ n → Prop} {fs fs' : List (P σ n × Option (LSet n))}
    (h : Core.Forall2 (fun a b => R a.1 b.1 ∧ a.2 = b.2) fs fs') :
    Core.Forall2 R (fs.map (·.1)) (fs'.map (·.1)) ∧ fs.map (·.2) = fs'.map (·.2) := by
  induction h with
  | nil => exact ⟨.nil, rfl⟩
  | cons h hs ih => exact ⟨.cons h.1 ih.1, by simp [h.2, ih.2]⟩

theorem struct {fs fs' : List (P σ n × Option (LSet n))}
    (h : Core.Forall2 (fun a b => TP a.1 b.1 ∧ a.2 = b.2) fs fs') : TP (produceStruct o fs) (produceStruct o fs') := by
  obtain ⟨h1, h2⟩ := fields_fst (R := fun a b => TP a b) h
  unfold produceStruct
  rw [h2]
  refine (seqLoop h1 [] .nil).bind fun a b h => ?_
  rcases h with ⟨e, e', rfl, rfl, h⟩ | ⟨l, e, e', rfl, rfl, h⟩
  · exact .pure (.fail h)
  · exact SRel.same _ fun _ => .pure (.ofPair h)

theorem mapVariant {i : Nat} {sem : Option (LSet n)} {r r' : Res n (Tree n)} (h : Twin r r') :
    TP (mapVariant o i sem r) (mapVariant o i sem r') := by
  cases h with
  | succ x => exact SRel.same _ fun _ => .pure (.succ _)
  | note x e => exact SRel.same _ fun _ => .pure (.note _ _)
  | mend x h => exact SRel.same _ fun _ => .pure (.mend _ h)
  | fail h => exact .pure (.fail h)

theorem enum {look : Option (TokenSrc n) → Option Nat} {first : TSet n} {fs fs' : List (P σ n × Option (LSet n))}
    (h : Core.Forall2 (fun a b => TP a.1 b.1 ∧ a.2 = b.2) fs fs') :
    TP (produceEnum o look first fs) (produceEnum o look first fs') := by
  refine SRel.same _ fun tok => ?_
  cases look tok with
  | none => exact SRel.same _ fun e => .pure (.refl _)
  | some i =>
    have hi : (fs[i]? = none ∧ fs'[i]? = none) ∨
        ∃ p p' s, fs[i]? = some (p, s) ∧ fs'[i]? = some (p', s) ∧ TP p p' := by
      induction h generalizing i with
      | nil => exact .inl ⟨rfl, rfl⟩
      | @cons a b l l' h hs ih =>
        cases i with
        | zero =>
          obtain ⟨a1, a2⟩ := a
          obtain ⟨b1, b2⟩ := b
          obtain ⟨h1, rfl⟩ := h
          exact .inr ⟨a1, b1, _, rfl, rfl, h1⟩
        | succ i => exact ih i
    try dsimp only
    rcases hi with ⟨h1, h2⟩ | ⟨p, p', s, h1, h2, h3⟩
    · rw [h1, h2]
      exact SRel.same _ fun e => .pure (.refl _)
    · rw [h1, h2]
      exact h3.bind fun r r' h => mapVariant h

theorem option {first : TSet n} {p p' : P σ n} (h : TP p p') (mk : Span → Option (Tree n) → Tree n) :
    TP (produceOption o first p mk) (produceOption o first p' mk) := by
  refine SRel.same _ fun tok => ?_
  try dsimp only
  split
  · refine h.bind fun r r' h => ?_
    cases h with
    | succ x => exact .pure (.succ _)
    | note x e => exact .pure (.note _ _)
    | mend x h => exact .pure (.mend _ h)
    | fail h => exact SRel.same _ fun _ => .pure (.mend _ h)
  · exact SRel.same _ fun _ => .pure (.succ _)

theorem text {p p' : P σ n} (h : TP p p') : TP (produceText o p) (produceText o p') := by
  refine h.bind fun r r' h => ?_
  cases h with
  | succ x => exact SRel.same _ fun _ => .pure (.succ _)
  | note x e => exact SRel.same _ fun _ => .pure (.note _ _)
  | mend x h => exact SRel.same _ fun _ => .pure (.mend _ h)
  | fail h => exact .pure (.fail h)

theorem iterLoop {first : TSet n} {p p' : P σ n} (h : TP p p') : ∀ fuel acc {errs errs'} hi, Quieter errs errs' →
    SRel (fun a b => a.1 = b.1 ∧ Quieter a.2.1 b.2.1 ∧ a.2.2 = b.2.2)
      (iterLoop o first p fuel acc errs hi) (iterLoop o first p' fuel acc errs' hi) := by
  intro fuel
  induction fuel with
  | zero => intro acc errs errs' hi he; exact .fuel
  | succ fuel ih =>
    intro acc errs errs' hi he
    refine SRel.same _ fun tok => ?_
    try dsimp only
    split
    · refine h.bind fun r r' h => ?_
      cases h with
      | succ x => exact ih _ _ he
      | note x e => exact ih _ _ he.left
      | mend x h => exact ih _ _ (he.append h)
      | fail h => exact .pure ⟨rfl, he.append h, rfl⟩
    · exact .pure ⟨rfl, he, rfl⟩

theorem plusRest {first : TSet n} {p p' : P σ n} (h : TP p p') (fuel : Nat) (t : Tree n) {errs errs' : List (Err n)}
    (he : Quieter errs errs') : TP (plusRest o first p fuel t errs) (plusRest o first p' fuel t errs') := by
  refine (iterLoop h _ _ _ he).bind fun a b h => ?_
  obtain ⟨a1, a2, a3⟩ := a
  obtain ⟨b1, b2, b3⟩ := b
  obtain ⟨rfl, h2, rfl⟩ := h
  exact .pure (.ofPair h2)

theorem plus {first : TSet n} {p p' : P σ n} (h : TP p p') (fuel : Nat) :
    TP (producePlus o first p fuel) (producePlus o first p' fuel) := by
  refine h.bind fun r r' hr => ?_
  cases hr with
  | succ x => exact plusRest h _ _ .nil
  | note x e => exact plusRest h _ _ .nil
  | mend x h' => exact plusRest h _ _ h'
  | fail h => exact .pure (.fail h)

theorem loopElem {p p' : P σ n} (h : TP p p') (out : List (Tree n)) {errs errs' : List (Err n)} (he : Quieter errs errs') :
    SRel (fun a b => a.1 = b.1 ∧ a.2.1 = b.2.1 ∧ Quieter a.2.2 b.2.2)
      (loopElem o p out errs) (loopElem o p' out errs') := by
  refine SRel.same _ fun before => h.bind fun r r' hr => SRel.same _ fun sp => ?_
  try dsimp only
  cases hr with
  | succ x =>
    split
    · exact .pure ⟨rfl, rfl, he.append .refl⟩
    · exact .pure ⟨rfl, rfl, he⟩
  | note x e =>
    split
    · exact .pure ⟨rfl, rfl, he.left.append .refl⟩
    · exact .pure ⟨rfl, rfl, he.left⟩
  | mend x h =>
    split
    · exact .pure ⟨rfl, rfl, (he.append h).append .refl⟩
    · exact .pure ⟨rfl, rfl, he.append h⟩
  | fail h =>
    split
    · exact .pure ⟨rfl, rfl, (he.append h).append .refl⟩
    · exact .pure ⟨rfl, rfl, he.append h⟩

theorem loopSkip {first : TSet n} (fuel : Nat) {errs errs' : List (Err n)} (he : Quieter errs errs') :
    SRel (fun a b => Quieter a.1 b.1 ∧ a.2 = b.2) (loopSkip o first fuel errs) (loopSkip o first fuel errs') := by
  refine SRel.same _ fun sp => SRel.same _ fun _ => SRel.same _ fun x => ?_
  exact .pure ⟨he.append .refl, rfl⟩

theorem loopLoop {first : TSet n} {p p' : P σ n} (h : TP p p') : ∀ fuel out {errs errs'}, Quieter errs errs' →
    SRel (fun a b => a.1 = b.1 ∧ Quieter a.2 b.2) (loopLoop o first p fuel out errs)
      (loopLoop o first p' fuel out errs') := by
  intro fuel
  induction fuel with
  | zero => intro out errs errs' he; exact .fuel
  | succ fuel ih =>
    intro out errs errs' he
    refine SRel.same _ fun tok => ?_
    try dsimp only
    split
    · exact .pure ⟨rfl, he⟩
    refine Relab.MRel.bind (R := fun a b => Quieter a.1 b.1 ∧ a.2 = b.2) ?_ fun a b hab => ?_
    · split
      · exact loopSkip _ he
      · exact .pure ⟨he, rfl⟩
    obtain ⟨e1, more⟩ := a
    obtain ⟨e2, more'⟩ := b
    obtain ⟨he, rfl⟩ := hab
    try dsimp only
    split
    · exact .pure ⟨rfl, he⟩
    refine (loopElem h _ he).bind fun a b hab => ?_
    obtain ⟨g, a1, a2⟩ := a
    obtain ⟨g', b1, b2⟩ := b
    obtain ⟨rfl, rfl, he⟩ := hab
    try dsimp only
    split
    · exact ih _ he
    · exact .pure ⟨rfl, he⟩

theorem loop {first : TSet n} {p p' : P σ n} (h : TP p p') (fuel : Nat) :
    TP (produceLoop o first p fuel) (produceLoop o first p' fuel) := by
  refine (loopLoop h _ _ .nil).bind fun a b hab => ?_
  obtain ⟨a1, a2⟩ := a
  obtain ⟨b1, b2⟩ := b
  obtain ⟨rfl, he⟩ := hab
  try dsimp only
  split
  · exact SRel.same _ fun _ => .pure (.ofPair he)
  · exact .pure (.ofPair he)

/-- Pending errors. -/
def QuietP (a b : Option (Err n)) : Prop := b = none → a = none

theorem QuietP.toList {a b : Option (Err n)} (h : QuietP a b) : Quieter a.toList b.toList := by
  intro e
  cases b with
  | none => rw [h rfl]; rfl
  | some x => cases e

theorem QuietP.merge {a b : Option (Err n)} {e e' : List (Err n)} (h : QuietP a b) (he : Quieter e e') :
    QuietP (mergePanic a e) (mergePanic b e') := by
  intro hb
  unfold mergePanic at hb
  cases h1 : e'.getLast? with
  | some x => rw [h1] at hb; cases b <;> cases hb
  | none =>
    rw [h1] at hb
    have h2 := he (List.getLast?_eq_none_iff.1 h1)
    subst h2
    exact h hb

/-- Related lists of `Split` and `Punct`. -/
def AccRel (a b : Acc n) : Prop := a.elems = b.elems ∧ a.puncts = b.puncts ∧ Quieter a.errs b.errs

/-- `extendPanic` or a new error: the same to the state. -/
theorem pend {α : Type} {R : α → α → Prop} (x y : Span → Err n) {f g : Err n → M σ α}
    (hfg : ∀ x y, SRel R (f x) (g y)) : SRel R ((o.mCurrentSpan >>= fun sp => Pure.pure (x sp)) >>= f)
      ((o.mCurrentSpan >>= fun sp => Pure.pure (y sp)) >>= g) := by
  refine Relab.MRel.bind (R := fun _ _ => True) ?_ fun a b _ => hfg a b
  exact SRel.same _ fun sp => .pure trivial

theorem assoc {α β γ : Type} (x : M σ α) (f : α → M σ β) (g : β → M σ γ) :
    (x >>= f) >>= g = x >>= fun a => f a >>= g := by
  funext s
  show M.bind (M.bind x f) g s = M.bind x (fun a => M.bind (f a) g) s
  unfold M.bind
  cases x s <;> rfl

def ext (p : Err n) (sp : Span) : Err n := { p with span := { p.span with hi := sp.hi } }

def TryRel (r r' : Except (Acc n) (Option (TokenSrc n) × Option (Err n))) : Prop :=
  (∃ a b, r = .error a ∧ r' = .error b ∧ AccRel a b) ∨ ∃ tok x y, r = .ok (tok, x) ∧ r' = .ok (tok, y) ∧ QuietP x y

theorem splitTry {ef : TSet n} {pt pt' : P σ n} (h : TP pt pt') (q : Tree n) {a b : Acc n} {x y : Option (Err n)}
    (ha : AccRel a b) (hx : QuietP x y) :
    SRel TryRel
      (splitTry o ef pt q a x) (splitTry o ef pt' q b y) := by
  obtain ⟨a1, a2, a3⟩ := a
  obtain ⟨b1, b2, b3⟩ := b
  obtain ⟨h1, h2, h3⟩ := ha
  dsimp only at h1 h2 h3
  subst h1 h2
  refine SRel.same _ fun tok => ?_
  try dsimp only
  split
  · refine h.bind fun r r' hr => ?_
    cases hr with
    | succ t => exact .pure (.inl ⟨_, _, rfl, rfl, rfl, rfl, h3.append hx.toList⟩)
    | note t e => exact .pure (.inl ⟨_, _, rfl, rfl, rfl, rfl, h3.left.append hx.toList⟩)
    | mend t he => exact .pure (.inl ⟨_, _, rfl, rfl, rfl, rfl, (h3.append he).append hx.toList⟩)
    | fail he => exact SRel.same _ fun tok => .pure (.inr ⟨_, _, _, rfl, rfl, hx.merge he⟩)
  · have hok : ∀ x y : Err n, SRel TryRel
        (Pure.pure (.ok (tok, some x)) : M σ (Except (Acc n) (Option (TokenSrc n) × Option (Err n))))
        (Pure.pure (.ok (tok, some y))) := fun x y => .pure (.inr ⟨_, _, _, rfl, rfl, by simp [QuietP]⟩)
    cases y with
    | none =>
      cases hx rfl
      exact pend (fun sp => ⟨sp, .expecting ef⟩) (fun sp => ⟨sp, .expecting ef⟩) hok
    | some q =>
      cases x with
      | none => exact pend (fun sp => ⟨sp, .expecting ef⟩) (ext q) hok
      | some p => exact pend (ext p) (ext q) hok

def GoRel (x y : Bool × Acc n) : Prop := x.1 = y.1 ∧ AccRel x.2 y.2

theorem AccRel.push {a b : Acc n} {x y : Option (Err n)} (ha : AccRel a b) (hx : QuietP x y) :
    AccRel { a with errs := a.errs ++ x.toList } { b with errs := b.errs ++ y.toList } :=
  ⟨ha.1, ha.2.1, ha.2.2.append hx.toList⟩

theorem splitInner {ef pf fol : TSet n} {pt pt' : P σ n} (h : TP pt pt') (q : Tree n) :
    ∀ fuel {a b : Acc n} {x y : Option (Err n)}, AccRel a b → QuietP x y →
    SRel GoRel (splitInner o ef pf fol pt q fuel a x) (splitInner o ef pf fol pt' q fuel b y) := by
  intro fuel
  induction fuel with
  | zero => intro a b x y ha hx; exact .fuel
  | succ fuel ih =>
    intro a b x y ha hx
    refine (splitTry h q ha hx).bind fun r r' hr => ?_
    rcases hr with ⟨a, b, rfl, rfl, h⟩ | ⟨tok, x, y, rfl, rfl, hx⟩
    · exact .pure ⟨rfl, h⟩
    · dsimp only
      split
      · exact .pure ⟨rfl, ha.push hx⟩
      split
      · exact .pure ⟨rfl, ha.push hx⟩
      · exact SRel.same _ fun _ => ih ha hx

theorem splitOuter {ef pf fol : TSet n} {pt pt' pp pp' : P σ n} (h : TP pt pt') (hp : TP pp pp') :
    ∀ fuel {a b : Acc n}, AccRel a b →
    SRel AccRel (splitOuter o ef pf fol pt pp fuel a) (splitOuter o ef pf fol pt' pp' fuel b) := by
  intro fuel
  induction fuel with
  | zero => intro a b ha; exact .fuel
  | succ fuel ih =>
    intro a b ha
    have hin : ∀ q {a b : Acc n}, AccRel a b → SRel AccRel
        (Teleparse.splitInner o ef pf fol pt q fuel a none >>= fun x =>
          if x.1 then Teleparse.splitOuter o ef pf fol pt pp fuel x.2 else Pure.pure x.2)
        (Teleparse.splitInner o ef pf fol pt' q fuel b none >>= fun x =>
          if x.1 then Teleparse.splitOuter o ef pf fol pt' pp' fuel x.2 else Pure.pure x.2) := by
      intro q a b ha
      refine (splitInner h q fuel ha (fun _ => rfl)).bind fun x y hxy => ?_
      rw [hxy.1]
      split
      · exact ih hxy.2
      · exact .pure hxy.2
    refine SRel.same _ fun tok => ?_
    try dsimp only
    split
    · refine hp.bind fun r r' hr => ?_
      cases hr with
      | succ q => exact hin q ha
      | note q e => exact hin q ⟨ha.1, ha.2.1, ha.2.2.left⟩
      | mend q he => exact hin q ⟨ha.1, ha.2.1, ha.2.2.append he⟩
      | fail he => exact .pure ⟨ha.1, ha.2.1, ha.2.2.append he⟩
    · exact .pure ha

theorem splitDone {lo : Nat} {a b : Acc n} (h : AccRel a b) : Twin (splitDone lo a) (splitDone lo b) := by
  unfold Teleparse.splitDone
  rw [h.1, h.2.1]
  exact .ofPair h.2.2

theorem split {ef pf fol : TSet n} {pt pt' pp pp' : P σ n} (h : TP pt pt') (hp : TP pp pp') (fuel : Nat) :
    TP (produceSplit o ef pf fol pt pp fuel) (produceSplit o ef pf fol pt' pp' fuel) := by
  refine h.bind fun r r' hr => ?_
  cases hr with
  | succ t => exact (splitOuter h hp fuel ⟨rfl, rfl, .nil⟩).bind fun a b hab => .pure (splitDone hab)
  | note t e => exact (splitOuter h hp fuel (b := ⟨[t], [], e⟩) (a := ⟨[t], [], []⟩) ⟨rfl, rfl, .nil⟩).bind fun a b hab => .pure (splitDone hab)
  | @mend t e e' he => exact (splitOuter h hp fuel (b := ⟨[t], [], e'⟩) (a := ⟨[t], [], e⟩) ⟨rfl, rfl, he⟩).bind fun a b hab => .pure (splitDone hab)
  | fail he => exact .pure (.fail he)

def PTryRel (r r' : Except (Bool × Acc n) (Option (Err n))) : Prop :=
  (∃ a b, r = .error a ∧ r' = .error b ∧ GoRel a b) ∨ ∃ x y, r = .ok x ∧ r' = .ok y ∧ QuietP x y

theorem punctTry {ef fol : TSet n} {pt pt' : P σ n} (h : TP pt pt') {a b : Acc n} {x y : Option (Err n)}
    (ha : AccRel a b) (hx : QuietP x y) :
    SRel PTryRel
      (punctTry o ef fol pt a x) (punctTry o ef fol pt' b y) := by
  obtain ⟨a1, a2, a3⟩ := a
  obtain ⟨b1, b2, b3⟩ := b
  obtain ⟨h1, h2, h3⟩ := ha
  dsimp only at h1 h2 h3
  subst h1 h2
  refine SRel.same _ fun tok => ?_
  try dsimp only
  split
  · exact .pure (.inl ⟨_, _, rfl, rfl, rfl, rfl, rfl, h3.append hx.toList⟩)
  split
  · refine h.bind fun r r' hr => ?_
    cases hr with
    | succ t => exact .pure (.inl ⟨_, _, rfl, rfl, rfl, rfl, rfl, h3.append hx.toList⟩)
    | note t e => exact .pure (.inl ⟨_, _, rfl, rfl, rfl, rfl, rfl, (h3.append hx.toList).left⟩)
    | mend t he => exact .pure (.inl ⟨_, _, rfl, rfl, rfl, rfl, rfl, (h3.append hx.toList).append he⟩)
    | fail he => exact .pure (.inr ⟨_, _, rfl, rfl, hx.merge he⟩)
  split
  · exact .pure (.inl ⟨_, _, rfl, rfl, rfl, rfl, rfl, h3.append hx.toList⟩)
  · have hok : ∀ x y : Err n, SRel PTryRel
        (Pure.pure (.ok (some x)) : M σ (Except (Bool × Acc n) (Option (Err n))))
        (Pure.pure (.ok (some y))) := fun x y => .pure (.inr ⟨_, _, rfl, rfl, by simp [QuietP]⟩)
    cases y with
    | none =>
      cases hx rfl
      exact SRel.same _ fun _ => hok _ _
    | some q =>
      cases x with
      | none =>
        have := pend (o := o) (fun sp => ⟨sp, .expecting (punctExpecting ef fol)⟩) (ext q) hok
        rw [assoc] at this
        exact this
      | some p => exact pend (ext p) (ext q) hok

theorem punctInner {ef pf fol : TSet n} {pt pt' : P σ n} (h : TP pt pt') :
    ∀ fuel {a b : Acc n} {x y : Option (Err n)}, AccRel a b → QuietP x y →
    SRel GoRel (punctInner o ef pf fol pt fuel a x) (punctInner o ef pf fol pt' fuel b y) := by
  intro fuel
  induction fuel with
  | zero => intro a b x y ha hx; exact .fuel
  | succ fuel ih =>
    intro a b x y ha hx
    refine (punctTry h ha hx).bind fun r r' hr => ?_
    rcases hr with ⟨a, b, rfl, rfl, h⟩ | ⟨x, y, rfl, rfl, hx⟩
    · exact .pure h
    · refine SRel.same _ fun tok => ?_
      try dsimp only
      split
      · exact .pure ⟨rfl, ha.push hx⟩
      split
      · exact .pure ⟨rfl, ha.push hx⟩
      · exact SRel.same _ fun _ => ih ha hx

theorem punctOuter {ef pf fol : TSet n} {pt pt' pp pp' : P σ n} (h : TP pt pt') (hp : TP pp pp') :
    ∀ fuel {a b : Acc n}, AccRel a b →
    SRel AccRel (punctOuter o ef pf fol pt pp fuel a) (punctOuter o ef pf fol pt' pp' fuel b) := by
  intro fuel
  induction fuel with
  | zero => intro a b ha; exact .fuel
  | succ fuel ih =>
    intro a b ha
    have hin : ∀ {a b : Acc n}, AccRel a b → SRel AccRel
        (Teleparse.punctInner o ef pf fol pt fuel a none >>= fun x =>
          if x.1 then Teleparse.punctOuter o ef pf fol pt pp fuel x.2 else Pure.pure x.2)
        (Teleparse.punctInner o ef pf fol pt' fuel b none >>= fun x =>
          if x.1 then Teleparse.punctOuter o ef pf fol pt' pp' fuel x.2 else Pure.pure x.2) := by
      intro a b ha
      refine (punctInner h fuel ha (fun _ => rfl)).bind fun x y hxy => ?_
      rw [hxy.1]
      split
      · exact ih hxy.2
      · exact .pure hxy.2
    refine SRel.same _ fun tok => ?_
    try dsimp only
    split
    · refine hp.bind fun r r' hr => ?_
      cases hr with
      | succ q => exact hin ⟨ha.1, by simp [ha.2.1], ha.2.2⟩
      | note q e => exact hin ⟨ha.1, by simp [ha.2.1], ha.2.2.left⟩
      | mend q he => exact hin ⟨ha.1, by simp [ha.2.1], ha.2.2.append he⟩
      | fail he => exact .pure ⟨ha.1, ha.2.1, ha.2.2.append he⟩
    · exact .pure ha

theorem punctDone {lo : Nat} {a b : Acc n} (h : AccRel a b) : Twin (punctDone lo a) (punctDone lo b) := by
  unfold Teleparse.punctDone
  rw [h.1, h.2.1]
  exact .ofPair h.2.2

theorem punct {ef pf fol : TSet n} {pt pt' pp pp' : P σ n} (h : TP pt pt') (hp : TP pp pp') (fuel : Nat) :
    TP (producePunct o ef pf fol pt pp fuel) (producePunct o ef pf fol pt' pp' fuel) := by
  refine h.bind fun r r' hr => ?_
  cases hr with
  | succ t => exact (punctOuter h hp fuel ⟨rfl, rfl, .nil⟩).bind fun a b hab => .pure (punctDone hab)
  | note t e => exact (punctOuter h hp fuel (b := ⟨[t], [], e⟩) (a := ⟨[t], [], []⟩) ⟨rfl, rfl, .nil⟩).bind fun a b hab => .pure (punctDone hab)
  | @mend t e e' he => exact (punctOuter h hp fuel (b := ⟨[t], [], e'⟩) (a := ⟨[t], [], e⟩) ⟨rfl, rfl, he⟩).bind fun a b hab => .pure (punctDone hab)
  | fail he => exact .pure (.fail he)

def HeadRel (a b : RHead n) : Prop := a.span = b.span ∧ a.head = b.head ∧ Quieter a.errs b.errs ∧ QuietP a.panic b.panic

theorem recoverHead {hf : TSet n} {pt pt' : P σ n} (h : TP pt pt') :
    SRel HeadRel (recoverHead o hf pt) (recoverHead o hf pt') := by
  refine SRel.same _ fun tok => ?_
  try dsimp only
  split
  · refine h.bind fun r r' hr => ?_
    cases hr with
    | succ t => exact .pure ⟨rfl, rfl, .nil, id⟩
    | note t e => exact .pure ⟨rfl, rfl, .nil, id⟩
    | mend t he => exact .pure ⟨rfl, rfl, he, id⟩
    | fail he =>
      refine SRel.same _ fun sp => .pure ⟨rfl, rfl, .nil, ?_⟩
      intro e
      rw [he (List.getLast?_eq_none_iff.1 e)]
      rfl
  · exact SRel.same _ fun e => SRel.same _ fun sp => .pure ⟨rfl, rfl, .nil, id⟩

theorem recoverSkip {tf : TSet n} {x y : Option (Err n)} (hx : QuietP x y) :
    SRel (fun a b => QuietP a b) (recoverSkip o tf x) (recoverSkip o tf y) := by
  have hok : ∀ x y : Err n, SRel (fun a b => QuietP a b) (o.mConsume >>= fun _ => Pure.pure (some x))
      (o.mConsume >>= fun _ => Pure.pure (some y)) := fun x y => SRel.same _ fun _ => .pure (by simp [QuietP])
  cases y with
  | none =>
    cases hx rfl
    exact pend (fun sp => ⟨sp, .expecting tf⟩) (fun sp => ⟨sp, .expecting tf⟩) hok
  | some q =>
    cases x with
    | none => exact pend (fun sp => ⟨sp, .expecting tf⟩) (ext q) hok
    | some p => exact pend (ext p) (ext q) hok

/-- Asking again at the end changes nothing. -/
def Settled (o : Ops σ n) : Prop := ∀ s, (o.peek s).1 = none → o.peek (o.peek s).2 = (none, (o.peek s).2)

def TailRel (a b : Option (Tree n) × List (Err n) × Option (Err n)) : Prop :=
  a.1 = b.1 ∧ Quieter a.2.1 b.2.1 ∧ QuietP a.2.2 b.2.2

theorem peekSrc_none (ho : Settled o) {s s' : σ} {tok : Option (TokenSrc n)} (h : o.mPeekSrc s = .ok tok s') (hn : tok.isNone = true) :
    ∃ sp, o.mCurrentSpan s' = .ok sp s' := by
  simp only [Ops.mPeekSrc, bind_ok, Ops.mPeek, Out.ok.injEq] at h
  obtain ⟨t, s1, ⟨h1, h2⟩, h3⟩ := h
  cases t with
  | some t =>
    simp only [bind_ok, pure_ok] at h3
    obtain ⟨_, _, _, rfl, _⟩ := h3
    cases hn
  | none =>
    simp only [pure_ok] at h3
    obtain ⟨rfl, h3⟩ := h3
    subst h3
    have := ho s h1
    rw [h2] at this
    refine ⟨⟨(o.source s1).length, (o.source s1).length⟩, ?_⟩
    simp only [Ops.mCurrentSpan, bind_ok, Ops.mPeek, Out.ok.injEq, this]
    refine ⟨none, s1, ⟨rfl, rfl⟩, ?_⟩
    simp only [bind_ok, Ops.mSource, Out.ok.injEq, pure_ok]
    exact ⟨_, _, ⟨rfl, rfl⟩, rfl, rfl⟩

theorem recoverLoop (ho : Settled o) {tf : TSet n} {pr pr' : P σ n} (h : TP pr pr') :
    ∀ fuel {errs errs' : List (Err n)} {x y : Option (Err n)}, Quieter errs errs' → QuietP x y →
    SRel TailRel (recoverLoop o tf pr fuel errs x) (recoverLoopFix o tf pr' fuel errs' y) := by
  intro fuel
  induction fuel with
  | zero => intro errs errs' x y he hx; exact .fuel
  | succ fuel ih =>
    intro errs errs' x y he hx
    rintro s _ rfl
    show Relab.OutRel Eq TailRel (M.bind o.mPeekSrc _ s) (M.bind o.mPeekSrc _ s)
    unfold M.bind
    cases hpk : o.mPeekSrc s with
    | fuel => exact .fuel
    | crash => exact .crash
    | ok tok s' =>
      try dsimp only
      by_cases hn : tok.isNone = true
      · rw [if_pos hn, if_pos hn]
        cases tf.containsE
        · obtain ⟨sp, hsp⟩ := peekSrc_none ho hpk hn
          cases y with
          | some p => exact .ok ⟨rfl, he, hx⟩ rfl
          | none =>
            have : (o.mExpecting tf >>= fun e => (Pure.pure (none, errs', some e) : M σ (Option (Tree n) × List (Err n) × Option (Err n)))) s' =
                .ok (none, errs', some ⟨sp, .expecting tf⟩) s' := by
              simp only [Ops.mExpecting, bind_ok, pure_ok]
              exact ⟨_, _, ⟨_, _, hsp, rfl, rfl⟩, rfl, rfl⟩
            simp only [Bool.false_eq_true, if_false]
            rw [this]
            exact .ok ⟨rfl, he, by simp [QuietP]⟩ rfl
        · refine Relab.MRel.bind (SR := Eq) h (fun r r' hr => ?_) s' s' rfl
          cases hr with
          | succ t => exact .pure ⟨rfl, he, hx⟩
          | note t e => exact .pure ⟨rfl, he.left, hx⟩
          | mend t h => exact .pure ⟨rfl, he.append h, hx⟩
          | fail h => exact .pure ⟨rfl, he, hx.merge h⟩
      · rw [if_neg hn, if_neg hn]
        cases (tf.contains tok || tf.containsE)
        · exact Relab.MRel.bind (SR := Eq) (recoverSkip hx) (fun a b hab => ih he hab) s' s' rfl
        · refine Relab.MRel.bind (SR := Eq) h (fun r r' hr => ?_) s' s' rfl
          cases hr with
          | succ t => exact .pure ⟨rfl, he, hx⟩
          | note t e => exact .pure ⟨rfl, he.left, hx⟩
          | mend t h => exact .pure ⟨rfl, he.append h, hx⟩
          | fail h => exact Relab.MRel.bind (recoverSkip (hx.merge h)) fun a b hab => ih he hab

theorem recover (ho : Settled o) {hf tf : TSet n} {pt pt' pr pr' : P σ n} (h : TP pt pt') (hp : TP pr pr') (fuel : Nat) :
    TP (produceRecover o hf tf pt pr fuel) (produceRecoverFix o hf tf pt' pr' fuel) := by
  refine (recoverHead h).bind fun a b hab => ?_
  obtain ⟨h1, h2, h3, h4⟩ := hab
  have hmk : ∀ t, mkRecover a t = mkRecover b t := by intro t; unfold mkRecover; rw [h1, h2]
  refine (recoverLoop ho hp fuel h3 h4).bind fun x y hxy => ?_
  obtain ⟨x1, x2, x3⟩ := x
  obtain ⟨y1, y2, y3⟩ := y
  obtain ⟨g1, g2, g3⟩ := hxy
  dsimp only at g1 g2 g3
  subst g1
  cases x1 with
  | none => exact .pure (.fail (g2.append g3.toList))
  | some t =>
    try dsimp only
    rw [hmk]
    exact .pure (.ofPair (g2.append g3.toList))

theorem step (ho : Settled o) (S : Schema m n) (md : Metadata (PId m n) n) (fuel : Nat) {rec rec' : Ty m n → P σ n}
    (hr : ∀ t, TP (rec t) (rec' t)) (t : Ty m n) :
    TP (produceStep o S md fuel rec t) (produceStepFix o S md fuel rec' t) := by
  have hfs : ∀ l : List (Field m n), Core.Forall2 (fun a b => TP a.1 b.1 ∧ a.2 = b.2)
      (l.map fun f => (rec f.1, f.2)) (l.map fun f => (rec' f.1, f.2)) := by
    intro l
    induction l with
    | nil => exact .nil
    | cons a l ih => exact .cons ⟨hr _, rfl⟩ ih
  cases t with
  | term k t => exact Relab.MRel.mono (SRel.refl _) (fun a b e => e ▸ .refl _)
  | user k =>
    rw [produceStepFix_eq (by simp)]
    cases hS : S k with
    | struct f fs =>
      simp only [produceStep, hS]
      exact struct (hfs (f :: fs))
    | enum v vs =>
      simp only [produceStep, hS]
      exact enum (hfs (v :: vs))
  | box t => exact hr t
  | option t => exact option (hr t) _
  | exist t => exact option (hr t) _
  | quote t => exact text (hr t)
  | parse t => exact text (hr t)
  | plus t => exact plus (hr t) _
  | star t => exact option (plus (hr t) _) _
  | loop t => exact loop (hr t) _
  | split t p => exact split (hr t) (hr p) _
  | punct t p => exact punct (hr t) (hr p) _
  | recover t r => exact recover ho (hr t) (hr r) _
  | tup2 a b => exact tuple (.cons (hr a) (.cons (hr b) .nil))
  | tup3 a b c => exact tuple (.cons (hr a) (.cons (hr b) (.cons (hr c) .nil)))
  | tup4 a b c d => exact tuple (.cons (hr a) (.cons (hr b) (.cons (hr c) (.cons (hr d) .nil))))
  | tup5 a b c d e =>
    exact tuple (.cons (hr a) (.cons (hr b) (.cons (hr c) (.cons (hr d) (.cons (hr e) .nil)))))

end TwinStep

theorem produce_twin {o : Ops σ n} (ho : TwinStep.Settled o) (S : Schema m n) (md : Metadata (PId m n) n) :
    ∀ fuel (t : Ty m n), TP (produce o S md fuel t) (produceFix o S md fuel t)
  | 0, _ => .fuel
  | fuel + 1, t => TwinStep.step ho S md fuel (produce_twin ho S md fuel) t

/-! ### The parser -/

theorem nextLoop_drain (l : List (Item n)) : ∀ last has a b,
    ((Lexer.nextLoop l last has a b).1.2 = none → (Lexer.nextLoop l last has a b).2.items = []) ∧
    (∀ t, (Lexer.nextLoop l last has a b).1.2 = some t → (Lexer.nextLoop l last has a b).2.items.length < l.length) := by
  induction l with
  | nil => intro last has a b; exact ⟨fun _ => rfl, fun t h => by cases h⟩
  | cons i l ih =>
    intro last has a b
    cases i with
    | token t => exact ⟨fun h => (by cases h), fun _ _ => Nat.lt_succ_self _⟩
    | error sp =>
      obtain ⟨h1, h2⟩ := ih sp true (if has then a else sp.lo) sp.hi
      exact ⟨h1, fun t h => Nat.lt_succ_of_lt (h2 t h)⟩

theorem readLoop_end (ext : Fin n → Bool) : ∀ fuel (p : Parser n), p.lexer.items.length < fuel →
    (Parser.readLoop ext fuel p).peeked = none → (Parser.readLoop ext fuel p).lexer.items = [] := by
  intro fuel
  induction fuel with
  | zero => intro p h; omega
  | succ fuel ih =>
    intro p hl
    unfold Parser.readLoop
    obtain ⟨h1, h2⟩ := nextLoop_drain p.lexer.items p.lexer.last false p.lexer.last.hi p.lexer.last.hi
    change (p.lexer.next).1.2 = none → (p.lexer.next).2.items = [] at h1
    change ∀ t, (p.lexer.next).1.2 = some t → (p.lexer.next).2.items.length < p.lexer.items.length at h2
    generalize p.lexer.next = x at h1 h2
    obtain ⟨⟨inv, tok⟩, lx⟩ := x
    cases tok with
    | none => exact fun _ => h1 rfl
    | some t =>
      have := h2 t rfl
      dsimp only at this ⊢
      split
      · exact ih _ (by dsimp only; omega)
      · exact fun h => by cases h

theorem settled (ext : Fin n → Bool) : TwinStep.Settled (Parser.ops ext) := by
  intro p hp
  have hp : (p.fill ext).peeked = none := hp
  have hf : (p.fill ext).fill ext = p.fill ext := by
    have hi : (p.fill ext).lexer.items = [] := by
      unfold Parser.fill at hp ⊢
      cases hk : p.peeked with
      | some t => rw [hk] at hp; simp only at hp; rw [hk] at hp; cases hp
      | none =>
        rw [hk] at hp
        exact readLoop_end ext _ p (Nat.lt_succ_self _) hp
    generalize p.fill ext = q at hp hi
    obtain ⟨info, ⟨items, last⟩, pk⟩ := q
    dsimp only at hp hi
    subst hp hi
    rfl
  show (((p.fill ext).fill ext).peeked, (p.fill ext).fill ext) = (none, p.fill ext)
  rw [hf, hp]

theorem settled_view : TwinStep.Settled (View.ops (n := n)) := by
  intro v hv
  have hv : v.rest.head? = none := hv
  show (v.rest.head?, v) = (none, v)
  rw [hv]

end Teleparse
