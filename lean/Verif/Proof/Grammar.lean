import Verif.Spec.Grammar
/-
Derivations: composition, decomposition, and rule-by-rule characterisations of nullable and FIRST.
-/
namespace Teleparse
variable {I : Type} {n : Nat} {G : Grammar I n}

theorem Derives.trans {α β γ : List (Sym I n)} (h : Derives G α β) : Derives G β γ → Derives G α γ := by
  induction h with
  | refl => exact id
  | step e _ ih => intro h2; exact .step e (ih h2)

theorem Derives.ctx {α β : List (Sym I n)} (h : Derives G α β) (l r : List (Sym I n)) :
    Derives G (l ++ α ++ r) (l ++ β ++ r) := by
  induction h with
  | refl => exact .refl _
  | @step α β γ δ i e _ ih =>
    have : l ++ (α ++ Sym.nt i :: β) ++ r = (l ++ α) ++ Sym.nt i :: (β ++ r) := by simp
    rw [this]
    refine .step e ?_
    have h2 : l ++ α ++ γ ++ (β ++ r) = l ++ (α ++ γ ++ β) ++ r := by simp
    rw [h2]; exact ih

theorem Derives.left {α β : List (Sym I n)} (h : Derives G α β) (r : List (Sym I n)) :
    Derives G (α ++ r) (β ++ r) := by simpa using h.ctx [] r

theorem Derives.right {α β : List (Sym I n)} (h : Derives G α β) (l : List (Sym I n)) :
    Derives G (l ++ α) (l ++ β) := by simpa using h.ctx l []

theorem Derives.append {α β α' β' : List (Sym I n)} (h : Derives G α α') (h2 : Derives G β β') :
    Derives G (α ++ β) (α' ++ β') := (h.left β).trans (h2.right α')

theorem Derives.one {i : I} {γ : List (Sym I n)} (h : Expands G i γ) : Derives G [.nt i] γ := by
  have := Derives.step (α := []) (β := []) h (.refl _)
  simpa using this

theorem Derives.split_aux {σ δ : List (Sym I n)} (h : Derives G σ δ) :
    ∀ α β, σ = α ++ β → ∃ α' β', δ = α' ++ β' ∧ Derives G α α' ∧ Derives G β β' := by
  induction h with
  | refl => intro α β h; exact ⟨α, β, h, .refl _, .refl _⟩
  | @step l r γ δ i e _ ih =>
    intro α β h
    rw [List.append_eq_append_iff] at h
    rcases h with ⟨a', h1, h2⟩ | ⟨c', h1, h2⟩
    · -- α = l ++ a', nt i :: r = a' ++ β
      cases a' with
      | nil =>
        simp at h1 h2
        subst h1; subst h2
        obtain ⟨α', β', h3, h4, h5⟩ := ih α (γ ++ r) (by simp)
        exact ⟨α', β', h3, h4, by simpa using Derives.step (α := []) e (by simpa using h5)⟩
      | cons x a' =>
        simp only [List.cons_append, List.cons.injEq] at h2
        obtain ⟨rfl, h2⟩ := h2
        subst h1; subst h2
        obtain ⟨α', β', h3, h4, h5⟩ := ih (l ++ γ ++ a') β (by simp)
        exact ⟨α', β', h3, .step e h4, h5⟩
    · subst h1; subst h2
      obtain ⟨α', β', h3, h4, h5⟩ := ih α (c' ++ γ ++ r) (by simp)
      exact ⟨α', β', h3, h4, .step e h5⟩

/-- A derivation from a concatenation splits. -/
theorem Derives.split {α β δ : List (Sym I n)} (h : Derives G (α ++ β) δ) :
    ∃ α' β', δ = α' ++ β' ∧ Derives G α α' ∧ Derives G β β' := h.split_aux _ _ rfl

theorem Derives.nil_inv {δ : List (Sym I n)} (h : Derives G [] δ) : δ = [] := by
  generalize hα : ([] : List (Sym I n)) = α at h
  cases h with
  | refl => rfl
  | step => simp at hα

theorem Derives.toks_inv (w : List (TokenSrc n)) {δ : List (Sym I n)}
    (h : Derives G (w.map .tok) δ) : δ = w.map .tok := by
  generalize hα : w.map Sym.tok = α at h
  cases h with
  | refl => rfl
  | @step α β γ δ i =>
    have : Sym.nt i ∈ w.map (Sym.tok (I := I)) := by rw [hα]; simp
    simp at this

theorem Derives.tok_cons_inv {t : TokenSrc n} {α δ : List (Sym I n)}
    (h : Derives G (.tok t :: α) δ) : ∃ δ', δ = .tok t :: δ' ∧ Derives G α δ' := by
  have h' : Derives G ([Sym.tok t] ++ α) δ := h
  obtain ⟨a, b, h1, h2, h3⟩ := h'.split
  have := Derives.toks_inv [t] (by simpa using h2)
  subst this; subst h1
  exact ⟨b, rfl, h3⟩

/-- A derivation from one production: nothing, or an expansion first. -/
theorem Derives.nt_inv {i : I} {δ : List (Sym I n)} (h : Derives G [.nt i] δ) :
    δ = [.nt i] ∨ ∃ γ, Expands G i γ ∧ Derives G γ δ := by
  generalize hα : [Sym.nt i] = α at h
  cases h with
  | refl => left; rfl
  | @step l r γ δ j e d =>
    cases l with
    | nil =>
      simp at hα
      obtain ⟨rfl, rfl⟩ := hα
      right; exact ⟨γ, e, by simpa using d⟩
    | cons x l => simp at hα

/-! ### Nullable, rule by rule -/

/-- Nullable productions by rules. -/
inductive Null (G : Grammar I n) : I → Prop
  | eps {i} : (i, Rule.eps) ∈ G → Null G i
  | seq {i l} : (i, Rule.seq l) ∈ G → (∀ j ∈ l, Null G j) → Null G i
  | alt {i l j} : (i, Rule.alt l) ∈ G → j ∈ l → Null G j → Null G i

/-- Every symbol of a sentential form is a nullable production. -/
def AllNull (G : Grammar I n) (α : List (Sym I n)) : Prop := ∀ s ∈ α, ∃ i, s = .nt i ∧ Null G i

theorem Null.of_expands {i : I} {γ : List (Sym I n)} (e : Expands G i γ) (h : AllNull G γ) :
    Null G i := by
  cases e with
  | eps h1 => exact .eps h1
  | @term _ tok h1 h2 => obtain ⟨i, h3, _⟩ := h (.tok tok) (by simp); cases h3
  | seq h1 =>
    refine .seq h1 (fun j hj => ?_)
    obtain ⟨i, h3, h4⟩ := h (.nt j) (by simp [hj])
    cases h3; exact h4
  | @alt l j h1 h2 =>
    obtain ⟨i, h3, h4⟩ := h (.nt j) (by simp)
    cases h3; exact .alt h1 h2 h4

theorem AllNull.of_derives {α δ : List (Sym I n)} (h : Derives G α δ) : δ = [] → AllNull G α := by
  induction h with
  | refl => intro h; subst h; intro s hs; cases hs
  | @step l r γ δ i e _ ih =>
    intro h
    have := ih h
    intro s hs
    simp only [List.mem_append, List.mem_cons] at hs
    rcases hs with hs | rfl | hs
    · exact this s (by simp [hs])
    · exact ⟨i, rfl, Null.of_expands e (fun s hs => this s (by simp [hs]))⟩
    · exact this s (by simp [hs])

theorem derives_nil_of_all (l : List I) (h : ∀ j ∈ l, Derives G [.nt j] []) :
    Derives G (l.map .nt) [] := by
  induction l with
  | nil => exact .refl _
  | cons a l ih =>
    have h1 := h a (by simp)
    have h2 := ih (fun j hj => h j (by simp [hj]))
    simpa using h1.append h2

theorem Null.nullable {i : I} (h : Null G i) : Nullable G i := by
  induction h with
  | eps h => exact .one (.eps h)
  | seq h _ ih => exact (Derives.one (.seq h)).trans (derives_nil_of_all _ ih)
  | alt h hj _ ih => exact (Derives.one (.alt h hj)).trans ih

theorem nullable_iff {i : I} : Nullable G i ↔ Null G i := by
  constructor
  · intro h
    obtain ⟨j, h1, h2⟩ := AllNull.of_derives h rfl (.nt i) (by simp)
    cases h1; exact h2
  · exact Null.nullable

/-! ### FIRST, rule by rule -/

/-- FIRST by rules. -/
inductive FirstI (G : Grammar I n) : I → TokenSrc n → Prop
  | term {i t tok} : (i, Rule.term t) ∈ G → t.Matches tok → FirstI G i tok
  | seq {i pre j post tok} : (i, Rule.seq (pre ++ j :: post)) ∈ G → (∀ k ∈ pre, Null G k) →
      FirstI G j tok → FirstI G i tok
  | alt {i l j tok} : (i, Rule.alt l) ∈ G → j ∈ l → FirstI G j tok → FirstI G i tok

/-- FIRST of a sentential form. -/
inductive FirstL (G : Grammar I n) : List (Sym I n) → TokenSrc n → Prop
  | tok {t α} : FirstL G (.tok t :: α) t
  | nt {i t α} : FirstI G i t → FirstL G (.nt i :: α) t
  | skip {i t α} : Null G i → FirstL G α t → FirstL G (.nt i :: α) t

theorem FirstL.append {α β : List (Sym I n)} {t : TokenSrc n} (h : FirstL G (α ++ β) t) :
    FirstL G α t ∨ (AllNull G α ∧ FirstL G β t) := by
  induction α with
  | nil => right; exact ⟨fun s hs => (by cases hs), h⟩
  | cons s α ih =>
    cases h with
    | tok => left; exact .tok
    | nt h => left; exact .nt h
    | @skip i _ _ hn h =>
      rcases ih h with h | ⟨h1, h2⟩
      · left; exact .skip hn h
      · right
        refine ⟨fun s hs => ?_, h2⟩
        rcases List.mem_cons.1 hs with rfl | hs
        · exact ⟨i, rfl, hn⟩
        · exact h1 s hs

theorem FirstL.of_map_nt {l : List I} {t : TokenSrc n} (h : FirstL G (l.map .nt) t) :
    ∃ pre j post, l = pre ++ j :: post ∧ (∀ k ∈ pre, Null G k) ∧ FirstI G j t := by
  induction l with
  | nil => cases h
  | cons a l ih =>
    cases h with
    | nt h => exact ⟨[], a, l, rfl, by simp, h⟩
    | skip hn h =>
      obtain ⟨pre, j, post, rfl, h2, h3⟩ := ih h
      refine ⟨a :: pre, j, post, rfl, ?_, h3⟩
      intro k hk
      rcases List.mem_cons.1 hk with rfl | hk
      · exact hn
      · exact h2 k hk

theorem FirstI.of_expands {i : I} {γ : List (Sym I n)} {t : TokenSrc n} (e : Expands G i γ)
    (h : FirstL G γ t) : FirstI G i t := by
  cases e with
  | eps h1 => cases h
  | term h1 h2 => cases h; exact .term h1 h2
  | seq h1 =>
    obtain ⟨pre, j, post, rfl, h2, h3⟩ := h.of_map_nt
    exact .seq h1 h2 h3
  | alt h1 h2 =>
    cases h with
    | nt h => exact .alt h1 h2 h
    | skip _ h => cases h

theorem FirstL.step {i : I} {γ β : List (Sym I n)} {t : TokenSrc n} (e : Expands G i γ) :
    ∀ {α}, FirstL G (α ++ γ ++ β) t → FirstL G (α ++ .nt i :: β) t := by
  intro α
  induction α with
  | nil =>
    intro h
    rcases FirstL.append (α := γ) (β := β) (by simpa using h) with h | ⟨h1, h2⟩
    · exact .nt (FirstI.of_expands e h)
    · exact .skip (Null.of_expands e h1) h2
  | cons s α ih =>
    intro h
    simp only [List.cons_append] at h ⊢
    cases h with
    | tok => exact .tok
    | nt h => exact .nt h
    | skip hn h => exact .skip hn (ih h)

theorem FirstL.of_derives {α δ : List (Sym I n)} (h : Derives G α δ) :
    ∀ {t β}, δ = .tok t :: β → FirstL G α t := by
  induction h with
  | refl => intro t β h; subst h; exact .tok
  | step e _ ih => intro t β h; exact FirstL.step e (ih h)

theorem FirstI.firstOf {i : I} {t : TokenSrc n} (h : FirstI G i t) : FirstOf G i t := by
  induction h with
  | term h1 h2 => exact ⟨[], .one (.term h1 h2)⟩
  | @seq i pre j post tok h1 h2 _ ih =>
    obtain ⟨β, h3⟩ := ih
    refine ⟨β ++ post.map .nt, (Derives.one (.seq h1)).trans ?_⟩
    have h4 := derives_nil_of_all pre (fun k hk => (h2 k hk).nullable)
    have h5 := h4.append (h3.append (Derives.refl (post.map Sym.nt)))
    simpa using h5
  | alt h1 h2 _ ih =>
    obtain ⟨β, h3⟩ := ih
    exact ⟨β, (Derives.one (.alt h1 h2)).trans h3⟩

theorem firstOf_iff {i : I} {t : TokenSrc n} : FirstOf G i t ↔ FirstI G i t := by
  constructor
  · rintro ⟨β, h⟩
    have := FirstL.of_derives h rfl
    cases this with
    | nt h => exact h
    | skip _ h => cases h
  · exact FirstI.firstOf

end Teleparse
