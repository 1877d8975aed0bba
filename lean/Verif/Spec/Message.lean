import Verif.Model.Lex
/-
Specification of a list of terminals shown to the user.
-/
namespace Teleparse
variable {n : Nat}

/-- The text `x` stands for (some of) the terminals in `In`: the name of a type all of whose tokens are in
`In`, or a token text in quotes if there are tokens of the type that are not in `In`, or `<empty>`. -/
def Shows (In : Option (TokenSrc n) → Prop) (name : Fin n → Str) (x : Str) : Prop :=
  (In none ∧ x = "<empty>".toList.map Char.toNat) ∨
  ∃ ty, ((∀ l, In (some ⟨ty, l⟩)) ∧ x = name ty) ∨
    ∃ l, In (some ⟨ty, l⟩) ∧ (∃ l', ¬ In (some ⟨ty, l'⟩)) ∧
      x = "\"".toList.map Char.toNat ++ l ++ "\"".toList.map Char.toNat

/-- `l` is the list of the terminals in `In`, in alphabetical order and without repetition. -/
def Lists (In : Option (TokenSrc n) → Prop) (name : Fin n → Str) (l : List Str) : Prop :=
  l.Pairwise (· < ·) ∧ ∀ x, x ∈ l ↔ Shows In name x

/-- Everything listed in `l` stands for terminals in `In`. -/
def ListsOnly (In : Option (TokenSrc n) → Prop) (name : Fin n → Str) (l : List Str) : Prop :=
  ∀ x ∈ l, (In none ∧ x = "<empty>".toList.map Char.toNat) ∨
    ∃ ty, ((∀ l, In (some ⟨ty, l⟩)) ∧ x = name ty) ∨
      ∃ l, In (some ⟨ty, l⟩) ∧ x = "\"".toList.map Char.toNat ++ l ++ "\"".toList.map Char.toNat

theorem Lists.unique {In : Option (TokenSrc n) → Prop} {name : Fin n → Str} {l l' : List Str}
    (h : Lists In name l) (h' : Lists In name l') : l = l' := by
  obtain ⟨hs, hm⟩ := h
  obtain ⟨hs', hm'⟩ := h'
  have heq : ∀ x, x ∈ l ↔ x ∈ l' := fun x => (hm x).trans (hm' x).symm
  clear hm hm'
  have hm := heq
  clear heq
  have irr : ∀ x : Str, ¬ x < x := fun x => List.lt_irrefl x
  induction l generalizing l' with
  | nil =>
    cases l' with
    | nil => rfl
    | cons y l' => exact absurd ((hm y).2 (by simp)) (by simp)
  | cons x l ih =>
    cases l' with
    | nil => exact absurd ((hm x).1 (by simp)) (by simp)
    | cons y l' =>
      rw [List.pairwise_cons] at hs hs'
      have hxy : x = y := by
        rcases List.mem_cons.1 ((hm x).1 (by simp)) with h | h
        · exact h
        · rcases List.mem_cons.1 ((hm y).2 (by simp)) with h2 | h2
          · exact h2.symm
          · exact absurd (List.lt_trans (hs.1 y h2) (hs'.1 x h)) (irr x)
      subst hxy
      refine congrArg _ (ih hs.2 hs'.2 ?_)
      intro z
      constructor
      · intro hz
        rcases List.mem_cons.1 ((hm z).1 (by simp [hz])) with rfl | h
        · exact absurd (hs.1 z hz) (irr z)
        · exact h
      · intro hz
        rcases List.mem_cons.1 ((hm z).2 (by simp [hz])) with rfl | h
        · exact absurd (hs'.1 z hz) (irr z)
        · exact h

end Teleparse
