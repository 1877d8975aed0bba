import Verif.Model.Message
import Verif.Spec.Message
import Verif.Proof.Sets
/-
The lists of terminals shown in messages.
-/
namespace Teleparse
variable {n : Nat} {I : Type}

theorem strLt_iff : ∀ x y : Str, strLt x y = true ↔ x < y
  | [], [] => by simp [strLt]
  | a :: s, [] => by simp [strLt]
  | [], b :: t => by simp [strLt]
  | a :: s, b :: t => by
    simp only [strLt, Bool.or_eq_true, decide_eq_true_eq, Bool.and_eq_true, beq_iff_eq, strLt_iff s t]
    rw [List.cons_lt_cons_iff]

theorem mem_bsInsert (x y : Str) (l : List Str) : y ∈ bsInsert x l ↔ y = x ∨ y ∈ l := by
  induction l with
  | nil => simp [bsInsert]
  | cons z l ih =>
    simp only [bsInsert]
    split
    · simp
    · split
      · rename_i h; subst h
        simp
      · simp only [List.mem_cons, ih]
        constructor
        · rintro (h | h | h) <;> simp [h]
        · rintro (h | h | h) <;> simp [h]

theorem bsInsert_sorted (x : Str) (l : List Str) (h : l.Pairwise (· < ·)) :
    (bsInsert x l).Pairwise (· < ·) := by
  induction l with
  | nil => simp [bsInsert]
  | cons z l ih =>
    rw [List.pairwise_cons] at h
    simp only [bsInsert]
    split
    · rename_i hlt
      have hlt := (strLt_iff _ _).1 hlt
      refine List.pairwise_cons.2 ⟨?_, List.pairwise_cons.2 h⟩
      intro y hy
      rcases List.mem_cons.1 hy with rfl | hy
      · exact hlt
      · exact List.lt_trans hlt (h.1 y hy)
    · rename_i hlt
      split
      · exact List.pairwise_cons.2 h
      · rename_i hne
        refine List.pairwise_cons.2 ⟨?_, ih h.2⟩
        intro y hy
        rcases (mem_bsInsert _ _ _).1 hy with rfl | hy
        · have hn : ¬ y < z := fun hc => hlt ((strLt_iff _ _).2 hc)
          have hle : z ≤ y := List.not_lt.1 hn
          rcases List.le_iff_lt_or_eq.1 hle with h | h
          · exact h
          · exact absurd h.symm hne
        · exact h.1 y hy

theorem foldl_bsInsert (l : List Str) : ∀ s : List Str, s.Pairwise (· < ·) →
    (l.foldl (fun s x => bsInsert x s) s).Pairwise (· < ·) ∧
    ∀ y, y ∈ l.foldl (fun s x => bsInsert x s) s ↔ y ∈ s ∨ y ∈ l := by
  induction l with
  | nil => intro s hs; simp [hs]
  | cons x l ih =>
    intro s hs
    obtain ⟨h1, h2⟩ := ih _ (bsInsert_sorted x s hs)
    refine ⟨h1, fun y => ?_⟩
    rw [List.foldl_cons, h2, mem_bsInsert, List.mem_cons]
    constructor
    · rintro ((h | h) | h) <;> simp [h]
    · rintro (h | h | h) <;> simp [h]

theorem bsOf_sorted (l : List Str) : (bsOf l).Pairwise (· < ·) :=
  (foldl_bsInsert l [] List.Pairwise.nil).1

theorem mem_bsOf (l : List Str) (y : Str) : y ∈ bsOf l ↔ y ∈ l := by
  rw [bsOf, (foldl_bsInsert l [] List.Pairwise.nil).2]
  simp

theorem LitSet.mem_texts (name : Fin n → Str) (ty : Fin n) (s : LitSet) (x : Str) :
    x ∈ s.texts name ty ↔ ((∀ l, s.contains l = true) ∧ x = name ty) ∨
      ∃ l, s.contains l = true ∧ (∃ l', ¬ s.contains l' = true) ∧ x = quoteText l := by
  cases s with
  | any => simp [LitSet.texts, LitSet.contains]
  | mat ls =>
    obtain ⟨l0, h0⟩ := LitSet.exists_not_mem ls
    have hn : ∃ l', ¬ (LitSet.mat ls).contains l' = true := ⟨l0, by simpa [LitSet.contains] using h0⟩
    have hf : ¬ ∀ l, (LitSet.mat ls).contains l = true := fun h => by
      obtain ⟨l', h'⟩ := hn; exact h' (h l')
    simp only [hf, false_and, false_or, hn, true_and, LitSet.texts, List.mem_map]
    simp only [LitSet.contains]
    constructor
    · rintro ⟨l, h, rfl⟩; exact ⟨l, by simpa using h, rfl⟩
    · rintro ⟨l, h, rfl⟩; exact ⟨l, by simpa using h, rfl⟩

/-- `to_repr` lists exactly the set. -/
theorem TSet.toRepr_lists (name : Fin n → Str) (s : TSet n) :
    Lists (fun x => s.contains x = true) name (s.toRepr name) := by
  refine ⟨bsOf_sorted _, fun x => ?_⟩
  rw [TSet.toRepr, mem_bsOf, List.mem_append, List.mem_flatMap]
  refine or_congr ?_ ?_
  · simp only [TSet.contains]
    cases s.e <;> simp [ascii]
  · constructor
    · rintro ⟨ty, _, h⟩
      exact ⟨ty, (LitSet.mem_texts name ty _ x).1 h⟩
    · rintro ⟨ty, h⟩
      exact ⟨ty, List.mem_finRange _, (LitSet.mem_texts name ty _ x).2 h⟩

/-- `intersection_repr` lists exactly the common members. -/
theorem TSet.intersectionRepr_lists (name : Fin n → Str) (s o : TSet n) (b : Bool) :
    Lists (fun x => s.contains x = true ∧ o.contains x = true ∧ (x = none → b = true)) name
      (s.intersectionRepr name o b) := by
  refine ⟨bsOf_sorted _, fun x => ?_⟩
  rw [TSet.intersectionRepr, mem_bsOf, List.mem_append, List.mem_flatMap]
  refine or_congr ?_ ?_
  · simp only [TSet.contains]
    cases s.e <;> cases o.e <;> cases b <;> simp [ascii]
  · refine exists_congr fun ty => ?_
    have he : (x ∈ if ((s.map.get ty).intersection (o.map.get ty)).isEmpty = true then []
          else ((s.map.get ty).intersection (o.map.get ty)).texts name ty) ↔
        x ∈ ((s.map.get ty).intersection (o.map.get ty)).texts name ty := by
      split
      · rename_i he
        have he := (LitSet.isEmpty_iff _).1 he
        rw [LitSet.mem_texts]
        simp [he]
      · rfl
    simp only [List.mem_finRange, true_and]
    rw [he, LitSet.mem_texts]
    simp [LitSet.contains_intersection, TSet.contains, quoteText, ascii]

theorem Lists.congr {In In' : Option (TokenSrc n) → Prop} {name : Fin n → Str} {l : List Str}
    (h : Lists In name l) (hi : ∀ x, In x ↔ In' x) : Lists In' name l := by
  have : In = In' := funext fun x => propext (hi x)
  exact this ▸ h

theorem Lists.only {In In' : Option (TokenSrc n) → Prop} {name : Fin n → Str} {l : List Str}
    (h : Lists In name l) (hi : ∀ x, In x → In' x) : ListsOnly In' name l := by
  intro x hx
  rcases (h.2 x).1 hx with ⟨h1, h2⟩ | ⟨ty, ⟨h1, h2⟩ | ⟨l, h1, _, h2⟩⟩
  · exact .inl ⟨hi _ h1, h2⟩
  · exact .inr ⟨ty, .inl ⟨fun l => hi _ (h1 l), h2⟩⟩
  · exact .inr ⟨ty, .inr ⟨l, hi _ h1, h2⟩⟩

theorem Lists.nonempty {In : Option (TokenSrc n) → Prop} {name : Fin n → Str} {l : List Str}
    (h : Lists In name l) {x : Option (TokenSrc n)} (hx : In x) : l ≠ [] := by
  rintro rfl
  have hno : ∀ y, ¬ Shows In name y := fun y hy => absurd ((h.2 y).2 hy) (by simp)
  cases x with
  | none => exact hno _ (.inl ⟨hx, rfl⟩)
  | some tok =>
    by_cases hall : ∀ l, In (some ⟨tok.ty, l⟩)
    · exact hno _ (.inr ⟨tok.ty, .inl ⟨hall, rfl⟩⟩)
    · exact hno _ (.inr ⟨tok.ty, .inr ⟨tok.src, hx, Classical.not_forall.1 hall, rfl⟩⟩)

end Teleparse
