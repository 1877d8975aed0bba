import Verif.Model.Sets
import Verif.Spec.Terminals
/-
Membership lemmas for literal sets and terminal sets.
-/
namespace Teleparse

namespace Map
variable {n : Nat} {V W U : Type}

theorem ext_get {a b : Map n V} (h : ∀ t, a.get t = b.get t) : a = b := by
  obtain ⟨da, la⟩ := a
  obtain ⟨db, lb⟩ := b
  have : da = db := by
    apply List.ext_getElem (by omega)
    intro i h1 h2
    exact h ⟨i, by omega⟩
  subst this; rfl

@[simp] theorem get_new (d : V) (t : Fin n) : (Map.new d : Map n V).get t = d := by
  simp [Map.get, Map.new]

@[simp] theorem get_map (f : V → W) (m : Map n V) (t : Fin n) : (m.map f).get t = f (m.get t) := by
  simp [Map.get, Map.map]

@[simp] theorem get_zipWith (f : V → W → U) (m : Map n V) (o : Map n W) (t : Fin n) :
    (Map.zipWith f m o).get t = f (m.get t) (o.get t) := by
  simp [Map.get, Map.zipWith]

theorem get_set (m : Map n V) (t t' : Fin n) (v : V) :
    (m.set t v).get t' = if t' = t then v else m.get t' := by
  unfold Map.get Map.set
  simp only [List.getElem_set, Fin.ext_iff]
  by_cases h : t.val = t'.val
  · simp [h]
  · simp [h, Ne.symm h]

theorem any_data (m : Map n V) (p : V → Bool) : m.data.any p = true ↔ ∃ t, p (m.get t) = true := by
  rw [List.any_eq_true]
  constructor
  · rintro ⟨x, hx, hp⟩
    obtain ⟨i, hi, he⟩ := List.mem_iff_getElem.1 hx
    exact ⟨⟨i, by rw [← m.len]; exact hi⟩, by simpa [Map.get, he] using hp⟩
  · rintro ⟨t, hp⟩
    exact ⟨m.get t, List.getElem_mem _, hp⟩

end Map

section Bset
variable {α : Type} [DecidableEq α]

theorem mem_bsetInsert (s : List α) (a b : α) : b ∈ (bsetInsert s a).1 ↔ b ∈ s ∨ b = a := by
  unfold bsetInsert; split
  · constructor
    · exact .inl
    · rintro (h | rfl) <;> assumption
  · simp

theorem bsetInsert_changed (s : List α) (a : α) : (bsetInsert s a).2 = true ↔ a ∉ s := by
  unfold bsetInsert; split <;> simp_all

theorem bsetInsert_length (s : List α) (a : α) :
    (bsetInsert s a).1.length = s.length + if a ∈ s then 0 else 1 := by
  unfold bsetInsert; split <;> simp_all

theorem mem_bsetExtend (o : List α) : ∀ (s : List α) (b : α), b ∈ bsetExtend s o ↔ b ∈ s ∨ b ∈ o := by
  induction o with
  | nil => intro s b; simp [bsetExtend]
  | cons a o ih =>
    intro s b
    show b ∈ bsetExtend (bsetInsert s a).1 o ↔ _
    rw [ih, mem_bsetInsert]; simp [or_assoc]

theorem bsetExtend_length (o : List α) : ∀ (s : List α), s.length ≤ (bsetExtend s o).length ∧
    ((bsetExtend s o).length = s.length ↔ ∀ b ∈ o, b ∈ s) := by
  induction o with
  | nil => intro s; simp [bsetExtend]
  | cons a o ih =>
    intro s
    have h : bsetExtend s (a :: o) = bsetExtend (bsetInsert s a).1 o := rfl
    rw [h]
    have h1 := ih (bsetInsert s a).1
    have h2 := bsetInsert_length s a
    by_cases ha : a ∈ s
    · have h3 : (bsetInsert s a).1 = s := by simp [bsetInsert, ha]
      rw [h3] at h1 ⊢
      simp [ha, h1]
    · rw [if_neg ha] at h2
      refine ⟨by omega, ?_⟩
      constructor
      · intro h4; omega
      · intro h4; exact absurd (h4 a (by simp)) ha

theorem bsetInsert_nodup {s : List α} (h : s.Nodup) (a : α) : (bsetInsert s a).1.Nodup := by
  unfold bsetInsert
  split
  · exact h
  · rename_i hn
    rw [List.nodup_append]
    refine ⟨h, by simp, ?_⟩
    intro x hx y hy he
    simp at hy; subst hy; subst he; exact hn hx

theorem bsetExtend_nodup (o : List α) : ∀ {s : List α}, s.Nodup → (bsetExtend s o).Nodup := by
  induction o with
  | nil => intro s h; exact h
  | cons a o ih => intro s h; exact ih (bsetInsert_nodup h a)

end Bset

namespace LitSet

theorem contains_insert (s : LitSet) (l x : Str) :
    (s.insert l).1.contains x = true ↔ s.contains x = true ∨ x = l := by
  cases s with
  | any => simp [insert, contains]
  | mat s => simp [insert, contains, mem_bsetInsert]

theorem insert_changed (s : LitSet) (l : Str) : (s.insert l).2 = true ↔ s.contains l = false := by
  cases s with
  | any => simp [insert, contains]
  | mat s => simp [insert, contains, bsetInsert_changed]

theorem contains_union (s o : LitSet) (x : Str) :
    (s.union o).1.contains x = true ↔ s.contains x = true ∨ o.contains x = true := by
  cases s <;> cases o <;> simp [union, contains, mem_bsetExtend]

/-- No finite list contains all texts. -/
theorem exists_not_mem (s : List Str) : ∃ x : Str, x ∉ s := by
  let f : Nat → Str := fun k => List.replicate k 0
  -- a text longer than every member
  let m := (s.map List.length).foldr max 0
  have hm : ∀ x ∈ s, x.length ≤ m := by
    have : ∀ (l : List Nat) (a : Nat), a ∈ l → a ≤ l.foldr max 0 := by
      intro l
      induction l with
      | nil => intro a h; cases h
      | cons b l ih =>
        intro a h
        rcases List.mem_cons.1 h with h | h
        · subst h; simp; omega
        · have := ih a h; simp; omega
    intro x hx
    exact this _ _ (List.mem_map_of_mem hx)
  refine ⟨f (m + 1), fun h => ?_⟩
  have := hm _ h
  simp [f] at this
  omega

theorem union_changed (s o : LitSet) :
    (s.union o).2 = true ↔ ∃ x, o.contains x = true ∧ s.contains x = false := by
  cases s with
  | any => simp [union, contains]
  | mat a =>
    cases o with
    | any =>
      simp only [union, contains, true_iff]
      obtain ⟨x, hx⟩ := exists_not_mem a
      exact ⟨x, trivial, by simpa using hx⟩
    | mat b =>
      have h := (bsetExtend_length b a).2
      simp only [union, contains, bne_iff_ne, ne_eq]
      rw [eq_comm, h]
      simp

theorem union_unchanged_eq (s o : LitSet) (h : (s.union o).2 = false) : (s.union o).1 = s := by
  cases s with
  | any => rfl
  | mat a =>
    cases o with
    | any => simp [union] at h
    | mat b =>
      simp only [union] at h ⊢
      congr 1
      have h1 : (bsetExtend a b).length = a.length := by
        have : a.length = (bsetExtend a b).length := by simpa using h
        exact this.symm
      have h2 := (bsetExtend_length b a).2.1 h1
      clear h h1
      induction b with
      | nil => rfl
      | cons x b ih =>
        show bsetExtend (bsetInsert a x).1 b = a
        have : (bsetInsert a x).1 = a := by simp [bsetInsert, h2 x (by simp)]
        rw [this]
        exact ih (fun y hy => h2 y (by simp [hy]))

theorem isEmpty_iff (s : LitSet) : s.isEmpty = true ↔ ∀ x, s.contains x = false := by
  cases s with
  | any => simp [isEmpty, contains]
  | mat a => simp [isEmpty, contains, List.eq_nil_iff_forall_not_mem]

theorem intersects_iff (s o : LitSet) :
    s.intersects o = true ↔ ∃ x, s.contains x = true ∧ o.contains x = true := by
  have hne : ∀ a : List Str, a.isEmpty = false ↔ ∃ x, x ∈ a := by
    intro a; cases a with
    | nil => simp
    | cons x a => simp only [List.isEmpty_cons, true_iff]; exact ⟨x, by simp⟩
  cases s with
  | any =>
    cases o with
    | any => simp [intersects, isEmpty, contains]
    | mat b => simp [intersects, isEmpty, contains, hne]
  | mat a =>
    cases o with
    | any => simp [intersects, isEmpty, contains, hne]
    | mat b => simp [intersects, contains]

theorem contains_intersection (s o : LitSet) (x : Str) :
    (s.intersection o).contains x = true ↔ s.contains x = true ∧ o.contains x = true := by
  cases s <;> cases o <;> simp [intersection, contains]

end LitSet

namespace TSet
variable {n : Nat}

/-- Membership of a token in a terminal set. -/
def Mem (tok : TokenSrc n) (s : TSet n) : Prop := s.contains (some tok) = true

instance (tok : TokenSrc n) (s : TSet n) : Decidable (Mem tok s) := inferInstanceAs (Decidable (_ = _))

theorem mem_def (tok : TokenSrc n) (s : TSet n) :
    Mem tok s ↔ (s.map.get tok.ty).contains tok.src = true := Iff.rfl

theorem contains_some (s : TSet n) (tok : TokenSrc n) : s.contains (some tok) = true ↔ Mem tok s := Iff.rfl
theorem contains_none (s : TSet n) : s.contains none = s.e := rfl

theorem mem_empty (tok : TokenSrc n) : ¬ Mem tok (empty : TSet n) := by
  simp [mem_def, empty, LitSet.contains, LitSet.empty]

@[simp] theorem empty_e : (empty : TSet n).e = false := rfl

theorem mem_insertE (s : TSet n) (tok : TokenSrc n) : Mem tok s.insertE.1 ↔ Mem tok s := Iff.rfl

theorem mem_insert (s : TSet n) (ty : Fin n) (lit : Option Str) (tok : TokenSrc n) :
    Mem tok (s.insert ty lit).1 ↔ Mem tok s ∨ (Terminal.mk ty lit).Matches tok := by
  cases lit with
  | some l =>
    simp only [mem_def, insert, Map.get_set, Terminal.Matches]
    by_cases h : tok.ty = ty
    · subst h
      simp [LitSet.contains_insert]
    · simp [h]
  | none =>
    simp only [mem_def, insert, Map.get_set, Terminal.Matches]
    by_cases h : tok.ty = ty
    · subst h
      simp only [if_true, true_and]
      cases s.map.get tok.ty <;> simp [LitSet.unionUniverse, LitSet.contains]
    · simp [h]

@[simp] theorem insert_e (s : TSet n) (ty : Fin n) (lit : Option Str) : (s.insert ty lit).1.e = s.e := by
  cases lit <;> rfl

theorem mem_one (ty : Fin n) (lit : Option Str) (tok : TokenSrc n) :
    Mem tok (one ty lit) ↔ (Terminal.mk ty lit).Matches tok := by
  unfold one; rw [mem_insert]; simp [mem_empty]

theorem mem_union (s o : TSet n) (b : Bool) (tok : TokenSrc n) :
    Mem tok (s.union o b).1 ↔ Mem tok s ∨ Mem tok o := by
  simp only [mem_def, union, Map.get_map, Map.get_zipWith]
  exact LitSet.contains_union _ _ _

theorem union_e (s o : TSet n) (b : Bool) : (s.union o b).1.e = (s.e || (b && o.e)) := by
  simp only [union]
  cases b <;> cases s.e <;> cases o.e <;> rfl

theorem union_changed (s o : TSet n) (b : Bool) : (s.union o b).2 = true ↔
    (∃ tok, Mem tok o ∧ ¬ Mem tok s) ∨ (b = true ∧ o.e = true ∧ s.e = false) := by
  simp only [union, Bool.or_eq_true, Bool.and_eq_true, Map.any_data, Map.get_zipWith,
    LitSet.union_changed]
  constructor
  · rintro (⟨h1, h2, h3⟩ | ⟨t, x, h1, h2⟩)
    · right; exact ⟨h1, h3, by simpa using h2⟩
    · left; exact ⟨⟨t, x⟩, h1, by rw [mem_def, h2]; simp⟩
  · rintro (⟨tok, h1, h2⟩ | ⟨h1, h2, h3⟩)
    · right; exact ⟨tok.ty, tok.src, h1, by simpa [mem_def] using h2⟩
    · left; simp [h1, h2, h3]

theorem union_unchanged_eq (s o : TSet n) (b : Bool) (h : (s.union o b).2 = false) :
    (s.union o b).1 = s := by
  have h1 : ∀ t, ((s.map.get t).union (o.map.get t)).2 = false := by
    intro t
    cases hc : ((s.map.get t).union (o.map.get t)).2 with
    | false => rfl
    | true =>
      have : (s.union o b).2 = true := by
        simp only [union, Bool.or_eq_true]
        right
        rw [Map.any_data]
        exact ⟨t, by simpa using hc⟩
      rw [h] at this; cases this
  have h2 : (b && (!s.e && o.e)) = false := by
    cases hc : (b && (!s.e && o.e)) with
    | false => rfl
    | true => simp [union, hc] at h
  simp only [union, h2, Bool.false_eq_true, if_false]
  obtain ⟨m, e⟩ := s
  congr 1
  apply Map.ext_get
  intro t
  simp only [Map.get_map, Map.get_zipWith]
  exact LitSet.union_unchanged_eq _ _ (h1 t)

theorem intersects_iff (s o : TSet n) (b : Bool) : s.intersects o b = true ↔
    (∃ tok, Mem tok s ∧ Mem tok o) ∨ (b = true ∧ s.e = true ∧ o.e = true) := by
  simp only [intersects, Bool.or_eq_true, Bool.and_eq_true, Map.any_data, Map.get_zipWith, id,
    LitSet.intersects_iff]
  constructor
  · rintro (⟨⟨h1, h2⟩, h3⟩ | ⟨t, x, h1, h2⟩)
    · right; exact ⟨h1, h2, h3⟩
    · left; exact ⟨⟨t, x⟩, h1, h2⟩
  · rintro (⟨tok, h1, h2⟩ | ⟨h1, h2, h3⟩)
    · right; exact ⟨tok.ty, tok.src, h1, h2⟩
    · left; exact ⟨⟨h1, h2⟩, h3⟩

theorem insert_changed (s : TSet n) (ty : Fin n) (lit : Option Str) :
    (s.insert ty lit).2 = true ↔ ∃ tok, (Terminal.mk ty lit).Matches tok ∧ ¬ Mem tok s := by
  cases lit with
  | some l =>
    simp only [insert, LitSet.insert_changed]
    constructor
    · intro h; exact ⟨⟨ty, l⟩, ⟨rfl, by simp⟩, by rw [mem_def, h]; simp⟩
    · rintro ⟨⟨t, x⟩, ⟨h1, h2⟩, h3⟩
      have := h2 l rfl
      simp only at this h1
      subst this; subst h1
      simpa [mem_def] using h3
  | none =>
    simp only [insert]
    cases hs : s.map.get ty with
    | any =>
      simp only [LitSet.unionUniverse, Bool.false_eq_true, false_iff, not_exists, not_and, Classical.not_not]
      rintro ⟨t, x⟩ ⟨h1, _⟩
      simp only at h1; subst h1
      rw [mem_def, hs]; rfl
    | mat a =>
      simp only [LitSet.unionUniverse, true_iff]
      obtain ⟨x, hx⟩ := LitSet.exists_not_mem a
      exact ⟨⟨ty, x⟩, ⟨rfl, by simp⟩, by rw [mem_def, hs]; simpa [LitSet.contains] using hx⟩

/-- Entry-wise inclusion without epsilon. -/
theorem mem_ext_iff_map (s : TSet n) (t : Fin n) (x : Str) :
    (s.map.get t).contains x = true ↔ Mem ⟨t, x⟩ s := Iff.rfl

end TSet
end Teleparse
