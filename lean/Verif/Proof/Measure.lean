import Verif.Proof.First
/-
A measure on tables that strictly decreases whenever a table changes, as long as all literals come from
a fixed list and all changed entries from a fixed list of ids.
-/
namespace Teleparse
variable {I : Type} {n : Nat}

theorem sum_map_le {α : Type} {f g : α → Nat} {l : List α} (h : ∀ x ∈ l, f x ≤ g x) :
    (l.map f).sum ≤ (l.map g).sum := by
  induction l with
  | nil => simp
  | cons a l ih =>
    have h1 := h a (by simp)
    have h2 := ih (fun x hx => h x (by simp [hx]))
    simp; omega

theorem sum_map_lt {α : Type} {f g : α → Nat} {l : List α} (h : ∀ x ∈ l, f x ≤ g x) {a : α}
    (ha : a ∈ l) (hlt : f a < g a) : (l.map f).sum < (l.map g).sum := by
  induction l with
  | nil => cases ha
  | cons b l ih =>
    have h1 := h b (by simp)
    have h2 := sum_map_le (fun x hx => h x (List.mem_cons_of_mem b hx))
    rcases List.mem_cons.1 ha with rfl | ha
    · simp; omega
    · have := ih (fun x hx => h x (by simp [hx])) ha
      simp; omega

theorem filter_length_le {α : Type} {p q : α → Bool} {l : List α} (h : ∀ x ∈ l, p x → q x) :
    (l.filter p).length ≤ (l.filter q).length := by
  induction l with
  | nil => simp
  | cons a l ih =>
    have h2 := ih (fun x hx => h x (by simp [hx]))
    have h1 := h a (by simp)
    cases hp : p a <;> cases hq : q a <;> simp_all <;> omega

theorem filter_length_lt {α : Type} {p q : α → Bool} {l : List α} (h : ∀ x ∈ l, p x → q x) {a : α}
    (ha : a ∈ l) (hp : p a = false) (hq : q a = true) :
    (l.filter p).length < (l.filter q).length := by
  induction l with
  | nil => cases ha
  | cons b l ih =>
    have h1 := h b (by simp)
    have h2 := filter_length_le (fun x hx => h x (List.mem_cons_of_mem b hx))
    rcases List.mem_cons.1 ha with rfl | ha
    · simp [hp, hq]; omega
    · have := ih (fun x hx => h x (by simp [hx])) ha
      cases hp' : p b <;> cases hq' : q b <;> simp_all <;> omega

/-- Room left in a literal set. -/
def LitSet.room (Ls : List Str) : LitSet → Nat
  | .any => 0
  | .mat l => 1 + (Ls.filter fun x => decide (x ∉ l)).length

/-- All explicit literals come from `Ls`. -/
def LitSet.Within (Ls : List Str) : LitSet → Prop
  | .any => True
  | .mat l => ∀ x ∈ l, x ∈ Ls

theorem LitSet.room_le {Ls : List Str} {s s' : LitSet}
    (h : ∀ x, s.contains x = true → s'.contains x = true) : s'.room Ls ≤ s.room Ls := by
  cases s' with
  | any => simp [room]
  | mat b =>
    cases s with
    | any =>
      obtain ⟨x, hx⟩ := exists_not_mem b
      exact absurd (h x rfl) (by simpa [contains] using hx)
    | mat a =>
      simp only [room]
      have := filter_length_le (p := fun x => decide (x ∉ b)) (q := fun x => decide (x ∉ a)) (l := Ls)
        (by
          intro x _ hx
          simp only [decide_eq_true_eq] at hx ⊢
          intro ha
          exact hx (by simpa [contains] using h x (by simpa [contains] using ha)))
      omega

theorem LitSet.room_lt {Ls : List Str} {s s' : LitSet} (hw : s'.Within Ls)
    (h : ∀ x, s.contains x = true → s'.contains x = true) {x : Str}
    (hx : s'.contains x = true) (hx' : s.contains x = false) : s'.room Ls < s.room Ls := by
  cases s with
  | any => simp [contains] at hx'
  | mat a =>
    cases s' with
    | any => simp only [room]; omega
    | mat b =>
      simp only [room]
      have := filter_length_lt (p := fun x => decide (x ∉ b)) (q := fun x => decide (x ∉ a)) (l := Ls)
        (by
          intro x _ hx
          simp only [decide_eq_true_eq] at hx ⊢
          intro ha
          exact hx (by simpa [contains] using h x (by simpa [contains] using ha)))
        (a := x) (hw x (by simpa [contains] using hx)) (by simpa [contains] using hx)
        (by simpa [contains] using hx')
      omega

namespace TSet

def room (Ls : List Str) (s : TSet n) : Nat :=
  (if s.e then 0 else 1) + ((List.finRange n).map fun t => (s.map.get t).room Ls).sum

def Within (Ls : List Str) (s : TSet n) : Prop := ∀ t, (s.map.get t).Within Ls

theorem room_le {Ls : List Str} {s s' : TSet n}
    (h : ∀ x, s.contains x = true → s'.contains x = true) : s'.room Ls ≤ s.room Ls := by
  unfold room
  have h1 : (if s'.e = true then 0 else 1) ≤ (if s.e = true then 0 else 1) := by
    have := h none
    simp only [contains] at this
    cases hs : s.e <;> cases hs' : s'.e <;> simp_all
  have h2 := sum_map_le (f := fun t => (s'.map.get t).room Ls) (g := fun t => (s.map.get t).room Ls)
    (l := List.finRange n) (fun t _ => LitSet.room_le (fun x hx => h (some ⟨t, x⟩) hx))
  omega

theorem room_lt {Ls : List Str} {s s' : TSet n} (hw : s'.Within Ls)
    (h : ∀ x, s.contains x = true → s'.contains x = true) {x : Option (TokenSrc n)}
    (hx : s'.contains x = true) (hx' : s.contains x = false) : s'.room Ls < s.room Ls := by
  cases x with
  | none =>
    unfold room
    simp only [contains] at hx hx'
    rw [hx, hx']
    have h2 := sum_map_le (f := fun t => (s'.map.get t).room Ls)
      (g := fun t => (s.map.get t).room Ls)
      (l := List.finRange n) (fun t _ => LitSet.room_le (fun x hx => h (some ⟨t, x⟩) hx))
    simp; omega
  | some tok =>
    unfold room
    have h1 : (if s'.e = true then 0 else 1) ≤ (if s.e = true then 0 else 1) := by
      have := h none
      simp only [contains] at this
      cases hs : s.e <;> cases hs' : s'.e <;> simp_all
    have h2 := sum_map_lt (f := fun t => (s'.map.get t).room Ls)
      (g := fun t => (s.map.get t).room Ls)
      (l := List.finRange n) (fun t _ => LitSet.room_le (fun x hx => h (some ⟨t, x⟩) hx))
      (a := tok.ty) (List.mem_finRange _)
      (LitSet.room_lt (hw tok.ty) (fun x hx => h (some ⟨tok.ty, x⟩) hx) (x := tok.src) hx hx')
    omega

theorem within_empty (Ls : List Str) : (empty : TSet n).Within Ls := by
  intro t; simp [empty, LitSet.Within, LitSet.empty]

theorem within_insertE {Ls : List Str} {s : TSet n} (h : s.Within Ls) : s.insertE.1.Within Ls := h

theorem within_insert {Ls : List Str} {s : TSet n} (h : s.Within Ls) (ty : Fin n) (lit : Option Str)
    (hl : ∀ l, lit = some l → l ∈ Ls) : (s.insert ty lit).1.Within Ls := by
  intro t
  cases lit with
  | none =>
    simp only [insert, Map.get_set]
    split
    · cases s.map.get ty <;> simp [LitSet.unionUniverse, LitSet.Within]
    · exact h t
  | some l =>
    simp only [insert, Map.get_set]
    split
    · have := h ty
      cases hs : s.map.get ty with
      | any => simp [LitSet.insert, LitSet.Within]
      | mat a =>
        rw [hs] at this
        simp only [LitSet.insert, LitSet.Within, mem_bsetInsert]
        rintro x (hx | rfl)
        · exact this x hx
        · exact hl _ rfl
    · exact h t

theorem within_union {Ls : List Str} {s o : TSet n} (h : s.Within Ls) (ho : o.Within Ls) (b : Bool) :
    (s.union o b).1.Within Ls := by
  intro t
  simp only [union, Map.get_map, Map.get_zipWith]
  have h1 := h t
  have h2 := ho t
  cases hs : s.map.get t with
  | any => simp [LitSet.union, LitSet.Within]
  | mat a =>
    cases ho : o.map.get t with
    | any => simp [LitSet.union, LitSet.Within]
    | mat b =>
      rw [hs] at h1; rw [ho] at h2
      simp only [LitSet.union, LitSet.Within, mem_bsetExtend]
      rintro x (hx | hx)
      · exact h1 x hx
      · exact h2 x hx

end TSet

variable [DecidableEq I]

def Tbl.room (Ls : List Str) (Is : List I) (t : Tbl I n) : Nat :=
  (Is.map fun i => (t.get i).room Ls).sum

def Tbl.Within (Ls : List Str) (t : Tbl I n) : Prop := ∀ i, (t.get i).Within Ls

theorem Tbl.room_le {Ls : List Str} {Is : List I} {t t' : Tbl I n} (h : Fam.le t.den t'.den) :
    t'.room Ls Is ≤ t.room Ls Is :=
  sum_map_le (fun i _ => TSet.room_le (h i))

theorem Tbl.room_lt {Ls : List Str} {Is : List I} {t t' : Tbl I n} (hw : t'.Within Ls)
    (h : Fam.le t.den t'.den) {i : I} (hi : i ∈ Is) {x : Option (TokenSrc n)} (hx : t'.den i x)
    (hx' : ¬ t.den i x) : t'.room Ls Is < t.room Ls Is :=
  sum_map_lt (fun i _ => TSet.room_le (h i)) hi
    (TSet.room_lt (hw i) (h i) hx (by simpa [Tbl.den] using hx'))

theorem Tbl.within_aset {Ls : List Str} {t : Tbl I n} (h : t.Within Ls) (i : I) {s : TSet n}
    (hs : s.Within Ls) : Tbl.Within Ls (aset t i s) := by
  intro j
  rw [Tbl.get_aset]
  split
  · exact hs
  · exact h j

theorem Tbl.within_unionInto {Ls : List Str} {t : Tbl I n} (h : t.Within Ls) (a b : I) (incl : Bool) :
    (t.unionInto a b incl).1.Within Ls := by
  unfold Tbl.unionInto
  split
  · rename_i s hs
    split at hs
    · cases hs
    · refine TSet.within_union (h a) ?_ _
      have := h b
      rwa [Tbl.get_some hs] at this
  · exact h a

end Teleparse
