import Verif.Model.Map
/-
Property C86: `lex::Map` is a total map on the token types.
-/
namespace Teleparse
variable {n : Nat} {V : Type}

theorem Map.data_eq (m : Map n V) : m.data = (List.finRange n).map m.get := by
  apply List.ext_getElem
  · simp [m.len]
  · intro i h1 h2
    simp [Map.get]

theorem zipFrom_eq (g : Fin n → V) : ∀ (ts : List (Fin n)) (i : Nat),
    ts.map (·.val) = List.range' i ts.length →
    Map.zipFrom n i (ts.map g) = some (ts.map fun t => (t, g t)) := by
  intro ts
  induction ts with
  | nil => intros; rfl
  | cons t ts ih =>
    intro i h
    rw [List.map_cons, List.length_cons, List.range'_succ] at h
    obtain ⟨h1, h2⟩ := List.cons.inj h
    subst h1
    simp only [List.map_cons, Map.zipFrom, fromId?]
    rw [dif_pos t.isLt, ih _ h2]
    rfl

theorem updateFrom_eq (g : Fin n → V) (f : Fin n → V → V) : ∀ (ts : List (Fin n)) (i : Nat),
    ts.map (·.val) = List.range' i ts.length →
    Map.updateFrom n f i (ts.map g) = some (ts.map fun t => f t (g t)) := by
  intro ts
  induction ts with
  | nil => intros; rfl
  | cons t ts ih =>
    intro i h
    rw [List.map_cons, List.length_cons, List.range'_succ] at h
    obtain ⟨h1, h2⟩ := List.cons.inj h
    subst h1
    simp only [List.map_cons, Map.updateFrom, fromId?]
    rw [dif_pos t.isLt, ih _ h2]
    rfl

theorem finRange_val : (List.finRange n).map (·.val) = List.range' 0 (List.finRange n).length := by
  apply List.ext_getElem
  · simp
  · intro i h1 h2; simp

/-! ## C86: one entry for each token type -/

/-- A new map has the default entry everywhere; what is written is read back, and other entries stay. -/
theorem C86_get (d v : V) (m : Map n V) (t u : Fin n) :
    (Map.new d : Map n V).get t = d ∧ (m.set t v).get t = v ∧ (u ≠ t → (m.set t v).get u = m.get u) := by
  refine ⟨by simp [Map.new, Map.get], by simp [Map.set, Map.get], ?_⟩
  intro h
  have : t.val ≠ u.val := fun e => h (Fin.ext e.symm)
  simp [Map.set, Map.get, List.getElem_set, this]

/-- A map is nothing but its entries. -/
theorem C86_ext (m o : Map n V) (h : ∀ t, m.get t = o.get t) : m = o := by
  have : m.data = o.data := by
    rw [m.data_eq, o.data_eq]
    exact List.map_congr_left fun t _ => h t
  cases m; cases o; cases this; rfl

/-- Iteration visits every token type once, in the order of declaration, with its entry. `from_id_unchecked` is only
called with numbers of token types. -/
theorem C86_iter (m : Map n V) :
    m.iter = (List.finRange n).map m.get ∧ m.iterZip = some ((List.finRange n).map fun t => (t, m.get t)) := by
  refine ⟨m.data_eq, ?_⟩
  unfold Map.iterZip Map.iter
  rw [m.data_eq]
  exact zipFrom_eq _ _ _ finRange_val

/-- Writing through `iter_zip_mut` writes each entry once, with its own token type. -/
theorem C86_iter_mut (f : Fin n → V → V) (m : Map n V) :
    ∃ m' : Map n V, m.iterZipMut f = some m'.data ∧ ∀ t, m'.get t = f t (m.get t) := by
  refine ⟨⟨(List.finRange n).map fun t => f t (m.get t), by simp⟩, ?_, ?_⟩
  · unfold Map.iterZipMut
    rw [m.data_eq]
    exact updateFrom_eq _ _ _ _ finRange_val
  · intro t
    simp [Map.get]

/-- Maps are equal exactly if all entries compare as equal. -/
theorem C86_eq [BEq V] (m o : Map n V) : m.eq o = true ↔ ∀ t, (m.get t == o.get t) = true := by
  unfold Map.eq Map.iter
  rw [m.data_eq, o.data_eq, List.zip_map', List.all_map, List.all_eq_true]
  simp

/-- Three token types. -/
example : (((Map.new 0 : Map 3 Nat).set 1 7).set 2 5).iterZip = some [(0, 0), (1, 7), (2, 5)] ∧
    (((Map.new 0 : Map 3 Nat).set 1 7).eq (Map.new 0)) = false ∧
    ((Map.new 0 : Map 3 Nat).set 1 7).iterZipMut (fun t v => t.val + v) = some [0, 8, 2] := by decide

end Teleparse
