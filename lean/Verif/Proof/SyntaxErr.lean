import Verif.Proof.SyntaxMacro
/-
The errors of `derive_syntax`, and `derive(ToSpan)`.
-/
namespace Teleparse.Syn
open Teleparse.Macro (bind_err map_err)
variable {τ : Type}

/-- What an error about the attributes of a field says. -/
def SErr.Field (a : Attrs) (e : SErr) : Prop :=
  (e = .parse ∧ (none ∈ a ∨ .semantic none ∈ Attrs.metas a ∨ .hook none ∈ Attrs.metas a)) ∨
  (e = .multipleAttrs ∧ 2 ≤ a.length) ∨
  (e = .duplicateSemantic ∧ 2 ≤ (Attrs.metas a).countP FMeta.isSemantic) ∨
  (e = .duplicateHook ∧ 2 ≤ (Attrs.metas a).countP FMeta.isHook) ∨
  (e = .format ∧ .other ∈ Attrs.metas a)

theorem fieldMetas_err {ms : List FMeta} : ∀ {sem : Option (List Str)} {hook : Option Str} {e : SErr},
    fieldMetas ms sem hook = .error e →
      (e = .parse ∧ (.semantic none ∈ ms ∨ .hook none ∈ ms)) ∨
      (e = .duplicateSemantic ∧ 2 ≤ sem.isSome.toNat + ms.countP FMeta.isSemantic) ∨
      (e = .duplicateHook ∧ 2 ≤ hook.isSome.toNat + ms.countP FMeta.isHook) ∨
      (e = .format ∧ .other ∈ ms) := by
  induction ms with
  | nil => intro sem hook e h; cases h
  | cons x ms ih =>
    intro sem hook e h
    cases x with
    | other => simp only [fieldMetas, Except.error.injEq] at h; simp [← h]
    | list name =>
      have := ih (h : fieldMetas ms sem hook = _)
      simpa [FMeta.isSemantic, FMeta.isHook] using this
    | semantic args =>
      cases sem with
      | some l =>
        simp only [fieldMetas, Option.isSome_some, if_true, Except.error.injEq] at h
        subst h
        simp [List.countP_cons, FMeta.isSemantic]
        omega
      | none =>
        cases args with
        | none =>
          simp only [fieldMetas, Option.isSome_none, Bool.false_eq_true, if_false, Except.error.injEq] at h
          simp [← h]
        | some l =>
          have := ih (h : fieldMetas ms (some l) hook = _)
          simpa [FMeta.isSemantic, FMeta.isHook, List.countP_cons, Nat.add_comm] using this
    | hook args =>
      cases hook with
      | some l =>
        simp only [fieldMetas, Option.isSome_some, if_true, Except.error.injEq] at h
        subst h
        simp [List.countP_cons, FMeta.isHook]
        omega
      | none =>
        cases args with
        | none =>
          simp only [fieldMetas, Option.isSome_none, Bool.false_eq_true, if_false, Except.error.injEq] at h
          simp [← h]
        | some l =>
          have := ih (h : fieldMetas ms sem (some l) = _)
          simpa [FMeta.isSemantic, FMeta.isHook, List.countP_cons, Nat.add_comm] using this

theorem fieldAttributes_err {a : Attrs} {e : SErr} (h : fieldAttributes a = .error e) : e.Field a := by
  match a with
  | [] => cases h
  | [none] =>
    simp only [fieldAttributes, Except.error.injEq] at h
    exact .inl ⟨h.symm, .inl (by simp)⟩
  | [some ms] =>
    have hm : Attrs.metas [some ms] = ms := by simp [Attrs.metas]
    have := fieldMetas_err (h : fieldMetas ms none none = _)
    simp only [Option.isSome_none, Bool.toNat_false, Nat.zero_add] at this
    unfold SErr.Field
    rw [hm]
    rcases this with h | h | h | h
    · exact .inl ⟨h.1, .inr h.2⟩
    · exact .inr (.inr (.inl h))
    · exact .inr (.inr (.inr (.inl h)))
    · exact .inr (.inr (.inr (.inr h)))
  | x :: y :: l =>
    have : fieldAttributes (x :: y :: l) = .error .multipleAttrs := by cases x <;> rfl
    rw [this, Except.error.injEq] at h
    exact .inr (.inl ⟨h.symm, by simp⟩)

theorem field_cause {d : DeclD τ} {a : Attrs} (ha : a ∈ d.allAttrs) {e : SErr} (h : e.Field a) : e.Cause d := by
  rcases h with ⟨rfl, h⟩ | ⟨rfl, h⟩ | ⟨rfl, h⟩ | ⟨rfl, h⟩ | ⟨rfl, h⟩
  · exact .inr ⟨a, ha, h⟩
  all_goals exact ⟨a, ha, h⟩

theorem applyUnnamed_err {fs : List (FieldD τ)} : ∀ {i : Nat} {e : SErr}, applyUnnamed i fs = .error e →
    ∃ f ∈ fs, fieldAttributes f.attrs = .error e := by
  induction fs with
  | nil => intro i e h; cases h
  | cons f fs ih =>
    intro i e h
    simp only [applyUnnamed, bind_err] at h
    rcases h with h | ⟨s, -, h | ⟨r, -, h⟩⟩
    · exact ⟨f, by simp, h⟩
    · obtain ⟨g, hg, h⟩ := ih h
      exact ⟨g, by simp [hg], h⟩
    · cases s <;> cases h

theorem applyNamed_err {fs : List (FieldD τ)} {e : SErr} : applyNamed fs = .error e →
    ∃ f ∈ fs, fieldAttributes f.attrs = .error e := by
  induction fs with
  | nil => intro h; cases h
  | cons f fs ih =>
    intro h
    simp only [applyNamed, bind_err] at h
    rcases h with h | ⟨s, -, h | ⟨r, -, h⟩⟩
    · exact ⟨f, by simp, h⟩
    · obtain ⟨g, hg, h⟩ := ih h
      exact ⟨g, by simp [hg], h⟩
    · cases s <;> cases h

theorem variantApply_err {vs : List (VariantD τ)} {e : SErr} : variantApply vs = .error e →
    ∃ v ∈ vs, fieldAttributes v.attrs = .error e := by
  induction vs with
  | nil => intro h; cases h
  | cons f fs ih =>
    intro h
    simp only [variantApply, bind_err] at h
    rcases h with h | ⟨s, -, h | ⟨r, -, h⟩⟩
    · exact ⟨f, by simp, h⟩
    · obtain ⟨g, hg, h⟩ := ih h
      exact ⟨g, by simp [hg], h⟩
    · cases h

theorem variantTypes_err {vs : List (VariantD τ)} {e : SErr} (h : variantTypes vs = .error e) :
    ∃ v ∈ vs, (e = .discriminant v.ident ∧ v.discriminant = true) ∨
      (e = .variantFields v.ident ∧ ¬ ∃ f, v.fields = .unnamed [f]) := by
  induction vs with
  | nil => cases h
  | cons v vs ih =>
    unfold variantTypes at h
    cases hd : v.discriminant with
    | true =>
      simp only [hd, if_true, Except.error.injEq] at h
      exact ⟨v, by simp, .inl ⟨h.symm, hd⟩⟩
    | false =>
      simp only [hd, Bool.false_eq_true, if_false] at h
      split at h
      · simp only [bind_err] at h
        rcases h with h | ⟨_, _, h⟩
        · obtain ⟨w, hw, h⟩ := ih h
          exact ⟨w, by simp [hw], h⟩
        · cases h
      · rename_i hf
        simp only [Except.error.injEq] at h
        exact ⟨v, by simp, .inr ⟨h.symm, fun ⟨f, h⟩ => hf f h⟩⟩

theorem rootMetas_err {ms : List RMeta} : ∀ {r t : Bool} {e : SErr}, rootMetas ms r t = .error e →
    e = .rootAttr ∧ (.path ∈ ms ∨ .other ∈ ms) := by
  induction ms with
  | nil => intro r t e h; cases h
  | cons a ms ih =>
    intro r t e h
    cases a with
    | root => simpa using ih (h : rootMetas ms _ _ = _)
    | noTest => simpa using ih (h : rootMetas ms _ _ = _)
    | path => simp only [rootMetas, Except.error.injEq] at h; simp [← h]
    | other => simp only [rootMetas, Except.error.injEq] at h; simp [← h]

theorem rootAttributes_err {d : DeclD τ} {e : SErr} (h : rootAttributes d.attrs = .error e) : e.Cause d := by
  obtain ⟨i, a, dt⟩ := d
  match a with
  | [] => cases h
  | [none] =>
    simp only [rootAttributes, Except.error.injEq] at h
    subst h
    exact .inl (by simp)
  | [some ms] =>
    have hm : (DeclD.mk i [some ms] dt).metas = ms := by simp [DeclD.metas]
    simp only [rootAttributes, bind_err] at h
    rcases h with h | ⟨x, hx, h⟩
    · obtain ⟨rfl, h⟩ := rootMetas_err h
      show _ ∈ (DeclD.mk i [some ms] dt).metas ∨ _ ∈ (DeclD.mk i [some ms] dt).metas
      rwa [hm]
    · obtain ⟨-, rfl⟩ := rootMetas_ok.1 hx
      unfold rootCheck at h
      split at h
      · rename_i hc
        simp only [Except.error.injEq] at h
        subst h
        show _ ∈ (DeclD.mk i [some ms] dt).metas ∧ _ ∉ (DeclD.mk i [some ms] dt).metas
        rw [hm]
        simpa using hc
      · cases h
  | y :: z :: l =>
    have : rootAttributes (y :: z :: l) = .error .multipleRoot := by cases y <;> rfl
    simp only [this, Except.error.injEq] at h
    subst h
    show 2 ≤ (y :: z :: l).length
    simp

theorem expandData_err {d : DeclD τ} {e : SErr} (h : expandData d.data = .error e) : e.Cause d := by
  unfold expandData at h
  split at h
  · rename_i fs hf
    rw [map_err] at h
    unfold expandUnnamed at h
    split at h
    · rename_i h0
      simp only [List.head?_eq_none_iff] at h0
      simp only [Except.error.injEq] at h
      subst h; subst h0
      exact .inl hf
    · simp only [bind_err] at h
      rcases h with h | ⟨_, _, h⟩
      · obtain ⟨f, hm, h⟩ := applyUnnamed_err h
        refine field_cause ?_ (fieldAttributes_err h)
        simp only [DeclD.allAttrs, hf, FieldsD.list]
        exact List.mem_map_of_mem hm
      · cases h
  · rename_i fs hf
    rw [map_err] at h
    unfold expandNamed at h
    split at h
    · simp only [bind_err] at h
      rcases h with h | ⟨_, _, h⟩
      · obtain ⟨f, hm, h⟩ := applyNamed_err h
        refine field_cause ?_ (fieldAttributes_err h)
        simp only [DeclD.allAttrs, hf, FieldsD.list]
        exact List.mem_map_of_mem hm
      · cases h
    · rename_i h0
      simp only [Except.error.injEq] at h
      subst h
      cases fs with
      | nil => exact .inr hf
      | cons f fs => exact (h0 f _ rfl (List.getLast?_eq_some_getLast (by simp))).elim
  · rename_i hf
    simp only [Except.error.injEq] at h
    subst h
    exact hf
  · rename_i vs hf
    rw [map_err] at h
    unfold expandEnum at h
    simp only [bind_err] at h
    rcases h with h | ⟨x, hx, h⟩
    · obtain ⟨v, hv, ⟨rfl, h'⟩ | ⟨rfl, h'⟩⟩ := variantTypes_err h
      · exact ⟨vs, hf, v, hv, rfl, h'⟩
      · exact ⟨vs, hf, v, hv, rfl, h'⟩
    · obtain ⟨h1, rfl⟩ := variantTypes_ok.1 hx
      dsimp only at h
      split at h
      · rename_i h0
        rw [flatMap_ne fun v hv => (h1 v hv).2] at h0
        simp only [Except.error.injEq] at h
        subst h; subst h0
        exact hf
      · simp only [bind_err] at h
        rcases h with h | ⟨_, _, h⟩
        · obtain ⟨v, hm, h⟩ := variantApply_err h
          refine field_cause ?_ (fieldAttributes_err h)
          simp only [DeclD.allAttrs, hf]
          exact List.mem_map_of_mem hm
        · cases h
  · rename_i hf
    simp only [Except.error.injEq] at h
    subst h
    exact hf

theorem expand_err {d : DeclD τ} {e : SErr} (h : expand d = .error e) : e.Cause d := by
  unfold expand at h
  simp only [bind_err] at h
  rcases h with h | ⟨_, _, h | ⟨_, _, h⟩⟩
  · exact rootAttributes_err h
  · exact expandData_err h
  · cases h

/-! ## `derive(ToSpan)` -/

theorem spanField_fits {α : Type} {fs : FieldsD τ} {a : Accessor} (h : spanField fs = .ok a)
    {l : List (Accessor × α)} (hl : Fits fs l) {x : Accessor × α} {l' : List (Accessor × α)} (hx : l = x :: l') :
    x.1 = a := by
  subst hx
  cases fs with
  | unit => cases h
  | unnamed fl =>
    cases h
    cases fl with
    | nil => simp [Fits] at hl
    | cons f fl =>
      simp only [Fits, List.map_cons, List.length_cons, List.range_succ_eq_map] at hl
      exact (List.cons.inj hl).1
  | named fl =>
    cases fl with
    | nil => cases h
    | cons f fl =>
      cases h
      simp only [Fits, List.map_cons] at hl
      exact (List.cons.inj hl).1

theorem spanArms_find {vs : List (VariantD τ)} {arms : List (Str × Accessor)} (h : spanArms vs = .ok arms)
    (hn : (vs.map VariantD.ident).Nodup) {v : VariantD τ} (hv : v ∈ vs) :
    ∃ a, spanField v.fields = .ok a ∧ (arms.find? fun e => e.1 = v.ident) = some (v.ident, a) := by
  induction vs generalizing arms with
  | nil => cases hv
  | cons w vs ih =>
    simp only [spanArms, ebind_ok, epure_ok] at h
    obtain ⟨a, ha, rest, hr, rfl⟩ := h
    simp only [List.map_cons, List.nodup_cons] at hn
    rcases List.mem_cons.1 hv with rfl | hv
    · exact ⟨a, ha, by simp⟩
    · obtain ⟨b, hb, h1⟩ := ih hr hn.2 hv
      have hne : w.ident ≠ v.ident := by
        intro h'
        exact hn.1 (h' ▸ List.mem_map_of_mem hv)
      exact ⟨b, hb, by simp [hne, h1]⟩

theorem spanArms_ok {vs : List (VariantD τ)} :
    (∃ arms, spanArms vs = .ok arms) ↔ ∀ v ∈ vs, ∃ a, spanField v.fields = .ok a := by
  induction vs with
  | nil => simp [spanArms]
  | cons v vs ih =>
    simp only [spanArms, ebind_ok, epure_ok, List.forall_mem_cons, ← ih]
    constructor
    · rintro ⟨_, a, ha, r, hr, -⟩; exact ⟨⟨a, ha⟩, r, hr⟩
    · rintro ⟨⟨a, ha⟩, r, hr⟩; exact ⟨_, a, ha, r, hr, rfl⟩

theorem spanField_ok {fs : FieldsD τ} : (∃ a, spanField fs = .ok a) ↔
    fs ≠ .unit ∧ fs ≠ .named [] := by
  cases fs with
  | unit => simp [spanField]
  | unnamed l => simp [spanField]
  | named l => cases l <;> simp [spanField]

end Teleparse.Syn
