import Verif.Spec.SyntaxMacro
import Verif.Proof.LexiconErr
import Verif.Proof.Set
/-
The parts of `derive_syntax`.
-/
namespace Teleparse.Syn
open Teleparse.Macro (bind_err map_err)
variable {τ : Type} {m n : Nat}

theorem ebind_ok {ε α β : Type} {x : Except ε α} {f : α → Except ε β} {b : β} :
    (x >>= f) = .ok b ↔ ∃ a, x = .ok a ∧ f a = .ok b := by
  cases x <;> simp [bind, Except.bind]

theorem emap_ok {ε α β : Type} {x : Except ε α} {f : α → β} {b : β} :
    x.map f = .ok b ↔ ∃ a, x = .ok a ∧ f a = b := by
  cases x <;> simp [Except.map]

theorem epure_ok {ε α : Type} {a b : α} : (pure a : Except ε α) = .ok b ↔ a = b := by
  simp [pure, Except.pure]

/-! ## Attributes -/

theorem fieldMetas_ok {ms : List FMeta} : ∀ {sem : Option (List Str)} {hook : Option Str}
    {s : Option (List Str)}, fieldMetas ms sem hook = .ok s ↔
      (.other ∉ ms ∧ .semantic none ∉ ms ∧ .hook none ∉ ms ∧
        sem.isSome.toNat + ms.countP FMeta.isSemantic ≤ 1 ∧ hook.isSome.toNat + ms.countP FMeta.isHook ≤ 1) ∧
      s = sem.or (ms.findSome? FMeta.semantic?) := by
  induction ms with
  | nil =>
    intro sem hook s
    cases sem <;> cases hook <;> simp [fieldMetas, eq_comm]
  | cons x ms ih =>
    intro sem hook s
    cases x with
    | other => simp [fieldMetas]
    | list name => simp [fieldMetas, ih, FMeta.isSemantic, FMeta.isHook, FMeta.semantic?, List.findSome?_cons]
    | semantic args =>
      cases sem with
      | some l =>
        simp only [fieldMetas, Option.isSome_some, if_true]
        constructor
        · intro h; cases h
        · rintro ⟨⟨-, -, -, h, -⟩, -⟩
          simp [List.countP_cons, FMeta.isSemantic] at h
          omega
      | none =>
        cases args with
        | none => simp [fieldMetas]
        | some l =>
          simp [fieldMetas, ih, FMeta.isSemantic, FMeta.isHook, FMeta.semantic?, List.findSome?_cons, List.countP_cons, Nat.add_comm]
    | hook args =>
      cases hook with
      | some l =>
        simp only [fieldMetas, Option.isSome_some, if_true]
        constructor
        · intro h; cases h
        · rintro ⟨⟨-, -, -, -, h⟩, -⟩
          simp [List.countP_cons, FMeta.isHook] at h
          omega
      | none =>
        cases args with
        | none => simp [fieldMetas]
        | some l =>
          simp [fieldMetas, ih, FMeta.isSemantic, FMeta.isHook, FMeta.semantic?, List.findSome?_cons, List.countP_cons, Nat.add_comm]

theorem fieldAttributes_ok {a : Attrs} {s : Option (List Str)} :
    fieldAttributes a = .ok s ↔ a.OK ∧ s = a.semantic := by
  match a with
  | [] =>
    simp only [fieldAttributes, Attrs.semantic, Attrs.metas]
    constructor
    · intro h
      cases h
      exact ⟨⟨by simp, by simp, by simp [Attrs.metas], by simp [Attrs.metas], by simp [Attrs.metas],
        by simp [Attrs.metas], by simp [Attrs.metas]⟩, by simp⟩
    · rintro ⟨-, rfl⟩; rfl
  | [none] =>
    simp only [fieldAttributes]
    constructor
    · intro h; cases h
    · rintro ⟨h, -⟩; exact absurd h.parses (by simp)
  | [some ms] =>
    simp only [fieldAttributes, fieldMetas_ok, Attrs.semantic]
    have hm : Attrs.metas [some ms] = ms := by simp [Attrs.metas]
    simp only [Option.isSome_none, Bool.toNat_false, Nat.zero_add, Option.none_or, hm]
    constructor
    · rintro ⟨⟨h1, h2, h3, h4, h5⟩, h6⟩
      refine ⟨⟨by simp, by simp, ?_, ?_, ?_, ?_, ?_⟩, h6⟩ <;> rw [hm] <;> assumption
    · rintro ⟨⟨-, -, h1, h2, h3, h4, h5⟩, h6⟩
      rw [hm] at h1 h2 h3 h4 h5
      exact ⟨⟨h1, h2, h3, h4, h5⟩, h6⟩
  | x :: y :: l =>
    constructor
    · intro h
      cases x <;> simp [fieldAttributes] at h
    · rintro ⟨h, -⟩
      have := h.one
      simp at this

theorem rootMetas_ok {ms : List RMeta} : ∀ {r t : Bool} {x : Bool × Bool},
    rootMetas ms r t = .ok x ↔ (.path ∉ ms ∧ .other ∉ ms) ∧
      x = (r || ms.contains .root, t || ms.contains .noTest) := by
  induction ms with
  | nil => intro r t x; simp [rootMetas, eq_comm]
  | cons a ms ih =>
    intro r t x
    cases a <;> simp [rootMetas, ih]

theorem rootCheck_ok {x y : Bool × Bool} : rootCheck x = .ok y ↔ (x.2 = true → x.1 = true) ∧ y = x := by
  obtain ⟨a, b⟩ := x
  cases a <;> cases b <;> simp [rootCheck, eq_comm]

structure RootOK (d : DeclD τ) : Prop where
  oneAttr : d.attrs.length ≤ 1
  parses : none ∉ d.attrs
  path : .path ∉ d.metas
  other : .other ∉ d.metas
  noTest : .noTest ∈ d.metas → .root ∈ d.metas

theorem rootAttributes_ok {d : DeclD τ} {x : Bool × Bool} :
    rootAttributes d.attrs = .ok x ↔ RootOK d ∧ x = (d.metas.contains .root, d.metas.contains .noTest) := by
  obtain ⟨i, a, dt⟩ := d
  match a with
  | [] =>
    have hm : (DeclD.mk i [] dt).metas = [] := rfl
    simp only [rootAttributes, rootCheck_ok, hm]
    constructor
    · rintro ⟨-, rfl⟩
      exact ⟨⟨by simp, by simp, by simp [hm], by simp [hm], by simp [hm]⟩, by simp⟩
    · rintro ⟨-, rfl⟩; simp
  | [none] =>
    simp only [rootAttributes]
    constructor
    · intro h; cases h
    · rintro ⟨h, -⟩; exact absurd h.parses (by simp)
  | [some ms] =>
    have hm : (DeclD.mk i [some ms] dt).metas = ms := by simp [DeclD.metas]
    simp only [rootAttributes, ebind_ok, rootMetas_ok, rootCheck_ok, hm]
    constructor
    · rintro ⟨y, ⟨⟨h1, h2⟩, rfl⟩, h3, rfl⟩
      refine ⟨⟨by simp, by simp, by rwa [hm], by rwa [hm], ?_⟩, by simp⟩
      rw [hm]
      simpa using h3
    · rintro ⟨⟨-, -, h1, h2, h3⟩, rfl⟩
      rw [hm] at h1 h2 h3
      exact ⟨_, ⟨⟨h1, h2⟩, rfl⟩, by simpa using h3, by simp⟩
  | y :: z :: l =>
    constructor
    · intro h
      cases y <;> simp [rootAttributes] at h
    · rintro ⟨h, -⟩
      have := h.oneAttr
      simp at this

/-! ## Expansion -/

/-- The calls for unnamed fields. -/
def callsIdx : Nat → List (FieldD τ) → List (Accessor × List Str)
  | _, [] => []
  | i, f :: fs => (f.attrs.semantic.map fun l => (Accessor.idx i, l)).toList ++ callsIdx (i + 1) fs

theorem applyUnnamed_ok {fs : List (FieldD τ)} : ∀ {i : Nat} {l : List (Accessor × List Str)},
    applyUnnamed i fs = .ok l ↔ (∀ f ∈ fs, f.attrs.OK) ∧ l = callsIdx i fs := by
  induction fs with
  | nil => intro i l; simp [applyUnnamed, callsIdx, eq_comm]
  | cons f fs ih =>
    intro i l
    simp only [applyUnnamed, ebind_ok, fieldAttributes_ok, ih, callsIdx]
    constructor
    · rintro ⟨s, ⟨h1, rfl⟩, r, ⟨h2, rfl⟩, h3⟩
      refine ⟨by simpa using ⟨h1, h2⟩, ?_⟩
      cases hs : f.attrs.semantic <;> simp only [hs, epure_ok] at h3 <;> simp [← h3]
    · rintro ⟨h, rfl⟩
      refine ⟨_, ⟨h f (by simp), rfl⟩, _, ⟨fun g hg => h g (by simp [hg]), rfl⟩, ?_⟩
      cases f.attrs.semantic <;> simp [epure_ok]

/-- The calls for named fields. -/
def callsName (fs : List (FieldD τ)) : List (Accessor × List Str) :=
  fs.filterMap fun f => f.attrs.semantic.map fun l => (Accessor.name f.ident, l)

theorem applyNamed_ok {fs : List (FieldD τ)} : ∀ {l : List (Accessor × List Str)},
    applyNamed fs = .ok l ↔ (∀ f ∈ fs, f.attrs.OK) ∧ l = callsName fs := by
  induction fs with
  | nil => intro l; simp [applyNamed, callsName, eq_comm]
  | cons f fs ih =>
    intro l
    simp only [applyNamed, ebind_ok, fieldAttributes_ok, ih]
    constructor
    · rintro ⟨s, ⟨h1, rfl⟩, r, ⟨h2, rfl⟩, h3⟩
      refine ⟨by simpa using ⟨h1, h2⟩, ?_⟩
      cases hs : f.attrs.semantic <;> simp only [hs, epure_ok] at h3 <;> simp [← h3, callsName, hs]
    · rintro ⟨h, rfl⟩
      refine ⟨_, ⟨h f (by simp), rfl⟩, _, ⟨fun g hg => h g (by simp [hg]), rfl⟩, ?_⟩
      cases hs : f.attrs.semantic <;> simp [epure_ok, callsName, hs]

theorem expandUnnamed_ok {fs : List (FieldD τ)} {g : StructGen τ} :
    expandUnnamed fs = .ok g ↔ (fs ≠ [] ∧ ∀ f ∈ fs, f.attrs.OK) ∧
      g = ⟨fs.map FieldD.ty, buildUnnamed 0 fs, callsIdx 0 fs, .idx 0, .idx (fs.length - 1)⟩ := by
  unfold expandUnnamed
  cases fs with
  | nil => simp
  | cons f fs =>
    simp only [List.head?_cons, ebind_ok, applyUnnamed_ok, epure_ok]
    constructor
    · rintro ⟨_, ⟨h, rfl⟩, rfl⟩; exact ⟨⟨by simp, h⟩, rfl⟩
    · rintro ⟨⟨-, h⟩, rfl⟩; exact ⟨_, ⟨h, rfl⟩, rfl⟩

theorem expandNamed_ok {fs : List (FieldD τ)} {g : StructGen τ} :
    expandNamed fs = .ok g ↔ (fs ≠ [] ∧ ∀ f ∈ fs, f.attrs.OK) ∧ ∃ a b, fs.head? = some a ∧ fs.getLast? = some b ∧
      g = ⟨fs.map FieldD.ty, fs.map fun f => (.name f.ident, f.ty), callsName fs, .name a.ident, .name b.ident⟩ := by
  unfold expandNamed
  cases h : fs.head? with
  | none =>
    simp only [List.head?_eq_none_iff] at h
    simp [h]
  | some a =>
    cases h' : fs.getLast? with
    | none =>
      simp only [List.getLast?_eq_none_iff] at h'
      simp [h'] at h
    | some b =>
      have : fs ≠ [] := by intro h0; simp [h0] at h
      simp only [ebind_ok, applyNamed_ok, epure_ok]
      constructor
      · rintro ⟨_, ⟨h, rfl⟩, rfl⟩; exact ⟨⟨this, h⟩, _, _, rfl, rfl, rfl⟩
      · rintro ⟨⟨-, h⟩, _, _, h1, h2, rfl⟩
        cases h1; cases h2
        exact ⟨_, ⟨h, rfl⟩, rfl⟩

/-- The type of the field of a variant. -/
def VariantD.ty? (v : VariantD τ) : Option τ := (v.fields.list.map FieldD.ty).head?

theorem single_list {v : VariantD τ} (h : v.single = true) : ∃ f, v.fields.list = [f] := by
  unfold VariantD.single at h
  cases hf : v.fields with
  | unnamed l =>
    rw [hf] at h
    match l, h with
    | [f], _ => exact ⟨f, rfl⟩
  | named l => rw [hf] at h; simp at h
  | unit => rw [hf] at h; simp at h

theorem variantTypes_ok {vs : List (VariantD τ)} : ∀ {x : List Str × List τ},
    variantTypes vs = .ok x ↔ (∀ v ∈ vs, v.discriminant = false ∧ v.single = true) ∧
      x = (vs.map VariantD.ident, vs.flatMap fun v => v.fields.list.map FieldD.ty) := by
  induction vs with
  | nil =>
    intro x
    simp only [variantTypes, Except.ok.injEq, List.not_mem_nil, false_implies, implies_true, true_and, List.map_nil,
      List.flatMap_nil]
    exact eq_comm
  | cons v vs ih =>
    intro x
    unfold variantTypes
    cases hd : v.discriminant with
    | true => simp [hd]
    | false =>
      simp only [Bool.false_eq_true, if_false]
      split
      · rename_i f hf
        simp only [ebind_ok, ih, epure_ok]
        constructor
        · rintro ⟨_, ⟨h, rfl⟩, rfl⟩
          refine ⟨?_, by simp [hf, FieldsD.list]⟩
          simpa [hd, VariantD.single, hf] using h
        · rintro ⟨h, rfl⟩
          exact ⟨_, ⟨fun w hw => h w (by simp [hw]), rfl⟩, by simp [hf, FieldsD.list]⟩
      · rename_i h
        constructor
        · intro h'; cases h'
        · rintro ⟨h', -⟩
          have := (h' v (by simp)).2
          unfold VariantD.single at this
          split at this
          · rename_i f hf; exact absurd hf (h f)
          · cases this

theorem variantApply_ok {vs : List (VariantD τ)} : ∀ {x : List (Option (List Str))},
    variantApply vs = .ok x ↔ (∀ v ∈ vs, v.attrs.OK) ∧ x = vs.map fun v => v.attrs.semantic := by
  induction vs with
  | nil => intro x; simp only [variantApply, Except.ok.injEq]; simp [eq_comm]
  | cons v vs ih =>
    intro x
    simp only [variantApply, ebind_ok, fieldAttributes_ok, ih, epure_ok]
    constructor
    · rintro ⟨_, ⟨h1, rfl⟩, _, ⟨h2, rfl⟩, rfl⟩
      exact ⟨by simpa using ⟨h1, h2⟩, by simp⟩
    · rintro ⟨h, rfl⟩
      exact ⟨_, ⟨h v (by simp), rfl⟩, _, ⟨fun w hw => h w (by simp [hw]), rfl⟩, by simp⟩

/-- The arms a list of variants asks for. -/
def armsOf : Nat → List (VariantD τ) → List (Arm τ)
  | _, [] => []
  | i, v :: vs => v.fields.list.map (fun f => ⟨i, f.ty, v.attrs.semantic, v.ident⟩) ++ armsOf (i + 1) vs

theorem arms_eq {vs : List (VariantD τ)} (h : ∀ v ∈ vs, v.single = true) : ∀ i,
    arms i (vs.flatMap fun v => v.fields.list.map FieldD.ty) (vs.map fun v => v.attrs.semantic)
      (vs.map VariantD.ident) = armsOf i vs := by
  induction vs with
  | nil => intro i; simp [arms, armsOf]
  | cons v vs ih =>
    intro i
    obtain ⟨f, hf⟩ := single_list (h v (by simp))
    simp [arms, armsOf, hf, ih (fun w hw => h w (by simp [hw]))]

theorem flatMap_ne {vs : List (VariantD τ)} (h : ∀ v ∈ vs, v.single = true) :
    (vs.flatMap fun v => v.fields.list.map FieldD.ty).head? = none ↔ vs = [] := by
  cases vs with
  | nil => simp
  | cons v vs =>
    obtain ⟨f, hf⟩ := single_list (h v (by simp))
    simp [hf]

theorem expandEnum_ok {vs : List (VariantD τ)} {g : EnumGen τ} :
    expandEnum vs = .ok g ↔ (vs ≠ [] ∧ ∀ v ∈ vs, v.discriminant = false ∧ v.single = true ∧ v.attrs.OK) ∧
      g = ⟨vs.flatMap fun v => v.fields.list.map FieldD.ty, armsOf 0 vs⟩ := by
  unfold expandEnum
  simp only [ebind_ok, variantTypes_ok]
  constructor
  · rintro ⟨_, ⟨h, rfl⟩, h2⟩
    have hs : ∀ v ∈ vs, v.single = true := fun v hv => (h v hv).2
    dsimp only at h2
    split at h2
    · cases h2
    · rename_i t ht
      simp only [ebind_ok, variantApply_ok, epure_ok] at h2
      obtain ⟨_, ⟨h3, rfl⟩, rfl⟩ := h2
      refine ⟨⟨?_, fun v hv => ⟨(h v hv).1, hs v hv, h3 v hv⟩⟩, ?_⟩
      · rintro rfl; simp at ht
      · rw [arms_eq hs]
  · rintro ⟨⟨h0, h⟩, rfl⟩
    have hs : ∀ v ∈ vs, v.single = true := fun v hv => (h v hv).2.1
    refine ⟨_, ⟨fun v hv => ⟨(h v hv).1, hs v hv⟩, rfl⟩, ?_⟩
    dsimp only
    split
    · rename_i h1; exact absurd ((flatMap_ne hs).1 h1) h0
    · simp only [ebind_ok, variantApply_ok, epure_ok]
      exact ⟨_, ⟨fun v hv => (h v hv).2.2, rfl⟩, by rw [arms_eq hs]⟩

theorem expandData_ok {d : DataD τ} : (∃ b, expandData d = .ok b) ↔ d.OK := by
  unfold expandData
  split
  · simp only [emap_ok, expandUnnamed_ok, DataD.OK, FieldsD.list]
    constructor
    · rintro ⟨_, _, ⟨h, -⟩, -⟩; exact h
    · intro h; exact ⟨_, _, ⟨h, rfl⟩, rfl⟩
  · rename_i fs
    simp only [emap_ok, expandNamed_ok, DataD.OK, FieldsD.list]
    constructor
    · rintro ⟨_, _, ⟨h, -⟩, -⟩; exact h
    · intro h
      obtain ⟨a, ha⟩ : ∃ a, fs.head? = some a := by
        cases fs with
        | nil => exact absurd rfl h.1
        | cons a l => exact ⟨a, rfl⟩
      exact ⟨_, _, ⟨h, a, fs.getLast h.1, ha, List.getLast?_eq_some_getLast h.1, rfl⟩, rfl⟩
  · simp [DataD.OK]
  · simp only [emap_ok, expandEnum_ok, DataD.OK]
    constructor
    · rintro ⟨_, _, ⟨h, -⟩, -⟩; exact h
    · intro h; exact ⟨_, _, ⟨h, rfl⟩, rfl⟩
  · simp [DataD.OK]

theorem expand_ok {d : DeclD τ} {g : Gen τ} : expand d = .ok g ↔ RootOK d ∧ ∃ b, expandData d.data = .ok b ∧
    g = ⟨d.ident, b, d.metas.contains .root,
      !(!d.metas.contains .root || d.metas.contains .noTest), d.data.isEnum⟩ := by
  unfold expand
  simp only [ebind_ok, rootAttributes_ok, epure_ok]
  constructor
  · rintro ⟨_, ⟨h, rfl⟩, b, h1, rfl⟩; exact ⟨h, b, h1, rfl⟩
  · rintro ⟨h, b, h1, rfl⟩; exact ⟨_, ⟨h, rfl⟩, b, h1, rfl⟩

theorem expand_iff {d : DeclD τ} : (∃ g, expand d = .ok g) ↔ d.OK := by
  simp only [expand_ok]
  constructor
  · rintro ⟨_, h, b, h1, -⟩
    exact ⟨h.1, h.2, h.3, h.4, h.5, expandData_ok.1 ⟨b, h1⟩⟩
  · intro h
    obtain ⟨b, hb⟩ := expandData_ok.2 h.data
    exact ⟨_, ⟨h.1, h.2, h.3, h.4, h.5⟩, b, hb, rfl⟩

end Teleparse.Syn
