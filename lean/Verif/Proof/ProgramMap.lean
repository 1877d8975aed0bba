import Verif.Spec.Program
import Verif.Proof.SyntaxCode
import Verif.Proof.SyntaxErr
/-
The output of `derive_syntax` depends on the types in the declaration only in that it contains them.
-/
namespace Teleparse.Prog
open Syn
variable {τ τ' : Type} {m n : Nat} (f : τ → τ')

def mapField (x : FieldD τ) : FieldD τ' := ⟨x.ident, f x.ty, x.attrs⟩

def mapFields : FieldsD τ → FieldsD τ'
  | .unnamed l => .unnamed (l.map (mapField f))
  | .named l => .named (l.map (mapField f))
  | .unit => .unit

def mapVariantD (v : VariantD τ) : VariantD τ' := ⟨v.ident, v.discriminant, mapFields f v.fields, v.attrs⟩

def mapData : DataD τ → DataD τ'
  | .struct fs => .struct (mapFields f fs)
  | .enum vs => .enum (vs.map (mapVariantD f))
  | .union => .union

def mapDecl (d : DeclD τ) : DeclD τ' := ⟨d.ident, d.attrs, mapData f d.data⟩

def mapStruct (g : StructGen τ) : StructGen τ' :=
  ⟨g.register.map f, g.build.map fun e => (e.1, f e.2), g.apply, g.lo, g.hi⟩

def mapArm (a : Arm τ) : Arm τ' := ⟨a.index, f a.ty, a.apply, a.ident⟩

def mapEnum (g : EnumGen τ) : EnumGen τ' := ⟨g.register.map f, g.arms.map (mapArm f)⟩

def mapBody : Body τ → Body τ'
  | .struct g => .struct (mapStruct f g)
  | .enum g => .enum (mapEnum f g)

def mapGen (g : Gen τ) : Gen τ' := ⟨g.debug, mapBody f g.body, g.root, g.test, g.toSpan⟩

theorem applyUnnamed_map (l : List (FieldD τ)) : ∀ i, applyUnnamed i (l.map (mapField f)) = applyUnnamed i l := by
  induction l with
  | nil => intro i; rfl
  | cons x l ih => intro i; simp only [List.map_cons, applyUnnamed, ih]; rfl

theorem applyNamed_map (l : List (FieldD τ)) : applyNamed (l.map (mapField f)) = applyNamed l := by
  induction l with
  | nil => rfl
  | cons x l ih => simp only [List.map_cons, applyNamed, ih]; rfl

theorem buildUnnamed_map (l : List (FieldD τ)) : ∀ i, buildUnnamed i (l.map (mapField f)) =
    (buildUnnamed i l).map fun e => (e.1, f e.2) := by
  induction l with
  | nil => intro i; rfl
  | cons x l ih => intro i; simp only [List.map_cons, buildUnnamed, ih]; rfl

theorem expandUnnamed_map (l : List (FieldD τ)) :
    expandUnnamed (l.map (mapField f)) = (expandUnnamed l).map (mapStruct f) := by
  unfold expandUnnamed
  rw [applyUnnamed_map, buildUnnamed_map]
  cases l with
  | nil => rfl
  | cons x l =>
    simp only [List.map_cons, List.head?_cons]
    cases applyUnnamed 0 (x :: l) with
    | error e => rfl
    | ok a =>
      simp only [bind, Except.bind, pure, Except.pure, Except.map, mapStruct]
      simp [mapField]

theorem expandNamed_map (l : List (FieldD τ)) :
    expandNamed (l.map (mapField f)) = (expandNamed l).map (mapStruct f) := by
  unfold expandNamed
  rw [applyNamed_map]
  cases l with
  | nil => rfl
  | cons x l =>
    have h : ((x :: l).map (mapField f)).getLast? = some (mapField f ((x :: l).getLast (by simp))) := by
      rw [List.getLast?_eq_some_getLast (by simp), List.getLast_map]
    have h' : (x :: l).getLast? = some ((x :: l).getLast (by simp)) := List.getLast?_eq_some_getLast (by simp)
    rw [h, h']
    simp only [List.map_cons, List.head?_cons]
    cases applyNamed (x :: l) with
    | error e => rfl
    | ok a =>
      simp only [bind, Except.bind, pure, Except.pure, Except.map, mapStruct]
      simp [mapField]

theorem variantTypes_map (l : List (VariantD τ)) : variantTypes (l.map (mapVariantD f)) =
    (variantTypes l).map fun e => (e.1, e.2.map f) := by
  induction l with
  | nil => rfl
  | cons v l ih =>
    simp only [List.map_cons, variantTypes, ih]
    show (if v.discriminant = true then _ else _) = _
    by_cases hd : v.discriminant = true
    · simp only [hd, if_true]; rfl
    · simp only [hd]
      cases hf : v.fields with
      | unit => simp only [mapVariantD, hf, mapFields]; rfl
      | named x => simp only [mapVariantD, hf, mapFields]; rfl
      | unnamed x =>
        match x with
        | [] => simp only [mapVariantD, hf, mapFields]; rfl
        | [y] =>
          simp only [mapVariantD, hf, mapFields, List.map_cons, List.map_nil]
          cases variantTypes l <;> rfl
        | y :: z :: x => simp only [mapVariantD, hf, mapFields]; rfl

theorem variantApply_map (l : List (VariantD τ)) : variantApply (l.map (mapVariantD f)) = variantApply l := by
  induction l with
  | nil => rfl
  | cons x l ih => simp only [List.map_cons, variantApply, ih]; rfl

theorem arms_map (ts : List τ) : ∀ i (as : List (Option (List Str))) (vs : List Str),
    arms i (ts.map f) as vs = (arms i ts as vs).map (mapArm f) := by
  induction ts with
  | nil => intro i as vs; simp [arms]
  | cons t ts ih =>
    intro i as vs
    cases as with
    | nil => simp [arms]
    | cons a as =>
      cases vs with
      | nil => simp [arms]
      | cons v vs => simp only [List.map_cons, arms, ih]; rfl

theorem expandEnum_map (l : List (VariantD τ)) :
    expandEnum (l.map (mapVariantD f)) = (expandEnum l).map (mapEnum f) := by
  unfold expandEnum
  rw [variantTypes_map, variantApply_map]
  cases variantTypes l with
  | error e => rfl
  | ok p =>
    obtain ⟨is, ts⟩ := p
    simp only [Except.map, bind, Except.bind]
    cases ts with
    | nil => rfl
    | cons t ts =>
      simp only [List.map_cons, List.head?_cons]
      cases variantApply l with
      | error e => rfl
      | ok as =>
        simp only [pure, Except.pure, mapEnum, List.map_cons]
        rw [← arms_map]
        rfl

theorem expandData_map (d : DataD τ) : expandData (mapData f d) = (expandData d).map (mapBody f) := by
  cases d with
  | union => rfl
  | enum l =>
    simp only [mapData, expandData, expandEnum_map]
    cases expandEnum l <;> rfl
  | struct fs =>
    cases fs with
    | unit => rfl
    | unnamed l =>
      simp only [mapData, mapFields, expandData, expandUnnamed_map]
      cases expandUnnamed l <;> rfl
    | named l =>
      simp only [mapData, mapFields, expandData, expandNamed_map]
      cases expandNamed l <;> rfl

theorem expand_map (d : DeclD τ) : expand (mapDecl f d) = (expand d).map (mapGen f) := by
  unfold expand
  show (rootAttributes d.attrs >>= _) = _
  cases rootAttributes d.attrs with
  | error e => rfl
  | ok r =>
    simp only [bind, Except.bind, mapDecl, expandData_map]
    cases expandData d.data with
    | error e => rfl
    | ok b =>
      have : (mapData f d.data).isEnum = d.data.isEnum := by cases d.data <;> rfl
      simp only [Except.map, pure, Except.pure, mapGen, this]

theorem idents_map (d : DataD τ) : (mapData f d).idents = d.idents := by
  cases d <;> simp [mapData, DataD.idents, mapVariantD]

theorem fields_map (fs : FieldsD τ) : (mapFields f fs).list = fs.list.map (mapField f) := by
  cases fs <;> rfl

theorem parts_map (d : DeclD τ) : (mapDecl f d).parts = d.parts.map fun p => (f p.1, p.2) := by
  unfold DeclD.parts
  simp only [mapDecl]
  cases d.data with
  | union => rfl
  | struct fs => simp only [mapData, fields_map, List.map_map]; rfl
  | enum vs =>
    simp only [mapData, List.flatMap_map, List.map_flatMap]
    congr 1
    funext v
    simp only [mapVariantD, fields_map, List.map_map]
    rfl

theorem distinct_map {d : DeclD τ} (h : d.Distinct) : (mapDecl f d).Distinct := by
  unfold DeclD.Distinct at h ⊢
  simp only [mapDecl]
  cases hd : d.data with
  | union => trivial
  | struct fs =>
    cases fs with
    | unit => trivial
    | unnamed l => trivial
    | named l =>
      simp only [hd] at h
      simp only [mapData, mapFields, List.map_map]
      exact h
  | enum vs =>
    simp only [hd] at h
    simp only [mapData, List.map_map]
    exact h

/-! ## The types in the output -/

/-- All types in the generated code. -/
def bodyTypes : Body τ → List τ
  | .struct g => g.register ++ g.build.map (·.2)
  | .enum g => g.register ++ g.arms.map Arm.ty

theorem buildUnnamed_types (l : List (FieldD τ)) : ∀ i, (buildUnnamed i l).map (·.2) = l.map FieldD.ty := by
  induction l with
  | nil => intro i; rfl
  | cons x l ih => intro i; simp [buildUnnamed, ih]

theorem arms_types (ts : List τ) : ∀ i (as : List (Option (List Str))) (vs : List Str) (t : τ),
    t ∈ (arms i ts as vs).map Arm.ty → t ∈ ts := by
  induction ts with
  | nil => intro i as vs t h; simp [arms] at h
  | cons t ts ih =>
    intro i as vs u h
    cases as with
    | nil => simp [arms] at h
    | cons a as =>
      cases vs with
      | nil => simp [arms] at h
      | cons v vs =>
        simp only [arms, List.map_cons, List.mem_cons] at h
        rcases h with rfl | h
        · simp
        · exact List.mem_cons_of_mem _ (ih _ _ _ _ h)

theorem variantTypes_types {l : List (VariantD τ)} : ∀ {is : List Str} {ts : List τ}, variantTypes l = .ok (is, ts) →
    ts = l.flatMap fun v => v.fields.list.map FieldD.ty := by
  induction l with
  | nil => intro is ts h; cases h; rfl
  | cons v l ih =>
    intro is ts h
    unfold variantTypes at h
    split at h
    · cases h
    · split at h
      · rename_i x hf
        obtain ⟨⟨is', ts'⟩, h1, h2⟩ := ebind_ok.1 h
        cases h2
        rw [ih h1]
        simp [hf, FieldsD.list]
      · cases h

theorem bodyTypes_parts {d : DeclD τ} {b : Body τ} (h : expandData d.data = .ok b) (t : τ) :
    t ∈ bodyTypes b ↔ ∃ p ∈ d.parts, p.1 = t := by
  have hp : (∃ p ∈ d.parts, p.1 = t) ↔ t ∈ d.parts.map (·.1) := by simp
  rw [hp]
  unfold DeclD.parts
  cases hd : d.data with
  | union => rw [hd] at h; cases h
  | enum l =>
    rw [hd] at h
    obtain ⟨g, h1, rfl⟩ := emap_ok.1 h
    unfold expandEnum at h1
    obtain ⟨⟨is, ts⟩, h2, h3⟩ := ebind_ok.1 h1
    have hts := variantTypes_types h2
    have hl : (l.flatMap fun v => v.fields.list.map fun f => (f.ty, v.attrs.semantic)).map (·.1) = ts := by
      rw [hts, List.map_flatMap]
      congr 1
      funext v
      rw [List.map_map]
      rfl
    simp only [hl]
    simp only at h3
    split at h3
    · cases h3
    · obtain ⟨as, -, h4⟩ := ebind_ok.1 h3
      cases h4
      simp only [bodyTypes, List.mem_append]
      exact ⟨fun h => h.elim id (arms_types _ _ _ _ _), .inl⟩
  | struct fs =>
    rw [hd] at h
    have key : (fs.list.map fun f => (f.ty, f.attrs.semantic)).map (·.1) = fs.list.map FieldD.ty := by
      rw [List.map_map]; rfl
    simp only [key]
    cases fs with
    | unit => cases h
    | unnamed l =>
      obtain ⟨g, h1, rfl⟩ := emap_ok.1 h
      unfold expandUnnamed at h1
      split at h1
      · cases h1
      · obtain ⟨a, -, h2⟩ := ebind_ok.1 h1
        cases h2
        simp [bodyTypes, buildUnnamed_types, FieldsD.list]
    | named l =>
      obtain ⟨g, h1, rfl⟩ := emap_ok.1 h
      unfold expandNamed at h1
      split at h1
      · obtain ⟨a, -, h2⟩ := ebind_ok.1 h1
        cases h2
        simp [bodyTypes, FieldsD.list]
      · cases h1

/-! ## Resolution -/

theorem mapM_eq_map {α β : Type} {g : α → Option β} {h : α → β} (H : ∀ x y, g x = some y → y = h x) {l : List α} :
    ∀ {l' : List β}, l.mapM g = some l' → l' = l.map h := by
  induction l with
  | nil => intro l' hl; simp at hl; simp [hl]
  | cons x l ih =>
    intro l' hl
    simp only [List.mapM_cons, bind, Option.bind, pure] at hl
    cases hx : g x with
    | none => simp [hx] at hl
    | some y =>
      cases hm : l.mapM g with
      | none => simp [hx, hm] at hl
      | some r =>
        simp only [hx, hm, Option.some.injEq] at hl
        rw [← hl, H _ _ hx, ih hm]
        rfl

theorem mapM_of {α β : Type} {g : α → Option β} {h : α → β} {l : List α} (H : ∀ x ∈ l, g x = some (h x)) :
    l.mapM g = some (l.map h) := by
  induction l with
  | nil => rfl
  | cons x l ih =>
    simp only [List.mapM_cons, bind, Option.bind, pure]
    rw [H x (by simp), ih fun x hx => H x (List.mem_cons_of_mem _ hx)]
    rfl

variable {f} {r : τ → Option τ'}

theorem resolveBody_iff (H : ∀ t t', r t = some t' → t' = f t) {b : Body τ} {b' : Body τ'} :
    resolveBody r b = some b' ↔ (∀ t ∈ bodyTypes b, ∃ t', r t = some t') ∧ b' = mapBody f b := by
  have Hb : ∀ x y, resolveBuild r x = some y → y = (x.1, f x.2) := by
    intro x y h
    obtain ⟨t, h1, rfl⟩ := Option.map_eq_some_iff.1 h
    rw [H _ _ h1]
  have Ha : ∀ x y, resolveArmTy r x = some y → y = mapArm f x := by
    intro x y h
    obtain ⟨t, h1, rfl⟩ := Option.map_eq_some_iff.1 h
    rw [H _ _ h1]
    rfl
  have H1 : ∀ t, (∃ t', r t = some t') → r t = some (f t) := fun t ⟨t', h⟩ => by rw [h, H _ _ h]
  constructor
  · intro h
    cases b with
    | struct g =>
      simp only [resolveBody, bind, Option.bind_eq_some_iff, pure, Option.some.injEq] at h
      obtain ⟨l1, h1, l2, h2, rfl⟩ := h
      refine ⟨fun t ht => ?_, ?_⟩
      · rcases List.mem_append.1 ht with ht | ht
        · exact mapM_some_iff.1 ⟨_, h1⟩ t ht
        · obtain ⟨e, he, rfl⟩ := List.mem_map.1 ht
          obtain ⟨y, hy⟩ := mapM_some_iff.1 ⟨_, h2⟩ e he
          obtain ⟨t, h1, -⟩ := Option.map_eq_some_iff.1 hy
          exact ⟨t, h1⟩
      · rw [mapM_eq_map H h1, mapM_eq_map Hb h2]; rfl
    | enum g =>
      simp only [resolveBody, bind, Option.bind_eq_some_iff, pure, Option.some.injEq] at h
      obtain ⟨l1, h1, l2, h2, rfl⟩ := h
      refine ⟨fun t ht => ?_, ?_⟩
      · rcases List.mem_append.1 ht with ht | ht
        · exact mapM_some_iff.1 ⟨_, h1⟩ t ht
        · obtain ⟨e, he, rfl⟩ := List.mem_map.1 ht
          obtain ⟨y, hy⟩ := mapM_some_iff.1 ⟨_, h2⟩ e he
          obtain ⟨t, h1, -⟩ := Option.map_eq_some_iff.1 hy
          exact ⟨t, h1⟩
      · rw [mapM_eq_map H h1, mapM_eq_map Ha h2]; rfl
  · rintro ⟨h, rfl⟩
    cases b with
    | struct g =>
      simp only [resolveBody, bind, pure]
      rw [mapM_of (h := f) fun t ht => H1 t (h t (List.mem_append_left _ ht)),
        mapM_of (h := fun e => (e.1, f e.2)) fun e he => by
          unfold resolveBuild
          rw [H1 e.2 (h _ (List.mem_append_right _ (List.mem_map_of_mem he)))]
          rfl]
      rfl
    | enum g =>
      simp only [resolveBody, bind, pure]
      rw [mapM_of (h := f) fun t ht => H1 t (h t (List.mem_append_left _ ht)),
        mapM_of (h := mapArm f) fun e he => by
          unfold resolveArmTy
          rw [H1 e.ty (h _ (List.mem_append_right _ (List.mem_map_of_mem he)))]
          rfl]
      rfl

/-- The generated code compiles exactly if all types in the declaration do and the code generated for the resolved
declaration does; and it is the same code. -/
theorem compileGen_iff {L : Macro.Lexicon} {r : τ → Option (Ty m n)} {f : τ → Ty m n}
    (H : ∀ t t', r t = some t' → t' = f t) {d : DeclD τ} {g : Gen τ} (h : expand d = .ok g) {c : Code m n} :
    compileGen L r d.data.idents g = some c ↔ (∀ p ∈ d.parts, ∃ t, r p.1 = some t) ∧
      expand (mapDecl f d) = .ok (mapGen f g) ∧ (mapGen f g).compile (tokenNamed L) (mapDecl f d) = some c := by
  have h1 : expand (mapDecl f d) = .ok (mapGen f g) := by rw [expand_map, h]; rfl
  obtain ⟨-, b, hb, rfl⟩ := expand_ok.1 h
  have h2 : (∀ p ∈ d.parts, ∃ t, r p.1 = some t) ↔ ∀ t ∈ bodyTypes b, ∃ t', r t = some t' := by
    constructor
    · intro H t ht
      obtain ⟨p, hp, rfl⟩ := (bodyTypes_parts hb t).1 ht
      exact H p hp
    · exact fun H p hp => H _ ((bodyTypes_parts hb _).2 ⟨p, hp, rfl⟩)
  rw [h2]
  have h3 : ∀ b', (match b' with
      | .struct s => (s.compile (tokenNamed L)).map Code.struct
      | .enum e => (e.compile (tokenNamed L) d.data.idents).map Code.enum) = some c ↔
      (⟨d.ident, b', d.metas.contains .root, !(!d.metas.contains .root || d.metas.contains .noTest),
        d.data.isEnum⟩ : Gen (Ty m n)).compile (tokenNamed L) (mapDecl f d) = some c := by
    intro b'
    unfold Gen.compile
    rw [show (mapDecl f d).data.idents = d.data.idents from idents_map f d.data]
    cases b' <;> rfl
  unfold compileGen
  simp only [bind, Option.bind_eq_some_iff, resolveBody_iff H]
  constructor
  · rintro ⟨b', ⟨h4, rfl⟩, h5⟩
    exact ⟨h4, h1, (h3 _).1 h5⟩
  · rintro ⟨h4, -, h5⟩
    exact ⟨_, ⟨h4, rfl⟩, (h3 _).2 h5⟩

end Teleparse.Prog
