import Verif.Proof.SyntaxCode
import Verif.Proof.SyntaxErr
/-
Properties of `derive_syntax` and `derive(ToSpan)`: C63 (generated code), C64 (attributes), C65 (error
messages), C66 (spans).
-/
namespace Teleparse.Syn
variable {m n : Nat} {τ : Type}

/-! ## C63 -/

/-- The generated code registers the production and does the parsing of the user-defined type that the
declaration stands for: the parts in the order of declaration, with the semantic types of each part. -/
theorem C63_implements {d : DeclD (Ty m n)} (hd : d.Distinct) {g : Gen (Ty m n)} (h : expand d = .ok g)
    {resolve : Str → Option (Fin n)} {c : Code m n} (hc : g.compile resolve d = some c) :
    ∃ D, d.def resolve = some D ∧ Implements c D :=
  gen_implements hd h hc

/-- The generated code compiles exactly if every `semantic(..)` names at least one token type and only existing
ones. -/
theorem C63_compiles {d : DeclD (Ty m n)} (hd : d.Distinct) {g : Gen (Ty m n)} (h : expand d = .ok g)
    {resolve : Str → Option (Fin n)} : (∃ c, g.compile resolve d = some c) ↔
      ∀ p ∈ d.parts, ∀ ids, p.2 = some ids → ids ≠ [] ∧ ∀ i ∈ ids, resolve i ≠ none := by
  have key : (∃ l, d.parts.mapM (declared resolve) = some l) ↔
      ∀ p ∈ d.parts, ∀ ids, p.2 = some ids → ids ≠ [] ∧ ∀ i ∈ ids, resolve i ≠ none := by
    rw [mapM_some_iff]
    constructor
    · intro h p hp ids hi
      obtain ⟨f, hf⟩ := h p hp
      simp only [declared_eq, hi, tokenSet_eq, Option.map_eq_some_iff] at hf
      obtain ⟨s, hs, -⟩ := hf
      split at hs
      · cases hs
      · rename_i h0
        obtain ⟨ts, h1, -⟩ := Option.map_eq_some_iff.1 hs
        refine ⟨h0, fun i hi => ?_⟩
        obtain ⟨t, ht⟩ := mapM_some_iff.1 ⟨ts, h1⟩ i hi
        simp [ht]
    · intro h p hp
      rw [declared_eq]
      cases hi : p.2 with
      | none => exact ⟨_, rfl⟩
      | some ids =>
        obtain ⟨h0, h1⟩ := h p hp ids hi
        obtain ⟨ts, hts⟩ := mapM_some_iff.2 fun i hi => Option.ne_none_iff_exists'.1 (h1 i hi)
        exact ⟨_, by simp only [tokenSet_eq, h0, if_false, hts]; rfl⟩
  rw [← key]
  constructor
  · rintro ⟨c, hc⟩
    obtain ⟨D, hD, -⟩ := gen_implements hd h hc
    unfold DeclD.def at hD
    cases hf : d.parts.mapM (declared resolve) with
    | none => rw [hf] at hD; cases hD
    | some l => exact ⟨l, rfl⟩
  · rintro ⟨l, hl⟩
    obtain ⟨-, b, hb, -⟩ := expand_ok.1 h
    have : ∃ D, d.def resolve = some D := by
      cases shape hd hb with
      | struct fs l lo hi hd' hn he hp =>
        obtain ⟨f, l', -, h⟩ := def_struct hd' hl (hp ▸ trip_ne he)
        exact ⟨_, h⟩
      | enum vs hd' h0 hn hs =>
        obtain ⟨f, l', -, h⟩ := def_enum hd' hl (parts_enum hd' ▸ partsOf_ne h0 hs)
        exact ⟨_, h⟩
    obtain ⟨D, hD⟩ := this
    exact gen_compiles hd h hD

/-- The set applied to a part has exactly the token types named in its `semantic(..)`. -/
theorem C63_semantic (hn : n ≤ 32) {resolve : Str → Option (Fin n)} {t : Ty m n} {sem : Option (List Str)}
    {f : Field m n} (h : declared resolve (t, sem) = some f) :
    f.1 = t ∧ (sem = none → f.2 = none) ∧ ∀ ids, sem = some ids → ∃ s, f.2 = some s ∧
      ∀ x, s.contains x = true ↔ ∃ i ∈ ids, resolve i = some x := by
  rw [declared_eq] at h
  cases sem with
  | none => cases h; simp
  | some ids =>
    simp only [tokenSet_eq, Option.map_eq_some_iff] at h
    obtain ⟨s, hs, rfl⟩ := h
    split at hs
    · cases hs
    · obtain ⟨ts, h1, rfl⟩ := Option.map_eq_some_iff.1 hs
      refine ⟨rfl, by simp, ?_⟩
      intro ids' he
      cases he
      refine ⟨_, rfl, fun x => ?_⟩
      rw [contains_foldl hn]
      simp only [contains_new hn, Bool.false_eq_true, false_or]
      exact mem_mapM h1

/-- The start of a struct is the start of its first field, the end is the end of its last field. -/
theorem C63_span {d : DeclD (Ty m n)} (hd : d.Distinct) {g : Gen (Ty m n)} (h : expand d = .ok g)
    {resolve : Str → Option (Fin n)} {c : StructCode m n} (hc : g.compile resolve d = some (.struct c))
    {l : List (Tree n)} (hl : l.length = d.parts.length) :
    ∃ a b, l.head? = some a ∧ l.getLast? = some b ∧ c.span l = ⟨a.span.lo, b.span.hi⟩ := by
  obtain ⟨-, b, hb, rfl⟩ := expand_ok.1 h
  cases shape hd hb with
  | struct fs tl lo hi hd' hn he hp =>
    simp only [Gen.compile, Option.map_eq_some_iff] at hc
    obtain ⟨_, hc, hc'⟩ := hc
    cases hc'
    obtain ⟨ap, -, rfl⟩ := (struct_compile hn he).1 hc
    have hne : l ≠ [] := by
      intro h0
      rw [h0, ← hp, List.length_nil] at hl
      exact trip_ne he (List.length_eq_zero_iff.1 hl.symm)
    rw [span_eq rfl (by rw [hl, ← hp]; simp)]
    refine ⟨l.head hne, l.getLast hne, List.head?_eq_some_head hne, List.getLast?_eq_some_getLast hne, ?_⟩
    simp [spanOf, List.head?_eq_some_head hne, List.getLast?_eq_some_getLast hne]
  | enum vs hd' h0 hn hs =>
    simp only [Gen.compile, Option.map_eq_some_iff] at hc
    obtain ⟨_, -, hc⟩ := hc
    cases hc

/-- `Root` is implemented exactly if `root` is written on the type, and it is tested to be LL(1) exactly if
moreover `no_test` is not. -/
theorem C63_root {d : DeclD τ} {g : Gen τ} (h : expand d = .ok g) :
    (g.root = true ↔ .root ∈ d.metas) ∧ (g.test = true ↔ .root ∈ d.metas ∧ .noTest ∉ d.metas) ∧
    g.debug = d.ident := by
  obtain ⟨-, b, -, rfl⟩ := expand_ok.1 h
  refine ⟨by simp, ?_, rfl⟩
  cases h1 : d.metas.contains RMeta.root <;> cases h2 : d.metas.contains RMeta.noTest <;> simp_all

/-- `#[derive_syntax] #[teleparse(root)] struct S { #[teleparse(semantic(B, C))] x: T, y: U }` -/
def exDecl : DeclD (Ty 1 3) :=
  ⟨[83], [some [.root]], .struct (.named
    [⟨[120], .term 0 ⟨0, none⟩, [some [.semantic (some [[66], [67]])]]⟩, ⟨[121], .term 1 ⟨1, none⟩, []⟩])⟩

/-- The names of the token types. -/
def exResolve : Str → Option (Fin 3)
  | [65] => some 0
  | [66] => some 1
  | [67] => some 2
  | _ => none

example : exDecl.Distinct ∧ ∃ g, expand exDecl = .ok g ∧ g.root = true ∧ g.test = true ∧
    ∃ c, g.compile exResolve exDecl = some (.struct c) ∧ c.tys = [.term 0 ⟨0, none⟩, .term 1 ⟨1, none⟩] ∧
      c.lo = 0 ∧ c.hi = 1 ∧ c.apply = [(0, (LSet.new.insert 1).insert 2)] := by
  refine ⟨?_, _, rfl, rfl, rfl, _, rfl, rfl, rfl, rfl, by decide⟩
  show List.Nodup _
  decide

example : declared exResolve ((.user 0 : Ty 1 3), some [[66], [67]]) =
    some (.user 0, some ((LSet.new.insert 1).insert 2)) := by decide

/-! ## C64 -/

/-- Exactly the declarations satisfying `DeclD.OK` are accepted. -/
theorem C64_accepts (d : DeclD τ) : (∃ g, expand d = .ok g) ↔ d.OK := expand_iff

/-- Attributes that are not lists, do not parse, or are repeated are rejected. Missing for the full property:
lists of any other name, see `C64_false`. -/
theorem C64_partial {d : DeclD τ} {a : Attrs} (ha : a ∈ d.allAttrs)
    (h : 2 ≤ a.length ∨ none ∈ a ∨ .other ∈ Attrs.metas a ∨ .semantic none ∈ Attrs.metas a ∨
      .hook none ∈ Attrs.metas a ∨ 2 ≤ (Attrs.metas a).countP FMeta.isSemantic ∨
      2 ≤ (Attrs.metas a).countP FMeta.isHook) : ∃ e, expand d = .error e := by
  cases he : expand d with
  | error e => exact ⟨e, rfl⟩
  | ok g =>
    have hok : a.OK := by
      have := (expand_iff.1 ⟨g, he⟩).data
      unfold DeclD.allAttrs at ha
      cases hd : d.data with
      | struct fs =>
        rw [hd] at ha this
        cases fs with
        | unit => exact this.elim
        | unnamed l =>
          obtain ⟨f, hf, rfl⟩ := List.mem_map.1 ha
          exact this.2 f hf
        | named l =>
          obtain ⟨f, hf, rfl⟩ := List.mem_map.1 ha
          exact this.2 f hf
      | enum vs =>
        rw [hd] at ha this
        obtain ⟨f, hf, rfl⟩ := List.mem_map.1 ha
        exact (this.2 f hf).2.2
      | union => rw [hd] at this; exact this.elim
    rcases h with h | h | h | h | h | h | h
    · have := hok.one; omega
    · exact absurd h hok.parses
    · exact absurd h hok.format
    · exact absurd h hok.semantics
    · exact absurd h hok.hooks
    · have := hok.oneSemantic; omega
    · have := hok.oneHook; omega

/-- Unknown attributes on the type itself are rejected. -/
theorem C64_root {d : DeclD τ} (h : .path ∈ d.metas ∨ .other ∈ d.metas ∨
    (.noTest ∈ d.metas ∧ .root ∉ d.metas)) : ∃ e, expand d = .error e := by
  cases he : expand d with
  | error e => exact ⟨e, rfl⟩
  | ok g =>
    have hok := expand_iff.1 ⟨g, he⟩
    rcases h with h | h | h
    · exact absurd h hok.path
    · exact absurd h hok.other
    · exact absurd (hok.noTest h.1) h.2

/-- `struct S { #[teleparse(sematic(B))] x: T }` -/
def exTypo : DeclD (Ty 1 3) :=
  ⟨[83], [], .struct (.named [⟨[120], .term 0 ⟨0, none⟩, [some [.list [115, 101, 109, 97, 116, 105, 99]]]⟩])⟩

/-- An attribute with a misspelt name is accepted and has no effect; so has `hook(f)`. -/
theorem C64_false : (∃ (d : DeclD (Ty 1 3)) (a : Attrs) (g : Gen (Ty 1 3)), a ∈ d.allAttrs ∧
      .list [115, 101, 109, 97, 116, 105, 99] ∈ Attrs.metas a ∧ expand d = .ok g) ∧
    ∀ (i j : Str) (ty : Ty 1 3) (h : Str), expand ⟨i, [], .struct (.named [⟨j, ty, [some [.hook (some h)]]⟩])⟩ =
      expand ⟨i, [], .struct (.named [⟨j, ty, []⟩])⟩ := by
  refine ⟨⟨exTypo, [some [.list [115, 101, 109, 97, 116, 105, 99]]], _, ?_, ?_, rfl⟩, ?_⟩
  · simp [exTypo, DeclD.allAttrs, FieldsD.list]
  · simp [Attrs.metas]
  · intros; rfl

/-- `#[teleparse(semantic = "B")]` -/
example : ∃ (d : DeclD (Ty 1 3)) (a : Attrs), a ∈ d.allAttrs ∧ .other ∈ Attrs.metas a ∧
    expand d = .error .format :=
  ⟨⟨[83], [], .struct (.unnamed [⟨[], .term 0 ⟨0, none⟩, [some [.other]]⟩])⟩, [some [.other]],
    by simp [DeclD.allAttrs, FieldsD.list], by simp [Attrs.metas], rfl⟩

/-! ## C65 -/

/-- If the macro fails, what its message says is true of the declaration. -/
theorem C65_truthful {d : DeclD τ} {e : SErr} (h : expand d = .error e) : e.Cause d := expand_err h

/-- And a declaration in the sense of `DeclD.OK` is not rejected. -/
theorem C65_complete {d : DeclD τ} (h : d.OK) : ¬ ∃ e, expand d = .error e := by
  obtain ⟨g, hg⟩ := expand_iff.2 h
  rintro ⟨e, he⟩
  rw [hg] at he
  cases he

/-- `enum E { A(T), B { x: T } }` -/
example : expand (⟨[69], [], .enum [⟨[65], false, .unnamed [⟨[], (.user 0 : Ty 1 3), []⟩], []⟩,
    ⟨[66], false, .named [⟨[120], .user 0, []⟩], []⟩]⟩ : DeclD (Ty 1 3)) = .error (.variantFields [66]) := rfl

/-! ## C66 -/

/-- With `derive(ToSpan)`, the start and the end are those of the first field (of the variant at hand). -/
theorem C66_first {α β : Type} {d : DataD τ} {g : SpanGen} (h : expandSpan d = .ok g)
    (hn : ∀ vs, d = .enum vs → (vs.map VariantD.ident).Nodup) {v : Value α} (hv : v.Of d)
    {x : Accessor × α} {l : List (Accessor × α)} (hx : v.fields = x :: l) (expr : α → β) :
    g.eval expr v = some (expr x.2) := by
  cases d with
  | union => cases h
  | struct fs =>
    simp only [expandSpan, emap_ok] at h
    obtain ⟨a, ha, rfl⟩ := h
    have hf : Fits fs (x :: l) := hx ▸ hv.2
    have := spanField_fits ha hf rfl
    subst this
    simp [SpanGen.eval, hv.1, hx]
  | enum vs =>
    simp only [expandSpan, emap_ok] at h
    obtain ⟨arms, ha, rfl⟩ := h
    obtain ⟨w, hw, h1, h2⟩ := hv
    obtain ⟨a, ha', h3⟩ := spanArms_find ha (hn vs rfl) hw
    have := spanField_fits ha' (hx ▸ h2) rfl
    subst this
    simp [SpanGen.eval, h1, h3, hx]

/-- It is rejected exactly for unions, unit structs, variants without fields, and structs and variants with
empty braces. -/
theorem C66_accepts (d : DataD τ) : (∃ g, expandSpan d = .ok g) ↔
    (∃ fs, d = .struct fs ∧ fs ≠ .unit ∧ fs ≠ .named []) ∨
    (∃ vs, d = .enum vs ∧ ∀ v ∈ vs, v.fields ≠ .unit ∧ v.fields ≠ .named []) := by
  cases d with
  | union => simp [expandSpan]
  | struct fs =>
    simp only [expandSpan, emap_ok, DataD.struct.injEq, reduceCtorEq, false_and, exists_false, or_false,
      exists_eq_left', ← spanField_ok]
    constructor
    · rintro ⟨_, a, h, -⟩; exact ⟨a, h⟩
    · rintro ⟨a, h⟩; exact ⟨_, a, h, rfl⟩
  | enum vs =>
    simp only [expandSpan, emap_ok, DataD.enum.injEq, reduceCtorEq, false_and, exists_false, false_or,
      exists_eq_left', ← spanField_ok, ← spanArms_ok]
    constructor
    · rintro ⟨_, a, h, -⟩; exact ⟨a, h⟩
    · rintro ⟨a, h⟩; exact ⟨_, a, h, rfl⟩

/-- For a tuple struct with two fields, the end is not that of the last field (as it is with `derive_syntax`). -/
example : ∃ g, expandSpan (.struct (.unnamed [⟨[], (), []⟩, ⟨[], (), []⟩])) = .ok g ∧
    g.eval Span.hi ⟨none, [(.idx 0, ⟨1, 2⟩), (.idx 1, ⟨3, 4⟩)]⟩ = some 2 := ⟨_, rfl, rfl⟩

example : (⟨some [66], [(.idx 0, (⟨1, 2⟩ : Span))]⟩ : Value Span).Of
    (.enum [⟨[65], false, .unnamed [⟨[], (), []⟩], []⟩, ⟨[66], false, .unnamed [⟨[], (), []⟩], []⟩]) :=
  ⟨_, List.mem_cons_of_mem _ (List.mem_singleton.2 rfl), rfl, rfl⟩

end Teleparse.Syn
