import Verif.Spec.MacroItem
import Verif.Props.SyntaxMacro
import Verif.Props.Lexicon
/-
Property C96: what becomes of a declaration.
-/
namespace Teleparse.Item
variable {τ ω ρ μ : Type}

theorem stripLoop_eq (as : List (Attr μ ω)) : ∀ taken back, stripLoop as taken back =
    (taken ++ as.filterMap (fun a => match a with | .own m => some m | .other _ => none), back ++ foreign as) := by
  induction as with
  | nil => intro t b; simp [stripLoop, foreign]
  | cons a as ih =>
    intro t b
    cases a with
    | own m => rw [stripLoop, ih]; simp [foreign, Attr.isOwn]
    | other x => rw [stripLoop, ih]; simp [foreign, Attr.isOwn]

theorem stripTake_snd (as : List (Attr μ ω)) : (stripTake as).2 = foreign as := by
  rw [stripTake, stripLoop_eq]; rfl

theorem owned_foreign (as : List (Attr μ ω)) : owned (foreign as) = 0 := by
  simp [owned, foreign, List.countP_eq_zero, List.mem_filter]

theorem sum_zero {α : Type} (l : List α) (f : α → Nat) (h : ∀ x ∈ l, f x = 0) : (l.map f).sum = 0 := by
  induction l with
  | nil => rfl
  | cons a l ih => simp [h a (by simp), ih fun x hx => h x (by simp [hx])]

theorem FieldI.stripped_eq (f : FieldI τ ω) : f.stripped = f.bare := by
  rw [FieldI.stripped, FieldI.bare, stripTake_snd]

theorem DataI.stripped_eq (d : DataI τ ω) (h : ∀ l, d ≠ .union l) : d.stripped = d.bare := by
  have e : FieldI.stripped (τ := τ) (ω := ω) = FieldI.bare := funext FieldI.stripped_eq
  cases d with
  | struct fs => cases fs <;> simp [DataI.stripped, FieldsI.stripped, DataI.bare, e]
  | enum vs =>
    simp only [DataI.stripped, DataI.bare, DataI.enum.injEq]
    exact List.map_congr_left fun v _ => by rw [VariantI.stripped, stripTake_snd]
  | union l => exact absurd rfl (h l)

theorem bare_owned (l : List (FieldI τ ω)) : ((l.map FieldI.bare).map fun f => owned f.attrs).sum = 0 := by
  rw [List.map_map]
  exact sum_zero _ _ fun f _ => owned_foreign _

theorem DataI.bare_owned (d : DataI τ ω) : d.bare.owned = d.deep := by
  cases d with
  | struct fs =>
    cases fs with
    | unit => rfl
    | named l => exact Item.bare_owned l
    | unnamed l => exact Item.bare_owned l
  | enum vs =>
    simp only [DataI.bare, DataI.owned, DataI.deep, List.map_map]
    congr 1
    exact List.map_congr_left fun v _ => by simp [owned_foreign]
  | union l => exact Item.bare_owned l

/-- The outcome of `expand` in terms of its two steps. -/
theorem expand_root {d : Syn.DeclD τ} {r : Bool × Bool} (h : Syn.rootAttributes d.attrs = .ok r) :
    (∃ e, Syn.expandData d.data = .error e ∧ Syn.expand d = .error e) ∨
    ∃ b, Syn.expandData d.data = .ok b ∧ Syn.expand d =
      .ok { debug := d.ident, body := b, root := r.1, test := !(!r.1 || r.2), toSpan := d.data.isEnum } := by
  obtain ⟨a, b⟩ := r
  cases hd : Syn.expandData d.data with
  | error e => exact .inl ⟨e, rfl, by simp [Syn.expand, h, hd, bind, Except.bind]⟩
  | ok g => exact .inr ⟨g, rfl, by simp [Syn.expand, h, hd, bind, Except.bind, pure, Except.pure]⟩

theorem expand_root_err {d : Syn.DeclD τ} {e : Syn.SErr} (h : Syn.rootAttributes d.attrs = .error e) :
    Syn.expand d = .error e := by
  simp [Syn.expand, h, bind, Except.bind]

/-! ## C96: what becomes of the declaration -/

/-- An accepted declaration is in the output of `derive_syntax` exactly once, and is as written but for the attributes of
the crate on it and on its fields or variants. Everything else in the output is generated. -/
theorem C96_syntax_accepted (i : ItemI τ ω ρ) (g : Syn.Gen τ) (h : Syn.expand i.decl = .ok g) :
    items (deriveSyntax i) = [i.bare] ∧
    complaints ItemI.owned (deriveSyntax i) = List.replicate i.data.deep .unknownAttr ∧
    ∃ a b, deriveSyntax i = a ++ [.item i.bare, .code g] ++ b ∧ (∀ x ∈ a, x = .deriveToSpan) ∧ ∀ x ∈ b, x = .test := by
  have hr : ∃ r, Syn.rootAttributes (stripTake i.attrs).1 = .ok r := by
    cases hr : Syn.rootAttributes (stripTake i.attrs).1 with
    | ok r => exact ⟨r, rfl⟩
    | error e =>
      have := expand_root_err (d := i.decl) hr
      rw [this] at h
      cases h
  obtain ⟨r, hr⟩ := hr
  have hu : ∀ l, i.data ≠ .union l := by
    rintro l hl
    rcases expand_root (d := i.decl) hr with ⟨e, _, he⟩ | ⟨b, hb, _⟩
    · rw [he] at h
      cases h
    · simp [ItemI.decl, hl, DataI.decl, Syn.expandData] at hb
  have ha : i.after = i.bare := by
    rw [ItemI.after, hr]
    simp only [ItemI.bare, stripTake_snd, DataI.stripped_eq _ hu]
  have ho : i.bare.owned = i.data.deep := by
    simp [ItemI.owned, ItemI.bare, owned_foreign, DataI.bare_owned]
  have e : deriveSyntax i = (if g.toSpan then [.deriveToSpan] else []) ++ [.item i.bare] ++ [.code g] ++
      (if g.test then [.test] else []) := by
    rw [deriveSyntax, h, ha]
    rfl
  refine ⟨?_, ?_, _, _, by rw [e]; simp only [List.append_assoc, List.cons_append, List.nil_append]; rfl, ?_, ?_⟩
  · rw [e]
    cases g.toSpan <;> cases g.test <;> rfl
  · rw [e]
    cases g.toSpan <;> cases g.test <;>
      simp [complaints, items, List.filterMap_cons, Piece.item?, Piece.error?, ho]
  · intro x hx
    cases hs : g.toSpan <;> simp [hs] at hx
    exact hx
  · intro x hx
    cases hs : g.test <;> simp [hs] at hx
    exact hx

/-- A refused declaration is in the output of `derive_syntax` exactly once, with the message and nothing else; it is as
written but for attributes of the crate. These are gone, if those on the item itself are right and it is not a union. In
this case the message of the macro is the only one (if no attributes are written on the fields of variants, where none
are allowed). Missing: other declarations, see `C96_syntax_false`. -/
theorem C96_syntax_refused_partial (i : ItemI τ ω ρ) (e : Syn.SErr) (h : Syn.expand i.decl = .error e) :
    deriveSyntax i = [.item i.after, .error e] ∧ i.after.bare = i.bare ∧
    ((∃ r, Syn.rootAttributes (stripTake i.attrs).1 = .ok r) → (∀ l, i.data ≠ .union l) →
      i.after = i.bare ∧ complaints ItemI.owned (deriveSyntax i) = .macro e :: List.replicate i.data.deep .unknownAttr) := by
  have ff : ∀ {μ : Type} (as : List (Attr μ ω)), foreign (foreign as) = foreign as := by
    intro μ as
    simp [foreign, List.filter_filter]
  have fb : ∀ f : FieldI τ ω, f.bare.bare = f.bare := fun f => by simp [FieldI.bare, ff]
  have bb : ∀ d : DataI τ ω, d.bare.bare = d.bare := by
    intro d
    cases d with
    | struct fs => cases fs <;> simp [DataI.bare, fb]
    | enum vs => simp [DataI.bare, ff]
    | union l => simp [DataI.bare, fb]
  have eo : deriveSyntax i = [.item i.after, .error e] := by rw [deriveSyntax, h]; rfl
  refine ⟨eo, ?_, ?_⟩
  · rw [ItemI.after]
    cases hr : Syn.rootAttributes (stripTake i.attrs).1 with
    | error e => simp [ItemI.bare, stripTake_snd, ff]
    | ok r =>
      simp only [ItemI.bare, stripTake_snd, ff]
      congr 1
      by_cases hu : ∃ l, i.data = .union l
      · obtain ⟨l, hl⟩ := hu
        rw [hl]
        rfl
      · rw [DataI.stripped_eq _ fun l hl => hu ⟨l, hl⟩, bb]
  · rintro ⟨r, hr⟩ hu
    have ha : i.after = i.bare := by
      rw [ItemI.after, hr]
      simp only [ItemI.bare, stripTake_snd, DataI.stripped_eq _ hu]
    refine ⟨ha, ?_⟩
    rw [eo, ha]
    simp [complaints, items, List.filterMap_cons, Piece.item?, Piece.error?, ItemI.owned, ItemI.bare, owned_foreign, DataI.bare_owned]

/-- If the attributes on the item are wrong, every attribute on a field or variant gives one more message. -/
theorem C96_syntax_root (i : ItemI τ ω ρ) (e : Syn.SErr) (h : Syn.rootAttributes (stripTake i.attrs).1 = .error e) :
    complaints ItemI.owned (deriveSyntax i) = .macro e :: List.replicate i.data.owned .unknownAttr := by
  have := expand_root_err (d := i.decl) h
  rw [deriveSyntax, this, ItemI.after, h]
  simp [keepInput, Except.map, complaints, items, List.filterMap_cons, Piece.item?, Piece.error?, ItemI.owned, stripTake_snd, owned_foreign]

theorem numbered_owned (vs : List (VariantL ω)) : ∀ k, ((numbered k vs).map fun v => owned v.attrs).sum = 0 := by
  induction vs with
  | nil => intro k; rfl
  | cons v vs ih => intro k; simp only [numbered, List.map_cons, List.sum_cons, ih]; rfl

theorem numbered_idents (vs : List (VariantL ω)) : ∀ k, (numbered k vs).map VariantL.ident = vs.map VariantL.ident := by
  induction vs with
  | nil => intro k; rfl
  | cons v vs ih => intro k; simp [numbered, ih]

theorem numbered_get (vs : List (VariantL ω)) : ∀ k j v, (numbered k vs)[j]? = some v →
    v.discriminant = some (k + j) ∧ v.attrs = [] ∧ v.unit = true := by
  induction vs with
  | nil => intro k j v h; simp [numbered] at h
  | cons w vs ih =>
    intro k j v h
    cases j with
    | zero => cases h; exact ⟨rfl, rfl, rfl⟩
    | succ j =>
      obtain ⟨h1, h2⟩ := ih (k + 1) j v h
      exact ⟨by rw [h1]; congr 1; omega, h2⟩

/-- An accepted enum is in the output of `derive_lexicon` exactly once, with its visibility, its name, and its variants in
the order written, numbered from 0; there are no complaints. Missing: attributes of others, and numbers that were written,
are dropped, see `C96_lexicon_false`. -/
theorem C96_lexicon_accepted_partial (E : Macro.Engine) (i : ItemL ω ρ) (vs : List (VariantL ω)) (g : Macro.Lexicon)
    (hi : i.data = .enum vs) (h : Macro.expand E i.decl = .ok g) :
    ∃ (i' : ItemL ω ρ) (vs' : List (VariantL ω)), items (deriveLexicon E i) = [i'] ∧ complaints ItemL.owned (deriveLexicon E i) = [] ∧
      i'.head = i.head ∧ i'.ident = i.ident ∧ i'.data = .enum vs' ∧ vs'.map VariantL.ident = vs.map VariantL.ident ∧
      i'.attrs = [] ∧ ∀ (j : Nat) (v : VariantL ω), vs'[j]? = some v → v.discriminant = some j ∧ v.attrs = [] := by
  have e : deriveLexicon E i = [.item i.rewritten, .code g] := by rw [deriveLexicon, h]; rfl
  refine ⟨i.rewritten, numbered 0 vs, by rw [e]; rfl, ?_, rfl, rfl, by rw [ItemL.rewritten, hi], numbered_idents vs 0,
    rfl, fun j v hj => ?_⟩
  · rw [e]
    simp [complaints, items, List.filterMap_cons, Piece.item?, Piece.error?, ItemL.owned, ItemL.rewritten, hi, DataL.owned, numbered_owned,
      show owned ([] : List (Attr Macro.RMeta ω)) = 0 from rfl]
  · obtain ⟨h1, h2, _⟩ := numbered_get vs 0 j v hj
    exact ⟨by rw [h1]; congr 1; omega, h2⟩

/-- A refused declaration is in the output of `derive_lexicon` exactly once, with the message and nothing else; it is as
written but for attributes of the crate. These are gone, if it is an enum without generics whose own attributes are
right; the message of the macro is the only one then. Missing: other declarations, see `C96_lexicon_false_more`. -/
theorem C96_lexicon_refused_partial (E : Macro.Engine) (i : ItemL ω ρ) (e : Macro.Err) (h : Macro.expand E i.decl = .error e) :
    deriveLexicon E i = [.item i.after, .error e] ∧ i.after.bare = i.bare ∧
    (i.generics = false → (∃ r, Macro.rootAttributes (stripTake i.attrs).1 = .ok r) → (∃ vs, i.data = .enum vs) →
      i.after = i.bare ∧ complaints ItemL.owned (deriveLexicon E i) = [.macro e]) := by
  have ff : ∀ {μ : Type} (as : List (Attr μ ω)), foreign (foreign as) = foreign as := by
    intro μ as
    simp [foreign, List.filter_filter]
  have eo : deriveLexicon E i = [.item i.after, .error e] := by rw [deriveLexicon, h]; rfl
  refine ⟨eo, ?_, ?_⟩
  · unfold ItemL.after
    split
    · rfl
    · split
      · next hd => simp [ItemL.bare, stripTake_snd, ff, hd, DataL.bare, VariantL.stripped]
      · simp [ItemL.bare, stripTake_snd, ff]
  · rintro hg ⟨r, hr⟩ ⟨vs, hv⟩
    have ha : i.after = i.bare := by
      simp [ItemL.after, hg, hr, hv, ItemL.bare, stripTake_snd, DataL.bare]
      intro v _
      rw [VariantL.stripped, stripTake_snd]
    refine ⟨ha, ?_⟩
    rw [eo, ha]
    have : i.bare.owned = 0 := by
      simp only [ItemL.owned, ItemL.bare, owned_foreign, hv, DataL.bare, DataL.owned, List.map_map, Nat.zero_add]
      exact sum_zero _ _ fun v _ => owned_foreign _
    simp [complaints, items, List.filterMap_cons, Piece.item?, Piece.error?, this]

/-- If there are generics, or if the attributes on the enum are wrong, every attribute on a variant gives one more message
(and with generics also those on the enum). -/
theorem C96_lexicon_more (E : Macro.Engine) (i : ItemL ω ρ) :
    (i.generics = true → complaints ItemL.owned (deriveLexicon E i) =
      .macro .generics :: List.replicate i.owned .unknownAttr) ∧
    (∀ e, i.generics = false → Macro.rootAttributes (stripTake i.attrs).1 = .error e →
      complaints ItemL.owned (deriveLexicon E i) = .macro e :: List.replicate i.data.owned .unknownAttr) := by
  constructor
  · intro hg
    have : Macro.expand E i.decl = .error .generics := by simp [Macro.expand, ItemL.decl, hg]
    rw [deriveLexicon, this, ItemL.after, if_pos hg]
    simp [keepInput, Except.map, complaints, items, List.filterMap_cons, Piece.item?, Piece.error?]
  · intro e hg hr
    have : Macro.expand E i.decl = .error e := by simp [Macro.expand, ItemL.decl, hg, hr, bind, Except.bind]
    rw [deriveLexicon, this]
    simp [ItemL.after, hg, hr, keepInput, Except.map, complaints, items, List.filterMap_cons, Piece.item?, Piece.error?, ItemL.owned,
      stripTake_snd, owned_foreign]

/-- `derive(ToSpan)` and `derive(Node)` do not touch an accepted declaration, and cause no complaints about it. -/
theorem C96_derive_accepted {α : Type} (i : ItemI τ ω ρ) (g : Syn.SpanGen) (h : Syn.expandSpan i.data.decl = .ok g)
    (k : ItemI (Syn.NodeTy α) ω ρ) (c : Syn.NodeGen α) (h' : Syn.expandNode k.data.decl = .ok c) :
    derived i (deriveToSpan i) = [.item i, .code g] ∧ derived k (deriveNode k) = [.item k, .code c] := by
  constructor
  · rw [deriveToSpan, h]; rfl
  · rw [deriveNode, h']; rfl

/-- Every declaration that `derive(ToSpan)` or `derive(Node)` refuses is repeated: besides the message of the macro there
is one about a name that is defined twice. -/
theorem C96_derive_refused {α : Type} (i : ItemI τ ω ρ) (e : Syn.SpanErr) (h : Syn.expandSpan i.data.decl = .error e)
    (k : ItemI (Syn.NodeTy α) ω ρ) (e' : Syn.NodeErr) (h' : Syn.expandNode k.data.decl = .error e') :
    items (derived i (deriveToSpan i)) = [i, i] ∧ items (derived k (deriveNode k)) = [k, k] ∧
    (i.owned = 0 → complaints ItemI.owned (derived i (deriveToSpan i)) = [.macro e, .duplicate]) ∧
    (k.owned = 0 → complaints ItemI.owned (derived k (deriveNode k)) = [.macro e', .duplicate]) := by
  have e1 : deriveToSpan i = [.item i, .error e] := by rw [deriveToSpan, h]; rfl
  have e2 : deriveNode k = [.item k, .error e'] := by rw [deriveNode, h']; rfl
  rw [e1, e2]
  refine ⟨rfl, rfl, fun ho => ?_, fun ho => ?_⟩ <;>
    simp [complaints, items, derived, List.filterMap_cons, Piece.item?, Piece.error?, ho]

theorem stripTake_fst (as : List (Attr μ ω)) : (stripTake as).1 = own as := by
  rw [stripTake, stripLoop_eq]; rfl

/-- `derive_syntax` generates code exactly for the items that are written right: attributes of other crates do not
matter, discriminants do. -/
theorem C96_syntax_accepts (i : ItemI τ ω ρ) : (∃ g, .code g ∈ deriveSyntax i) ↔ i.Fine := by
  have h0 : (∃ g, .code g ∈ deriveSyntax i) ↔ ∃ g, Syn.expand i.decl = .ok g := by
    unfold deriveSyntax
    cases h : Syn.expand i.decl with
    | error e => simp [Except.map, keepInput]
    | ok g =>
      refine ⟨fun _ => ⟨g, rfl⟩, fun _ => ⟨g, ?_⟩⟩
      simp [Except.map, keepInput]
  rw [h0, Syn.C64_accepts]
  have hattrs : i.decl.attrs = own i.attrs := stripTake_fst _
  have hm : ∀ x, x ∈ i.decl.metas ↔ ∃ l, some l ∈ own i.attrs ∧ x ∈ l := by
    intro x
    unfold Syn.DeclD.metas
    rw [hattrs]
    simp only [List.mem_flatten, List.mem_filterMap, id_eq]
    exact ⟨fun ⟨l, ⟨a, ha, e⟩, h⟩ => ⟨l, e ▸ ha, h⟩, fun ⟨l, hl, h⟩ => ⟨l, ⟨_, hl, rfl⟩, h⟩⟩
  have hd : i.decl.data.OK ↔ ((∃ fs, i.data = .struct fs ∧ fs.list ≠ [] ∧ ∀ f ∈ fs.list, Syn.Attrs.OK (own f.attrs)) ∨
      ∃ vs, i.data = .enum vs ∧ vs ≠ [] ∧ ∀ v ∈ vs, v.discriminant = none ∧ (∃ f, v.fields = .unnamed [f]) ∧
        Syn.Attrs.OK (own v.attrs)) := by
    have hfield : ∀ l : List (FieldI τ ω), (∀ f ∈ l.map FieldI.decl, f.attrs.OK) ↔
        ∀ f ∈ l, Syn.Attrs.OK (own f.attrs) := by
      intro l
      simp only [List.mem_map, forall_exists_index, and_imp, forall_apply_eq_imp_iff₂]
      exact forall₂_congr fun f _ => by rw [← stripTake_fst]; rfl
    have hvar : ∀ v : VariantI τ ω, (v.decl.discriminant = false ∧ v.decl.single = true ∧ v.decl.attrs.OK) ↔
        (v.discriminant = none ∧ (∃ f, v.fields = .unnamed [f]) ∧ Syn.Attrs.OK (own v.attrs)) := by
      intro v
      have h1 : v.decl.discriminant = false ↔ v.discriminant = none := by
        show v.discriminant.isSome = false ↔ _
        cases v.discriminant <;> simp
      have h2 : v.decl.single = true ↔ ∃ f, v.fields = .unnamed [f] := by
        unfold Syn.VariantD.single VariantI.decl
        cases hf : v.fields with
        | unit => simp [FieldsI.decl]
        | named l => simp [FieldsI.decl]
        | unnamed l =>
          match l with
          | [] => simp [FieldsI.decl]
          | [a] => simp [FieldsI.decl]
          | a :: b :: l => simp [FieldsI.decl]
      have h3 : v.decl.attrs.OK ↔ Syn.Attrs.OK (own v.attrs) := by rw [← stripTake_fst]; rfl
      rw [h1, h2, h3]
    unfold ItemI.decl
    dsimp only
    cases hdat : i.data with
    | struct fs =>
      cases fs with
      | unit => simp [DataI.decl, FieldsI.decl, Syn.DataD.OK, FieldsI.list]
      | named l =>
        simp only [DataI.decl, FieldsI.decl, Syn.DataD.OK, Syn.FieldsD.list, hfield]
        simp [FieldsI.list]
      | unnamed l =>
        simp only [DataI.decl, FieldsI.decl, Syn.DataD.OK, Syn.FieldsD.list, hfield]
        simp [FieldsI.list]
    | enum vs =>
      simp only [DataI.decl, Syn.DataD.OK, List.mem_map, forall_exists_index, and_imp, forall_apply_eq_imp_iff₂, hvar]
      simp
    | union l => simp [DataI.decl, Syn.DataD.OK]
  constructor
  · rintro ⟨a, b, c, d, e, f⟩
    rw [hattrs] at a b
    refine ⟨a, b, fun l hl => ⟨fun h => c ((hm _).2 ⟨l, hl, h⟩), fun h => d ((hm _).2 ⟨l, hl, h⟩), fun h => ?_⟩, hd.1 f⟩
    obtain ⟨l', hl', h'⟩ := (hm _).1 (e ((hm _).2 ⟨l, hl, h⟩))
    have : l' = l := by
      match hx : own i.attrs, a, hl, hl' with
      | [x], _, hl, hl' => simp at hl hl'; rw [← hl] at hl'; exact Option.some.inj hl'
      | _ :: _ :: _, a, _, _ => simp [hx] at a
    rw [← this]; exact h'
  · rintro ⟨a, b, c, d⟩
    refine ⟨hattrs ▸ a, hattrs ▸ b, ?_, ?_, ?_, hd.2 d⟩
    · intro h; obtain ⟨l, hl, h⟩ := (hm _).1 h; exact (c l hl).1 h
    · intro h; obtain ⟨l, hl, h⟩ := (hm _).1 h; exact (c l hl).2.1 h
    · intro h; obtain ⟨l, hl, h⟩ := (hm _).1 h; exact (hm _).2 ⟨l, hl, (c l hl).2.2 h⟩

/-- The same for `derive_lexicon`. -/
theorem C96_lexicon_accepts (E : Macro.Engine) (i : ItemL ω ρ) :
    (∃ g, .code g ∈ deriveLexicon E i) ↔ i.Fine E := by
  have h0 : (∃ g, .code g ∈ deriveLexicon E i) ↔ ∃ g, Macro.expand E i.decl = .ok g := by
    unfold deriveLexicon
    cases h : Macro.expand E i.decl with
    | error e => simp [Except.map, keepInput]
    | ok g =>
      refine ⟨fun _ => ⟨g, rfl⟩, fun _ => ⟨g, ?_⟩⟩
      simp [Except.map, keepInput]
  rw [h0, Macro.C50_accepts]
  have hattrs : i.decl.attrs = own i.attrs := stripTake_fst _
  have hvs : (∃ vs, i.decl.variants = some vs ∧ 1 ≤ vs.length ∧ vs.length ≤ 128 ∧ ∀ v ∈ vs, v.OK E) ↔
      ∃ vs, i.data = .enum vs ∧ 1 ≤ vs.length ∧ vs.length ≤ 128 ∧
        ∀ v ∈ vs, Macro.Variant.OK E ⟨v.ident, v.unit, own v.attrs⟩ := by
    have hv : ∀ v : VariantL ω, v.decl = ⟨v.ident, v.unit, own v.attrs⟩ := fun v => by
      unfold VariantL.decl; rw [stripTake_fst]
    unfold ItemL.decl
    dsimp only
    cases hdat : i.data with
    | enum vs =>
      constructor
      · rintro ⟨vs', h, h1, h2, h3⟩
        cases h
        simp only [List.length_map] at h1 h2
        exact ⟨vs, rfl, h1, h2, fun v hm => hv v ▸ h3 v.decl (List.mem_map.2 ⟨v, hm, rfl⟩)⟩
      · rintro ⟨vs', h, h1, h2, h3⟩
        cases h
        refine ⟨_, rfl, by simpa using h1, by simpa using h2, fun v hm => ?_⟩
        obtain ⟨w, hw, rfl⟩ := List.mem_map.1 hm
        exact hv w ▸ h3 w hw
    | fields l => simp
  constructor
  · rintro ⟨a, b, c, d, e, f, g⟩
    rw [hattrs] at b c
    have hnone : none ∉ own i.attrs := fun h => c _ h rfl
    refine ⟨a, b, hnone, fun l hl => ?_, hvs.1 g⟩
    have hmet : i.decl.metas = l := by
      unfold Macro.Decl.metas
      rw [hattrs]
      match own i.attrs, b, hl with
      | [x], _, hl => simp at hl; subst hl; simp
      | _ :: _ :: _, b, _ => simp at b
    unfold Macro.Decl.ignores at f
    rw [hmet] at d e f
    exact ⟨d, e, fun rs hrs r hr => f r (List.mem_flatMap.2 ⟨_, hrs, hr⟩)⟩
  · rintro ⟨a, b, c, d, e⟩
    have hmet : i.decl.metas = [] ∨ ∃ l, some l ∈ own i.attrs ∧ i.decl.metas = l := by
      unfold Macro.Decl.metas
      rw [hattrs]
      match own i.attrs, b, c with
      | [], _, _ => exact .inl rfl
      | [none], _, c => simp at c
      | [some l], _, _ => exact .inr ⟨l, by simp, by simp⟩
      | _ :: _ :: _, b, _ => simp at b
    refine ⟨a, hattrs ▸ b, fun x hx hn => c (hn ▸ hattrs ▸ hx), ?_, ?_, ?_, hvs.2 e⟩
    · rcases hmet with h | ⟨l, hl, h⟩
      · rw [h]; simp
      · rw [h]; exact (d l hl).1
    · rcases hmet with h | ⟨l, hl, h⟩
      · rw [h]; simp
      · rw [h]; exact (d l hl).2.1
    · unfold Macro.Decl.ignores
      rcases hmet with h | ⟨l, hl, h⟩
      · rw [h]; simp
      · rw [h]
        intro r hr
        obtain ⟨x, hx, hr⟩ := List.mem_flatMap.1 hr
        match x, hx, hr with
        | .ignore (some rs), hx, hr => exact (d l hl).2.2 rs hx r hr

/-! ### Examples -/

/-- `#[doc] #[teleparse(root)] pub struct S(#[teleparse(semantic(K))] A, #[doc] B);` where the types are numbers. -/
def miS (root : Option (List Syn.RMeta)) : ItemI Nat Str Unit :=
  ⟨(), [83], [.other [1], .own root], .struct (.unnamed
    [⟨[], 0, [.own (some [.semantic (some [[75]])])]⟩, ⟨[], 1, [.other [2]]⟩])⟩

example : ∃ g, Syn.expand (miS (some [.root])).decl = .ok g ∧
    items (deriveSyntax (miS (some [.root]))) =
      [⟨(), [83], [.other [1]], .struct (.unnamed [⟨[], 0, []⟩, ⟨[], 1, [.other [2]]⟩])⟩] ∧
    complaints ItemI.owned (deriveSyntax (miS (some [.root]))) = [] :=
  ⟨_, rfl, (C96_syntax_accepted _ _ rfl).1, (C96_syntax_accepted _ _ rfl).2.1⟩

/-- `#[teleparse(rot)]` is refused, and the attribute on the field is reported too although there is nothing wrong with
it. -/
theorem C96_syntax_false : Syn.expand (miS (some [.path])).decl = .error .rootAttr ∧
    complaints ItemI.owned (deriveSyntax (miS (some [.path]))) = [.macro .rootAttr, .unknownAttr] := by
  exact ⟨rfl, C96_syntax_root _ _ rfl⟩

example : (miS (some [.root])).Fine := (C96_syntax_accepts _).1 ⟨_, .tail _ (.head _)⟩

/-- `enum D { A(X) = 7 }` and `enum D { A(X) }`: only the second one is accepted. -/
def miD (d : Option Nat) : ItemI Nat Str Unit := ⟨(), [68], [], .enum [⟨[65], d, .unnamed [⟨[], 0, []⟩], []⟩]⟩
example : (∃ g, .code g ∈ deriveSyntax (miD none)) ∧ ¬ ∃ g, .code g ∈ deriveSyntax (miD (some 7)) := by
  rw [C96_syntax_accepts, C96_syntax_accepts]
  refine ⟨⟨by decide, by decide, by simp [miD, own], .inr ⟨_, rfl, by simp, ?_⟩⟩, ?_⟩
  · intro v hv
    simp only [List.mem_singleton] at hv
    subst hv
    exact ⟨rfl, ⟨_, rfl⟩, by constructor <;> decide⟩
  · rintro ⟨_, _, _, ⟨_, h, _⟩ | ⟨vs, h, _, hv⟩⟩
    · cases h
    · cases h
      exact absurd (hv _ (.head _)).1 (by simp)

/-- Two attributes on the second field: refused, and everything is taken. -/
def miT : ItemI Nat Str Unit :=
  ⟨(), [83], [.own (some [.root])], .struct (.named
    [⟨[97], 0, [.own (some [.semantic (some [[75]])])]⟩, ⟨[98], 1, [.own (some []), .other [2], .own (some [])]⟩])⟩
example : Syn.expand miT.decl = .error .multipleAttrs ∧
    complaints ItemI.owned (deriveSyntax miT) = [.macro .multipleAttrs] :=
  ⟨rfl, ((C96_syntax_refused_partial miT _ rfl).2.2 ⟨_, rfl⟩ (by rintro l h; cases h)).2⟩

/-- A regex crate that knows only literals. -/
def miE : Macro.Engine := ⟨fun r => r != [], fun r s => if r == s then some (0, s.length) else none⟩
/-- `#[doc] pub enum L { #[doc] #[teleparse(terminal(A = "a"))] A = 5, #[teleparse(terminal(B = "b"))] B }` -/
def miL (root : List (Attr Macro.RMeta Str)) (generics : Bool) : ItemL Str Unit :=
  let d : DataL Str := .enum
    [⟨[65], true, some 5, [.other [2], .own (some [.terminal (some [⟨some [65], .value (some [97])⟩])])]⟩,
     ⟨[66], true, none, [.own (some [.terminal (some [⟨some [66], .value (some [98])⟩])])]⟩]
  ⟨(), [76], generics, .other [1] :: root, d⟩

/-- The documentation comments and the number 5 are gone. -/
theorem C96_lexicon_false : (∃ g, Macro.expand miE (miL [] false).decl = .ok g) ∧
    items (deriveLexicon miE (miL [] false)) =
      [⟨(), [76], false, [], .enum [⟨[65], true, some 0, []⟩, ⟨[66], true, some 1, []⟩]⟩] ∧
    items (deriveLexicon miE (miL [] false)) ≠ [(miL [] false).bare] := by
  refine ⟨⟨_, rfl⟩, rfl, ?_⟩
  have : items (deriveLexicon miE (miL [] false)) =
      [⟨(), [76], false, [], .enum [⟨[65], true, some 0, []⟩, ⟨[66], true, some 1, []⟩]⟩] := rfl
  rw [this]
  intro h
  injection h with h
  injection h with _ _ _ h
  cases h
example : ∃ g, Macro.expand miE (miL [] false).decl = .ok g ∧ complaints ItemL.owned (deriveLexicon miE (miL [] false)) = [] :=
  ⟨_, rfl, by
    obtain ⟨_, _, _, h, _⟩ := C96_lexicon_accepted_partial miE (miL [] false) _ _ rfl rfl
    exact h⟩

example : (miL [] false).Fine miE ∧ ¬ (miL [] true).Fine miE :=
  ⟨(C96_lexicon_accepts _ _).1 ⟨_, .tail _ (.head _)⟩, fun h => absurd h.generics (by decide)⟩

/-- With a misspelt `ignore` on the enum, or with generics, what is written on the variants is reported too. -/
theorem C96_lexicon_false_more :
    complaints ItemL.owned (deriveLexicon miE (miL [.own (some [.list])] false)) =
      [.macro .rootAttr, .unknownAttr, .unknownAttr] ∧
    complaints ItemL.owned (deriveLexicon miE (miL [] true)) = [.macro .generics, .unknownAttr, .unknownAttr] :=
  ⟨(C96_lexicon_more miE _).2 _ rfl rfl, (C96_lexicon_more miE _).1 rfl⟩

/-- `ignore` with a regex that does not compile: refused, and everything is taken. -/
example : complaints ItemL.owned (deriveLexicon miE (miL [.own (some [.ignore (some [[]])])] false)) =
    [.macro (.regexSyntax [])] :=
  ((C96_lexicon_refused_partial miE _ _ rfl).2.2 rfl ⟨_, rfl⟩ ⟨_, rfl⟩).2

/-- `#[derive(ToSpan)] struct U;` and `#[derive(Node)] enum E {}` -/
def miU : ItemI Nat Str Unit := ⟨(), [85], [], .struct .unit⟩
def miN : ItemI (Syn.NodeTy Nat) Str Unit := ⟨(), [69], [], .enum []⟩
theorem C96_derive_false :
    complaints ItemI.owned (derived miU (deriveToSpan miU)) = [.macro .empty, .duplicate] ∧
    complaints ItemI.owned (derived miN (deriveNode miN)) = [.macro .notStruct, .duplicate] :=
  ⟨(C96_derive_refused miU _ rfl miN _ rfl).2.2.1 rfl, (C96_derive_refused miU _ rfl miN _ rfl).2.2.2 rfl⟩
/-- `#[derive(ToSpan)] struct S(..);` and `#[derive(Node)] struct T(Node<V>);` -/
def miM : ItemI (Syn.NodeTy Nat) Str Unit := ⟨(), [84], [.other [1]], .struct (.unnamed [⟨[], .path (some [7]), []⟩])⟩
example : derived miM (deriveToSpan miM) = [.item miM, .code (.struct (.idx 0))] ∧
    derived miM (deriveNode miM) = [.item miM, .code ⟨[7], .tuple 0, .idx 0⟩] :=
  C96_derive_accepted miM _ rfl miM _ rfl

end Teleparse.Item
