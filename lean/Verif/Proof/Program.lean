import Verif.Proof.ProgramMap
import Verif.Proof.Trees
import Verif.Props.Lexicon
import Verif.Props.SyntaxMacro
/-
Whole programs: names, compiled code, and the declared language.
-/
namespace Teleparse.Prog
open Macro Syn

/-! ## Names -/

/-- Variants with numbers, and their terminals. -/
def fullTerms (vs : List Variant) : List ((Variant × Nat) × TMeta) :=
  vs.zipIdx.flatMap fun e => e.1.terms.map fun t => (e, t)

theorem terminalsOf_full (vs : List Variant) : terminalsOf vs = (fullTerms vs).map fun x => (x.1.2, x.2) := by
  unfold terminalsOf fullTerms
  rw [List.map_flatMap]
  congr 1
  funext e
  rw [List.map_map]
  rfl

theorem mem_fullTerms {vs : List Variant} {x : (Variant × Nat) × TMeta} :
    x ∈ fullTerms vs ↔ vs[x.1.2]? = some x.1.1 ∧ x.2 ∈ x.1.1.terms := by
  obtain ⟨⟨v, k⟩, t⟩ := x
  unfold fullTerms
  simp only [List.mem_flatMap, List.mem_map]
  constructor
  · rintro ⟨e, he, t', ht, h⟩
    cases h
    exact ⟨List.mem_zipIdx_iff_getElem?.1 he, ht⟩
  · rintro ⟨h1, h2⟩
    exact ⟨(v, k), List.mem_zipIdx_iff_getElem?.2 h1, t, h2, rfl⟩

section
variable {E : Engine} {d : Decl} {L : Lexicon} {vs : List Variant} (h : Macro.expand E d = .ok L)
  (hvs : d.variants = some vs)
include h hvs

theorem terminals_full : L.terminals = (fullTerms vs).map fun x => x.2.struct d.terminalParse x.1.1.ident := by
  rw [C56_terminals h hvs]
  unfold fullTerms
  rw [List.map_flatMap]
  have : vs = vs.zipIdx.map Prod.fst := by simp
  conv => lhs; rw [this]
  rw [List.flatMap_map]
  congr 1
  funext e
  rw [List.map_map]
  rfl

theorem mem_variants {s : Str} {k : Nat} : (s, k) ∈ L.variants ↔ ∃ v, vs[k]? = some v ∧ v.ident = s := by
  obtain ⟨-, vs', h1, rfl⟩ := Macro.expand_ok.1 h
  cases hvs.symm.trans h1
  show (s, k) ∈ vs.zipIdx.map (fun e => (e.1.ident, e.2)) ↔ _
  rw [List.mem_map]
  constructor
  · rintro ⟨⟨v, j⟩, hv, he⟩
    cases he
    exact ⟨v, List.mem_zipIdx_iff_getElem?.1 hv, rfl⟩
  · rintro ⟨v, hv, rfl⟩
    exact ⟨(v, k), List.mem_zipIdx_iff_getElem?.2 hv, rfl⟩

omit h hvs in
theorem nodup_idx {α : Type} {l : List α} (hn : l.Nodup) {i j : Nat} {a : α} (hi : l[i]? = some a)
    (hj : l[j]? = some a) : i = j :=
  (List.getElem?_inj (List.getElem?_eq_some_iff.1 hi).1 hn).1 (hi.trans hj.symm)

omit h hvs in
theorem idx_unique {vs : List Variant} (hn : (vs.map Variant.ident).Nodup) {i j : Nat} {v w : Variant}
    (hi : vs[i]? = some v) (hj : vs[j]? = some w) (he : v.ident = w.ident) : i = j :=
  nodup_idx hn (a := v.ident) (by rw [List.getElem?_map, hi]; rfl) (by rw [List.getElem?_map, hj, he]; rfl)

theorem tokenNamed_iff (hn : (vs.map Variant.ident).Nodup) {s : Str} {x : Fin vs.length} :
    tokenNamed L s = some x ↔ vs[x.val].ident = s := by
  have hx : vs[x.val]? = some vs[x.val] := List.getElem?_eq_getElem x.isLt
  unfold tokenNamed
  simp only [bind, Option.bind_eq_some_iff]
  constructor
  · rintro ⟨e, he, h1⟩
    have hm := List.mem_of_find?_eq_some he
    have hs := List.find?_some he
    simp only [decide_eq_true_eq] at hs
    obtain ⟨v, hv, hi⟩ := (mem_variants h hvs (s := e.1) (k := e.2)).1 hm
    split at h1
    · cases h1
      have : vs[e.2] = v := by
        obtain ⟨_, h⟩ := List.getElem?_eq_some_iff.1 hv
        exact h
      simp only [this, hi, hs]
    · cases h1
  · intro hs
    have hm : (s, x.val) ∈ L.variants := (mem_variants h hvs).2 ⟨_, hx, hs⟩
    cases hf : L.variants.find? fun e => e.1 = s with
    | none =>
      have := List.find?_eq_none.1 hf _ hm
      simp at this
    | some e =>
      refine ⟨e, rfl, ?_⟩
      have he := List.find?_some hf
      simp only [decide_eq_true_eq] at he
      obtain ⟨v, hv, hi⟩ := (mem_variants h hvs (s := e.1) (k := e.2)).1 (List.mem_of_find?_eq_some hf)
      have := idx_unique hn hv hx (by rw [hi, he, hs])
      simp [this]

theorem named_of_full {x : (Variant × Nat) × TMeta} (hx : x ∈ fullTerms vs) :
    x.2.ident = some (x.2.struct d.terminalParse x.1.1.ident).name := by
  obtain ⟨h1, h2⟩ := mem_fullTerms.1 hx
  obtain ⟨name, h3, -⟩ := C56_named h hvs _ (List.mem_of_getElem? h1) _ h2
  simp [TMeta.struct, h3]

theorem termNamed_iff {m : Nat} (hv : (vs.map Variant.ident).Nodup)
    (hn : ((terminalsOf vs).map fun e => e.2.ident).Nodup) {s : Str} {t : Ty m vs.length} :
    termNamed L s = some t ↔ ∃ i tm, ∃ k : Fin vs.length, (terminalsOf vs)[(i : Nat)]? = some (k.val, tm) ∧
      tm.ident = some s ∧ t = .term i ⟨k, tm.lit⟩ := by
  have htn : ∀ (i : Nat) x, (fullTerms vs)[i]? = some x → ((x.2.struct d.terminalParse x.1.1.ident).name = s ↔
      x.2.ident = some s) := by
    intro i x hx
    rw [named_of_full h hvs (List.mem_of_getElem? hx)]
    simp
  have hfull : ∀ {i : Nat} {x}, (fullTerms vs)[i]? = some x → ∃ k : Fin vs.length, k.val = x.1.2 ∧
      tokenNamed L x.1.1.ident = some k := by
    intro i x hx
    obtain ⟨h1, -⟩ := mem_fullTerms.1 (List.mem_of_getElem? hx)
    obtain ⟨hlt, h2⟩ := List.getElem?_eq_some_iff.1 h1
    exact ⟨⟨_, hlt⟩, rfl, (tokenNamed_iff h hvs hv).2 (by rw [h2])⟩
  unfold termNamed
  simp only [bind, Option.bind_eq_some_iff, pure, Option.some.injEq, terminals_full h hvs, List.getElem?_map,
    terminalsOf_full vs, Option.map_eq_some_iff]
  constructor
  · rintro ⟨i, hi, _, ⟨x, hx, rfl⟩, k, hk, rfl⟩
    obtain ⟨k', hk', hk2⟩ := hfull hx
    rw [show (x.2.struct d.terminalParse x.1.1.ident).variant = x.1.1.ident from rfl, hk2] at hk
    cases hk
    have hi' := List.findIdx?_eq_some_iff_getElem.1 hi
    obtain ⟨hlt, hp, -⟩ := hi'
    rw [List.length_map] at hlt
    have hget : (fullTerms vs)[i] = x := (List.getElem?_eq_some_iff.1 hx).2
    rw [List.getElem_map, hget] at hp
    exact ⟨i, x.2, k, ⟨x, hx, by rw [hk']⟩, (htn i x hx).1 (by simpa using hp), rfl⟩
  · rintro ⟨i, tm, k, ⟨x, hx, he⟩, hs, rfl⟩
    simp only [Prod.mk.injEq] at he
    obtain ⟨he, rfl⟩ := he
    obtain ⟨k', hk', hk2⟩ := hfull hx
    obtain rfl : k' = k := Fin.ext (hk'.trans he)
    refine ⟨i, ?_, _, ⟨x, hx, rfl⟩, k', hk2, rfl⟩
    have hlt : i < (fullTerms vs).length := (List.getElem?_eq_some_iff.1 hx).1
    have hget : (fullTerms vs)[i] = x := (List.getElem?_eq_some_iff.1 hx).2
    refine List.findIdx?_eq_some_iff_getElem.2 ⟨by rw [List.length_map]; exact hlt, ?_, ?_⟩
    · rw [List.getElem_map, hget]
      simpa using (htn i x hx).2 hs
    · intro j hj
      rw [List.getElem_map]
      intro hp
      have hjl : j < (fullTerms vs).length := by omega
      have hj' : (fullTerms vs)[j]? = some (fullTerms vs)[j] := List.getElem?_eq_getElem hjl
      have h1 := (htn j _ hj').1 (by simpa using hp)
      have : j = i := by
        refine nodup_idx hn (a := some s) ?_ ?_
        · rw [terminalsOf_full, List.map_map, List.getElem?_map, hj']
          simp [h1]
        · rw [terminalsOf_full, List.map_map, List.getElem?_map, hx]
          simp [hs]
      omega

end

section
variable {E : Engine} {P : Program} {L : Lexicon} {vs : List Variant} (h : Macro.expand E P.lexicon = .ok L)
  (hvs : P.lexicon.variants = some vs) (hd : P.Distinct vs)

include hd

omit h hvs in
theorem item_type (k : Fin P.types.length) :
    (P.types.map (fun d => some d.ident) ++ (terminalsOf vs).map fun e => e.2.ident)[k.val]? =
      some (some P.types[k].ident) := by
  rw [List.getElem?_append_left (by simp), List.getElem?_map, List.getElem?_eq_getElem k.isLt]
  rfl

omit h hvs in
theorem item_term {i : Nat} {e : Nat × TMeta} (he : (terminalsOf vs)[i]? = some e) :
    (P.types.map (fun d => some d.ident) ++ (terminalsOf vs).map fun e => e.2.ident)[P.types.length + i]? =
      some e.2.ident := by
  rw [List.getElem?_append_right (by simp), List.length_map, Nat.add_sub_cancel_left, List.getElem?_map, he]
  rfl

omit h hvs in
theorem type_unique {j k : Fin P.types.length} (he : P.types[j].ident = P.types[k].ident) : j = k :=
  Fin.ext (nodup_idx hd.items (item_type hd j) (by rw [he]; exact item_type hd k))

omit h hvs in
theorem term_unique {i j : Nat} {e e' : Nat × TMeta} (hi : (terminalsOf vs)[i]? = some e)
    (hj : (terminalsOf vs)[j]? = some e') (he : e.2.ident = e'.2.ident) : i = j ∧ e = e' := by
  have := nodup_idx hd.items (item_term hd hi) (by rw [he]; exact item_term hd hj)
  have : i = j := by omega
  subst this
  exact ⟨rfl, Option.some.inj (hi.symm.trans hj)⟩

omit h hvs in
theorem not_both {i : Nat} {e : Nat × TMeta} (hi : (terminalsOf vs)[i]? = some e) (k : Fin P.types.length) :
    e.2.ident ≠ some P.types[k].ident := by
  intro he
  have := nodup_idx hd.items (item_term hd hi) (by rw [he]; exact item_type hd k)
  have := k.isLt
  omega

include h hvs

theorem named_iff {s : Str} {t : Ty P.types.length vs.length} :
    P.named L s = some t ↔ Means P vs (.name s) t := by
  have hterm := fun t => termNamed_iff (m := P.types.length) h hvs hd.variants (List.nodup_append.1 hd.items).2.1 (s := s) (t := t)
  unfold Program.named Program.userNamed
  rw [Option.or_eq_some_iff]
  constructor
  · rintro (h1 | ⟨-, h1⟩)
    · obtain ⟨k, hk, rfl⟩ := Option.map_eq_some_iff.1 h1
      have := (List.findFinIdx?_eq_some_iff.1 hk).1
      simp only [decide_eq_true_eq] at this
      subst this
      exact .user k
    · obtain ⟨i, tm, k, h2, h3, rfl⟩ := (hterm t).1 h1
      exact .term h2 h3
  · intro hm
    cases hm with
    | term h2 h3 =>
      refine .inr ⟨?_, (hterm _).2 ⟨_, _, _, h2, h3, rfl⟩⟩
      cases hf : P.types.findFinIdx? fun d => d.ident = s with
      | none => rfl
      | some k =>
        have := (List.findFinIdx?_eq_some_iff.1 hf).1
        simp only [decide_eq_true_eq] at this
        exact absurd (h3.trans (congrArg some this.symm)) (not_both hd h2 k)
    | user k =>
      refine .inl (Option.map_eq_some_iff.2 ⟨k, List.findFinIdx?_eq_some_iff.2 ⟨by simp, ?_⟩, rfl⟩)
      intro j hj
      simp only [decide_eq_true_eq]
      intro he
      have := type_unique hd (j := ⟨j, Nat.lt_trans hj k.isLt⟩) (k := k) he
      rw [← this] at hj
      exact Nat.lt_irrefl _ hj

theorem resolve_iff {e : TyE} : ∀ {t : Ty P.types.length vs.length},
    e.resolve (P.named L) = some t ↔ Means P vs e t := by
  induction e with
  | name s => intro t; exact named_iff h hvs hd
  | box e ih | option e ih | exist e ih | quote e ih | parse e ih | plus e ih | star e ih | loop e ih =>
    intro t
    simp only [TyE.resolve, bind, Option.bind_eq_some_iff, pure, Option.some.injEq, ih]
    constructor
    · rintro ⟨t, h1, rfl⟩
      constructor
      exact h1
    · intro hm
      cases hm
      refine ⟨_, ?_, rfl⟩ <;> assumption
  | split a b iha ihb | punct a b iha ihb | recover a b iha ihb | tup2 a b iha ihb =>
    intro t
    simp only [TyE.resolve, bind, Option.bind_eq_some_iff, pure, Option.some.injEq, iha, ihb]
    constructor
    · rintro ⟨t, h1, u, h2, rfl⟩
      constructor <;> assumption
    · intro hm
      cases hm
      refine ⟨_, ?_, _, ?_, rfl⟩ <;> assumption
  | tup3 a b c iha ihb ihc =>
    intro t
    simp only [TyE.resolve, bind, Option.bind_eq_some_iff, pure, Option.some.injEq, iha, ihb, ihc]
    constructor
    · rintro ⟨t, h1, u, h2, v, h3, rfl⟩
      exact .tup3 h1 h2 h3
    · intro hm
      cases hm
      refine ⟨_, ?_, _, ?_, _, ?_, rfl⟩ <;> assumption
  | tup4 a b c d iha ihb ihc ihd =>
    intro t
    simp only [TyE.resolve, bind, Option.bind_eq_some_iff, pure, Option.some.injEq, iha, ihb, ihc, ihd]
    constructor
    · rintro ⟨t, h1, u, h2, v, h3, w, h4, rfl⟩
      exact .tup4 h1 h2 h3 h4
    · intro hm
      cases hm
      refine ⟨_, ?_, _, ?_, _, ?_, _, ?_, rfl⟩ <;> assumption
  | tup5 a b c d e iha ihb ihc ihd ihe =>
    intro t
    simp only [TyE.resolve, bind, Option.bind_eq_some_iff, pure, Option.some.injEq, iha, ihb, ihc, ihd, ihe]
    constructor
    · rintro ⟨t, h1, u, h2, v, h3, w, h4, x, h5, rfl⟩
      exact .tup5 h1 h2 h3 h4 h5
    · intro hm
      cases hm
      refine ⟨_, ?_, _, ?_, _, ?_, _, ?_, _, ?_, rfl⟩ <;> assumption

theorem Means.unique {e : TyE} {t t' : Ty P.types.length vs.length} (h1 : Means P vs e t) (h2 : Means P vs e t') :
    t = t' :=
  Option.some.inj (((resolve_iff h hvs hd).2 h1).symm.trans ((resolve_iff h hvs hd).2 h2))

/-! ## Declarations -/

theorem names_iff {ids : List Str} : ∀ {xs : List (Fin vs.length)}, ids.mapM (tokenNamed L) = some xs ↔
    All2 (fun i (x : Fin vs.length) => vs[x.val].ident = i) ids xs := by
  induction ids with
  | nil =>
    intro xs
    constructor
    · intro h; simp at h; subst h; exact .nil
    · intro h; cases h; rfl
  | cons i ids ih =>
    intro xs
    simp only [List.mapM_cons, bind, Option.bind_eq_some_iff, pure, Option.some.injEq, ih,
      tokenNamed_iff h hvs hd.variants]
    constructor
    · rintro ⟨x, h1, xs, h2, rfl⟩; exact .cons h1 h2
    · intro h
      cases h with
      | cons h1 h2 => exact ⟨_, h1, _, h2, rfl⟩

theorem part_iff {e : TyE} {t : Ty P.types.length vs.length} (ht : Means P vs e t) {sem : Option (List Str)}
    {f : Field P.types.length vs.length} : declared (tokenNamed L) (t, sem) = some f ↔ PartMeans P vs (e, sem) f := by
  rw [declared_eq]
  cases sem with
  | none =>
    constructor
    · intro h; cases h; exact .plain ht
    · intro h1
      cases h1 with
      | plain h1 => rw [ht.unique h hvs hd h1]
  | some ids =>
    simp only [tokenSet_eq, Option.map_eq_some_iff]
    constructor
    · rintro ⟨s, h1, rfl⟩
      split at h1
      · cases h1
      · next hne =>
        obtain ⟨xs, h2, rfl⟩ := Option.map_eq_some_iff.1 h1
        exact .semantic ht hne ((names_iff h hvs hd).1 h2)
    · intro h1
      cases h1 with
      | semantic h1 h2 h3 =>
        refine ⟨_, ?_, by rw [ht.unique h hvs hd h1]⟩
        rw [if_neg h2, (names_iff h hvs hd).2 h3]
        rfl

theorem parts_iff {f : TyE → Ty P.types.length vs.length} {ps : List (TyE × Option (List Str))}
    (hf : ∀ p ∈ ps, Means P vs p.1 (f p.1)) : ∀ {l : List (Field P.types.length vs.length)},
    (ps.map fun p => (f p.1, p.2)).mapM (declared (tokenNamed L)) = some l ↔ All2 (PartMeans P vs) ps l := by
  induction ps with
  | nil =>
    intro xs
    constructor
    · intro h; simp at h; subst h; exact .nil
    · intro h; cases h; rfl
  | cons p ps ih =>
    intro xs
    simp only [List.map_cons, List.mapM_cons, bind, Option.bind_eq_some_iff, pure, Option.some.injEq,
      ih fun p hp => hf p (List.mem_cons_of_mem _ hp), part_iff h hvs hd (hf p (by simp))]
    constructor
    · rintro ⟨x, h1, xs, h2, rfl⟩; exact .cons h1 h2
    · intro h
      cases h with
      | cons h1 h2 => exact ⟨_, h1, _, h2, rfl⟩

theorem def_iff {f : TyE → Ty P.types.length vs.length} {d : DeclD TyE} (hf : ∀ p ∈ d.parts, Means P vs p.1 (f p.1))
    {D : Def P.types.length vs.length} : (mapDecl f d).def (tokenNamed L) = some D ↔ DefMeans P vs d D := by
  have hp := fun l => parts_iff h hvs hd hf (l := l)
  unfold DeclD.def
  rw [parts_map]
  have hdata : (mapDecl f d).data = mapData f d.data := rfl
  rw [hdata]
  constructor
  · intro h1
    split at h1
    · next hm hs =>
      cases h1
      cases hk : d.data with
      | struct fs => exact .struct hk ((hp _).1 hm)
      | enum => rw [hk] at hs; cases hs
      | union => rw [hk] at hs; cases hs
    · next hm hs =>
      cases h1
      cases hk : d.data with
      | struct fs => rw [hk] at hs; cases hs
      | enum => exact .enum hk ((hp _).1 hm)
      | union => rw [hk] at hs; cases hs
    · cases h1
  · intro h1
    cases h1 with
    | struct h1 h2 => rw [(hp _).2 h2, h1]; rfl
    | enum h1 h2 => rw [(hp _).2 h2, h1]; rfl

omit h hvs hd in
theorem _root_.Teleparse.All2.of_means {ps : List (TyE × Option (List Str))} {l : List (Field P.types.length vs.length)}
    (ha : All2 (PartMeans P vs) ps l) : ∀ p ∈ ps, ∃ t, Means P vs p.1 t := by
  induction ha with
  | nil => simp
  | cons h1 _ ih =>
    intro p hp
    rcases List.mem_cons.1 hp with rfl | hp
    · cases h1 with
      | plain h1 => exact ⟨_, h1⟩
      | semantic h1 => exact ⟨_, h1⟩
    · exact ih p hp

omit h hvs hd in
/-- The types of a declaration after name resolution. -/
def tyOf (vs : List Variant) (P : Program) (L : Lexicon) (k : Fin P.types.length) (e : TyE) : Ty P.types.length vs.length :=
  (e.resolve (P.named L)).getD (.user k)

/-- The code of a type. -/
theorem code_iff {k : Fin P.types.length} {c : Code P.types.length vs.length} :
    P.code L k = some c ↔ ∃ g, Syn.expand P.types[k] = .ok g ∧
      (∀ p ∈ P.types[k].parts, Means P vs p.1 (tyOf vs P L k p.1)) ∧
      Syn.expand (mapDecl (tyOf vs P L k) P.types[k]) = .ok (mapGen (tyOf vs P L k) g) ∧
      (mapGen (tyOf vs P L k) g).compile (tokenNamed L) (mapDecl (tyOf vs P L k) P.types[k]) = some c := by
  have H : ∀ t (t' : Ty P.types.length vs.length), t.resolve (P.named L) = some t' → t' = tyOf vs P L k t :=
    fun t t' h => by simp [tyOf, h]
  unfold Program.code
  cases hg : Syn.expand P.types[k] with
  | error e => simp
  | ok g =>
    simp only
    rw [compileGen_iff H hg]
    constructor
    · rintro ⟨h1, h2, h3⟩
      refine ⟨g, rfl, fun p hp => ?_, h2, h3⟩
      obtain ⟨t, ht⟩ := h1 p hp
      rw [← H _ _ ht]
      exact (resolve_iff h hvs hd).1 ht
    · rintro ⟨g', h1, h2, h3, h4⟩
      cases h1
      exact ⟨fun p hp => ⟨_, (resolve_iff h hvs hd).2 (h2 p hp)⟩, h3, h4⟩

/-- The code of a type implements what the declaration means. -/
theorem code_means {k : Fin P.types.length} {c : Code P.types.length vs.length} (hc : P.code L k = some c) :
    ∃ D, DefMeans P vs P.types[k] D ∧ Implements c D := by
  obtain ⟨g, -, h2, h3, h4⟩ := (code_iff h hvs hd).1 hc
  obtain ⟨D, h5, h6⟩ := gen_implements (distinct_map _ (hd.fields _ (List.getElem_mem _))) h3 h4
  exact ⟨D, (def_iff h hvs hd h2).1 h5, h6⟩

omit h hvs hd in
theorem DefMeans.parts {d : DeclD TyE} {D : Def P.types.length vs.length} (hD : DefMeans P vs d D) :
    ∀ p ∈ d.parts, ∃ t, Means P vs p.1 t := by
  cases hD with
  | struct _ ha => exact ha.of_means
  | enum _ ha => exact ha.of_means

theorem PartMeans.unique {p : TyE × Option (List Str)} {f f' : Field P.types.length vs.length}
    (h1 : PartMeans P vs p f) (h2 : PartMeans P vs p f') : f = f' := by
  have ht : ∃ t, Means P vs p.1 t := by
    cases h1 with
    | plain h1 => exact ⟨_, h1⟩
    | semantic h1 => exact ⟨_, h1⟩
  obtain ⟨t, ht⟩ := ht
  exact Option.some.inj (((part_iff h hvs hd ht).2 h1).symm.trans ((part_iff h hvs hd ht).2 h2))

theorem parts_unique {ps : List (TyE × Option (List Str))} {l : List (Field P.types.length vs.length)}
    (h1 : All2 (PartMeans P vs) ps l) : ∀ {l'}, All2 (PartMeans P vs) ps l' → l = l' := by
  induction h1 with
  | nil => intro l' h2; cases h2; rfl
  | cons h1 _ ih =>
    intro l' h2
    cases h2 with
    | cons h3 h4 => rw [h1.unique h hvs hd h3, ih h4]

theorem DefMeans.unique {d : DeclD TyE} {D D' : Def P.types.length vs.length} (hD : DefMeans P vs d D)
    (hD' : DefMeans P vs d D') : D = D' := by
  cases hD with
  | struct h1 h2 =>
    cases hD' with
    | struct h3 h4 => cases parts_unique h hvs hd h2 h4; rfl
    | enum h3 h4 => rw [h1] at h3; cases h3
  | enum h1 h2 =>
    cases hD' with
    | struct h3 h4 => rw [h1] at h3; cases h3
    | enum h3 h4 => cases parts_unique h hvs hd h2 h4; rfl

theorem Declares.unique {S S' : Schema P.types.length vs.length} (hS : P.Declares vs S) (hS' : P.Declares vs S') :
    S = S' := funext fun k => (hS k).unique h hvs hd (hS' k)

omit h hvs hd in
theorem semantic_names {ps : List (TyE × Option (List Str))} {l : List (Field P.types.length vs.length)}
    (h1 : All2 (PartMeans P vs) ps l) : ∀ p ∈ ps, ∀ ids, p.2 = some ids →
      ids ≠ [] ∧ ∀ i ∈ ids, ∃ v ∈ vs, v.ident = i := by
  induction h1 with
  | nil => simp
  | cons h1 _ ih =>
    intro p hp ids he
    rcases List.mem_cons.1 hp with rfl | hp
    · cases h1 with
      | plain h1 => cases he
      | semantic h1 h2 h3 =>
        cases he
        refine ⟨h2, ?_⟩
        clear h2 hp
        induction h3 with
        | nil => simp
        | @cons i _ x _ h4 _ ih' =>
          intro j hj
          rcases List.mem_cons.1 hj with rfl | hj
          · exact ⟨_, List.getElem_mem x.isLt, h4⟩
          · exact ih' j hj
    · exact ih p hp ids he

omit h hvs hd in
theorem DefMeans.names {d : DeclD TyE} {D : Def P.types.length vs.length} (hD : DefMeans P vs d D) :
    ∀ p ∈ d.parts, ∀ ids, p.2 = some ids → ids ≠ [] ∧ ∀ i ∈ ids, ∃ v ∈ vs, v.ident = i := by
  cases hD with
  | struct _ ha => exact semantic_names ha
  | enum _ ha => exact semantic_names ha

theorem compiles_iff : (∀ k, ∃ c : Code P.types.length vs.length, P.code L k = some c) ↔ P.Good vs := by
  constructor
  · intro H d hdm
    obtain ⟨k, hk, rfl⟩ := List.mem_iff_getElem.1 hdm
    obtain ⟨c, hc⟩ := H ⟨k, hk⟩
    obtain ⟨g, h1, h2, -⟩ := (code_iff h hvs hd).1 hc
    obtain ⟨D, h3, -⟩ := code_means h hvs hd hc
    exact ⟨expand_iff.1 ⟨g, h1⟩, fun p hp => ⟨⟨_, h2 p hp⟩, h3.names p hp⟩⟩
  · intro H k
    obtain ⟨hok, hparts⟩ := H P.types[k] (List.getElem_mem _)
    obtain ⟨g, hg⟩ := expand_iff.2 hok
    have h1 : Syn.expand (mapDecl (tyOf vs P L k) P.types[k]) = .ok (mapGen (tyOf vs P L k) g) := by
      rw [expand_map, hg]; rfl
    have h2 := (C63_compiles (distinct_map (tyOf vs P L k) (hd.fields _ (List.getElem_mem _))) h1
      (resolve := tokenNamed L)).2 (by
        rw [parts_map]
        intro p hp ids he
        obtain ⟨q, hq, rfl⟩ := List.mem_map.1 hp
        obtain ⟨h3, h4⟩ := (hparts q hq).2 ids he
        refine ⟨h3, fun i hi => ?_⟩
        obtain ⟨v, hv, rfl⟩ := h4 i hi
        obtain ⟨j, hj, rfl⟩ := List.mem_iff_getElem.1 hv
        rw [(tokenNamed_iff h hvs hd.variants (x := ⟨j, hj⟩)).2 rfl]
        simp)
    obtain ⟨c, hc⟩ := h2
    refine ⟨c, (code_iff h hvs hd).2 ⟨g, hg, fun p hp => ?_, h1, hc⟩⟩
    obtain ⟨⟨t, ht⟩, -⟩ := hparts p hp
    unfold tyOf
    rw [(resolve_iff h hvs hd).2 ht]
    exact ht

theorem code_schema {c : Fin P.types.length → Code P.types.length vs.length} (hc : ∀ k, P.code L k = some (c k)) :
    ∃ S, P.Declares vs S ∧ ∀ k, Implements (c k) (S k) := by
  have : ∀ k, ∃ D, DefMeans P vs P.types[k] D ∧ Implements (c k) D := fun k => code_means h hvs hd (hc k)
  exact ⟨fun k => (this k).choose, fun k => (this k).choose_spec.1, fun k => (this k).choose_spec.2⟩

end

/-! ## Running the code -/

section
variable {m n : Nat} {S : Schema m n} {c : Fin m → Code m n} (H : ∀ k, Implements (c k) (S k))
include H

theorem ruleOf_eq : ruleOf c = S.rule := by
  funext p
  induction p with
  | user k => exact (H k S k rfl).1
  | box p ih => exact ih
  | _ => rfl

theorem metadataOf_eq (fuel : Nat) (root : Ty m n) : metadataOf c fuel root = S.metadata fuel root := by
  unfold metadataOf Schema.metadata
  rw [ruleOf_eq H]

theorem produceOf_eq {σ : Type} (o : Ops σ n) (md : Metadata (PId m n) n) :
    ∀ fuel, produceOf o c md fuel = produce o S md fuel := by
  intro fuel
  induction fuel with
  | zero => rfl
  | succ fuel ih =>
    funext t
    cases t with
    | user k =>
      show (c k).produce o _ _ (produceOf o c md fuel) = _
      rw [(H k S k rfl).2 σ o md fuel, ih]
      rfl
    | _ =>
      show produceStep o anySchema md fuel (produceOf o c md fuel) _ = produceStep o S md fuel (produce o S md fuel) _
      rw [ih]
      rfl

theorem rootParseOf_eq (ext : Fin n → Bool) (fuel : Nat) (root : Ty m n) (source : Str) (items : List (Item n)) :
    rootParseOf ext c fuel root source items = rootParse ext S fuel root source items := by
  unfold rootParseOf parseOf rootParse Parser.parse Parser.parseWithMeta
  rw [metadataOf_eq H]
  cases S.metadata fuel root with
  | none => rfl
  | some r =>
    cases r with
    | error e => rfl
    | ok md =>
      simp only [produceOf_eq H]
      cases produce (Parser.ops ext) S md fuel root (Parser.new source items) with
      | fuel => rfl
      | crash => rfl
      | ok r p => cases r <;> rfl

end

end Teleparse.Prog
