import Verif.Proof.Program
import Verif.Proof.Trees
/-
The declared language of a program and the matches of its types.
-/
namespace Teleparse.Prog
open Macro Syn

theorem all2_replicate {α β : Type} {R : α → β → Prop} {a : α} {b : β} (h : R a b) (k : Nat) :
    All2 R (List.replicate k a) (List.replicate k b) := by
  induction k with
  | zero => exact .nil
  | succ k ih => exact .cons h ih

theorem all2_alternate {α β : Type} {R : α → β → Prop} {a a' : α} {b b' : β} (h : R a b) (h' : R a' b') (k : Nat) :
    All2 R (alternate a a' k) (alternate b b' k) := by
  induction k generalizing a a' b b' with
  | zero => exact .nil
  | succ k ih => exact .cons h (ih h' h)

theorem all2_get {α β : Type} {R : α → β → Prop} {l : List α} {k : List β} (h : All2 R l k) {i : Nat} {b : β}
    (hb : k[i]? = some b) : ∃ a ∈ l, R a b := by
  induction h generalizing i with
  | nil => simp at hb
  | cons h1 _ ih =>
    cases i with
    | zero => cases hb; exact ⟨_, List.mem_cons_self, h1⟩
    | succ i =>
      obtain ⟨a, ha, hr⟩ := ih hb
      exact ⟨a, List.mem_cons_of_mem _ ha, hr⟩

theorem all2_get' {α β : Type} {R : α → β → Prop} {l : List α} {k : List β} (h : All2 R l k) {a : α}
    (ha : a ∈ l) : ∃ (i : Nat) (b : β), k[i]? = some b ∧ R a b := by
  induction h with
  | nil => simp at ha
  | cons h1 _ ih =>
    rcases List.mem_cons.1 ha with rfl | ha
    · exact ⟨0, _, rfl, h1⟩
    · obtain ⟨i, b, hb, hr⟩ := ih ha
      exact ⟨i + 1, b, hb, hr⟩

section
variable {P : Program} {vs : List Variant} {S : Schema P.types.length vs.length}

theorem PartMeans.fst {p : TyE × Option (List Str)} {f : Field P.types.length vs.length} (h : PartMeans P vs p f) :
    Means P vs p.1 f.1 := by
  cases h with
  | plain h => exact h
  | semantic h => exact h

theorem parts_types {l : List (FieldD TyE)} {fs : List (Field P.types.length vs.length)}
    (h : All2 (PartMeans P vs) (l.map fun f => (f.ty, f.attrs.semantic)) fs) :
    All2 (Means P vs) (l.map FieldD.ty) (fs.map (·.1)) := by
  induction l generalizing fs with
  | nil => cases h; exact .nil
  | cons f l ih =>
    cases h with
    | cons h1 h2 => exact .cons h1.fst (ih h2)

theorem tuple_means {e : TyE} {t : Ty P.types.length vs.length} {ts : List (Ty P.types.length vs.length)}
    (hm : Means P vs e t) (ht : t.isTuple ts) : ∃ es, e.isTuple es ∧ All2 (Means P vs) es ts := by
  rcases ht with ⟨a, b, rfl, rfl⟩ | ⟨a, b, c, rfl, rfl⟩ | ⟨a, b, c, d, rfl, rfl⟩ | ⟨a, b, c, d, f, rfl, rfl⟩ <;>
    cases hm
  · exact ⟨_, .inl ⟨_, _, rfl, rfl⟩, .cons (by assumption) (.cons (by assumption) .nil)⟩
  · exact ⟨_, .inr (.inl ⟨_, _, _, rfl, rfl⟩), .cons (by assumption) (.cons (by assumption) (.cons (by assumption) .nil))⟩
  · exact ⟨_, .inr (.inr (.inl ⟨_, _, _, _, rfl, rfl⟩)),
      .cons (by assumption) (.cons (by assumption) (.cons (by assumption) (.cons (by assumption) .nil)))⟩
  · exact ⟨_, .inr (.inr (.inr ⟨_, _, _, _, _, rfl, rfl⟩)),
      .cons (by assumption) (.cons (by assumption) (.cons (by assumption) (.cons (by assumption) (.cons (by assumption) .nil))))⟩

theorem means_tuple {e : TyE} {es : List TyE} {t : Ty P.types.length vs.length}
    (hm : Means P vs e t) (ht : e.isTuple es) : ∃ ts, t.isTuple ts ∧ All2 (Means P vs) es ts := by
  rcases ht with ⟨a, b, rfl, rfl⟩ | ⟨a, b, c, rfl, rfl⟩ | ⟨a, b, c, d, rfl, rfl⟩ | ⟨a, b, c, d, f, rfl, rfl⟩ <;>
    cases hm
  · exact ⟨_, .inl ⟨_, _, rfl, rfl⟩, .cons (by assumption) (.cons (by assumption) .nil)⟩
  · exact ⟨_, .inr (.inl ⟨_, _, _, rfl, rfl⟩), .cons (by assumption) (.cons (by assumption) (.cons (by assumption) .nil))⟩
  · exact ⟨_, .inr (.inr (.inl ⟨_, _, _, _, rfl, rfl⟩)),
      .cons (by assumption) (.cons (by assumption) (.cons (by assumption) (.cons (by assumption) .nil)))⟩
  · exact ⟨_, .inr (.inr (.inr ⟨_, _, _, _, _, rfl, rfl⟩)),
      .cons (by assumption) (.cons (by assumption) (.cons (by assumption) (.cons (by assumption) (.cons (by assumption) .nil))))⟩

theorem mem_terminalsOf {k : Nat} {t : TMeta} : (k, t) ∈ terminalsOf vs ↔ ∃ v, vs[k]? = some v ∧ t ∈ v.terms := by
  unfold terminalsOf
  simp only [List.mem_flatMap, List.mem_map]
  constructor
  · rintro ⟨⟨v, j⟩, hv, u, hu, he⟩
    cases he
    exact ⟨v, List.mem_zipIdx_iff_getElem?.1 hv, hu⟩
  · rintro ⟨v, hv, ht⟩
    exact ⟨(v, k), List.mem_zipIdx_iff_getElem?.2 hv, t, ht, rfl⟩

theorem means_name {s : Str} {t : Ty P.types.length vs.length} (hm : Means P vs (.name s) t) :
    (∃ i tm, ∃ k : Fin vs.length, (terminalsOf vs)[(i : Nat)]? = some (k.val, tm) ∧ tm.ident = some s ∧
      t = .term i ⟨k, tm.lit⟩) ∨ ∃ k : Fin P.types.length, P.types[k].ident = s ∧ t = .user k := by
  cases hm with
  | term h1 h2 => exact .inl ⟨_, _, _, h1, h2, rfl⟩
  | user k => exact .inr ⟨k, rfl, rfl⟩

/-! ## From matches to the declared language -/

theorem wordOf_flatten_add {n : Nat} (source : Str) {cs : List (List (Cell n))} {sems : List (Option (LSet n))}
    (h : cs.length = sems.length) : wordOf source (addAll cs sems) = wordOf source cs.flatten := by
  have := addAll_toks h
  unfold wordOf
  rw [show (fun d : Cell n => (⟨d.token.ty, textOf source d.token.span⟩ : TokenSrc n)) =
    (fun t : Token n => ⟨t.ty, textOf source t.span⟩) ∘ (·.token) from rfl, ← List.map_map, this, List.map_map]

theorem wordOf_add {n : Nat} (source : Str) (sem : Option (LSet n)) (c : List (Cell n)) :
    wordOf source (c.map (Cell.add sem)) = wordOf source c := by
  unfold wordOf
  rw [List.map_map]
  congr 1
  funext d
  cases sem <;> rfl

theorem sent_of_parses (hS : P.Declares vs S) {source : Str} {pos : Nat} {t : Ty P.types.length vs.length}
    {c : List (Cell vs.length)} {x : Tree vs.length} (h : Parses S source pos t c x) :
    ∀ e, Means P vs e t → Sent P vs e (wordOf source c) := by
  refine Parses.rec (S := S) (source := source)
    (motive_1 := fun pos t c x _ => ∀ e, Means P vs e t → Sent P vs e (wordOf source c))
    (motive_2 := fun pos ts cs l _ => ∀ es, All2 (Means P vs) es ts → SentSeq P vs es (wordOf source cs.flatten))
    ?term ?struct ?enum ?tuple ?box ?optNone ?optSome ?existNone ?existSome ?quote ?parse ?plus ?starNone
    ?starSome ?loopNone ?loopSome ?split ?punct ?recover ?nil ?cons h
  case term =>
    intro pos i k t hk e hm
    cases hm with
    | @term s _ tm j h1 h2 =>
      obtain ⟨h3, h4⟩ := hk
      obtain ⟨v, hv, ht⟩ := mem_terminalsOf.1 (List.mem_of_getElem? h1)
      refine .term (t := tm) ?_ h2 fun lit hl => ?_
      · have hj : t.ty = j := h3
        subst hj
        obtain ⟨_, rfl⟩ := List.getElem?_eq_some_iff.1 hv
        exact ht
      · exact h4 lit hl
  case struct =>
    intro pos k f fs cs l hk hs ih e hm
    cases hm with
    | user =>
      have hd := hS k
      rw [hk] at hd
      cases hd with
      | struct h1 h2 =>
        rw [wordOf_flatten_add _ (by rw [hs.lengths.1]; simp)]
        refine .struct (List.getElem_mem _) h1 (ih _ (parts_types ?_))
        unfold DeclD.parts at h2
        rw [h1] at h2
        exact h2
  case enum =>
    intro pos k f fs i t sem c x hk hi _ ih e hm
    cases hm with
    | user =>
      have hd := hS k
      rw [hk] at hd
      cases hd with
      | enum h1 h2 =>
        obtain ⟨p, hp, hpm⟩ := all2_get h2 hi
        unfold DeclD.parts at hp
        rw [h1] at hp
        obtain ⟨v, hv, hp⟩ := List.mem_flatMap.1 hp
        obtain ⟨g, hg, rfl⟩ := List.mem_map.1 hp
        rw [wordOf_add]
        exact .enum (List.getElem_mem _) h1 hv hg (ih _ hpm.fst)
  case tuple =>
    intro pos t ts cs l ht _ ih e hm
    obtain ⟨es, h1, h2⟩ := tuple_means hm ht
    exact .tuple h1 (ih _ h2)
  case box => intro pos t c x _ ih e hm; cases hm with | box hm => exact .box (ih _ hm)
  case optNone => intro pos t e hm; cases hm; exact .optNone
  case optSome => intro pos t c x _ ih e hm; cases hm with | option hm => exact .optSome (ih _ hm)
  case existNone => intro pos t e hm; cases hm; exact .existNone
  case existSome => intro pos t c x _ ih e hm; cases hm with | exist hm => exact .existSome (ih _ hm)
  case quote => intro pos t c x _ ih e hm; cases hm with | quote hm => exact .quote (ih _ hm)
  case parse => intro pos t c x _ ih e hm; cases hm with | parse hm => exact .parse (ih _ hm)
  case plus =>
    intro pos t k cs l _ ih e hm
    cases hm with | plus hm => exact .plus (ih _ (all2_replicate hm _))
  case starNone => intro pos t e hm; cases hm; exact .star (k := 0) .nil
  case starSome =>
    intro pos t k cs l _ ih e hm
    cases hm with | star hm => exact .star (ih _ (all2_replicate hm _))
  case loopNone => intro pos t e hm; cases hm; exact .loop (k := 0) .nil
  case loopSome =>
    intro pos t k cs l _ ih e hm
    cases hm with | loop hm => exact .loop (ih _ (all2_replicate hm _))
  case split =>
    intro pos t p cs es ps hl _ ih e hm
    cases hm with
    | split h1 h2 =>
      refine .split (k := ps.length) ?_
      rw [show 2 * ps.length + 1 = es.length + ps.length by omega]
      exact ih _ (all2_alternate h1 h2 _)
  case punct =>
    intro pos t p cs es ps hne hl _ ih e hm
    cases hm with
    | punct h1 h2 =>
      have : 0 < es.length := List.length_pos_iff.2 hne
      refine .punct (k := es.length + ps.length - 1) ?_
      rw [show es.length + ps.length - 1 + 1 = es.length + ps.length by omega]
      exact ih _ (all2_alternate h1 h2 _)
  case recover =>
    intro pos t r cs x y _ ih e hm
    cases hm with | recover h1 h2 => exact .recover (ih _ (.cons h1 (.cons h2 .nil)))
  case nil => intro pos es h; cases h; exact .nil
  case cons =>
    intro pos t ts c cs x xs _ _ ih1 ih2 es h
    cases h with
    | cons h1 h2 =>
      rw [List.flatten_cons, show wordOf source (c ++ cs.flatten) = wordOf source c ++ wordOf source cs.flatten from
        List.map_append]
      exact .cons (ih1 _ h1) (ih2 _ h2)

/-! ## From the declared language to matches -/

theorem sent_matches (hd : P.Distinct vs) (hS : P.Declares vs S) (source : Str) {e : TyE}
    {w : List (TokenSrc vs.length)} (h : Sent P vs e w) : ∀ t, Means P vs e t → HasMatch S source t w := by
  have key {k : Fin P.types.length} {t : Ty P.types.length vs.length} (hm : Means P vs (.name P.types[k].ident) t) :
      t = .user k := by
    rcases means_name hm with ⟨i, tm, j, h1, h2, rfl⟩ | ⟨j, h1, rfl⟩
    · exact (not_both hd h1 k h2).elim
    · rw [type_unique hd h1]
  refine Sent.rec (P := P) (vs := vs)
    (motive_1 := fun e w _ => ∀ t, Means P vs e t → HasMatch S source t w)
    (motive_2 := fun es w _ => ∀ ts, All2 (Means P vs) es ts → ∃ ws, All2 (HasMatch S source) ts ws ∧ ws.flatten = w)
    ?term ?struct ?enum ?tuple ?box ?quote ?parse ?optNone ?optSome ?existNone ?existSome ?plus ?star ?loop
    ?split ?punct ?recover ?nil ?cons h
  case term =>
    intro s tok tm ht hs hlit t hm l pos hl
    have hin : (tok.ty.val, tm) ∈ terminalsOf vs :=
      mem_terminalsOf.2 ⟨_, List.getElem?_eq_getElem tok.ty.isLt, ht⟩
    obtain ⟨i, hi⟩ := List.mem_iff_getElem?.1 hin
    rcases means_name hm with ⟨j, tm', k, h1, h2, rfl⟩ | ⟨j, h1, rfl⟩
    · obtain ⟨rfl, he⟩ := term_unique hd hi h1 (by rw [hs, h2])
      simp only [Prod.mk.injEq] at he
      obtain ⟨h3, rfl⟩ := he
      have h3 : tok.ty = k := Fin.ext h3
      subst h3
      cases l with
      | nil => cases hl
      | cons a l =>
        cases l with
        | cons => cases hl
        | nil =>
          simp only [List.map_cons, List.map_nil, List.cons.injEq, and_true] at hl
          subst hl
          exact ⟨_, _, .term ⟨rfl, hlit⟩, rfl⟩
    · exact (not_both hd hi j (by rw [hs, h1])).elim
  case struct =>
    intro d fs w hdm hdata _ ih t hm l pos hl
    obtain ⟨k, hk, rfl⟩ := List.mem_iff_getElem.1 hdm
    obtain rfl := key (k := ⟨k, hk⟩) hm
    have hD := hS ⟨k, hk⟩
    generalize hSk : S ⟨k, hk⟩ = D at hD
    cases hD with
    | enum h1 h2 => rw [show P.types[(⟨k, hk⟩ : Fin _)] = P.types[k] from rfl, hdata] at h1; cases h1
    | struct h1 h2 =>
      unfold DeclD.parts at h2
      rw [h1] at h2
      cases hdata.symm.trans h1
      obtain ⟨ws, h3, rfl⟩ := ih _ (parts_types h2)
      obtain ⟨cs, xs, h4, h5⟩ := matches_seq h3 l pos hl
      refine ⟨_, _, .struct hSk h4, ?_⟩
      rw [addAll_toks (by rw [h4.lengths.1]; simp), h5]
  case enum =>
    intro d us u f w hdm hdata hu hf _ ih t hm l pos hl
    obtain ⟨k, hk, rfl⟩ := List.mem_iff_getElem.1 hdm
    obtain rfl := key (k := ⟨k, hk⟩) hm
    have hD := hS ⟨k, hk⟩
    generalize hSk : S ⟨k, hk⟩ = D at hD
    cases hD with
    | struct h1 h2 => rw [show P.types[(⟨k, hk⟩ : Fin _)] = P.types[k] from rfl, hdata] at h1; cases h1
    | enum h1 h2 =>
      unfold DeclD.parts at h2
      rw [h1] at h2
      cases hdata.symm.trans h1
      obtain ⟨i, b, hb, hp⟩ := all2_get' h2 (a := (f.ty, u.attrs.semantic))
        (List.mem_flatMap.2 ⟨u, hu, List.mem_map.2 ⟨f, hf, rfl⟩⟩)
      obtain ⟨c, x, h3, h4⟩ := ih _ hp.fst l pos hl
      refine ⟨_, _, .enum (i := i) (sem := b.2) hSk hb h3, ?_⟩
      rw [add_tokens, h4]
  case tuple =>
    intro e es w he _ ih t hm l pos hl
    obtain ⟨ts, h1, h2⟩ := means_tuple hm he
    obtain ⟨ws, h3, rfl⟩ := ih _ h2
    obtain ⟨cs, xs, h4, h5⟩ := matches_seq h3 l pos hl
    exact ⟨_, _, .tuple h1 h4, h5⟩
  case box =>
    intro e w _ ih t hm l pos hl
    cases hm with
    | box hm => obtain ⟨c, x, h1, h2⟩ := ih _ hm l pos hl; exact ⟨_, _, .box h1, h2⟩
  case quote =>
    intro e w _ ih t hm l pos hl
    cases hm with
    | quote hm => obtain ⟨c, x, h1, h2⟩ := ih _ hm l pos hl; exact ⟨_, _, .quote h1, h2⟩
  case parse =>
    intro e w _ ih t hm l pos hl
    cases hm with
    | parse hm => obtain ⟨c, x, h1, h2⟩ := ih _ hm l pos hl; exact ⟨_, _, .parse h1, h2⟩
  case optNone =>
    intro e t hm l pos hl
    cases hm with
    | option hm => exact ⟨[], _, .optNone, by simpa using hl.symm⟩
  case optSome =>
    intro e w _ ih t hm l pos hl
    cases hm with
    | option hm => obtain ⟨c, x, h1, h2⟩ := ih _ hm l pos hl; exact ⟨_, _, .optSome h1, h2⟩
  case existNone =>
    intro e t hm l pos hl
    cases hm with
    | exist hm => exact ⟨[], _, .existNone, by simpa using hl.symm⟩
  case existSome =>
    intro e w _ ih t hm l pos hl
    cases hm with
    | exist hm => obtain ⟨c, x, h1, h2⟩ := ih _ hm l pos hl; exact ⟨_, _, .existSome h1, h2⟩
  case plus =>
    intro e k w _ ih t hm l pos hl
    cases hm with
    | plus hm =>
      obtain ⟨ws, h3, rfl⟩ := ih _ (all2_replicate hm _)
      obtain ⟨cs, xs, h4, h5⟩ := matches_seq h3 l pos hl
      exact ⟨_, _, .plus h4, h5⟩
  case star =>
    intro e k w _ ih t hm l pos hl
    cases hm with
    | star hm =>
      obtain ⟨ws, h3, rfl⟩ := ih _ (all2_replicate hm _)
      obtain ⟨cs, xs, h4, h5⟩ := matches_seq h3 l pos hl
      cases k with
      | zero => cases h4; exact ⟨[], _, .starNone, h5⟩
      | succ k => exact ⟨_, _, .starSome h4, h5⟩
  case loop =>
    intro e k w _ ih t hm l pos hl
    cases hm with
    | loop hm =>
      obtain ⟨ws, h3, rfl⟩ := ih _ (all2_replicate hm _)
      obtain ⟨cs, xs, h4, h5⟩ := matches_seq h3 l pos hl
      cases k with
      | zero => cases h4; exact ⟨[], _, .loopNone, h5⟩
      | succ k => exact ⟨_, _, .loopSome h4, h5⟩
  case split =>
    intro e f k w _ ih t hm l pos hl
    cases hm with
    | split h1 h2 =>
      obtain ⟨ws, h3, rfl⟩ := ih _ (all2_alternate h1 h2 _)
      obtain ⟨cs, xs, h4, h5⟩ := matches_seq h3 l pos hl
      obtain ⟨es, ps, rfl, g1, g2⟩ := unleave xs
      have g3 : (interleave es ps).length = 2 * k + 1 := by rw [h4.lengths.2, alternate_length]
      refine ⟨_, _, .split (es := es) (ps := ps) (by omega) ?_, h5⟩
      rw [show es.length + ps.length = 2 * k + 1 by omega]
      exact h4
  case punct =>
    intro e f k w _ ih t hm l pos hl
    cases hm with
    | punct h1 h2 =>
      obtain ⟨ws, h3, rfl⟩ := ih _ (all2_alternate h1 h2 _)
      obtain ⟨cs, xs, h4, h5⟩ := matches_seq h3 l pos hl
      obtain ⟨es, ps, rfl, g1, g2⟩ := unleave xs
      have g3 : (interleave es ps).length = k + 1 := by rw [h4.lengths.2, alternate_length]
      refine ⟨_, _, .punct (es := es) (ps := ps) (by rintro rfl; simp at g2; simp [g2] at g1; omega) (by omega) ?_, h5⟩
      rw [show es.length + ps.length = k + 1 by omega]
      exact h4
  case recover =>
    intro e f w _ ih t hm l pos hl
    cases hm with
    | recover h1 h2 =>
      obtain ⟨ws, h3, rfl⟩ := ih _ (.cons h1 (.cons h2 .nil))
      obtain ⟨cs, xs, h4, h5⟩ := matches_seq h3 l pos hl
      have hlen := h4.lengths.2
      match xs, hlen, h4 with
      | [x, y], _, h4 => exact ⟨_, _, .recover h4, h5⟩
  case nil => intro ts h; cases h; exact ⟨[], .nil, rfl⟩
  case cons =>
    intro e es w w' _ _ ih1 ih2 ts h
    cases h with
    | cons h1 h2 =>
      obtain ⟨ws, h3, rfl⟩ := ih2 _ h2
      exact ⟨w :: ws, .cons (ih1 _ h1) h3, by simp⟩

end

end Teleparse.Prog
