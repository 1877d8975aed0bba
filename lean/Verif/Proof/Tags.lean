import Verif.Spec.Tags
import Verif.Proof.Nodes
import Verif.Proof.RelabelParser
/-
Where the semantic types of tokens come from.
-/
namespace Teleparse
variable {m n : Nat} {S : Schema m n} {source : Str}

/-- `v'` is later than `v`: tokens were consumed, no semantic type was lost, and new ones satisfy `D`. -/
structure MGrown (D : Fin n → Prop) (v v' : View n) : Prop where
  adv : Adv v v'
  keep : ∀ (i : Nat) c, v.cells[i]? = some c → ∃ c', v'.cells[i]? = some c' ∧ c'.token = c.token ∧
    ∀ V, c.semantic.contains V = true → c'.semantic.contains V = true
  only : ∀ (i : Nat) c', v'.cells[i]? = some c' → ∀ V, c'.semantic.contains V = true →
    (∃ c, v.cells[i]? = some c ∧ c.semantic.contains V = true) ∨ D V

namespace MGrown
variable {D : Fin n → Prop}

theorem refl (v : View n) : MGrown D v v :=
  ⟨.refl v, fun _ c h => ⟨c, h, rfl, fun _ h => h⟩, fun _ c h _ hV => .inl ⟨c, h, hV⟩⟩

theorem trans {a b c : View n} (h : MGrown D a b) (h' : MGrown D b c) : MGrown D a c := by
  refine ⟨h.adv.trans h'.adv, fun i x hx => ?_, fun i x hx V hV => ?_⟩
  · obtain ⟨y, h1, h2, h3⟩ := h.keep i x hx
    obtain ⟨z, g1, g2, g3⟩ := h'.keep i y h1
    exact ⟨z, g1, g2.trans h2, fun V hV => g3 V (h3 V hV)⟩
  · rcases h'.only i x hx V hV with ⟨y, h1, h2⟩ | h1
    · exact h.only i y h1 V h2
    · exact .inr h1

theorem skip (v : View n) : MGrown D v v.skip := by
  refine ⟨.skip v, ?_, ?_⟩
  · intro i c hc
    refine ⟨c, ?_, rfl, fun _ h => h⟩
    unfold View.skip View.consume
    cases v.rest with
    | nil => exact hc
    | cons t l =>
      show (v.cells.push t)[i]? = some c
      unfold TokenVec.push
      rw [List.getElem?_append_left (List.getElem?_eq_some_iff.1 hc).1]; exact hc
  · intro i c hc V hV
    unfold View.skip View.consume at hc
    cases hr : v.rest with
    | nil => rw [hr] at hc; exact .inl ⟨c, hc, hV⟩
    | cons t l =>
      rw [hr] at hc
      have hc : (v.cells ++ [Cell.ofToken t])[i]? = some c := hc
      rw [List.getElem?_append] at hc
      split at hc
      · exact .inl ⟨c, hc, hV⟩
      · have := List.mem_of_getElem? hc
        rw [List.mem_singleton.1 this] at hV
        rw [show (Cell.ofToken t).semantic = LSet.new from rfl, LSet.contains_new] at hV
        cases hV

theorem apply {v : View n} (hv : Ready source v) (sp : Span) (sem : LSet n)
    (hD : ∀ V, sem.contains V = true → D V) : MGrown D v (v.apply sp sem) := by
  have e : (v.apply sp sem).cells = v.cells.map (addIfInside sp sem) := C14_apply hv.sorted.store sp sem
  have hm : ∀ (c : Cell n) V, (addIfInside sp sem c).semantic.contains V = true ↔
      c.semantic.contains V = true ∨ (c.token.span.Inside sp ∧ sem.contains V = true) := by
    intro c V
    unfold addIfInside
    split
    · rename_i h; rw [LSet.contains_union]; simp [h]
    · rename_i h; simp [h]
  refine ⟨.apply v sp sem, fun i c hc => ⟨addIfInside sp sem c, by rw [e, List.getElem?_map, hc]; rfl, ?_, ?_⟩, ?_⟩
  · unfold addIfInside; split <;> rfl
  · intro V hV; exact (hm c V).2 (.inl hV)
  · intro i c hc V hV
    rw [e, List.getElem?_map] at hc
    cases h : v.cells[i]? with
    | none => rw [h] at hc; cases hc
    | some d =>
      rw [h] at hc
      cases hc
      rcases (hm d V).1 hV with h1 | h1
      · exact .inl ⟨d, rfl, h1⟩
      · exact .inr (hD V h1.2)

theorem applyAll : ∀ (l : List (Tree n × Option (LSet n))) {v : View n}, Ready source v →
    (∀ x ∈ l, ∀ sem, x.2 = some sem → ∀ V, sem.contains V = true → D V) → MGrown D v (v.applyAll l)
  | [], v, _, _ => refl v
  | (_, none) :: l, v, hv, h => applyAll l hv fun x hx => h x (.tail _ hx)
  | (t, some sem) :: l, v, hv, h =>
    (apply hv t.span sem (h _ (.head _) sem rfl)).trans
      (applyAll l (hv.adv (.apply _ _ _)) fun x hx => h x (.tail _ hx))

theorem skips {v w : View n} (h : Skips v w) : MGrown D v w := by
  induction h with
  | one _ => exact .skip _
  | more _ _ ih => exact ih.trans (.skip _)

end MGrown

/-- The types a judgement is about. -/
def Judg.tys : Judg m n → List (Ty m n)
  | .ty t _ _ _ => [t]
  | .seq ts _ _ _ _ _ => ts
  | .iter t _ _ _ _ _ _ _ _ => [t]
  | .loop t _ _ _ _ _ _ => [t]
  | .inner t _ _ _ _ _ _ _ => [t]
  | .outer t p _ _ _ _ => [t, p]
  | .pinner t _ _ _ _ _ _ => [t]
  | .pouter t p _ _ _ _ => [t, p]
  | .head t _ _ _ => [t]
  | .tail t _ _ _ _ _ _ _ => [t]

theorem TupLike.isTuple {t : Ty m n} {ts} (h : TupLike t ts) : t.isTuple ts := by
  cases h
  · exact .inl ⟨_, _, rfl, rfl⟩
  · exact .inr (.inl ⟨_, _, _, rfl, rfl⟩)
  · exact .inr (.inr (.inl ⟨_, _, _, _, rfl, rfl⟩))
  · exact .inr (.inr (.inr ⟨_, _, _, _, _, rfl, rfl⟩))

theorem mem_zip_right {α β : Type} {l : List α} {k : List β} {x : α × β} (h : x ∈ l.zip k) : x.2 ∈ k :=
  (List.of_mem_zip h).2

/-- All that a run adds to the store is declared in the types it is about. -/
theorem RunX.mgrown {D : Fin n → Prop} {W : Ty m n → Prop} (hW : ∀ t u, W t → u ∈ S.tyParts t → W u)
    (hD : ∀ k, W (.user k) → ∀ g ∈ (S k).declared, ∀ sem, g.2 = some sem → ∀ V, sem.contains V = true → D V)
    {j : Judg m n} (h : Run S j) : Ready source j.pre → (∀ t ∈ j.tys, W t) → MGrown D j.pre j.post := by
  have one : ∀ {t : Ty m n}, W t → ∀ u ∈ [t], W u := by
    intro t h u hu; rw [List.mem_singleton.1 hu]; exact h
  have two : ∀ {t p : Ty m n}, W t → W p → ∀ u ∈ [t, p], W u := by
    intro t p h h' u hu
    simp only [List.mem_cons, List.not_mem_nil, or_false] at hu
    rcases hu with rfl | rfl
    · exact h
    · exact h'
  have wrap : ∀ {t u : Ty m n}, (∀ v ∈ [t], W v) → u ∈ S.tyParts t → W u :=
    fun h hu => hW _ _ (h _ (.head _)) hu
  have wraps : ∀ {t : Ty m n} {us}, (∀ v ∈ [t], W v) → S.tyParts t = us → ∀ u ∈ us, W u :=
    fun h e u hu => hW _ _ (h _ (.head _)) (by rw [e]; exact hu)
  have opt : ∀ {t' t : Ty m n} {mk}, OptLike t' t mk → t ∈ S.tyParts t' := by
    intro t' t mk h; cases h <;> exact .head _
  have text : ∀ {t' t : Ty m n}, TextLike t' t → t ∈ S.tyParts t' := by
    intro t' t h; cases h <;> exact .head _
  have mem : ∀ {k : Fin m} {f fs} {t : Ty m n} {sem} {i : Nat}, S k = .enum f fs → (f :: fs)[i]? = some (t, sem) →
      (t, sem) ∈ (S k).declared ∧ t ∈ S.tyParts (.user k) := by
    intro k f fs t sem i hk hi
    have := List.mem_of_getElem? hi
    refine ⟨by rw [hk]; exact this, ?_⟩
    simp only [Schema.tyParts, hk]
    exact List.mem_map.2 ⟨_, this, rfl⟩
  have single : ∀ {k : Fin m} {f fs} {t : Ty m n} {sem} {i : Nat} {x : Tree n}, S k = .enum f fs →
      (f :: fs)[i]? = some (t, sem) → W (.user k) →
      ∀ y ∈ [(x, sem)], ∀ s, y.2 = some s → ∀ V, s.contains V = true → D V := by
    intro k f fs t sem i x hk hi hw y hy s hs
    rw [List.mem_singleton.1 hy] at hs
    exact hD k hw _ (mem hk hi).1 s hs
  induction h with
  | tok => intro _ _; exact .skip _
  | tokRecovered => intro _ _; exact .refl _
  | tokPanic => intro _ _; exact .refl _
  | seqNil => intro _ _; exact .refl _
  | seqGive h1 _ _ i1 i2 =>
    intro hv hw
    exact (i1 hv (one (hw _ (.head _)))).trans (i2 (hv.adv h1.adv) fun u hu => hw u (.tail _ hu))
  | seqPanic _ i => intro hv hw; exact i hv (one (hw _ (.head _)))
  | @struct k f fs v l errs v1 hk h1 i =>
    intro hv hw
    refine (i hv (wraps hw (by simp only [Schema.tyParts, hk]; rfl))).trans (MGrown.applyAll _ (hv.adv h1.adv) ?_)
    intro x hx sem hs
    obtain ⟨g, hg, hg'⟩ := List.mem_map.1 (mem_zip_right hx)
    exact hD k (hw _ (.head _)) g (by rw [hk]; exact hg) sem (hg'.trans hs)
  | structPanic hk _ i => intro hv hw; exact i hv (wraps hw (by simp only [Schema.tyParts, hk]; rfl))
  | tuple ht _ i => intro hv hw; exact i hv (wraps hw (isTuple_parts ht.isTuple))
  | tuplePanic ht _ i => intro hv hw; exact i hv (wraps hw (isTuple_parts ht.isTuple))
  | enumSuccess hk hi h1 i =>
    intro hv hw
    exact (i hv (one (wrap hw (mem hk hi).2))).trans
      (MGrown.applyAll _ (hv.adv h1.adv) (single hk hi (hw _ (.head _))))
  | enumRecovered hk hi h1 i =>
    intro hv hw
    exact (i hv (one (wrap hw (mem hk hi).2))).trans
      (MGrown.applyAll _ (hv.adv h1.adv) (single hk hi (hw _ (.head _))))
  | enumPanic hk hi _ i => intro hv hw; exact i hv (one (wrap hw (mem hk hi).2))
  | enumNone => intro _ _; exact .refl _
  | box _ i => intro hv hw; exact i hv (one (wrap hw (.head _)))
  | optNone => intro _ _; exact .refl _
  | optSuccess ho _ i => intro hv hw; exact i hv (one (wrap hw (opt ho)))
  | optRecovered ho _ i => intro hv hw; exact i hv (one (wrap hw (opt ho)))
  | optPanic ho _ i => intro hv hw; exact i hv (one (wrap hw (opt ho)))
  | textSuccess ht _ _ i => intro hv hw; exact i hv (one (wrap hw (text ht)))
  | textRecovered ht _ _ i => intro hv hw; exact i hv (one (wrap hw (text ht)))
  | textPanic ht _ i => intro hv hw; exact i hv (one (wrap hw (text ht)))
  | plus h1 _ _ i1 i2 =>
    intro hv hw
    have ht := one (wrap hw (.head _))
    exact (i1 hv ht).trans (i2 (hv.adv h1.adv) ht)
  | plusPanic _ i => intro hv hw; exact i hv (one (wrap hw (.head _)))
  | iterStop => intro _ _; exact .refl _
  | iterGive _ h1 _ _ i1 i2 => intro hv hw; exact (i1 hv hw).trans (i2 (hv.adv h1.adv) hw)
  | iterPanic _ i => exact i
  | loopEmpty _ i => intro hv hw; exact i hv (one (wrap hw (.head _)))
  | loopList _ _ i => intro hv hw; exact i hv (one (wrap hw (.head _)))
  | loopStop => intro _ _; exact .refl _
  | loopSkip hs _ i => intro hv hw; exact (MGrown.skips hs).trans (i (hv.adv hs.adv) hw)
  | loopGive h1 _ _ i1 i2 => intro hv hw; exact (i1 hv hw).trans (i2 (hv.adv h1.adv) hw)
  | loopPanic h1 _ i1 i2 => intro hv hw; exact (i1 hv hw).trans (i2 (hv.adv h1.adv) hw)
  | loopGiveStuck _ _ i => exact i
  | loopPanicStuck _ i => exact i
  | split h1 _ _ i1 i2 =>
    intro hv hw
    have ht : W _ := wrap hw (.head _)
    exact (i1 hv (one ht)).trans (i2 (hv.adv h1.adv) (two ht (wrap hw (.tail _ (.head _)))))
  | splitPanic _ i => intro hv hw; exact i hv (one (wrap hw (.head _)))
  | outerStop => intro _ _; exact .refl _
  | outerPanic _ i => intro hv hw; exact i hv (one (hw _ (.tail _ (.head _))))
  | outerGo _ h1 _ h2 _ i1 i2 i3 =>
    intro hv hw
    have hv1 := hv.adv h1.adv
    exact ((i1 hv (one (hw _ (.tail _ (.head _))))).trans (i2 hv1 (one (hw _ (.head _))))).trans
      (i3 (hv1.adv h2.adv) hw)
  | outerBreak _ h1 _ _ i1 i2 =>
    intro hv hw
    exact (i1 hv (one (hw _ (.tail _ (.head _))))).trans (i2 (hv.adv h1.adv) (one (hw _ (.head _))))
  | innerGive _ _ i => exact i
  | innerFailLeave _ i => exact i
  | innerFailGo h1 _ i1 i2 =>
    intro hv hw
    exact ((i1 hv hw).trans (.skip _)).trans (i2 (hv.adv (h1.adv.trans (.skip _))) hw)
  | innerNoteLeave => intro _ _; exact .refl _
  | innerNoteGo _ _ i => intro hv hw; exact (MGrown.skip _).trans (i (hv.adv (.skip _)) hw)
  | punct h1 _ _ i1 i2 =>
    intro hv hw
    have ht : W _ := wrap hw (.head _)
    exact (i1 hv (one ht)).trans (i2 (hv.adv h1.adv) (two ht (wrap hw (.tail _ (.head _)))))
  | punctPanic _ i => intro hv hw; exact i hv (one (wrap hw (.head _)))
  | pouterStop => intro _ _; exact .refl _
  | pouterPanic _ i => intro hv hw; exact i hv (one (hw _ (.tail _ (.head _))))
  | pouterGo _ h1 _ h2 _ i1 i2 i3 =>
    intro hv hw
    have hv1 := hv.adv h1.adv
    exact ((i1 hv (one (hw _ (.tail _ (.head _))))).trans (i2 hv1 (one (hw _ (.head _))))).trans
      (i3 (hv1.adv h2.adv) hw)
  | pouterBreak _ h1 _ _ i1 i2 =>
    intro hv hw
    exact (i1 hv (one (hw _ (.tail _ (.head _))))).trans (i2 (hv.adv h1.adv) (one (hw _ (.head _))))
  | pinnerGive _ _ i => exact i
  | pinnerStop => intro _ _; exact .refl _
  | pinnerFailLeave _ i => exact i
  | pinnerFailGo h1 _ i1 i2 =>
    intro hv hw
    exact ((i1 hv hw).trans (.skip _)).trans (i2 (hv.adv (h1.adv.trans (.skip _))) hw)
  | pinnerNoteLeave => intro _ _; exact .refl _
  | pinnerNoteGo _ _ i => intro hv hw; exact (MGrown.skip _).trans (i (hv.adv (.skip _)) hw)
  | recover h1 _ i1 i2 =>
    intro hv hw
    exact (i1 hv (one (wrap hw (.head _)))).trans (i2 (hv.adv h1.adv) (one (wrap hw (.tail _ (.head _)))))
  | recoverPanic h1 _ i1 i2 =>
    intro hv hw
    exact (i1 hv (one (wrap hw (.head _)))).trans (i2 (hv.adv h1.adv) (one (wrap hw (.tail _ (.head _)))))
  | headGive _ _ i => exact i
  | headPanic _ i => exact i
  | headNone => intro _ _; exact .refl _
  | tailGive _ _ i => exact i
  | tailPanic _ _ i => exact i
  | tailNote h => cases h
  | tailStop => intro _ _; exact .refl _
  | tailFail _ h1 _ _ i1 i2 =>
    intro hv hw
    exact ((i1 hv hw).trans (.skip _)).trans (i2 (hv.adv (h1.adv.trans (.skip _))) hw)
  | tailSkip _ _ _ i => intro hv hw; exact (MGrown.skip _).trans (i (hv.adv (.skip _)) hw)

/-! ### The values of declared fields -/

/-- The tree ends before what is still to be read. -/
def Behind (x : Tree n) (v : View n) : Prop := ∀ a ∈ v.rest, x.span.hi ≤ a.span.lo

/-- The tokens in the value of a declared field have its semantic types. -/
def Marked (S : Schema m n) (t : Ty m n) (x : Tree n) (v : View n) : Prop :=
  ∀ sem y, Tagged S t x sem y → Behind y v ∧
    ∀ c ∈ v.cells, c.token.span.Inside y.span → ∀ V, sem.contains V = true → c.semantic.contains V = true

structure MarkOk (S : Schema m n) (t : Ty m n) (x : Tree n) (v : View n) : Prop where
  past : Behind x v
  marked : Marked S t x v

theorem Behind.adv {x : Tree n} {v v' : View n} (h : Behind x v) (ha : Adv v v') : Behind x v' :=
  fun a hm => h a (ha.rest_mem hm)

theorem MarkOk.grown {D : Fin n → Prop} {t : Ty m n} {x : Tree n} {v v' : View n} (h : MarkOk S t x v)
    (hv : Ready source v) (hg : MGrown D v v') : MarkOk S t x v' := by
  refine ⟨h.past.adv hg.adv, fun sem y hy => ?_⟩
  obtain ⟨h1, h2⟩ := h.marked sem y hy
  refine ⟨h1.adv hg.adv, fun c hc hi V hV => ?_⟩
  obtain ⟨i, hi1⟩ := List.getElem?_of_mem hc
  by_cases hlt : i < v.cells.length
  · obtain ⟨d, hd⟩ : ∃ d, v.cells[i]? = some d := ⟨_, List.getElem?_eq_getElem hlt⟩
    obtain ⟨c', e1, e2, e3⟩ := hg.keep i d hd
    rw [hi1] at e1
    cases e1
    exact e3 V (h2 d (List.mem_of_getElem? hd) (by rw [← e2]; exact hi) V hV)
  · obtain ⟨ts, e1, e2⟩ := hg.adv.cons
    have e3 : (v'.cells.map (·.token))[i]? = some c.token := by rw [List.getElem?_map, hi1]; rfl
    rw [e2, List.getElem?_append_right (by rw [List.length_map]; omega)] at e3
    have e4 : c.token ∈ v.rest := by rw [e1]; exact List.mem_append_left _ (List.mem_of_getElem? e3)
    have e5 := h1 _ e4
    have e6 := hv.sorted.tokens.1 c.token (List.mem_append_right _ e4)
    have := hi.2
    omega

theorem Behind.span {x y : Tree n} {v : View n} (h : Behind x v) (hs : y.span.hi = x.span.hi) : Behind y v :=
  fun a ha => by rw [hs]; exact h a ha

/-- After `apply_semantic` for the parts, the tokens in the parts have the semantic types. -/
theorem applyAll_marks : ∀ (l : List (Tree n × Option (LSet n))) {v : View n}, Ready source v →
    ∀ y sem, (y, some sem) ∈ l → ∀ c ∈ (v.applyAll l).cells, c.token.span.Inside y.span →
      ∀ V, sem.contains V = true → c.semantic.contains V = true
  | [], _, _, _, _, h => by cases h
  | (_, none) :: l, v, hv, y, sem, h => by
    rcases List.mem_cons.1 h with h | h
    · cases h
    · exact applyAll_marks l hv y sem h
  | (x, some s) :: l, v, hv, y, sem, h => by
    have hv1 : Ready source (v.apply x.span s) := hv.adv (.apply _ _ _)
    rcases List.mem_cons.1 h with h | h
    · cases h
      intro c hc hi V hV
      have hg : MGrown (fun _ => True) (v.apply x.span s) (v.applyAll ((x, some s) :: l)) :=
        MGrown.applyAll l hv1 (fun _ _ _ _ _ _ => trivial)
      obtain ⟨i, hi1⟩ := List.getElem?_of_mem hc
      have hlen : ∀ w : View n, ∀ l, (w.applyAll l).cells.length = w.cells.length := by
        intro w l
        obtain ⟨ts, e1, e2⟩ := (Adv.applyAll l w).cons
        have e3 : ts = [] := by
          have := congrArg List.length e1
          rw [applyAll_rest, List.length_append] at this
          exact List.length_eq_zero_iff.1 (by omega)
        have := congrArg List.length e2
        simpa [e3] using this
      have hlt : i < (v.apply x.span s).cells.length := by
        have h1 := (List.getElem?_eq_some_iff.1 hi1).1
        rw [show v.applyAll ((x, some s) :: l) = (v.apply x.span s).applyAll l from rfl, hlen] at h1
        exact h1
      obtain ⟨d, hd⟩ : ∃ d, (v.apply x.span s).cells[i]? = some d := ⟨_, List.getElem?_eq_getElem hlt⟩
      obtain ⟨c', e1, e2, e3⟩ := hg.keep i d hd
      rw [hi1] at e1
      cases e1
      refine e3 V ?_
      rw [show (v.apply x.span s).cells = v.cells.map (addIfInside x.span s) from C14_apply hv.sorted.store _ _,
        List.getElem?_map] at hd
      cases h0 : v.cells[i]? with
      | none => rw [h0] at hd; cases hd
      | some d0 =>
        rw [h0] at hd
        cases hd
        have e4 : (addIfInside x.span s d0).token = d0.token := by unfold addIfInside; split <;> rfl
        have hi' : d0.token.span.Inside x.span := by rw [← e4, ← e2]; exact hi
        unfold addIfInside
        rw [if_pos hi', LSet.contains_union, hV, Bool.or_true]
    · exact applyAll_marks l hv1 y sem h

section inversion
variable {t p r : Ty m n} {x y : Tree n} {sem : LSet n}

theorem Tagged.of_box (h : Tagged S (.box t) x sem y) : Tagged S t x sem y := by
  cases h with
  | tuple ht => rcases ht with ⟨_, _, h, _⟩ | ⟨_, _, _, h, _⟩ | ⟨_, _, _, _, h, _⟩ | ⟨_, _, _, _, _, h, _⟩ <;> cases h
  | box h => exact h

theorem Tagged.of_option {sp} (h : Tagged S (.option t) (.optSome sp x) sem y) : Tagged S t x sem y := by
  cases h with
  | option h => exact h

theorem Tagged.of_plus {sp l} (h : Tagged S (.plus t) (.list sp l) sem y) : ∃ z ∈ l, Tagged S t z sem y := by
  cases h with
  | plus h h' => exact ⟨_, h, h'⟩

theorem Tagged.of_star {sp l} (h : Tagged S (.star t) (.list sp l) sem y) : ∃ z ∈ l, Tagged S t z sem y := by
  cases h with
  | star h h' => exact ⟨_, h, h'⟩

theorem Tagged.of_loop {sp l} (h : Tagged S (.loop t) (.list sp l) sem y) : ∃ z ∈ l, Tagged S t z sem y := by
  cases h with
  | loop h h' => exact ⟨_, h, h'⟩

theorem Tagged.of_split {sp es ps} (h : Tagged S (.split t p) (.split sp es ps) sem y) :
    (∃ z ∈ es, Tagged S t z sem y) ∨ ∃ z ∈ ps, Tagged S p z sem y := by
  cases h with
  | splitElem h h' => exact .inl ⟨_, h, h'⟩
  | splitPunct h h' => exact .inr ⟨_, h, h'⟩

theorem Tagged.of_punct {sp es ps} (h : Tagged S (.punct t p) (.split sp es ps) sem y) :
    (∃ z ∈ es, Tagged S t z sem y) ∨ ∃ z ∈ ps, Tagged S p z sem y := by
  cases h with
  | punctElem h h' => exact .inl ⟨_, h, h'⟩
  | punctPunct h h' => exact .inr ⟨_, h, h'⟩

theorem Tagged.of_tuple {ts sp l} (ht : t.isTuple ts) (h : Tagged S t (.seq sp l) sem y) :
    ∃ (i : Nat) (u : Ty m n) (z : Tree n), ts[i]? = some u ∧ l[i]? = some z ∧ Tagged S u z sem y := by
  cases h with
  | tuple ht' h1 h2 h3 =>
    have e := (isTuple_parts (S := S) ht).symm.trans (isTuple_parts (S := S) ht')
    exact ⟨_, _, _, by rw [e]; exact h1, h2, h3⟩
  | field => rcases ht with ⟨_, _, h, _⟩ | ⟨_, _, _, h, _⟩ | ⟨_, _, _, _, h, _⟩ | ⟨_, _, _, _, _, h, _⟩ <;> cases h
  | inField => rcases ht with ⟨_, _, h, _⟩ | ⟨_, _, _, h, _⟩ | ⟨_, _, _, _, h, _⟩ | ⟨_, _, _, _, _, h, _⟩ <;> cases h
  | box => rcases ht with ⟨_, _, h, _⟩ | ⟨_, _, _, h, _⟩ | ⟨_, _, _, _, h, _⟩ | ⟨_, _, _, _, _, h, _⟩ <;> cases h

theorem Tagged.of_struct {k f fs sp l} (hk : S k = .struct f fs) (h : Tagged S (.user k) (.seq sp l) sem y) :
    (∃ (i : Nat) (t : Ty m n), (f :: fs)[i]? = some (t, some sem) ∧ l[i]? = some y) ∨
    ∃ (i : Nat) (t : Ty m n) (s : Option (LSet n)) (z : Tree n), (f :: fs)[i]? = some (t, s) ∧ l[i]? = some z ∧ Tagged S t z sem y := by
  cases h with
  | tuple ht => rcases ht with ⟨_, _, h, _⟩ | ⟨_, _, _, h, _⟩ | ⟨_, _, _, _, h, _⟩ | ⟨_, _, _, _, _, h, _⟩ <;> cases h
  | field h1 h2 h3 => rw [hk] at h1; cases h1; exact .inl ⟨_, _, h2, h3⟩
  | inField h1 h2 h3 h4 => rw [hk] at h1; cases h1; exact .inr ⟨_, _, _, _, h2, h3, h4⟩

theorem Tagged.of_enum {k f fs i} (hk : S k = .enum f fs) (h : Tagged S (.user k) (.variant i x) sem y) :
    (∃ t, (f :: fs)[i]? = some (t, some sem) ∧ y = x) ∨
    ∃ (t : Ty m n) (s : Option (LSet n)), (f :: fs)[i]? = some (t, s) ∧ Tagged S t x sem y := by
  cases h with
  | variant h1 h2 => rw [hk] at h1; cases h1; exact .inl ⟨_, h2, rfl⟩
  | inVariant h1 h2 h3 => rw [hk] at h1; cases h1; exact .inr ⟨_, _, h2, h3⟩

theorem Tagged.of_recover {hs z} (h : Tagged S (.recover t r) (.recover hs x z) sem y) :
    Tagged S t x sem y ∨ Tagged S r z sem y := by
  cases h with
  | head h => exact .inl h
  | tail h => exact .inr h

theorem Tagged.of_recoverNone {hs z} (h : Tagged S (.recover t r) (.recoverNone hs z) sem y) : Tagged S r z sem y := by
  cases h with
  | tailOnly h => exact h

end inversion

def JMark (S : Schema m n) : Judg m n → Prop
  | .ty t _ r v' => ∀ x e, r.Gives x e → MarkOk S t x v'
  | .seq ts _ acc _ (.ok (l, _)) v' => ∃ new, l = acc ++ new ∧ All2 (fun t x => MarkOk S t x v') ts new
  | .seq _ _ _ _ (.error _) _ => True
  | .iter t _ acc _ hi acc' _ hi' v' => ∃ new, acc' = acc ++ new ∧ (∀ x ∈ new, MarkOk S t x v') ∧ hi' = lastHi new hi
  | .loop t _ out _ out' _ v' => ∃ new, out' = out ++ new ∧ ∀ x ∈ new, MarkOk S t x v'
  | .inner t q _ a _ _ a' v' => (∃ x, a'.elems = a.elems ++ [x] ∧ a'.puncts = a.puncts ++ [q] ∧ MarkOk S t x v') ∨
      (a'.elems = a.elems ∧ a'.puncts = a.puncts)
  | .outer t p _ a a' v' => ∃ es ps, a'.elems = a.elems ++ es ∧ a'.puncts = a.puncts ++ ps ∧
      (∀ x ∈ es, MarkOk S t x v') ∧ ∀ x ∈ ps, MarkOk S p x v'
  | .pinner t _ a _ _ a' v' => ∃ es, a'.elems = a.elems ++ es ∧ a'.puncts = a.puncts ∧ ∀ x ∈ es, MarkOk S t x v'
  | .pouter t p _ a a' v' => ∃ es ps, a'.elems = a.elems ++ es ∧ a'.puncts = a.puncts ++ ps ∧
      (∀ x ∈ es, MarkOk S t x v') ∧ ∀ x ∈ ps, MarkOk S p x v'
  | .head t _ h v' => ∀ x, h.head = some x → MarkOk S t x v'
  | .tail t _ _ _ x _ _ v' => ∀ y, x = some y → MarkOk S t y v'

theorem All2.imp {α β : Type} {R Q : α → β → Prop} (h : ∀ a b, R a b → Q a b) :
    ∀ {l : List α} {k : List β}, All2 R l k → All2 Q l k
  | _, _, .nil => .nil
  | _, _, .cons h1 h2 => .cons (h _ _ h1) (h2.imp h)

theorem All2.get {α β : Type} {R : α → β → Prop} :
    ∀ {l : List α} {k : List β}, All2 R l k → ∀ (i : Nat) a b, l[i]? = some a → k[i]? = some b → R a b
  | _, _, .nil, _, _, _, h, _ => by simp at h
  | _, _, .cons h1 h2, 0, _, _, h, h' => by simp at h h'; subst h; subst h'; exact h1
  | _, _, .cons h1 h2, i + 1, _, _, h, h' => h2.get i _ _ (by simpa using h) (by simpa using h')

theorem All2.right {α β : Type} {R : α → β → Prop} {P : β → Prop} (h : ∀ a b, R a b → P b) :
    ∀ {l : List α} {k : List β}, All2 R l k → ∀ b ∈ k, P b
  | _, _, .nil, _, hb => by cases hb
  | _, _, .cons h1 h2, _, hb => by
    rcases List.mem_cons.1 hb with rfl | hb
    · exact h _ _ h1
    · exact h2.right h _ hb

theorem behind_spanOf {l : List (Tree n)} {v : View n} (h : ∀ x ∈ l, Behind x v) {x : Tree n} (hs : x.span.hi = (spanOf l).hi) :
    Behind x v := by
  intro a ha
  rw [hs]
  unfold spanOf
  cases hl : l.getLast? with
  | none => exact Nat.zero_le _
  | some z => exact h z (List.mem_of_getLast? hl) a ha

theorem markOk_leaf {t : Ty m n} {x : Tree n} {v : View n} (h : Behind x v) (hx : ∀ sem y, ¬ Tagged S t x sem y) :
    MarkOk S t x v := ⟨h, fun sem y hy => absurd hy (hx sem y)⟩

theorem markOk_list {t t' : Ty m n} {x : Tree n} {l : List (Tree n)} {v : View n} (hp : Behind x v)
    (h : ∀ z ∈ l, MarkOk S t z v) (hx : ∀ sem y, Tagged S t' x sem y → ∃ z ∈ l, Tagged S t z sem y) :
    MarkOk S t' x v := by
  refine ⟨hp, fun sem y hy => ?_⟩
  obtain ⟨z, hz, hy⟩ := hx sem y hy
  exact (h z hz).marked sem y hy

theorem behind_pos {v : View n} (hv : Ready source v) {x : Tree n} (h : x.span.hi ≤ v.pos) : Behind x v :=
  fun _ ha => Nat.le_trans h (hv.rest_ge ha)

theorem RunX.mark {j : Judg m n} (h : Run S j) : Ready source j.pre → JMark S j := by
  have G : ∀ {j : Judg m n}, Run S j → Ready source j.pre → MGrown (fun _ => True) j.pre j.post :=
    fun h hv => h.mgrown (W := fun _ => True) (fun _ _ _ _ => trivial) (fun _ _ _ _ _ _ _ _ => trivial) hv (fun _ _ => trivial)
  have noneLike : ∀ {t' t : Ty m n} {mk : Span → Option (Tree n) → Tree n} {v : View n}, OptLike t' t mk → Ready source v →
      MarkOk S t' (mk ⟨v.pos, v.pos⟩ none) v := by
    intro t' t mk v ho hv
    cases ho
    · exact markOk_leaf (behind_pos hv (Nat.le_refl _)) (by intro sem y h; cases h)
    · exact markOk_leaf (behind_pos hv (Nat.le_refl _)) (by intro sem y h; cases h)
    · exact markOk_leaf (behind_pos hv (Nat.le_refl _)) (by
        intro sem y h
        obtain ⟨z, hz, _⟩ := h.of_star
        cases hz)
  have someLike : ∀ {t' t : Ty m n} {mk : Span → Option (Tree n) → Tree n} {x : Tree n} {v : View n}, OptLike t' t mk →
      MarkOk S t x v → MarkOk S t' (mk x.span (some x)) v := by
    intro t' t mk x v ho h
    cases ho
    · exact ⟨h.past.span rfl, fun sem y hy => h.marked sem y hy.of_option⟩
    · exact markOk_leaf (h.past.span rfl) (by intro sem y h; cases h)
    · unfold mkStar
      cases x
      case list sp l =>
        refine ⟨h.past.span rfl, fun sem y hy => ?_⟩
        obtain ⟨z, hz, hy⟩ := hy.of_star
        exact h.marked sem y (.plus hz hy)
      all_goals
        refine markOk_leaf (h.past.span rfl) ?_
        intro sem y h
        obtain ⟨z, hz, _⟩ := h.of_star
        cases hz
  have text : ∀ {t' t : Ty m n} {x : Tree n} {s : Str} {v : View n}, TextLike t' t → MarkOk S t x v →
      MarkOk S t' (.text x.span s) v := by
    intro t' t x s v ht h
    refine markOk_leaf (h.past.span rfl) ?_
    intro sem y hy
    cases ht <;> cases hy
  have enum : ∀ {k : Fin m} {f fs} {t : Ty m n} {s} {i : Nat} {x : Tree n} {v : View n}, S k = .enum f fs →
      (f :: fs)[i]? = some (t, s) → Ready source v → MarkOk S t x v →
      MarkOk S (.user k) (.variant i x) (v.applyAll [(x, s)]) := by
    intro k f fs t s i x v hk hi hv h
    have h' := h.grown hv (MGrown.applyAll (D := fun _ => True) [(x, s)] hv (fun _ _ _ _ _ _ => trivial))
    refine ⟨h'.past.span rfl, fun sem y hy => ?_⟩
    rcases hy.of_enum hk with ⟨t1, h1, rfl⟩ | ⟨t1, s1, h1, h2⟩
    · rw [hi] at h1
      cases h1
      exact ⟨h'.past, applyAll_marks _ hv _ _ (.head _)⟩
    · rw [hi] at h1
      cases h1
      exact h'.marked sem y h2
  induction h with
  | @tok i k v t l hr _ _ =>
    intro hv x e hg
    cases hg
    obtain ⟨-, -, h3⟩ := hv.sorted.head hr
    exact markOk_leaf (behind_pos (hv.adv (.skip v)) (Nat.le_of_eq h3.symm)) (by intro sem y h; cases h)
  | @tokRecovered i k v lit sp s _ hsp =>
    intro hv x e hg
    cases hg
    refine markOk_leaf ?_ (by intro sem y h; cases h)
    rcases hsp with rfl | ⟨hr, rfl⟩
    · exact behind_pos hv (Nat.le_refl _)
    · intro a ha; rw [hr] at ha; cases ha
  | tokPanic => intro _ x e hg; cases hg
  | seqNil => intro _; exact ⟨[], by simp, .nil⟩
  | @seqGive t ts v acc errs r x e v1 res v' h1 hg h2 i1 i2 =>
    intro hv
    have hv1 := hv.adv h1.adv
    have i1 := i1 hv x e hg
    have i2 := i2 hv1
    match res, h2, i2 with
    | .ok (l, _), h2, i2 =>
      obtain ⟨new, h3, h4⟩ := i2
      exact ⟨x :: new, by simp [h3], .cons (i1.grown hv1 (G h2 hv1)) h4⟩
    | .error _, _, _ => trivial
  | seqPanic => intro _; trivial
  | @struct k f fs v l errs v1 hk h1 i1 =>
    intro hv x e hg
    have hv1 := hv.adv h1.adv
    obtain ⟨new, h3, h4⟩ := i1 hv
    have hl : l = new := by simpa using h3
    subst hl
    rw [ofPair_gives hg]
    have h4 := h4.imp fun t x h => MarkOk.grown h hv1
      (MGrown.applyAll (D := fun _ => True) (l.zip ((f :: fs).map (·.2))) hv1 (fun _ _ _ _ _ _ => trivial))
    refine ⟨behind_spanOf (fun z hz => h4.right (fun _ _ h => h.past) z hz) rfl, fun sem y hy => ?_⟩
    rcases hy.of_struct hk with ⟨i, t1, e1, e2⟩ | ⟨i, t1, s, z, e1, e2, e3⟩
    · refine ⟨h4.right (fun _ _ h => h.past) _ (List.mem_of_getElem? e2), ?_⟩
      refine applyAll_marks _ hv1 y sem ?_
      refine List.mem_of_getElem? (i := i) ?_
      rw [List.getElem?_zip_eq_some]
      exact ⟨e2, by rw [List.getElem?_map, e1]; rfl⟩
    · exact (h4.get i t1 z (by rw [List.getElem?_map, e1]; rfl) e2).marked sem y e3
  | structPanic => intro _ x e hg; cases hg
  | @tuple t ts v l errs v1 ht h1 i1 =>
    intro hv x e hg
    obtain ⟨new, h3, h4⟩ := i1 hv
    have hl : l = new := by simpa using h3
    subst hl
    rw [ofPair_gives hg]
    refine ⟨behind_spanOf (fun z hz => h4.right (fun _ _ h => h.past) z hz) rfl, fun sem y hy => ?_⟩
    obtain ⟨i, u, z, e1, e2, e3⟩ := hy.of_tuple ht.isTuple
    exact (h4.get i u z e1 e2).marked sem y e3
  | tuplePanic => intro _ x e hg; cases hg
  | enumSuccess hk hi h1 i1 =>
    intro hv x e hg
    cases hg
    exact enum hk hi (hv.adv h1.adv) (i1 hv _ _ (.success _))
  | enumRecovered hk hi h1 i1 =>
    intro hv x e hg
    cases hg
    exact enum hk hi (hv.adv h1.adv) (i1 hv _ _ (.recovered _ _))
  | enumPanic => intro _ x e hg; cases hg
  | enumNone => intro _ x e hg; cases hg
  | box _ i =>
    intro hv x e hg
    have := i hv x e hg
    exact ⟨this.past, fun sem y hy => this.marked sem y hy.of_box⟩
  | optNone ho => intro hv x e hg; cases hg; exact noneLike ho hv
  | optSuccess ho h1 i1 => intro hv y e hg; cases hg; exact someLike ho (i1 hv _ _ (.success _))
  | optRecovered ho h1 i1 => intro hv y e hg; cases hg; exact someLike ho (i1 hv _ _ (.recovered _ _))
  | optPanic ho h1 i1 => intro hv y e hg; cases hg; exact noneLike ho (hv.adv h1.adv)
  | textSuccess ht _ _ i1 => intro hv y e hg; cases hg; exact text ht (i1 hv _ _ (.success _))
  | textRecovered ht _ _ i1 => intro hv y e hg; cases hg; exact text ht (i1 hv _ _ (.recovered _ _))
  | textPanic => intro _ x e hg; cases hg
  | @plus t v r x e v1 l errs hi v' h1 hg h2 i1 i2 =>
    intro hv y e' hy
    rw [ofPair_gives hy]
    have hv1 := hv.adv h1.adv
    obtain ⟨new, h3, h4, h5⟩ := i2 hv1
    have h3' : l = x :: new := h3
    subst h3'
    have hall : ∀ z ∈ x :: new, MarkOk S t z v' := by
      intro z hz
      rcases List.mem_cons.1 hz with rfl | hz
      · exact (i1 hv _ e hg).grown hv1 (G h2 hv1)
      · exact h4 z hz
    refine markOk_list (behind_spanOf (fun z hz => (hall z hz).past) ?_) hall (fun sem y hy => hy.of_plus)
    rw [← spanOf_last, h5]; rfl
  | plusPanic => intro _ x e hg; cases hg
  | iterStop => intro hv; exact ⟨[], by simp, by simp, rfl⟩
  | @iterGive t v acc errs hi r x e v1 acc' errs' hi' v' _ h1 hg h2 i1 i2 =>
    intro hv
    have hv1 := hv.adv h1.adv
    obtain ⟨new, h3, h4, h5⟩ := i2 hv1
    refine ⟨x :: new, by simp [h3], ?_, by rw [h5, lastHi_cons]⟩
    intro z hz
    rcases List.mem_cons.1 hz with rfl | hz
    · exact (i1 hv _ e hg).grown hv1 (G h2 hv1)
    · exact h4 z hz
  | iterPanic h1 _ => intro hv; exact ⟨[], by simp, by simp, rfl⟩
  | @loopEmpty t v errs v' h1 _ =>
    intro hv y e' hy
    rw [ofPair_gives hy]
    exact markOk_list (l := []) (behind_pos (hv.adv h1.adv) (Nat.le_refl _)) (by simp) (fun sem y hy => hy.of_loop)
  | @loopList t v out errs v' h1 ho i1 =>
    intro hv y e' hy
    rw [ofPair_gives hy]
    obtain ⟨new, h3, h4⟩ := i1 hv
    have hl : out = new := by simpa using h3
    subst hl
    exact markOk_list (behind_spanOf (fun z hz => (h4 z hz).past) rfl) h4 (fun sem y hy => hy.of_loop)
  | loopStop => intro hv; exact ⟨[], by simp, by simp⟩
  | loopSkip hsk _ i1 => intro hv; exact i1 (hv.adv hsk.adv)
  | @loopGive t v out errs r x e v1 out' errs' v' h1 hg h2 i1 i2 =>
    intro hv
    have hv1 := hv.adv h1.adv
    obtain ⟨new, h3, h4⟩ := i2 hv1
    refine ⟨x :: new, by simp [h3], ?_⟩
    intro z hz
    rcases List.mem_cons.1 hz with rfl | hz
    · exact (i1 hv _ e hg).grown hv1 (G h2 hv1)
    · exact h4 z hz
  | loopPanic h1 _ _ i2 => intro hv; exact i2 (hv.adv h1.adv)
  | loopGiveStuck _ hg i1 =>
    intro hv
    refine ⟨[_], rfl, ?_⟩
    intro z hz
    rw [List.mem_singleton.1 hz]
    exact i1 hv _ _ hg
  | loopPanicStuck h1 _ => intro hv; exact ⟨[], by simp, by simp⟩
  | @split t p v r x e v1 a v' h1 hg h2 i1 i2 =>
    intro hv y e' hy
    rw [ofPair_gives hy]
    have hv1 := hv.adv h1.adv
    obtain ⟨es, ps, h3, h4, h5, h6⟩ := i2 hv1
    have h3' : a.elems = x :: es := h3
    have h4' : a.puncts = ps := by simpa using h4
    have hx := (i1 hv x e hg).grown hv1 (G h2 hv1)
    have hall : ∀ z ∈ x :: es, MarkOk S t z v' := by
      intro z hz
      rcases List.mem_cons.1 hz with rfl | hz
      · exact hx
      · exact h5 z hz
    rw [h3', h4']
    refine ⟨behind_spanOf (fun z hz => (hall z hz).past) ?_, fun sem y hy => ?_⟩
    · show lastHi (x :: es) x.span.lo = _
      rw [lastHi_cons, ← spanOf_last]; rfl
    · rcases hy.of_split with ⟨z, hz, hy⟩ | ⟨z, hz, hy⟩
      · exact (hall z hz).marked sem y hy
      · exact (h6 z hz).marked sem y hy
  | splitPanic => intro _ x e hg; cases hg
  | outerStop => intro hv; exact ⟨[], [], by simp, by simp, by simp, by simp⟩
  | outerPanic h1 _ => intro hv; exact ⟨[], [], by simp, by simp, by simp, by simp⟩
  | @outerGo t p v a r q e v1 a1 v2 a' v' _ h1 hg h2 h3 i1 i2 i3 =>
    intro hv
    have hv1 := hv.adv h1.adv
    have hv2 : Ready source v2 := hv1.adv (RunX.adv h2)
    obtain ⟨es, ps, k1, k2, k3, k4⟩ := i3 hv2
    rcases i2 hv1 with ⟨x, h4, h5, h6⟩ | ⟨h4, h5⟩
    · refine ⟨x :: es, q :: ps, by rw [k1, h4]; simp, by rw [k2, h5]; simp, ?_, ?_⟩
      · intro z hz
        rcases List.mem_cons.1 hz with rfl | hz
        · exact h6.grown hv2 (G h3 hv2)
        · exact k3 z hz
      · intro z hz
        rcases List.mem_cons.1 hz with rfl | hz
        · exact ((i1 hv _ e hg).grown hv1 (G h2 hv1)).grown hv2 (G h3 hv2)
        · exact k4 z hz
    · exact ⟨es, ps, by rw [k1, h4], by rw [k2, h5], k3, k4⟩
  | @outerBreak t p v a r q e v1 a1 v2 _ h1 hg h2 i1 i2 =>
    intro hv
    have hv1 := hv.adv h1.adv
    rcases i2 hv1 with ⟨x, h4, h5, h6⟩ | ⟨h4, h5⟩
    · refine ⟨[x], [q], h4, h5, ?_, ?_⟩
      · intro z hz; rw [List.mem_singleton.1 hz]; exact h6
      · intro z hz; rw [List.mem_singleton.1 hz]; exact (i1 hv _ e hg).grown hv1 (G h2 hv1)
    · exact ⟨[], [], by simpa using h4, by simpa using h5, by simp, by simp⟩
  | innerGive _ hg i1 => intro hv; exact .inl ⟨_, rfl, rfl, i1 hv _ _ hg⟩
  | innerFailLeave => intro hv; exact .inr ⟨rfl, rfl⟩
  | innerFailGo h1 _ _ i2 => intro hv; exact i2 (hv.adv (h1.adv.trans (.skip _)))
  | innerNoteLeave => intro hv; exact .inr ⟨rfl, rfl⟩
  | innerNoteGo _ _ i2 => intro hv; exact i2 (hv.adv (.skip _))
  | @punct t p v r x e v1 a v' h1 hg h2 i1 i2 =>
    intro hv y e' hy
    rw [ofPair_gives hy]
    have hv1 := hv.adv h1.adv
    obtain ⟨es, ps, h3, h4, h5, h6⟩ := i2 hv1
    have h3' : a.elems = x :: es := h3
    have h4' : a.puncts = ps := by simpa using h4
    have hx := (i1 hv x e hg).grown hv1 (G h2 hv1)
    have hall : ∀ z ∈ x :: es, MarkOk S t z v' := by
      intro z hz
      rcases List.mem_cons.1 hz with rfl | hz
      · exact hx
      · exact h5 z hz
    rw [h3', h4']
    refine ⟨fun b hb => ?_, fun sem y hy => ?_⟩
    · refine Nat.max_le.2 ⟨?_, ?_⟩
      · have hp := behind_spanOf (x := .seq (spanOf (x :: es)) (x :: es)) (fun z hz => (hall z hz).past) rfl b hb
        show lastHi (x :: es) x.span.lo ≤ _
        rw [lastHi_cons]
        rw [show (Tree.seq (spanOf (x :: es)) (x :: es)).span = spanOf (x :: es) from rfl, ← spanOf_last] at hp
        exact hp
      · cases hl : ps.getLast? with
        | none => exact ((RunX.bnd h1 hv) x e hg).next b (h2.adv.rest_mem hb)
        | some z => exact (h6 z (List.mem_of_getLast? hl)).past b hb
    · rcases hy.of_punct with ⟨z, hz, hy⟩ | ⟨z, hz, hy⟩
      · exact (hall z hz).marked sem y hy
      · exact (h6 z hz).marked sem y hy
  | punctPanic => intro _ x e hg; cases hg
  | pouterStop => intro hv; exact ⟨[], [], by simp, by simp, by simp, by simp⟩
  | pouterPanic h1 _ => intro hv; exact ⟨[], [], by simp, by simp, by simp, by simp⟩
  | @pouterGo t p v a r q e v1 a1 v2 a' v' _ h1 hg h2 h3 i1 i2 i3 =>
    intro hv
    have hv1 := hv.adv h1.adv
    have hv2 : Ready source v2 := hv1.adv (RunX.adv h2)
    obtain ⟨es, ps, k1, k2, k3, k4⟩ := i3 hv2
    obtain ⟨es1, g1, g2, g3⟩ := i2 hv1
    refine ⟨es1 ++ es, q :: ps, by rw [k1, g1]; simp, by rw [k2, g2]; simp, ?_, ?_⟩
    · intro z hz
      rcases List.mem_append.1 hz with hz | hz
      · exact (g3 z hz).grown hv2 (G h3 hv2)
      · exact k3 z hz
    · intro z hz
      rcases List.mem_cons.1 hz with rfl | hz
      · exact ((i1 hv _ e hg).grown hv1 (G h2 hv1)).grown hv2 (G h3 hv2)
      · exact k4 z hz
  | @pouterBreak t p v a r q e v1 a1 v2 _ h1 hg h2 i1 i2 =>
    intro hv
    have hv1 := hv.adv h1.adv
    obtain ⟨es1, g1, g2, g3⟩ := i2 hv1
    refine ⟨es1, [q], by rw [g1], by rw [g2], g3, ?_⟩
    intro z hz; rw [List.mem_singleton.1 hz]; exact (i1 hv _ e hg).grown hv1 (G h2 hv1)
  | pinnerGive _ hg i1 =>
    intro hv
    refine ⟨[_], rfl, rfl, ?_⟩
    intro z hz; rw [List.mem_singleton.1 hz]; exact i1 hv _ _ hg
  | pinnerStop => intro hv; exact ⟨[], by simp, rfl, by simp⟩
  | pinnerFailLeave h1 _ => intro hv; exact ⟨[], by simp, rfl, by simp⟩
  | pinnerFailGo h1 _ _ i2 => intro hv; exact i2 (hv.adv (h1.adv.trans (.skip _)))
  | pinnerNoteLeave => intro hv; exact ⟨[], by simp, rfl, by simp⟩
  | pinnerNoteGo _ _ i2 => intro hv; exact i2 (hv.adv (.skip _))
  | @recover t r v h v1 x errs panic v' h1 h2 i1 i2 =>
    intro hv y e' hy
    rw [ofPair_gives hy]
    have hv1 := hv.adv h1.adv
    have hx := i2 hv1 x rfl
    have hh := i1 hv
    unfold mkRecover
    cases hd : h.head with
    | none => exact ⟨hx.past.span rfl, fun sem y hy => hx.marked sem y hy.of_recoverNone⟩
    | some z =>
      have hz := (hh z hd).grown hv1 (G h2 hv1)
      refine ⟨hx.past.span rfl, fun sem y hy => ?_⟩
      rcases hy.of_recover with hy | hy
      · exact hz.marked sem y hy
      · exact hx.marked sem y hy
  | recoverPanic => intro _ x e hg; cases hg
  | headGive _ hg i1 => intro hv y hy; cases hy; exact i1 hv _ _ hg
  | headPanic => intro hv y hy; cases hy
  | headNone => intro hv y hy; cases hy
  | tailGive _ hg i1 => intro hv y hy; cases hy; exact i1 hv _ _ hg
  | tailPanic => intro hv y hy; cases hy
  | tailNote h => cases h
  | tailStop => intro hv y hy; cases hy
  | tailFail _ h1 _ _ _ i2 => intro hv; exact i2 (hv.adv (h1.adv.trans (.skip _)))
  | tailSkip _ _ _ i2 => intro hv; exact i2 (hv.adv (.skip _))

/-! ### The semantic types of a match -/

theorem Reach.cons {I : Type} {parts : I → List I} {i j k : I} (h : j ∈ parts i) (hr : Reach parts j k) : Reach parts i k := by
  induction hr with
  | refl => exact .step .refl h
  | step _ h' ih => exact .step ih h'

theorem Declares.of_part {t u : Ty m n} {V : Fin n} (h : u ∈ S.tyParts t) (hd : Declares S u V) : Declares S t V := by
  obtain ⟨k, g, sem, h1, h2⟩ := hd
  exact ⟨k, g, sem, h1.cons h, h2⟩

theorem addAll_mem : ∀ (cs : List (List (Cell n))) (sems : List (Option (LSet n))) (d : Cell n), d ∈ addAll cs sems →
    ∃ (i : Nat) (c : List (Cell n)) (s : Option (LSet n)), cs[i]? = some c ∧ sems[i]? = some s ∧ ∃ d0 ∈ c, d = d0.add s
  | [], _, _, h => by simp [addAll] at h
  | _ :: _, [], _, h => by simp [addAll] at h
  | c :: cs, s :: sems, d, h => by
    rw [addAll, List.mem_append] at h
    rcases h with h | h
    · obtain ⟨d0, h1, rfl⟩ := List.mem_map.1 h
      exact ⟨0, c, s, rfl, rfl, d0, h1, rfl⟩
    · obtain ⟨i, c', s', h1, h2, h3⟩ := addAll_mem cs sems d h
      exact ⟨i + 1, c', s', by simpa using h1, by simpa using h2, h3⟩

theorem add_contains {s : Option (LSet n)} {d : Cell n} {V : Fin n} (h : (d.add s).semantic.contains V = true) :
    d.semantic.contains V = true ∨ ∃ sem, s = some sem ∧ sem.contains V = true := by
  cases s with
  | none => exact .inl h
  | some sem =>
    have h' : (d.semantic.union sem).contains V = true := h
    rw [LSet.contains_union, Bool.or_eq_true] at h'
    exact h'.imp id fun h => ⟨sem, rfl, h⟩

theorem flatten_get {α : Type} : ∀ (cs : List (List α)) (d : α), d ∈ cs.flatten → ∃ (i : Nat) (c : List α), cs[i]? = some c ∧ d ∈ c
  | [], _, h => by simp at h
  | c :: cs, d, h => by
    rw [List.flatten_cons, List.mem_append] at h
    rcases h with h | h
    · exact ⟨0, c, rfl, h⟩
    · obtain ⟨i, c', h1, h2⟩ := flatten_get cs d h
      exact ⟨i + 1, c', by simpa using h1, h2⟩

theorem alternate_get {α β : Type} (xs ys : List β) : ∀ (a b : α) (k i : Nat) (u : α) (z : β), (alternate a b k)[i]? = some u →
    (interleave xs ys)[i]? = some z → u = a ∧ z ∈ xs ∨ u = b ∧ z ∈ ys := by
  induction xs, ys using interleave.induct with
  | case1 b => intro _ _ _ _ _ _ _ h; simp [interleave] at h
  | case2 y xs ys ih =>
    intro a b k i u z h1 h2
    rw [interleave_cons] at h2
    cases k with
    | zero => simp [alternate] at h1
    | succ k =>
      rw [alternate] at h1
      cases i with
      | zero => simp at h1 h2; exact .inl ⟨h1.symm, by rw [h2]; exact .head _⟩
      | succ i =>
        rcases ih b a k i u z (by simpa using h1) (by simpa using h2) with ⟨h3, h4⟩ | ⟨h3, h4⟩
        · exact .inr ⟨h3, h4⟩
        · exact .inl ⟨h3, .tail _ h4⟩

theorem alternate_mem {α : Type} : ∀ (a b : α) (k : Nat) (u : α), u ∈ alternate a b k → u = a ∨ u = b
  | _, _, 0, _, h => by simp [alternate] at h
  | a, b, k + 1, u, h => by
    rw [alternate] at h
    rcases List.mem_cons.1 h with h | h
    · exact .inl h
    · exact (alternate_mem b a k u h).symm

/-- Of a token in a match: all its semantic types are declared in the type. -/
theorem Parses.declares {pos : Nat} {t : Ty m n} {c : List (Cell n)} {x : Tree n} (h : Parses S source pos t c x) :
    ∀ d ∈ c, ∀ V, d.semantic.contains V = true → Declares S t V := by
  have wrap : ∀ {t : Ty m n} {ts : List (Ty m n)} {cs : List (List (Cell n))},
      (∀ (i : Nat) (c : List (Cell n)), cs[i]? = some c → ∃ u, ts[i]? = some u ∧ ∀ d ∈ c, ∀ V, d.semantic.contains V = true → Declares S u V) →
      (∀ u ∈ ts, u ∈ S.tyParts t ∨ ∃ w ∈ S.tyParts t, u ∈ S.tyParts w) →
      ∀ d ∈ cs.flatten, ∀ V, d.semantic.contains V = true → Declares S t V := by
    intro t ts cs h hs d hd V hV
    obtain ⟨i, c, h1, h2⟩ := flatten_get cs d hd
    obtain ⟨u, h3, h4⟩ := h i c h1
    have h5 := h4 d h2 V hV
    rcases hs u (List.mem_of_getElem? h3) with h6 | ⟨w, h6, h7⟩
    · exact h5.of_part h6
    · exact (h5.of_part h7).of_part h6
  refine Parses.rec (S := S) (source := source)
    (motive_1 := fun pos t c x _ => ∀ d ∈ c, ∀ V, d.semantic.contains V = true → Declares S t V)
    (motive_2 := fun pos ts cs l _ => ∀ (i : Nat) (c : List (Cell n)), cs[i]? = some c →
      ∃ u, ts[i]? = some u ∧ ∀ d ∈ c, ∀ V, d.semantic.contains V = true → Declares S u V)
    ?term ?struct ?enum ?tuple ?box ?optNone ?optSome ?existNone ?existSome ?quote ?parse ?plus ?starNone
    ?starSome ?loopNone ?loopSome ?split ?punct ?recover ?nil ?cons h
  case term =>
    intro pos i k t _ d hd V hV
    rw [List.mem_singleton.1 hd] at hV
    have hV : (LSet.new (n := n)).contains V = true := hV
    rw [LSet.contains_new] at hV
    cases hV
  case struct =>
    intro pos k f fs cs l hk hs ih d hd V hV
    obtain ⟨i, c, s, h1, h2, d0, h3, rfl⟩ := addAll_mem _ _ d hd
    obtain ⟨u, h4, h5⟩ := ih i c h1
    rw [List.getElem?_map] at h2 h4
    cases hg : (f :: fs)[i]? with
    | none => rw [hg] at h2; cases h2
    | some g =>
      rw [hg] at h2 h4
      cases h2; cases h4
      have hm := List.mem_of_getElem? hg
      rcases add_contains hV with h6 | ⟨sem, h6, h7⟩
      · refine (h5 d0 h3 V h6).of_part ?_
        simp only [Schema.tyParts, hk]
        exact List.mem_map_of_mem hm
      · exact ⟨k, g, sem, .refl, by rw [hk]; exact hm, h6, h7⟩
  case enum =>
    intro pos k f fs i t sem c x hk hi _ ih d hd V hV
    obtain ⟨d0, h1, rfl⟩ := List.mem_map.1 hd
    have hm := List.mem_of_getElem? hi
    rcases add_contains hV with h6 | ⟨s, h6, h7⟩
    · refine (ih d0 h1 V h6).of_part ?_
      simp only [Schema.tyParts, hk]
      exact List.mem_map.2 ⟨_, hm, rfl⟩
    · exact ⟨k, (t, sem), s, .refl, by rw [hk]; exact hm, h6, h7⟩
  case tuple => intro pos t ts cs l ht hs ih; exact wrap ih (fun u hu => .inl (by rw [isTuple_parts ht]; exact hu))
  case box => intro pos t c x _ ih d hd V hV; exact (ih d hd V hV).of_part (.head _)
  case optNone => intro pos t d hd; cases hd
  case optSome => intro pos t c x _ ih d hd V hV; exact (ih d hd V hV).of_part (.head _)
  case existNone => intro pos t d hd; cases hd
  case existSome => intro pos t c x _ ih d hd V hV; exact (ih d hd V hV).of_part (.head _)
  case quote => intro pos t c x _ ih d hd V hV; exact (ih d hd V hV).of_part (.head _)
  case parse => intro pos t c x _ ih d hd V hV; exact (ih d hd V hV).of_part (.head _)
  case plus => intro pos t k cs l hs ih; exact wrap ih (fun u hu => .inl (by rw [List.eq_of_mem_replicate hu]; exact .head _))
  case starNone => intro pos t d hd; cases hd
  case starSome =>
    intro pos t k cs l hs ih
    exact wrap ih (fun u hu => .inr ⟨.plus t, .head _, by rw [List.eq_of_mem_replicate hu]; exact .head _⟩)
  case loopNone => intro pos t d hd; cases hd
  case loopSome => intro pos t k cs l hs ih; exact wrap ih (fun u hu => .inl (by rw [List.eq_of_mem_replicate hu]; exact .head _))
  case split =>
    intro pos t p cs es ps hl hs ih
    refine wrap ih (fun u hu => .inl ?_)
    rcases alternate_mem _ _ _ _ hu with rfl | rfl
    · exact .head _
    · exact .tail _ (.head _)
  case punct =>
    intro pos t p cs es ps he hl hs ih
    refine wrap ih (fun u hu => .inl ?_)
    rcases alternate_mem _ _ _ _ hu with rfl | rfl
    · exact .head _
    · exact .tail _ (.head _)
  case recover => intro pos t r cs x y hs ih; exact wrap ih (fun u hu => .inl hu)
  case nil => intro pos i c h; simp at h
  case cons =>
    intro pos t ts c cs x xs _ _ i1 i2 i c' h
    cases i with
    | zero => simp at h; subst h; exact ⟨t, rfl, i1⟩
    | succ i => obtain ⟨u, h1, h2⟩ := i2 i c' (by simpa using h); exact ⟨u, by simpa using h1, h2⟩

/-- Where a semantic type comes from: a field that has the token, or something the tree does not show. -/
def Comes (S : Schema m n) (t : Ty m n) (x : Tree n) (a : Token n) (V : Fin n) : Prop :=
  (∃ sem y, Tagged S t x sem y ∧ sem.contains V = true ∧ a.span.Inside y.span) ∨
  ∃ u v, Reach S.tyParts t u ∧ u.hidden = some v ∧ Declares S v V

theorem Comes.wrap {t u : Ty m n} {x z : Tree n} {a : Token n} {V : Fin n} (h : Comes S u z a V)
    (hp : ∀ v, Reach S.tyParts u v → Reach S.tyParts t v) (ht : ∀ sem y, Tagged S u z sem y → Tagged S t x sem y) :
    Comes S t x a V := by
  rcases h with ⟨sem, y, h1, h2⟩ | ⟨u', v, h1, h2⟩
  · exact .inl ⟨sem, y, ht sem y h1, h2⟩
  · exact .inr ⟨u', v, hp u' h1, h2⟩

/-- Of a token in a match: all its semantic types come from somewhere in the tree. -/
theorem Parses.comes {pos : Nat} {t : Ty m n} {c : List (Cell n)} {x : Tree n} (h : Parses S source pos t c x) :
    After pos c → ∀ d ∈ c, ∀ V, d.semantic.contains V = true → Comes S t x d.token V := by
  have wrap : ∀ {t : Ty m n} {ts : List (Ty m n)} {cs : List (List (Cell n))} {l : List (Tree n)} {x : Tree n},
      (∀ (i : Nat) (c : List (Cell n)), cs[i]? = some c → ∃ u z, ts[i]? = some u ∧ l[i]? = some z ∧
        ∀ d ∈ c, d.token.span.Inside z.span ∧ ∀ V, d.semantic.contains V = true → Comes S u z d.token V) →
      (∀ (i : Nat) u z, ts[i]? = some u → l[i]? = some z → (u ∈ S.tyParts t ∨ ∃ w ∈ S.tyParts t, u ∈ S.tyParts w) ∧
        ∀ sem y, Tagged S u z sem y → Tagged S t x sem y) →
      ∀ d ∈ cs.flatten, ∀ V, d.semantic.contains V = true → Comes S t x d.token V := by
    intro t ts cs l x h hs d hd V hV
    obtain ⟨i, c, h1, h2⟩ := flatten_get cs d hd
    obtain ⟨u, z, h3, h4, h5⟩ := h i c h1
    obtain ⟨h6, h7⟩ := hs i u z h3 h4
    refine ((h5 d h2).2 V hV).wrap (fun v hv => ?_) h7
    rcases h6 with h6 | ⟨w, h6, h8⟩
    · exact hv.cons h6
    · exact (hv.cons h8).cons h6
  have hidden : ∀ {t u : Ty m n} {x z : Tree n} {pos : Nat} {c : List (Cell n)}, Parses S source pos t c x → u.hidden = some t →
      ∀ d ∈ c, ∀ V, d.semantic.contains V = true → Comes S u z d.token V :=
    fun hp hh d hd V hV => .inr ⟨_, _, .refl, hh, hp.declares d hd V hV⟩
  refine Parses.rec (S := S) (source := source)
    (motive_1 := fun pos t c x _ => After pos c → ∀ d ∈ c, ∀ V, d.semantic.contains V = true → Comes S t x d.token V)
    (motive_2 := fun pos ts cs l _ => After pos cs.flatten → ∀ (i : Nat) (c : List (Cell n)), cs[i]? = some c →
      ∃ u z, ts[i]? = some u ∧ l[i]? = some z ∧
        ∀ d ∈ c, d.token.span.Inside z.span ∧ ∀ V, d.semantic.contains V = true → Comes S u z d.token V)
    ?term ?struct ?enum ?tuple ?box ?optNone ?optSome ?existNone ?existSome ?quote ?parse ?plus ?starNone
    ?starSome ?loopNone ?loopSome ?split ?punct ?recover ?nil ?cons h
  case term =>
    intro pos i k t _ _ d hd V hV
    rw [List.mem_singleton.1 hd] at hV
    have hV : (LSet.new (n := n)).contains V = true := hV
    rw [LSet.contains_new] at hV
    cases hV
  case struct =>
    intro pos k f fs cs l hk hs ih ha d hd V hV
    have ht := addAll_tokens cs ((f :: fs).map (·.2)) (by rw [hs.lengths.1]; simp)
    obtain ⟨i, c, s, h1, h2, d0, h3, rfl⟩ := addAll_mem _ _ d hd
    obtain ⟨u, z, h4, h4', h5⟩ := ih (ha.congr ht) i c h1
    have htok : (d0.add s).token = d0.token := by cases s <;> rfl
    rw [htok]
    rw [List.getElem?_map] at h2 h4
    cases hg : (f :: fs)[i]? with
    | none => rw [hg] at h2; cases h2
    | some g =>
      rw [hg] at h2 h4
      cases h2; cases h4
      have hm := List.mem_of_getElem? hg
      rcases add_contains hV with h6 | ⟨sem, h6, h7⟩
      · refine ((h5 d0 h3).2 V h6).wrap (fun v hv => hv.cons ?_) fun sem y hy => .inField hk hg h4' hy
        simp only [Schema.tyParts, hk]
        exact List.mem_map_of_mem hm
      · refine .inl ⟨sem, z, .field (i := i) (t := g.1) hk ?_ h4', h7, (h5 d0 h3).1⟩
        rw [hg, ← h6]
  case enum =>
    intro pos k f fs i t sem c x hk hi hp ih ha d hd V hV
    obtain ⟨d0, h1, rfl⟩ := List.mem_map.1 hd
    have ha' := ha.congr (add_tokens sem c)
    have htok : (d0.add sem).token = d0.token := by cases sem <;> rfl
    rw [htok]
    have hm := List.mem_of_getElem? hi
    rcases add_contains hV with h6 | ⟨s, h6, h7⟩
    · refine (ih ha' d0 h1 V h6).wrap (fun v hv => hv.cons ?_) fun sem y hy => .inVariant hk hi hy
      simp only [Schema.tyParts, hk]
      exact List.mem_map.2 ⟨_, hm, rfl⟩
    · subst h6
      exact .inl ⟨s, x, .variant hk hi, h7, hp.covers ha' _ (List.mem_map_of_mem h1)⟩
  case tuple =>
    intro pos t ts cs l ht hs ih ha
    exact wrap (ih ha) (fun i u z h1 h2 => ⟨.inl (by rw [isTuple_parts ht]; exact List.mem_of_getElem? h1),
      fun sem y hy => .tuple ht h1 h2 hy⟩)
  case box => intro pos t c x _ ih ha d hd V hV; exact (ih ha d hd V hV).wrap (fun v hv => hv.cons (.head _)) fun _ _ h => .box h
  case optNone => intro pos t _ d hd; cases hd
  case optSome => intro pos t c x _ ih ha d hd V hV; exact (ih ha d hd V hV).wrap (fun v hv => hv.cons (.head _)) fun _ _ h => .option h
  case existNone => intro pos t _ d hd; cases hd
  case existSome => intro pos t c x hp _ _; exact hidden hp rfl
  case quote => intro pos t c x hp _ _; exact hidden hp rfl
  case parse => intro pos t c x hp _ _; exact hidden hp rfl
  case plus =>
    intro pos t k cs l hs ih ha
    refine wrap (ih ha) (fun i u z h1 h2 => ?_)
    have := List.eq_of_mem_replicate (List.mem_of_getElem? h1)
    subst this
    exact ⟨.inl (.head _), fun sem y hy => .plus (List.mem_of_getElem? h2) hy⟩
  case starNone => intro pos t _ d hd; cases hd
  case starSome =>
    intro pos t k cs l hs ih ha
    refine wrap (ih ha) (fun i u z h1 h2 => ?_)
    have := List.eq_of_mem_replicate (List.mem_of_getElem? h1)
    subst this
    exact ⟨.inr ⟨.plus u, .head _, .head _⟩, fun sem y hy => .star (List.mem_of_getElem? h2) hy⟩
  case loopNone => intro pos t _ d hd; cases hd
  case loopSome =>
    intro pos t k cs l hs ih ha
    refine wrap (ih ha) (fun i u z h1 h2 => ?_)
    have := List.eq_of_mem_replicate (List.mem_of_getElem? h1)
    subst this
    exact ⟨.inl (.head _), fun sem y hy => .loop (List.mem_of_getElem? h2) hy⟩
  case split =>
    intro pos t p cs es ps hl hs ih ha
    refine wrap (ih ha) (fun i u z h1 h2 => ?_)
    rcases alternate_get _ _ _ _ _ _ _ _ h1 h2 with ⟨rfl, h3⟩ | ⟨rfl, h3⟩
    · exact ⟨.inl (.head _), fun sem y hy => .splitElem h3 hy⟩
    · exact ⟨.inl (.tail _ (.head _)), fun sem y hy => .splitPunct h3 hy⟩
  case punct =>
    intro pos t p cs es ps he hl hs ih ha
    refine wrap (ih ha) (fun i u z h1 h2 => ?_)
    rcases alternate_get _ _ _ _ _ _ _ _ h1 h2 with ⟨rfl, h3⟩ | ⟨rfl, h3⟩
    · exact ⟨.inl (.head _), fun sem y hy => .punctElem h3 hy⟩
    · exact ⟨.inl (.tail _ (.head _)), fun sem y hy => .punctPunct h3 hy⟩
  case recover =>
    intro pos t r cs x y hs ih ha
    refine wrap (ih ha) (fun i u z h1 h2 => ?_)
    match i with
    | 0 => simp at h1 h2; subst h1 h2; exact ⟨.inl (.head _), fun sem y hy => .head hy⟩
    | 1 => simp at h1 h2; subst h1 h2; exact ⟨.inl (.tail _ (.head _)), fun sem y hy => .tail hy⟩
    | i + 2 => simp at h1
  case nil => intro pos _ i c h; simp at h
  case cons =>
    intro pos t ts c cs x xs hp _ i1 i2 ha i c' h
    rw [List.flatten_cons] at ha
    cases i with
    | zero =>
      simp at h; subst h
      exact ⟨t, x, rfl, rfl, fun d hd => ⟨hp.covers ha.left _ (List.mem_map_of_mem hd), i1 ha.left d hd⟩⟩
    | succ i =>
      obtain ⟨u, z, h1, h2, h3⟩ := i2 ha.right i c' (by simpa using h)
      exact ⟨u, z, by simpa using h1, by simpa using h2, h3⟩

end Teleparse
