import Verif.Proof.Dfs
import Verif.Spec.Depth
import Verif.Proof.Yields
/-
Calls inside of each other. A call of a type inside of a call of the same type at the same place would go on for ever.
-/
namespace Teleparse
namespace Depth
variable {m n : Nat} {σ : Type} {S : Schema m n} {md : Metadata (PId m n) n}

/-! ### The types a type calls -/

/-- The types whose `produce` is called by `produce` of a type. -/
def callees (S : Schema m n) : Ty m n → List (Ty m n)
  | .star t => [t]
  | t => S.tyParts t

theorem self_subs (t : Ty m n) : t ∈ t.subs := by
  cases t <;> simp [Ty.subs]

theorem subs_callees (S : Schema m n) : ∀ {u t a : Ty m n}, t ∈ u.subs → (∀ k, t ≠ .user k) → a ∈ callees S t →
    a ∈ u.subs := by
  intro u
  induction u with
  | term k x => intro t a h _ ha; cases List.mem_singleton.1 h; cases ha
  | user k => intro t a h hk _; exact absurd (List.mem_singleton.1 h) (hk k)
  | box x ih | option x ih | exist x ih | quote x ih | parse x ih | plus x ih | star x ih | loop x ih =>
    intro t a h hk ha
    rcases List.mem_cons.1 h with rfl | h
    · cases List.mem_singleton.1 ha
      exact List.mem_cons_of_mem _ (self_subs _)
    · exact List.mem_cons_of_mem _ (ih h hk ha)
  | split x y ih1 ih2 | punct x y ih1 ih2 | recover x y ih1 ih2 | tup2 x y ih1 ih2 =>
    intro t a h hk ha
    rcases List.mem_cons.1 h with rfl | h
    · simp only [callees, Schema.tyParts, List.mem_cons, List.not_mem_nil, or_false] at ha
      rcases ha with rfl | rfl <;> simp [Ty.subs, self_subs]
    · refine List.mem_cons_of_mem _ ?_
      rcases List.mem_append.1 h with h | h
      · exact List.mem_append_left _ (ih1 h hk ha)
      · exact List.mem_append_right _ (ih2 h hk ha)
  | tup3 x y z ih1 ih2 ih3 =>
    intro t a h hk ha
    rcases List.mem_cons.1 h with rfl | h
    · simp only [callees, Schema.tyParts, List.mem_cons, List.not_mem_nil, or_false] at ha
      rcases ha with rfl | rfl | rfl <;> simp [Ty.subs, self_subs]
    · simp only [List.mem_append] at h
      simp only [Ty.subs, List.mem_cons, List.mem_append]
      rcases h with (h | h) | h
      · exact .inr (.inl (.inl (ih1 h hk ha)))
      · exact .inr (.inl (.inr (ih2 h hk ha)))
      · exact .inr (.inr (ih3 h hk ha))
  | tup4 x y z w ih1 ih2 ih3 ih4 =>
    intro t a h hk ha
    rcases List.mem_cons.1 h with rfl | h
    · simp only [callees, Schema.tyParts, List.mem_cons, List.not_mem_nil, or_false] at ha
      rcases ha with rfl | rfl | rfl | rfl <;> simp [Ty.subs, self_subs]
    · simp only [List.mem_append] at h
      simp only [Ty.subs, List.mem_cons, List.mem_append]
      rcases h with ((h | h) | h) | h
      · exact .inr (.inl (.inl (.inl (ih1 h hk ha))))
      · exact .inr (.inl (.inl (.inr (ih2 h hk ha))))
      · exact .inr (.inl (.inr (ih3 h hk ha)))
      · exact .inr (.inr (ih4 h hk ha))
  | tup5 x y z w s ih1 ih2 ih3 ih4 ih5 =>
    intro t a h hk ha
    rcases List.mem_cons.1 h with rfl | h
    · simp only [callees, Schema.tyParts, List.mem_cons, List.not_mem_nil, or_false] at ha
      rcases ha with rfl | rfl | rfl | rfl | rfl <;> simp [Ty.subs, self_subs]
    · simp only [List.mem_append] at h
      simp only [Ty.subs, List.mem_cons, List.mem_append]
      rcases h with (((h | h) | h) | h) | h
      · exact .inr (.inl (.inl (.inl (.inl (ih1 h hk ha)))))
      · exact .inr (.inl (.inl (.inl (.inr (ih2 h hk ha)))))
      · exact .inr (.inl (.inl (.inr (ih3 h hk ha))))
      · exact .inr (.inl (.inr (ih4 h hk ha)))
      · exact .inr (.inr (ih5 h hk ha))

theorem written_root (t : Ty m n) : t ∈ S.written t := List.mem_append_left _ (self_subs t)

/-- What a written type calls is written. -/
theorem written_callees {root t a : Ty m n} (h : t ∈ S.written root) (ha : a ∈ callees S t) : a ∈ S.written root := by
  by_cases hk : ∀ k, t ≠ .user k
  · rcases List.mem_append.1 h with h | h
    · exact List.mem_append_left _ (subs_callees S h hk ha)
    · obtain ⟨k, hk1, h⟩ := List.mem_flatMap.1 h
      obtain ⟨u, hu, h⟩ := List.mem_flatMap.1 h
      exact List.mem_append_right _ (List.mem_flatMap.2 ⟨k, hk1, List.mem_flatMap.2 ⟨u, hu, subs_callees S h hk ha⟩⟩)
  · have : ∃ k, t = .user k := by
      cases t with
      | user k => exact ⟨k, rfl⟩
      | _ => exact absurd (fun k => by simp) hk
    obtain ⟨k, rfl⟩ := this
    exact List.mem_append_right _ (List.mem_flatMap.2 ⟨k, by simp, List.mem_flatMap.2 ⟨a, ha, self_subs a⟩⟩)

/-- Only the types called matter. -/
theorem step_congr (o : Ops σ n) {iters : Nat} {rec rec' : Ty m n → P σ n} {t : Ty m n}
    (h : ∀ u ∈ callees S t, rec u = rec' u) : produceStep o S md iters rec t = produceStep o S md iters rec' t := by
  cases t with
  | term k t => rfl
  | user k =>
    have h : ∀ u ∈ S.tyParts (.user k), rec u = rec' u := h
    cases hS : S k with
    | struct f fs =>
      simp only [Schema.tyParts, hS] at h
      simp only [produceStep, hS]
      congr 1
      exact List.map_congr_left fun a ha => by rw [h _ (List.mem_map.2 ⟨a, ha, rfl⟩)]
    | enum f fs =>
      simp only [Schema.tyParts, hS] at h
      simp only [produceStep, hS]
      congr 1
      exact List.map_congr_left fun a ha => by rw [h _ (List.mem_map.2 ⟨a, ha, rfl⟩)]
  | _ =>
    simp only [callees, Schema.tyParts, List.mem_cons, List.not_mem_nil, or_false, forall_eq_or_imp, forall_eq] at h
    simp only [produceStep, h]

/-- A relation of computations between the two sides of a step, if it holds for the calls made. -/
theorem step_rel {τ : Type} {k : Nat} {C : ∀ {α : Type}, M σ α → M τ α → Prop} {o : Ops σ n} {o' : Ops τ n} (h : Closed k C o o')
    {f f' : Nat} (hf : f' = f + k) {rec : Ty m n → P σ n} {rec' : Ty m n → P τ n} {t : Ty m n}
    (hr : ∀ u ∈ callees S t, C (rec u) (rec' u)) :
    C (produceStep o S md f rec t) (produceStep o' S md f' rec' t) := by
  classical
  rw [step_congr (rec := rec) (rec' := fun u => if u ∈ callees S t then rec u else M.fuel) o
      (fun u hu => by rw [if_pos hu]),
    step_congr (rec := rec') (rec' := fun u => if u ∈ callees S t then rec' u else M.fuel) o'
      (fun u hu => by rw [if_pos hu])]
  have hr' : ∀ u, C (if u ∈ callees S t then rec u else M.fuel) (if u ∈ callees S t then rec' u else M.fuel) := by
    intro u
    by_cases hu : u ∈ callees S t
    · rw [if_pos hu, if_pos hu]; exact hr u hu
    · rw [if_neg hu, if_neg hu]; exact h.fuel _ fun _ => rfl
  exact h.core.step S md hf hr' (fun u => h.text (hr' u)) t

/-! ### Depth and fuel -/

/-- With enough fuel, `produce` does what it does on a stack. -/
theorem nested_produce (o : Ops σ n) {iters : Nat} : ∀ (d : Nat) {f : Nat}, iters + d ≤ f → ∀ (t : Ty m n) (s : σ),
    nested o S md iters d t s ≠ .fuel → produce o S md f t s = nested o S md iters d t s
  | 0, _, _, _, _, h => absurd rfl h
  | d + 1, 0, hf, _, _, _ => by omega
  | d + 1, f + 1, hf, t, s, h => by
    have hk : f = iters + (f - iters) := by omega
    exact step_rel (mono_closed o (f - iters)) hk
      (fun u _ s hs => nested_produce o d (by omega) u s hs) s h

/-- A deeper stack does not change a result. -/
theorem nested_more (o : Ops σ n) {i i' : Nat} (hi : i ≤ i') : ∀ {d d' : Nat}, d ≤ d' → ∀ (t : Ty m n) (s : σ),
    nested o S md i d t s ≠ .fuel → nested o S md i' d' t s = nested o S md i d t s
  | 0, _, _, _, _, h => absurd rfl h
  | d + 1, 0, hf, _, _, _ => by omega
  | d + 1, d' + 1, hf, t, s, h => by
    have hk : i' = i + (i' - i) := by omega
    exact step_rel (mono_closed o (i' - i)) hk
      (fun u _ s hs => nested_more o hi (by omega) u s hs) s h

theorem nested_sim (ext : Fin n → Bool) (i : Nat) : ∀ (d : Nat) (t : Ty m n) (p : Parser n),
    nested View.ops S md i d t (p.view ext) = (nested (Parser.ops ext) S md i d t p).mapState (Parser.view ext)
  | 0, _, _ => rfl
  | d + 1, t, p => step_rel (sim_closed ext) rfl (fun u _ p => nested_sim ext i d u p) p

/-- The smallest fuel that is enough. -/
theorem least {o : Ops σ n} {f : Nat} {t : Ty m n} {s : σ} (h : produce o S md f t s ≠ .fuel) :
    ∃ g, g + 1 ≤ f ∧ produce o S md g t s = .fuel ∧ produce o S md (g + 1) t s = produce o S md f t s := by
  induction f with
  | zero => exact absurd rfl h
  | succ f ih =>
    by_cases h1 : produce o S md f t s = .fuel
    · exact ⟨f, Nat.le_refl _, h1, rfl⟩
    · obtain ⟨g, h2, h3, h4⟩ := ih h1
      exact ⟨g, by omega, h3, h4.trans (produce_mono o S md (Nat.le_succ f) t s h1).symm⟩

theorem cons_mem {α : Type} {a : α} {l : List α} {p : α → Prop} (ha : p a) (h : ∀ u ∈ l, p u) : ∀ u ∈ a :: l, p u := by
  intro u hu
  rcases List.mem_cons.1 hu with rfl | hu
  · exact ha
  · exact h u hu

theorem nodup_length {α : Type} [DecidableEq α] : ∀ {l T : List α}, l.Nodup → (∀ a ∈ l, a ∈ T) → l.length ≤ T.length
  | [], _, _, _ => Nat.zero_le _
  | a :: l, T, hl, h => by
    have ha : a ∈ T := h a (by simp)
    have hn := List.nodup_cons.1 hl
    have ih := nodup_length (l := l) (T := T.erase a) hn.2 (fun b hb => by
      refine (List.mem_erase_of_ne ?_).2 (h b (by simp [hb]))
      rintro rfl
      exact hn.1 hb)
    have := List.length_erase_of_mem ha
    have := List.length_pos_of_mem ha
    simp only [List.length_cons]
    omega

/-! ### Types that are not inside of themselves -/

theorem inside_callee {t a : Ty m n} (h : a ∈ callees S t) : S.Inside t a := by
  cases t with
  | star x =>
    cases List.mem_singleton.1 h
    exact ⟨.plus a, by simp [Schema.tyParts], .step .refl (by simp [Schema.tyParts])⟩
  | _ => exact ⟨a, h, .refl⟩

theorem reach_callee {root t a : Ty m n} (ht : Reach S.tyParts root t) (h : a ∈ callees S t) : Reach S.tyParts root a := by
  obtain ⟨b, h1, h2⟩ := inside_callee h
  exact (Reach.step ht h1).trans h2

theorem flat (o : Ops σ n) {root : Ty m n} (hflat : S.Flat root) {i : Nat} : ∀ (b : Nat) (t : Ty m n) (s : σ) (f : Nat)
    (seen : List (Ty m n)), Reach S.tyParts root t → t ∈ S.written root → seen.Nodup → (∀ u ∈ seen, u ∈ S.written root) →
    (∀ u ∈ seen, S.Inside u t) → seen.length + b = (S.written root).length → f ≤ i + 1 →
    produce o S md f t s ≠ .fuel → nested o S md i b t s = produce o S md f t s := by
  intro b
  induction b with
  | zero =>
    intro t s f seen hr ht hn hs hin hlen _ _
    have hnew : t ∉ seen := fun h => hflat t hr (hin t h)
    have := nodup_length (l := t :: seen) (T := S.written root) (List.nodup_cons.2 ⟨hnew, hn⟩)
      (cons_mem ht hs)
    simp only [List.length_cons] at this
    omega
  | succ b ih =>
    intro t s f seen hr ht hn hs hin hlen hf h
    cases f with
    | zero => exact absurd rfl h
    | succ f =>
      have hnew : t ∉ seen := fun h => hflat t hr (hin t h)
      have hk : i = f + (i - f) := by omega
      refine step_rel (mono_closed o (i - f)) hk (fun u hu s hs' => ?_) s h
      refine ih u s f (t :: seen) (reach_callee hr hu) (written_callees ht hu) (List.nodup_cons.2 ⟨hnew, hn⟩)
        (cons_mem ht hs)
        (fun v hv => ?_) (by simp only [List.length_cons]; omega) (by omega) hs'
      rcases List.mem_cons.1 hv with rfl | hv
      · exact inside_callee hu
      · obtain ⟨a, h1, h2⟩ := hin v hv
        exact ⟨a, h1, reach_callee h2 hu⟩

/-- A number that gets smaller from a type to its parts. -/
theorem flat_of_rank {root : Ty m n} (ρ : Ty m n → Nat) (h : ∀ t, Reach S.tyParts root t → ∀ a ∈ S.tyParts t, ρ a < ρ t) :
    S.Flat root := by
  rintro t ht ⟨a, ha, hr⟩
  have key : ∀ {b}, Reach S.tyParts a b → ρ b < ρ t := by
    intro b hb
    induction hb with
    | refl => exact h t ht a ha
    | step hr hj ih => exact Nat.lt_trans (h _ ((Reach.step ht ha).trans hr) _ hj) ih
  exact Nat.lt_irrefl _ (key hr)

/-! ### Calls at the same place -/

/-- The same place, up to the semantic types of the tokens before it. -/
structure Same (v w : View n) : Prop where
  source : v.source = w.source
  rest : v.rest = w.rest
  pos : v.pos = w.pos

/-- Results that differ only in the semantic types of tokens. -/
inductive OSame {α : Type} : Out (View n) α → Out (View n) α → Prop
  | fuel : OSame .fuel .fuel
  | crash : OSame .crash .crash
  | ok {a v w} : Same v w → OSame (.ok a v) (.ok a w)

theorem pos_push (c : TokenVec n) (t : Token n) (s : Str) (l : List (Token n)) :
    (View.mk s (c.push t) l).pos = t.span.hi := by
  simp [View.pos, TokenVec.push, Cell.ofToken]

theorem pos_apply (v : View n) (sp : Span) (sem : LSet n) :
    (View.mk v.source (v.cells.applySemanticInside sp sem) v.rest).pos = v.pos := by
  have h := apply_tokens v.cells sp sem
  have : ∀ c : TokenVec n, (c.getLast?).map (·.token.span.hi) = ((c.map (·.token)).getLast?).map (·.span.hi) := by
    intro c
    rw [List.getLast?_map, Option.map_map]
    rfl
  unfold View.pos
  rw [this, this, h]

theorem same_closed : Closed 0 (fun {α} (x y : M (View n) α) => ∀ v w, Same v w → OSame (x v) (y w)) View.ops View.ops where
  pure a v w h := .ok h
  bind {α β x y f g} hx hf v w h := by
    show OSame (M.bind x f v) (M.bind y g w)
    unfold M.bind
    have := hx v w h
    generalize x v = p at this
    generalize y w = q at this
    cases this with
    | fuel => exact .fuel
    | crash => exact .crash
    | ok h => exact hf _ _ _ h
  fuel y h v w _ := by rw [h rfl]; exact .fuel
  crash v w _ := .crash
  peek v w h := by
    show OSame (.ok v.rest.head? v) (.ok w.rest.head? w)
    rw [h.rest]
    exact .ok h
  consume v w h := by
    show OSame (.ok v.consume.1 v.consume.2) (.ok w.consume.1 w.consume.2)
    obtain ⟨s, c, r⟩ := v
    obtain ⟨s', c', r'⟩ := w
    cases h.source
    cases h.rest
    cases r with
    | nil => exact .ok h
    | cons t r => exact .ok ⟨rfl, rfl, (pos_push c t s r).trans (pos_push c' t s r).symm⟩
  source v w h := by
    show OSame (.ok v.source v) (.ok w.source w)
    rw [h.source]
    exact .ok h
  emptySpan v w h := by
    show OSame (.ok (⟨v.pos, v.pos⟩ : Span) v) (.ok ⟨w.pos, w.pos⟩ w)
    rw [h.pos]
    exact .ok h
  apply sp sem v w h := by
    refine .ok ⟨h.source, h.rest, ?_⟩
    show (View.mk v.source (v.cells.applySemanticInside sp sem) v.rest).pos =
      (View.mk w.source (w.cells.applySemanticInside sp sem) w.rest).pos
    rw [pos_apply, pos_apply, h.pos]

theorem same_fuel {v w : View n} (h : Same v w) (f : Nat) (t : Ty m n) (hf : produce View.ops S md f t v = .fuel) :
    produce View.ops S md f t w = .fuel := by
  have := same_closed.produce S md f t v w h
  rw [Nat.add_zero, hf] at this
  generalize produce View.ops S md f t w = q at this
  cases this
  rfl

/-- Some tokens further on. -/
def Far (v w : View n) : Prop := Same v w ∨ w.source = v.source ∧ w.rest.length < v.rest.length

theorem Same.trans {a b c : View n} (h : Same a b) (g : Same b c) : Same a c :=
  ⟨h.source.trans g.source, h.rest.trans g.rest, h.pos.trans g.pos⟩

theorem Far.trans {a b c : View n} (h : Far a b) (g : Far b c) : Far a c := by
  rcases h with h | ⟨h1, h2⟩
  · rcases g with g | ⟨g1, g2⟩
    · exact .inl (h.trans g)
    · exact .inr ⟨g1.trans h.source.symm, by rw [h.rest]; exact g2⟩
  · rcases g with g | ⟨g1, g2⟩
    · exact .inr ⟨g.source.symm.trans h1, by rw [← g.rest]; exact h2⟩
    · exact .inr ⟨g1.trans h1, by omega⟩

theorem Far.refl (v : View n) : Far v v := .inl ⟨rfl, rfl, rfl⟩

theorem far_consume (v : View n) : Far v v.consume.2 := by
  obtain ⟨s, c, r⟩ := v
  cases r with
  | nil => exact .refl _
  | cons t r => exact .inr ⟨rfl, by simp [View.consume]⟩

theorem far_apply (v : View n) (sp : Span) (sem : LSet n) : Far v (View.ops.applySemantic v sp sem) :=
  .inl ⟨rfl, rfl, (pos_apply v sp sem).symm⟩

theorem far_produce {f : Nat} {t : Ty m n} {v w : View n} {r} (h : produce View.ops S md f t v = .ok r w) : Far v w :=
  (pres_closed View.ops Far .refl (fun _ _ _ => .trans) .refl far_consume far_apply).produce S md f t v r w h

/-- Results of the left side that stay at `v` or further on are the results of the right side. -/
theorem far_closed (v : View n) (k : Nat) : Closed k (fun {α} (x y : M (View n) α) => ∀ s, Far v s →
    (x s ≠ .fuel → y s = x s) ∧ ∀ a s', x s = .ok a s' → Far v s') View.ops View.ops where
  pure a s h := ⟨fun _ => rfl, fun b s' e => by cases e; exact h⟩
  bind {α β x y f g} hx hf s h := by
    obtain ⟨h1, h2⟩ := hx s h
    have key : (M.bind x f s ≠ .fuel → M.bind y g s = M.bind x f s) ∧ ∀ a s', M.bind x f s = .ok a s' → Far v s' := by
      unfold M.bind
      cases hxs : x s with
      | fuel => exact ⟨fun h => absurd rfl h, fun _ _ e => by cases e⟩
      | crash =>
        rw [h1 (by rw [hxs]; simp), hxs]
        exact ⟨fun _ => rfl, fun _ _ e => by cases e⟩
      | ok a s1 =>
        rw [h1 (by rw [hxs]; simp), hxs]
        exact hf a s1 (h2 a s1 hxs)
    exact key
  fuel y _ s h := ⟨fun h => absurd rfl h, fun _ _ e => by cases e⟩
  crash s _ := ⟨fun _ => rfl, fun _ _ e => by cases e⟩
  peek s h := ⟨fun _ => rfl, fun _ _ e => by cases e; exact h⟩
  consume s h := ⟨fun _ => rfl, fun _ _ e => by cases e; exact h.trans (far_consume s)⟩
  source s h := ⟨fun _ => rfl, fun _ _ e => by cases e; exact h⟩
  emptySpan s h := ⟨fun _ => rfl, fun _ _ e => by cases e; exact h⟩
  apply sp sem s h := ⟨fun _ => rfl, fun _ _ e => by cases e; exact h.trans (far_apply s sp sem)⟩

theorem deep {root : Ty m n} {i : Nat} : ∀ (L b : Nat) (t : Ty m n) (v : View n) (f : Nat) (seen : List (Ty m n)),
    v.rest.length = L → t ∈ S.written root → seen.Nodup → (∀ u ∈ seen, u ∈ S.written root) →
    (∀ u ∈ seen, produce View.ops S md f u v = .fuel) → seen.length + b = (S.written root).length → f ≤ i + 1 →
    produce View.ops S md f t v ≠ .fuel →
    nested View.ops S md i (L * (S.written root).length + b) t v = produce View.ops S md f t v := by
  intro L
  induction L using Nat.strongRecOn with
  | ind L ihL =>
  intro b
  induction b with
  | zero =>
    intro t v f seen hL ht hn hs hin hlen _ h
    have hnew : t ∉ seen := fun h' => h (hin t h')
    have := nodup_length (l := t :: seen) (T := S.written root) (List.nodup_cons.2 ⟨hnew, hn⟩)
      (cons_mem ht hs)
    simp only [List.length_cons] at this
    omega
  | succ b ih =>
    intro t v f seen hL ht hn hs hin hlen hf h
    obtain ⟨g, hg, h1, h2⟩ := least h
    rw [← h2] at h ⊢
    have hnew : t ∉ seen := fun h' => h (by
      have := hin t h'
      rw [← h2] at this
      exact this)
    have hk : i = g + (i - g) := by omega
    refine (step_rel (S := S) (md := md) (rec := produce View.ops S md g)
      (rec' := nested View.ops S md i (L * (S.written root).length + b)) (t := t) (far_closed v (i - g)) hk
      (fun u hu s hs' => ⟨fun hne => ?_, fun a s' e => hs'.trans (far_produce e)⟩) v (.refl v)).1 h
    have hu' := written_callees ht hu
    rcases hs' with hsame | ⟨-, hlt⟩
    · refine ih u s g (t :: seen) (by rw [← hsame.rest]; exact hL) hu' (List.nodup_cons.2 ⟨hnew, hn⟩)
        (cons_mem ht hs)
        (fun w hw => ?_) (by simp only [List.length_cons]; omega) (by omega) hne
      rcases List.mem_cons.1 hw with rfl | hw
      · exact same_fuel hsame g _ h1
      · refine same_fuel hsame g _ ?_
        have h3 := hin w hw
        exact Classical.byContradiction fun hne' =>
          hne' ((produce_mono View.ops S md (show g ≤ f by omega) w v hne').symm.trans h3)
    · have h4 := ihL s.rest.length (by omega) (S.written root).length u s g [] rfl hu' .nil (by simp) (by simp)
        (by simp) (by omega) hne
      have hle : s.rest.length * (S.written root).length + (S.written root).length ≤ L * (S.written root).length + b := by
        have : (s.rest.length + 1) * (S.written root).length ≤ L * (S.written root).length :=
          Nat.mul_le_mul_right _ (by omega)
        rw [Nat.succ_mul] at this
        omega
      rw [← h4]
      exact nested_more View.ops (Nat.le_refl i) hle u s (by rw [h4]; exact hne)

/-! ### Tokens and bytes -/

theorem items_length {source : Str} : ∀ {items : List (Item n)} (a : Nat), ItemsWF source items →
    (∀ i ∈ items, a ≤ i.span.lo) → a ≤ source.length → items.length + a ≤ source.length
  | [], a, _, _, h => by simpa using h
  | i :: l, a, hw, ha, h => by
    obtain ⟨h1, h2⟩ := hw
    obtain ⟨h3, h4, -, -⟩ := h1 i (by simp)
    have hp := List.pairwise_cons.1 h2
    have := items_length (items := l) i.span.hi ⟨fun j hj => h1 j (by simp [hj]), hp.2⟩ hp.1 h4
    have := ha i (by simp)
    simp only [List.length_cons]
    omega

theorem tokensOf_length : ∀ items : List (Item n), (tokensOf items).length ≤ items.length
  | [] => Nat.le_refl _
  | .token t :: l => by simp only [tokensOf, List.length_cons]; have := tokensOf_length l; omega
  | .error s :: l => by simp only [tokensOf, List.length_cons]; have := tokensOf_length l; omega

theorem stream_length {source : Str} {items : List (Item n)} (hw : ItemsWF source items) (ext : Fin n → Bool) :
    (streamOf ext items).length ≤ source.length := by
  have h1 := List.length_filter_le (fun t : Token n => !ext t.ty) (tokensOf items)
  have h2 := tokensOf_length items
  have h3 := items_length 0 hw (fun _ _ => Nat.zero_le _) (Nat.zero_le _)
  unfold streamOf
  omega

theorem tokensOf_map : ∀ l : List (Token n), tokensOf (l.map Item.token) = l
  | [] => rfl
  | t :: l => congrArg (t :: ·) (tokensOf_map l)

end Depth
end Teleparse
