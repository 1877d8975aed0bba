import Verif.Proof.Late
import Verif.Proof.Local
/-
If an input with the same beginning is parsed without errors, no error is reported in that beginning.
-/
namespace Teleparse
variable {m n : Nat} {S : Schema m n}

/-- Two streams with the same tokens before `l1` and `l2`; the position is before the end of these tokens. -/
structure Lock (E : Nat → Prop) (s1 s2 : Str) (l1 l2 : List (Token n)) (v w : View n) : Prop where
  ready : Ready s1 v
  same : ∃ cells u, u ≠ [] ∧ v = ⟨s1, cells, u ++ l1⟩ ∧ w = ⟨s2, cells, u ++ l2⟩ ∧ E 0 ∧
    (∀ t ∈ cells.map (·.token), t.span.OnEdges E) ∧ ∀ t ∈ u, t.span.OnEdges E

/-- Where `l1` begins. -/
def suffixPos (s1 : Str) (l1 : List (Token n)) : Nat := (View.mk s1 [] l1).cur.lo

/-- If the run in the second stream has no errors (`e`), the errors of the run in the first stream are at or
after the beginning of `l1`; and the two go on in step unless the first one has reached `l1`. -/
def Al (E : Nat → Prop) (s1 s2 : Str) (l1 l2 : List (Token n)) {α : Type} (e : α → List (Err n))
    (x : M (View n) α) : Prop :=
  ∀ v w a b v' w', Lock E s1 s2 l1 l2 v w → x v = .ok a v' → x w = .ok b w' → e b = [] →
    Late (suffixPos s1 l1) (e a) ∧ (Past (suffixPos s1 l1) s1 v' ∨ (a = b ∧ Lock E s1 s2 l1 l2 v' w'))

section
variable {E : Nat → Prop} {s1 s2 : Str} {l1 l2 : List (Token n)}

theorem Lock.loc {α : Type} {x : M (View n) α} (hx : Loc E s1 s2 l1 l2 x x) {v w v' w' : View n} {a b : α}
    (h : Lock E s1 s2 l1 l2 v w) (h1 : x v = .ok a v') (h2 : x w = .ok b w') :
    Past (suffixPos s1 l1) s1 v' ∨ (a = b ∧ Lock E s1 s2 l1 l2 v' w') := by
  have hadv := hx.1 _ _ _ h1
  have hready := h.ready
  obtain ⟨cells, u, hu, rfl, rfl, hz, hcells, hus⟩ := h.same
  obtain ⟨ts, hts1, hts2⟩ := hadv.cons
  by_cases hlen : ts.length < u.length
  · right
    obtain ⟨u', rfl⟩ : ∃ u', u = ts ++ u' := by
      have h3 := congrArg (List.take ts.length) hts1
      simp only at h3
      rw [List.take_append_of_le_length (by omega), List.take_left' rfl] at h3
      exact ⟨u.drop ts.length, by conv => lhs; rw [← List.take_append_drop ts.length u, h3]⟩
    have hu' : u' ≠ [] := by rintro rfl; simp at hlen
    have hrest : v'.rest = u' ++ l1 := by
      simp only [List.append_assoc] at hts1
      exact (List.append_cancel_left hts1).symm
    have hnear : Near E v' := by
      refine ⟨hz, ?_, ?_⟩
      · intro x hx
        rw [hts2] at hx
        rcases List.mem_append.1 hx with hx | hx
        · exact hcells x hx
        · exact hus x (List.mem_append_left _ hx)
      · unfold View.cur
        rw [hrest]
        cases u' with
        | nil => exact absurd rfl hu'
        | cons b u' => exact hus b (by simp)
    have h3 := hx.2 cells (ts ++ u') a v' u' h1 hu' hrest hnear
    rw [h3] at h2
    cases h2
    refine ⟨rfl, hready.adv hadv, v'.cells, u', hu', ?_, rfl, hz, hnear.cells,
      fun t ht => hus t (List.mem_append_right _ ht)⟩
    have hs : v'.source = s1 := hadv.src
    cases v'
    simp only at hrest hs
    rw [hrest, hs]
  · left
    refine ⟨hready.adv hadv, ?_⟩
    -- the state after all of `u`
    have hadv1 : Adv (⟨s1, cells, u ++ l1⟩ : View n) ⟨s1, cells ++ u.map Cell.ofToken, l1⟩ :=
      by
      refine ⟨rfl, u, rfl, ?_⟩
      rw [List.map_append, List.map_map, show ((·.token) ∘ Cell.ofToken : Token n → Token n) = id from rfl,
        List.map_id]
    have hadv2 : Adv (⟨s1, cells ++ u.map Cell.ofToken, l1⟩ : View n) v' := by
      refine ⟨hadv.src, ts.drop u.length, ?_, ?_⟩
      · have h3 := congrArg (List.drop u.length) hts1
        simp only at h3
        rw [List.drop_left' rfl, List.drop_append_of_le_length (by omega)] at h3
        exact h3
      · have h3 := congrArg (List.take u.length) hts1
        simp only at h3
        rw [List.take_left' rfl, List.take_append_of_le_length (by omega)] at h3
        have h4 : ts = u ++ ts.drop u.length := by
          conv => lhs; rw [← List.take_append_drop u.length ts, ← h3]
        rw [hts2, List.map_append, List.map_map, show (Cell.token ∘ Cell.ofToken : Token n → Token n) = id from rfl,
          List.map_id, List.append_assoc, ← h4]
    have := Ready.cur_le (hready.adv hadv1) hadv2
    exact this

theorem Al.prim {α : Type} {x : M (View n) α} (hx : Loc E s1 s2 l1 l2 x x) :
    Al E s1 s2 l1 l2 (fun _ => []) x :=
  fun _ _ _ _ _ _ h h1 h2 _ => ⟨.nil, h.loc hx h1 h2⟩

theorem Al.pure {α : Type} (e : α → List (Err n)) (a : α) : Al E s1 s2 l1 l2 e (Pure.pure a) := by
  intro v w a' b' v' w' h h1 h2 he
  obtain ⟨rfl, rfl⟩ := pure_ok.1 h1
  obtain ⟨rfl, rfl⟩ := pure_ok.1 h2
  exact ⟨by rw [he]; exact .nil, .inr ⟨rfl, h⟩⟩

theorem Al.fuel {α : Type} (e : α → List (Err n)) : Al E s1 s2 l1 l2 e M.fuel := by
  intro v w a' b' v' w' h h1; cases h1

theorem Al.bind {α β : Type} {e : α → List (Err n)} {e' : β → List (Err n)} {x : M (View n) α}
    {f : α → M (View n) β} (hx : Al E s1 s2 l1 l2 e x) (hf : ∀ a, e a = [] → Al E s1 s2 l1 l2 e' (f a))
    (hl : ∀ a v c v', Past (suffixPos s1 l1) s1 v → f a v = .ok c v' → Late (suffixPos s1 l1) (e a) →
      Adv v v' ∧ Late (suffixPos s1 l1) (e' c))
    (hb : ∀ b w c w', f b w = .ok c w' → e' c = [] → e b = []) : Al E s1 s2 l1 l2 e' (x >>= f) := by
  intro v w c d v' w' h h1 h2 he
  obtain ⟨a, v1, g1, g2⟩ := bind_ok.1 h1
  obtain ⟨b, w1, k1, k2⟩ := bind_ok.1 h2
  have heb := hb _ _ _ _ k2 he
  obtain ⟨hlate, hp | ⟨rfl, hlock⟩⟩ := hx _ _ _ _ _ _ h g1 k1 heb
  · obtain ⟨ha, hlt⟩ := hl _ _ _ _ hp g2 hlate
    exact ⟨hlt, .inl (hp.adv ha)⟩
  · exact hf a heb _ _ _ _ _ _ hlock g2 k2 he

/-- Steps that read without consuming. -/
theorem Al.still {α β : Type} {e' : β → List (Err n)} {x : M (View n) α} {f : α → M (View n) β}
    (hx : Loc E s1 s2 l1 l2 x x) (hs : ∀ v a v', x v = .ok a v' → v' = v)
    (hf : ∀ a, Al E s1 s2 l1 l2 e' (f a)) : Al E s1 s2 l1 l2 e' (x >>= f) := by
  intro v w c d v' w' h h1 h2 he
  obtain ⟨a, v1, g1, g2⟩ := bind_ok.1 h1
  obtain ⟨b, w1, k1, k2⟩ := bind_ok.1 h2
  have e1 := hs _ _ _ g1
  have e2 := hs _ _ _ k1
  subst e1; subst e2
  have hab : a = b := by
    obtain ⟨cells, u, hu, rfl, rfl, hz, hcells, hus⟩ := h.same
    have hnear : Near E (⟨s1, cells, u ++ l1⟩ : View n) := by
      refine ⟨hz, hcells, ?_⟩
      cases u with
      | nil => exact absurd rfl hu
      | cons t u => exact hus t (by simp)
    have := hx.2 cells u a _ u g1 hu rfl hnear
    rw [k1] at this
    cases this
    rfl
  subst hab
  exact hf a _ _ _ _ _ _ h g2 k2 he

theorem Al.peekSrc (hE : SameOn E s1 s2) {β : Type} {e' : β → List (Err n)}
    {f : Option (TokenSrc n) → M (View n) β} (hf : ∀ a, Al E s1 s2 l1 l2 e' (f a)) :
    Al E s1 s2 l1 l2 e' (View.ops.mPeekSrc >>= f) :=
  .still (.peekSrc hE) (fun _ _ _ h => (mPeekSrc_ok.1 h).2.1) hf

theorem Al.currentSpan {β : Type} {e' : β → List (Err n)}
    {f : Span → M (View n) β} (hf : ∀ a, Al E s1 s2 l1 l2 e' (f a)) :
    Al E s1 s2 l1 l2 e' ((View.ops (n := n)).mCurrentSpan >>= f) :=
  .still .currentSpan (fun _ _ _ h => (mCurrentSpan_ok.1 h).2) hf

theorem Al.emptySpan {β : Type} {e' : β → List (Err n)}
    {f : Span → M (View n) β} (hf : ∀ a, Al E s1 s2 l1 l2 e' (f a)) :
    Al E s1 s2 l1 l2 e' ((View.ops (n := n)).mEmptySpan >>= f) :=
  .still .emptySpan (fun _ _ _ h => (mEmptySpan_ok.1 h).2) hf

theorem Al.expecting {β : Type} {e' : β → List (Err n)} (s : TSet n)
    {f : Err n → M (View n) β} (hf : ∀ a, Al E s1 s2 l1 l2 e' (f a)) :
    Al E s1 s2 l1 l2 e' ((View.ops (n := n)).mExpecting s >>= f) :=
  .still (.expecting s) (fun _ _ _ h => (mExpecting_ok.1 h).2) hf

theorem Al.extendPanic {β : Type} {e' : β → List (Err n)} (p : Err n)
    {f : Err n → M (View n) β} (hf : ∀ a, Al E s1 s2 l1 l2 e' (f a)) :
    Al E s1 s2 l1 l2 e' (Teleparse.extendPanic (View.ops (n := n)) p >>= f) :=
  .still (Loc.currentSpan.bind fun _ => .pure _) (fun _ _ _ h => (extendPanic_ok.1 h).2) hf

/-! ### Combinators -/

/-- What is known about a part. -/
structure Part (E : Nat → Prop) (s1 s2 : Str) (l1 l2 : List (Token n)) (S : Schema m n) (p : P (View n) n)
    (t : Ty m n) : Prop where
  desc : Desc S p t
  al : Al E s1 s2 l1 l2 Res.errs p

/-- Errors of the result of the loop over the parts. -/
def seqErrs : Except (List (Err n)) (List (Tree n) × List (Err n)) → List (Err n)
  | .ok (_, e) => e
  | .error e => e

theorem late_seq {B : Nat} {ts : List (Ty m n)} {v v' : View n} {acc errs r} (h : Run S (.seq ts v acc errs r v'))
    {source : Str} (hp : Past B source v) (he : Late B errs) : Adv v v' ∧ Late B (seqErrs r) := by
  refine ⟨h.adv, ?_⟩
  have := h.late hp
  match r with
  | .ok (l, e) => exact this he
  | .error e => exact this he

theorem back_seq {ts : List (Ty m n)} {v v' : View n} {acc errs r} (h : Run S (.seq ts v acc errs r v'))
    (he : seqErrs r = []) : errs = [] := by
  have := h.back
  match r with
  | .ok (l, e) => exact this he
  | .error e => exact this he

theorem al_seq {α : Type} (f : α → P (View n) n) (g : α → Ty m n) (l : List α)
    (h : ∀ a ∈ l, Part E s1 s2 l1 l2 S (f a) (g a)) : ∀ acc,
    Al E s1 s2 l1 l2 seqErrs (seqLoop (l.map f) acc []) := by
  induction l with
  | nil => intro acc; exact .pure _ _
  | cons a l ih =>
    intro acc
    have hrest : ∀ b ∈ l, Desc S (f b) (g b) := fun b hb => (h b (List.mem_cons_of_mem _ hb)).desc
    simp only [List.map_cons, seqLoop]
    refine (h a (by simp)).al.bind ?_ ?_ ?_
    · intro r hr
      have ih := ih fun b hb => h b (List.mem_cons_of_mem _ hb)
      cases r with
      | success t => exact ih _
      | recovered t e => cases hr; exact ih _
      | panic e => exact .pure _ _
    · intro r v c v' hp hc hlate
      cases r with
      | success t => exact late_seq (run_seq f g l hrest _ _ _ _ _ hc) hp .nil
      | recovered t e => exact late_seq (run_seq f g l hrest _ _ _ _ _ hc) hp (Late.nil.append hlate)
      | panic e =>
        obtain ⟨rfl, rfl⟩ := pure_ok.1 hc
        exact ⟨.refl _, Late.nil.append hlate⟩
    · intro r w c w' hc he
      cases r with
      | success t => rfl
      | recovered t e => exact back_seq (run_seq f g l hrest _ _ _ _ _ hc) he
      | panic e =>
        obtain ⟨rfl, rfl⟩ := pure_ok.1 hc
        exact he

theorem ofPair_errs {x : Tree n} {e : List (Err n)} : (Res.ofPair x e).errs = e := by
  unfold Res.ofPair
  cases e <;> rfl

theorem al_tuple (f : Ty m n → P (View n) n) (ts : List (Ty m n))
    (h : ∀ t, Part E s1 s2 l1 l2 S (f t) t) : Al E s1 s2 l1 l2 Res.errs (produceTuple (ts.map f)) := by
  unfold produceTuple
  refine (al_seq f id ts (fun a _ => h a) []).bind ?_ ?_ ?_
  · rintro (e | ⟨l, e⟩) _ <;> exact .pure _ _
  · rintro (e | ⟨l, e⟩) v c v' hp hc hlate
    · obtain ⟨rfl, rfl⟩ := pure_ok.1 hc; exact ⟨.refl _, hlate⟩
    · obtain ⟨rfl, rfl⟩ := pure_ok.1 hc; exact ⟨.refl _, .ofPair hlate⟩
  · rintro (e | ⟨l, e⟩) w c w' hc he
    · obtain ⟨rfl, rfl⟩ := pure_ok.1 hc; exact he
    · obtain ⟨rfl, rfl⟩ := pure_ok.1 hc; rwa [ofPair_errs] at he

theorem Loc.core (hE : SameOn E s1 s2) :
    Core 0 (fun {α} (x y : M (View n) α) => Loc E s1 s2 l1 l2 x y) View.ops View.ops :=
  ⟨fun a => .pure a, fun hx hf => hx.bind hf,
    fun y _ => ⟨fun v a v' h => (by cases h), fun _ _ _ _ _ h => (by cases h)⟩, .peekSrc hE, .currentSpan,
    .consume, .emptySpan, .apply, .term hE⟩

theorem Al.fields (hE : SameOn E s1 s2) (l : List (Tree n × Option (LSet n))) :
    Al E s1 s2 l1 l2 (fun _ => []) (applyFields (View.ops (n := n)) l) :=
  .prim ((Loc.core hE).fields l)

theorem al_struct (hE : SameOn E s1 s2) (f : Ty m n → P (View n) n) (fs : List (Field m n))
    (h : ∀ t, Part E s1 s2 l1 l2 S (f t) t) :
    Al E s1 s2 l1 l2 Res.errs (produceStruct View.ops (fs.map fun x => (f x.1, x.2))) := by
  unfold produceStruct
  rw [List.map_map]
  refine (al_seq (fun x : Field m n => f x.1) (fun x => x.1) fs (fun a _ => h a.1) []).bind ?_ ?_ ?_
  · rintro (e | ⟨l, e⟩) he
    · exact .pure _ _
    · refine (Al.fields hE _).bind (fun _ _ => .pure _ _) ?_ (fun _ _ _ _ _ _ => rfl)
      intro _ v c v' hp hc _
      obtain ⟨rfl, rfl⟩ := pure_ok.1 hc
      exact ⟨.refl _, by rw [ofPair_errs, show e = [] from he]; exact .nil⟩
  · rintro (e | ⟨l, e⟩) v c v' hp hc hlate
    · obtain ⟨rfl, rfl⟩ := pure_ok.1 hc; exact ⟨.refl _, hlate⟩
    · obtain ⟨_, v1, h1, h2⟩ := bind_ok.1 hc
      have := applyFields_ok.1 h1
      obtain ⟨rfl, rfl⟩ := pure_ok.1 h2
      subst this
      exact ⟨.applyAll _ _, .ofPair hlate⟩
  · rintro (e | ⟨l, e⟩) w c w' hc he
    · obtain ⟨rfl, rfl⟩ := pure_ok.1 hc; exact he
    · obtain ⟨_, v1, h1, h2⟩ := bind_ok.1 hc
      obtain ⟨rfl, rfl⟩ := pure_ok.1 h2
      rwa [ofPair_errs] at he

theorem mapVariant_ok {i : Nat} {sem : Option (LSet n)} {r r' : Res n (Tree n)} {v v' : View n}
    (h : mapVariant View.ops i sem r v = .ok r' v') : Adv v v' ∧ r'.errs = r.errs := by
  cases r with
  | success t =>
    obtain ⟨_, v1, h1, h2⟩ := bind_ok.1 h
    have := applyFields_ok.1 h1
    obtain ⟨rfl, rfl⟩ := pure_ok.1 h2
    subst this
    exact ⟨.applyAll _ _, rfl⟩
  | recovered t e =>
    obtain ⟨_, v1, h1, h2⟩ := bind_ok.1 h
    have := applyFields_ok.1 h1
    obtain ⟨rfl, rfl⟩ := pure_ok.1 h2
    subst this
    exact ⟨.applyAll _ _, rfl⟩
  | panic e =>
    obtain ⟨rfl, rfl⟩ := pure_ok.1 h
    exact ⟨.refl _, rfl⟩

theorem al_enum (hE : SameOn E s1 s2) (f : Ty m n → P (View n) n) (fs : List (Field m n))
    (h : ∀ t, Part E s1 s2 l1 l2 S (f t) t) (look : Option (TokenSrc n) → Option Nat) (first : TSet n) :
    Al E s1 s2 l1 l2 Res.errs (produceEnum View.ops look first (fs.map fun x => (f x.1, x.2))) := by
  unfold produceEnum
  refine .peekSrc hE fun tok => ?_
  cases look tok with
  | none => exact .expecting _ fun _ => .pure _ _
  | some i =>
    simp only [List.getElem?_map]
    cases fs[i]? with
    | none => exact .expecting _ fun _ => .pure _ _
    | some x =>
      refine (h x.1).al.bind ?_ ?_ ?_
      · intro r hr
        intro v w a b v' w' hlock h1 h2 he
        refine ⟨?_, hlock.loc ((Loc.core hE).mapVariant i x.2 r) h1 h2⟩
        rw [(mapVariant_ok h1).2, hr]; exact .nil
      · intro r v c v' hp hc hlate
        obtain ⟨h1, h2⟩ := mapVariant_ok hc
        exact ⟨h1, by rw [h2]; exact hlate⟩
      · intro r w c w' hc he
        rw [← (mapVariant_ok hc).2]; exact he

theorem al_option (hE : SameOn E s1 s2) {p : P (View n) n} {t : Ty m n} (h : Part E s1 s2 l1 l2 S p t)
    (first : TSet n) (mk : Span → Option (Tree n) → Tree n) :
    Al E s1 s2 l1 l2 Res.errs (produceOption View.ops first p mk) := by
  unfold produceOption
  refine .peekSrc hE fun tok => ?_
  split
  · refine h.al.bind ?_ ?_ ?_
    · intro r hr
      cases r with
      | success t => exact .pure _ _
      | recovered t e => exact .pure _ _
      | panic e => exact .emptySpan fun _ => .pure _ _
    · intro r v c v' hp hc hlate
      cases r with
      | success t => obtain ⟨rfl, rfl⟩ := pure_ok.1 hc; exact ⟨.refl _, .nil⟩
      | recovered t e => obtain ⟨rfl, rfl⟩ := pure_ok.1 hc; exact ⟨.refl _, hlate⟩
      | panic e =>
        simp only [bind_ok, mEmptySpan_ok, pure_ok] at hc
        obtain ⟨_, _, ⟨rfl, rfl⟩, rfl, rfl⟩ := hc
        exact ⟨.refl _, hlate⟩
    · intro r w c w' hc he
      cases r with
      | success t => rfl
      | recovered t e => obtain ⟨rfl, rfl⟩ := pure_ok.1 hc; exact he
      | panic e =>
        simp only [bind_ok, mEmptySpan_ok, pure_ok] at hc
        obtain ⟨_, _, ⟨rfl, rfl⟩, rfl, rfl⟩ := hc
        exact he
  · exact .emptySpan fun _ => .pure _ _

theorem al_iter (hE : SameOn E s1 s2) {p : P (View n) n} {t : Ty m n} (h : Part E s1 s2 l1 l2 S p t)
    (first : TSet n) : ∀ (fuel : Nat) acc hi,
    Al E s1 s2 l1 l2 (fun r => r.2.1) (iterLoop View.ops first p fuel acc [] hi) := by
  intro fuel
  induction fuel with
  | zero => intro acc hi; exact .fuel _
  | succ fuel ih =>
    intro acc hi
    unfold iterLoop
    refine .peekSrc hE fun tok => ?_
    split
    · refine h.al.bind ?_ ?_ ?_
      · intro r hr
        cases r with
        | success t => exact ih _ _
        | recovered t e => cases hr; exact ih _ _
        | panic e => exact .pure _ _
      · intro r v c v' hp hc hlate
        cases r with
        | success t =>
          have hr := run_iter h.desc _ _ _ _ _ _ _ _ hc
          exact ⟨hr.adv, hr.late hp .nil⟩
        | recovered t e =>
          have hr := run_iter h.desc _ _ _ _ _ _ _ _ hc
          exact ⟨hr.adv, hr.late hp (Late.nil.append hlate)⟩
        | panic e => obtain ⟨rfl, rfl⟩ := pure_ok.1 hc; exact ⟨.refl _, Late.nil.append hlate⟩
      · intro r w c w' hc he
        cases r with
        | success t => rfl
        | recovered t e => exact (run_iter h.desc _ _ _ _ _ _ _ _ hc).back he
        | panic e => obtain ⟨rfl, rfl⟩ := pure_ok.1 hc; exact he
    · exact .pure _ _

/-- The end of a combinator that packs what was collected. -/
theorem Al.pack {α : Type} {e : α → List (Err n)} {x : M (View n) α} {f : α → Res n (Tree n)}
    (hx : Al E s1 s2 l1 l2 e x) (hf : ∀ a, (f a).errs = e a) :
    Al E s1 s2 l1 l2 Res.errs (x >>= fun a => Pure.pure (f a)) := by
  refine hx.bind (fun _ _ => .pure _ _) ?_ ?_
  · intro a v c v' hp hc hl
    obtain ⟨rfl, rfl⟩ := pure_ok.1 hc
    exact ⟨.refl _, by rw [hf]; exact hl⟩
  · intro b w c w' hc he
    obtain ⟨rfl, rfl⟩ := pure_ok.1 hc
    rw [← hf]; exact he

theorem al_plus (hE : SameOn E s1 s2) {p : P (View n) n} {t : Ty m n} (h : Part E s1 s2 l1 l2 S p t)
    (first : TSet n) (fuel : Nat) : Al E s1 s2 l1 l2 Res.errs (producePlus View.ops first p fuel) := by
  have hrest : ∀ x, Al E s1 s2 l1 l2 Res.errs (plusRest View.ops first p fuel x []) := by
    intro x
    unfold plusRest
    exact (al_iter hE h first fuel _ _).pack fun a => ofPair_errs
  have hrun : ∀ (x : Tree n) (e : List (Err n)) (v v' : View n) c, plusRest View.ops first p fuel x e v = .ok c v' →
      ∃ l hi, Run S (.iter t v [x] e x.span.hi l c.errs hi v') := by
    intro x e v v' c hc
    unfold plusRest at hc
    obtain ⟨⟨l, errs, hi⟩, v1, h1, h2⟩ := bind_ok.1 hc
    obtain ⟨rfl, rfl⟩ := pure_ok.1 h2
    have hr := run_iter h.desc _ _ _ _ _ _ _ _ h1
    exact ⟨l, hi, by rw [ofPair_errs]; exact hr⟩
  unfold producePlus
  refine h.al.bind ?_ ?_ ?_
  · intro r hr
    cases r with
    | success t => exact hrest _
    | recovered t e => cases hr; exact hrest _
    | panic e => exact .pure _ _
  · intro r v c v' hp hc hlate
    cases r with
    | success t =>
      obtain ⟨l, hi, hr⟩ := hrun _ _ _ _ _ hc
      exact ⟨hr.adv, hr.late hp .nil⟩
    | recovered t e =>
      obtain ⟨l, hi, hr⟩ := hrun _ _ _ _ _ hc
      exact ⟨hr.adv, hr.late hp hlate⟩
    | panic e => obtain ⟨rfl, rfl⟩ := pure_ok.1 hc; exact ⟨.refl _, hlate⟩
  · intro r w c w' hc he
    cases r with
    | success t => rfl
    | recovered t e =>
      obtain ⟨l, hi, hr⟩ := hrun _ _ _ _ _ hc
      exact hr.back he
    | panic e => obtain ⟨rfl, rfl⟩ := pure_ok.1 hc; exact he

/-! Loop -/

theorem loopSkip_errs {first : TSet n} {fuel : Nat} {errs : List (Err n)} {v v' : View n} {r}
    (h : loopSkip View.ops first fuel errs v = .ok r v') : r.1 ≠ [] := by
  unfold loopSkip at h
  simp only [bind_ok, pure_ok] at h
  obtain ⟨_, _, _, _, _, _, _, _, _, rfl, _⟩ := h
  simp

theorem loopElem_errs {p : P (View n) n} {out : List (Tree n)} {errs : List (Err n)} {v v' : View n} {r}
    (h : loopElem View.ops p out errs v = .ok r v') : ∃ e, r.2.2 = errs ++ e := by
  simp only [loopElem, bind_ok] at h
  obtain ⟨_, _, _, r1, _, _, _, _, _, h⟩ := h
  split at h
  · obtain ⟨rfl, -⟩ := pure_ok.1 h
    cases r1 with
    | success t => exact ⟨_, rfl⟩
    | recovered t e => exact ⟨_, List.append_assoc ..⟩
    | panic e => exact ⟨_, List.append_assoc ..⟩
  · obtain ⟨rfl, -⟩ := pure_ok.1 h
    cases r1 with
    | success t => exact ⟨[], (List.append_nil _).symm⟩
    | recovered t e => exact ⟨_, rfl⟩
    | panic e => exact ⟨_, rfl⟩

theorem al_loopElem {p : P (View n) n} {t : Ty m n} (h : Part E s1 s2 l1 l2 S p t) (out : List (Tree n)) :
    Al E s1 s2 l1 l2 (fun r => r.2.2) (loopElem View.ops p out []) := by
  unfold loopElem
  refine .currentSpan fun before => h.al.bind ?_ ?_ ?_
  · intro r hr
    refine .currentSpan fun sp => ?_
    split <;> exact .pure _ _
  · intro r v c v' hp hc hlate
    simp only [bind_ok, mCurrentSpan_ok] at hc
    obtain ⟨_, _, ⟨rfl, rfl⟩, hc⟩ := hc
    cases r <;> split at hc <;> obtain ⟨rfl, rfl⟩ := pure_ok.1 hc
    · exact ⟨.refl _, Late.nil.append (.single hp.le)⟩
    · exact ⟨.refl _, .nil⟩
    · exact ⟨.refl _, (Late.nil.append hlate).append (.single hp.le)⟩
    · exact ⟨.refl _, Late.nil.append hlate⟩
    · exact ⟨.refl _, (Late.nil.append hlate).append (.single hp.le)⟩
    · exact ⟨.refl _, Late.nil.append hlate⟩
  · intro r w c w' hc he
    simp only [bind_ok, mCurrentSpan_ok] at hc
    obtain ⟨_, _, ⟨rfl, rfl⟩, hc⟩ := hc
    split at hc
    · obtain ⟨rfl, rfl⟩ := pure_ok.1 hc
      simp at he
    · obtain ⟨rfl, rfl⟩ := pure_ok.1 hc
      cases r <;> exact he

theorem al_loopLoop (hE : SameOn E s1 s2) {p : P (View n) n} {t : Ty m n} (h : Part E s1 s2 l1 l2 S p t)
    (first : TSet n) : ∀ (fuel : Nat) out,
    Al E s1 s2 l1 l2 (fun r => r.2) (loopLoop View.ops first p fuel out []) := by
  intro fuel
  induction fuel with
  | zero => intro out; exact .fuel _
  | succ fuel ih =>
    intro out
    unfold loopLoop
    refine .peekSrc hE fun tok => ?_
    split
    · exact .pure _ _
    · split
      · -- tokens are skipped: the second stream has an error
        intro v w a b v' w' _ _ h2 he
        exfalso
        obtain ⟨⟨errs, more⟩, w1, g1, g2⟩ := bind_ok.1 h2
        have hne := loopSkip_errs g1
        dsimp only at g2 hne
        split at g2
        · obtain ⟨rfl, rfl⟩ := pure_ok.1 g2
          exact hne he
        · obtain ⟨⟨go, out', errs'⟩, w2, g3, g4⟩ := bind_ok.1 g2
          obtain ⟨e, he'⟩ := loopElem_errs g3
          dsimp only at g4 he'
          have hne' : errs' ≠ [] := by rw [he']; simp [hne]
          split at g4
          · exact hne' ((run_loop h.desc _ _ _ _ _ _ _ g4).back he)
          · obtain ⟨rfl, rfl⟩ := pure_ok.1 g4
            exact hne' he
      · show Al E s1 s2 l1 l2 (fun r : List (Tree n) × List (Err n) => r.2) (loopElem View.ops p out [] >>= _)
        refine (al_loopElem h out).bind ?_ ?_ ?_
        · rintro ⟨go, out, errs⟩ hr
          cases hr
          dsimp only
          split
          · exact ih _
          · exact .pure _ _
        · rintro ⟨go, out, errs⟩ v c v' hp hc hlate
          dsimp only at hc hlate
          split at hc
          · have hr := run_loop h.desc _ _ _ _ _ _ _ hc
            exact ⟨hr.adv, hr.late hp hlate⟩
          · obtain ⟨rfl, rfl⟩ := pure_ok.1 hc
            exact ⟨.refl _, hlate⟩
        · rintro ⟨go, out, errs⟩ w c w' hc he
          dsimp only at hc ⊢
          split at hc
          · exact (run_loop h.desc _ _ _ _ _ _ _ hc).back he
          · obtain ⟨rfl, rfl⟩ := pure_ok.1 hc
            exact he

theorem al_loop (hE : SameOn E s1 s2) {p : P (View n) n} {t : Ty m n} (h : Part E s1 s2 l1 l2 S p t)
    (first : TSet n) (fuel : Nat) : Al E s1 s2 l1 l2 Res.errs (produceLoop View.ops first p fuel) := by
  unfold produceLoop
  refine (al_loopLoop hE h first fuel []).bind ?_ ?_ ?_
  · rintro ⟨out, errs⟩ he
    dsimp only
    split
    · exact .emptySpan fun _ => .pure _ _
    · exact .pure _ _
  · rintro ⟨out, errs⟩ v c v' hp hc hlate
    dsimp only at hc
    split at hc
    · simp only [bind_ok, mEmptySpan_ok, pure_ok] at hc
      obtain ⟨_, _, ⟨rfl, rfl⟩, rfl, rfl⟩ := hc
      exact ⟨.refl _, .ofPair hlate⟩
    · obtain ⟨rfl, rfl⟩ := pure_ok.1 hc
      exact ⟨.refl _, .ofPair hlate⟩
  · rintro ⟨out, errs⟩ w c w' hc he
    dsimp only at hc
    split at hc
    · simp only [bind_ok, mEmptySpan_ok, pure_ok] at hc
      obtain ⟨_, _, ⟨rfl, rfl⟩, rfl, rfl⟩ := hc
      rwa [ofPair_errs] at he
    · obtain ⟨rfl, rfl⟩ := pure_ok.1 hc
      rwa [ofPair_errs] at he

/-! Split -/

def tryErrs : Except (Acc n) (Option (TokenSrc n) × Option (Err n)) → List (Err n)
  | .error a => a.errs
  | .ok (_, p) => p.toList

theorem mergePanic_nil {e : List (Err n)} (h : (mergePanic none e).toList = []) : e = [] :=
  (mergePanic_none (toList_nil.1 h)).2

theorem al_splitTry (hE : SameOn E s1 s2) {p : P (View n) n} {t : Ty m n} (h : Part E s1 s2 l1 l2 S p t)
    (ef : TSet n) (q : Tree n) (a : Acc n) (ha : a.errs = []) :
    Al E s1 s2 l1 l2 tryErrs (splitTry View.ops ef p q a none) := by
  unfold splitTry
  refine .peekSrc hE fun tok => ?_
  split
  · refine h.al.bind ?_ ?_ ?_
    · intro r hr
      cases r with
      | success t => exact .pure _ _
      | recovered t e => exact .pure _ _
      | panic e => exact .peekSrc hE fun _ => .pure _ _
    · intro r v c v' hp hc hlate
      cases r with
      | success t =>
        obtain ⟨rfl, rfl⟩ := pure_ok.1 hc
        exact ⟨.refl _, by simp only [tryErrs, ha]; exact .nil⟩
      | recovered t e =>
        obtain ⟨rfl, rfl⟩ := pure_ok.1 hc
        exact ⟨.refl _, by simp only [tryErrs, ha]; exact (Late.nil.append hlate).append .nil⟩
      | panic e =>
        simp only [bind_ok, mPeekSrc_ok, pure_ok] at hc
        obtain ⟨_, _, ⟨rfl, rfl, -⟩, rfl, rfl⟩ := hc
        exact ⟨.refl _, Late.nil.merge hlate⟩
    · intro r w c w' hc he
      cases r with
      | success t => rfl
      | recovered t e =>
        obtain ⟨rfl, rfl⟩ := pure_ok.1 hc
        simp only [tryErrs, ha] at he
        show e = []; simpa using he
      | panic e =>
        simp only [bind_ok, mPeekSrc_ok, pure_ok] at hc
        obtain ⟨_, _, ⟨rfl, rfl, -⟩, rfl, rfl⟩ := hc
        exact mergePanic_nil he
  · exact .expecting _ fun _ => .pure _ _

theorem al_splitInner (hE : SameOn E s1 s2) {p : P (View n) n} {t : Ty m n} (h : Part E s1 s2 l1 l2 S p t)
    (ef pf fol : TSet n) (q : Tree n) : ∀ (fuel : Nat) (a : Acc n), a.errs = [] →
    Al E s1 s2 l1 l2 (fun r => r.2.errs) (splitInner View.ops ef pf fol p q fuel a none) := by
  intro fuel
  induction fuel with
  | zero => intro a _; exact .fuel _
  | succ fuel ih =>
    intro a ha
    unfold splitInner
    refine (al_splitTry hE h ef q a ha).bind ?_ ?_ ?_
    · rintro (a' | ⟨tok, panic⟩) hr
      · exact .pure _ _
      · have : panic = none := toList_nil.1 hr
        subst this
        dsimp only
        split
        · exact .pure _ _
        · split
          · exact .pure _ _
          · refine (Al.prim .consume).bind (fun _ _ => ih a ha) ?_ fun _ _ _ _ _ _ => rfl
            intro _ v c v' hp hc _
            have hr := run_inner h.desc _ _ _ _ _ _ _ _ _ _ hc
            exact ⟨hr.adv, hr.late hp (by rw [ha]; exact .nil) .nil⟩
    · rintro (a' | ⟨tok, panic⟩) v c v' hp hc hlate
      · obtain ⟨rfl, rfl⟩ := pure_ok.1 hc; exact ⟨.refl _, hlate⟩
      · dsimp only at hc
        split at hc
        · obtain ⟨rfl, rfl⟩ := pure_ok.1 hc
          exact ⟨.refl _, by simp only [ha]; exact Late.nil.append hlate⟩
        · split at hc
          · obtain ⟨rfl, rfl⟩ := pure_ok.1 hc
            exact ⟨.refl _, by simp only [ha]; exact Late.nil.append hlate⟩
          · simp only [bind_ok, mConsume_ok] at hc
            obtain ⟨_, _, ⟨rfl, rfl⟩, hc⟩ := hc
            have hr := run_inner h.desc _ _ _ _ _ _ _ _ _ _ hc
            exact ⟨(Adv.skip _).trans hr.adv, hr.late (hp.adv (.skip _)) (by rw [ha]; exact .nil) hlate⟩
    · rintro (a' | ⟨tok, panic⟩) w c w' hc he
      · obtain ⟨rfl, rfl⟩ := pure_ok.1 hc; exact he
      · dsimp only at hc
        split at hc
        · obtain ⟨rfl, rfl⟩ := pure_ok.1 hc
          exact (List.append_eq_nil_iff.1 he).2
        · split at hc
          · obtain ⟨rfl, rfl⟩ := pure_ok.1 hc
            exact (List.append_eq_nil_iff.1 he).2
          · simp only [bind_ok, mConsume_ok] at hc
            obtain ⟨_, _, ⟨rfl, rfl⟩, hc⟩ := hc
            have hr := run_inner h.desc _ _ _ _ _ _ _ _ _ _ hc
            exact toList_nil.2 (hr.back he).2

theorem al_splitOuter (hE : SameOn E s1 s2) {pt pp : P (View n) n} {t u : Ty m n} (h : Part E s1 s2 l1 l2 S pt t)
    (h' : Part E s1 s2 l1 l2 S pp u) (ef pf fol : TSet n) : ∀ (fuel : Nat) (a : Acc n), a.errs = [] →
    Al E s1 s2 l1 l2 (fun r => r.errs) (splitOuter View.ops ef pf fol pt pp fuel a) := by
  intro fuel
  induction fuel with
  | zero => intro a _; exact .fuel _
  | succ fuel ih =>
    intro a ha
    unfold splitOuter
    refine .peekSrc hE fun tok => ?_
    split
    · -- what comes after the separator
      have hgo : ∀ (q : Tree n) (a : Acc n), a.errs = [] → Al E s1 s2 l1 l2 (fun r : Acc n => r.errs) (do
          let (go, a) ← splitInner View.ops ef pf fol pt q fuel a none
          if go then splitOuter View.ops ef pf fol pt pp fuel a else Pure.pure a) := by
        intro q a ha
        refine (al_splitInner hE h ef pf fol q fuel a ha).bind ?_ ?_ ?_
        · rintro ⟨go, a⟩ hr
          dsimp only
          split
          · exact ih _ hr
          · exact .pure _ _
        · rintro ⟨go, a⟩ v c v' hp hc hlate
          dsimp only at hc hlate
          split at hc
          · have hr := run_outer h.desc h'.desc _ _ _ _ _ _ _ _ hc
            exact ⟨hr.adv, hr.late hp hlate⟩
          · obtain ⟨rfl, rfl⟩ := pure_ok.1 hc
            exact ⟨.refl _, hlate⟩
        · rintro ⟨go, a⟩ w c w' hc he
          dsimp only at hc ⊢
          split at hc
          · exact (run_outer h.desc h'.desc _ _ _ _ _ _ _ _ hc).back he
          · obtain ⟨rfl, rfl⟩ := pure_ok.1 hc
            exact he
      have hlate' : ∀ (q : Tree n) (a : Acc n) (v v' : View n) c, (do
          let (go, a) ← splitInner View.ops ef pf fol pt q fuel a none
          if go then splitOuter View.ops ef pf fol pt pp fuel a else Pure.pure a : M (View n) (Acc n)) v = .ok c v' →
          (∀ B source, Past B source v → Late B a.errs → Adv v v' ∧ Late B c.errs) ∧ (c.errs = [] → a.errs = []) := by
        intro q a v v' c hc
        obtain ⟨⟨go, a1⟩, v1, h1, h2⟩ := bind_ok.1 hc
        have hr1 := run_inner h.desc _ _ _ _ _ _ _ _ _ _ h1
        dsimp only at h2
        split at h2
        · have hr := run_outer h.desc h'.desc _ _ _ _ _ _ _ _ h2
          exact ⟨fun B s hp hl => ⟨hr1.adv.trans hr.adv, hr.late (hp.adv hr1.adv) (hr1.late hp hl .nil)⟩,
            fun he => (hr1.back (hr.back he)).1⟩
        · obtain ⟨rfl, rfl⟩ := pure_ok.1 h2
          exact ⟨fun B s hp hl => ⟨hr1.adv, hr1.late hp hl .nil⟩, fun he => (hr1.back he).1⟩
      refine h'.al.bind ?_ ?_ ?_
      · intro r hr
        cases r with
        | success q => exact hgo q a ha
        | recovered q e => exact hgo q _ (by cases hr; simp [ha])
        | panic e => exact .pure _ _
      · intro r v c v' hp hc hlate
        cases r with
        | success q => exact (hlate' q a v v' c hc).1 _ _ hp (by rw [ha]; exact .nil)
        | recovered q e =>
          exact (hlate' q _ v v' c hc).1 _ _ hp (by simp only [ha]; exact Late.nil.append hlate)
        | panic e =>
          obtain ⟨rfl, rfl⟩ := pure_ok.1 hc
          exact ⟨.refl _, by simp only [ha]; exact Late.nil.append hlate⟩
      · intro r w c w' hc he
        cases r with
        | success q => rfl
        | recovered q e => exact (List.append_eq_nil_iff.1 ((hlate' q _ w w' c hc).2 he)).2
        | panic e =>
          obtain ⟨rfl, rfl⟩ := pure_ok.1 hc
          exact (List.append_eq_nil_iff.1 he).2
    · exact .pure _ _

theorem al_split (hE : SameOn E s1 s2) {pt pp : P (View n) n} {t u : Ty m n} (h : Part E s1 s2 l1 l2 S pt t)
    (h' : Part E s1 s2 l1 l2 S pp u) (ef pf fol : TSet n) (fuel : Nat) :
    Al E s1 s2 l1 l2 Res.errs (produceSplit View.ops ef pf fol pt pp fuel) := by
  unfold produceSplit
  refine h.al.bind ?_ ?_ ?_
  · intro r hr
    cases r with
    | success x => exact (al_splitOuter hE h h' ef pf fol fuel _ rfl).pack fun a => ofPair_errs
    | recovered x e => exact (al_splitOuter hE h h' ef pf fol fuel _ hr).pack fun a => ofPair_errs
    | panic e => exact .pure _ _
  · intro r v c v' hp hc hlate
    cases r with
    | success x =>
      obtain ⟨a, v1, h1, h2⟩ := bind_ok.1 hc
      obtain ⟨rfl, rfl⟩ := pure_ok.1 h2
      have hr := run_outer h.desc h'.desc _ _ _ _ _ _ _ _ h1
      exact ⟨hr.adv, .ofPair (hr.late hp .nil)⟩
    | recovered x e =>
      obtain ⟨a, v1, h1, h2⟩ := bind_ok.1 hc
      obtain ⟨rfl, rfl⟩ := pure_ok.1 h2
      have hr := run_outer h.desc h'.desc _ _ _ _ _ _ _ _ h1
      exact ⟨hr.adv, .ofPair (hr.late hp hlate)⟩
    | panic e => obtain ⟨rfl, rfl⟩ := pure_ok.1 hc; exact ⟨.refl _, hlate⟩
  · intro r w c w' hc he
    cases r with
    | success x => rfl
    | recovered x e =>
      obtain ⟨a, v1, h1, h2⟩ := bind_ok.1 hc
      obtain ⟨rfl, rfl⟩ := pure_ok.1 h2
      have he : a.errs = [] := by simpa only [splitDone, ofPair_errs] using he
      exact (run_outer h.desc h'.desc _ _ _ _ _ _ _ _ h1).back he
    | panic e => obtain ⟨rfl, rfl⟩ := pure_ok.1 hc; exact he

/-! Punct -/

def ptryErrs : Except (Bool × Acc n) (Option (Err n)) → List (Err n)
  | .error a => a.2.errs
  | .ok p => p.toList

theorem al_punctTry (hE : SameOn E s1 s2) {p : P (View n) n} {t : Ty m n} (h : Part E s1 s2 l1 l2 S p t)
    (ef fol : TSet n) (a : Acc n) (ha : a.errs = []) :
    Al E s1 s2 l1 l2 ptryErrs (punctTry View.ops ef fol p a none) := by
  unfold punctTry
  refine .peekSrc hE fun tok => ?_
  split
  · exact .pure _ _
  · split
    · refine h.al.bind ?_ ?_ ?_
      · intro r hr
        cases r with
        | success t => exact .pure _ _
        | recovered t e => exact .pure _ _
        | panic e => exact .pure _ _
      · intro r v c v' hp hc hlate
        cases r with
        | success t =>
          obtain ⟨rfl, rfl⟩ := pure_ok.1 hc
          exact ⟨.refl _, by simp only [ptryErrs, ha]; exact .nil⟩
        | recovered t e =>
          obtain ⟨rfl, rfl⟩ := pure_ok.1 hc
          exact ⟨.refl _, by simp only [ptryErrs, ha]; exact Late.nil.append hlate⟩
        | panic e =>
          obtain ⟨rfl, rfl⟩ := pure_ok.1 hc
          exact ⟨.refl _, Late.nil.merge hlate⟩
      · intro r w c w' hc he
        cases r with
        | success t => rfl
        | recovered t e =>
          obtain ⟨rfl, rfl⟩ := pure_ok.1 hc
          simp only [ptryErrs, ha] at he
          show e = []; simpa using he
        | panic e =>
          obtain ⟨rfl, rfl⟩ := pure_ok.1 hc
          exact mergePanic_nil he
    · split
      · exact .pure _ _
      · exact .currentSpan fun _ => .pure _ _

theorem al_punctInner (hE : SameOn E s1 s2) {p : P (View n) n} {t : Ty m n} (h : Part E s1 s2 l1 l2 S p t)
    (ef pf fol : TSet n) : ∀ (fuel : Nat) (a : Acc n), a.errs = [] →
    Al E s1 s2 l1 l2 (fun r => r.2.errs) (punctInner View.ops ef pf fol p fuel a none) := by
  intro fuel
  induction fuel with
  | zero => intro a _; exact .fuel _
  | succ fuel ih =>
    intro a ha
    unfold punctInner
    refine (al_punctTry hE h ef fol a ha).bind ?_ ?_ ?_
    · rintro (a' | panic) hr
      · exact .pure _ _
      · have : panic = none := toList_nil.1 hr
        subst this
        refine .peekSrc hE fun tok => ?_
        split
        · exact .pure _ _
        · split
          · exact .pure _ _
          · refine (Al.prim .consume).bind (fun _ _ => ih a ha) ?_ fun _ _ _ _ _ _ => rfl
            intro _ v c v' hp hc _
            have hr := run_pinner h.desc _ _ _ _ _ _ _ _ _ hc
            exact ⟨hr.adv, hr.late hp (by rw [ha]; exact .nil) .nil⟩
    · rintro (a' | panic) v c v' hp hc hlate
      · obtain ⟨rfl, rfl⟩ := pure_ok.1 hc; exact ⟨.refl _, hlate⟩
      · obtain ⟨tok, v1, h1, hc⟩ := bind_ok.1 hc
        obtain ⟨rfl, rfl, -⟩ := mPeekSrc_ok.1 h1
        split at hc
        · obtain ⟨rfl, rfl⟩ := pure_ok.1 hc
          exact ⟨.refl _, by simp only [ha]; exact Late.nil.append hlate⟩
        · split at hc
          · obtain ⟨rfl, rfl⟩ := pure_ok.1 hc
            exact ⟨.refl _, by simp only [ha]; exact Late.nil.append hlate⟩
          · simp only [bind_ok, mConsume_ok] at hc
            obtain ⟨_, _, ⟨rfl, rfl⟩, hc⟩ := hc
            have hr := run_pinner h.desc _ _ _ _ _ _ _ _ _ hc
            exact ⟨(Adv.skip _).trans hr.adv, hr.late (hp.adv (.skip _)) (by rw [ha]; exact .nil) hlate⟩
    · rintro (a' | panic) w c w' hc he
      · obtain ⟨rfl, rfl⟩ := pure_ok.1 hc; exact he
      · obtain ⟨tok, v1, h1, hc⟩ := bind_ok.1 hc
        obtain ⟨rfl, rfl, -⟩ := mPeekSrc_ok.1 h1
        split at hc
        · obtain ⟨rfl, rfl⟩ := pure_ok.1 hc
          exact (List.append_eq_nil_iff.1 he).2
        · split at hc
          · obtain ⟨rfl, rfl⟩ := pure_ok.1 hc
            exact (List.append_eq_nil_iff.1 he).2
          · simp only [bind_ok, mConsume_ok] at hc
            obtain ⟨_, _, ⟨rfl, rfl⟩, hc⟩ := hc
            have hr := run_pinner h.desc _ _ _ _ _ _ _ _ _ hc
            exact toList_nil.2 (hr.back he).2

theorem al_punctOuter (hE : SameOn E s1 s2) {pt pp : P (View n) n} {t u : Ty m n} (h : Part E s1 s2 l1 l2 S pt t)
    (h' : Part E s1 s2 l1 l2 S pp u) (ef pf fol : TSet n) : ∀ (fuel : Nat) (a : Acc n), a.errs = [] →
    Al E s1 s2 l1 l2 (fun r => r.errs) (punctOuter View.ops ef pf fol pt pp fuel a) := by
  intro fuel
  induction fuel with
  | zero => intro a _; exact .fuel _
  | succ fuel ih =>
    intro a ha
    unfold punctOuter
    refine .peekSrc hE fun tok => ?_
    split
    · have hgo : ∀ (a : Acc n), a.errs = [] → Al E s1 s2 l1 l2 (fun r : Acc n => r.errs) (do
          let (go, a) ← punctInner View.ops ef pf fol pt fuel a none
          if go then punctOuter View.ops ef pf fol pt pp fuel a else Pure.pure a) := by
        intro a ha
        refine (al_punctInner hE h ef pf fol fuel a ha).bind ?_ ?_ ?_
        · rintro ⟨go, a⟩ hr
          dsimp only
          split
          · exact ih _ hr
          · exact .pure _ _
        · rintro ⟨go, a⟩ v c v' hp hc hlate
          dsimp only at hc hlate
          split at hc
          · have hr := run_pouter h.desc h'.desc _ _ _ _ _ _ _ _ hc
            exact ⟨hr.adv, hr.late hp hlate⟩
          · obtain ⟨rfl, rfl⟩ := pure_ok.1 hc
            exact ⟨.refl _, hlate⟩
        · rintro ⟨go, a⟩ w c w' hc he
          dsimp only at hc ⊢
          split at hc
          · exact (run_pouter h.desc h'.desc _ _ _ _ _ _ _ _ hc).back he
          · obtain ⟨rfl, rfl⟩ := pure_ok.1 hc
            exact he
      have hlate' : ∀ (a : Acc n) (v v' : View n) c, (do
          let (go, a) ← punctInner View.ops ef pf fol pt fuel a none
          if go then punctOuter View.ops ef pf fol pt pp fuel a else Pure.pure a : M (View n) (Acc n)) v = .ok c v' →
          (∀ B source, Past B source v → Late B a.errs → Adv v v' ∧ Late B c.errs) ∧ (c.errs = [] → a.errs = []) := by
        intro a v v' c hc
        obtain ⟨⟨go, a1⟩, v1, h1, h2⟩ := bind_ok.1 hc
        have hr1 := run_pinner h.desc _ _ _ _ _ _ _ _ _ h1
        dsimp only at h2
        split at h2
        · have hr := run_pouter h.desc h'.desc _ _ _ _ _ _ _ _ h2
          exact ⟨fun B s hp hl => ⟨hr1.adv.trans hr.adv, hr.late (hp.adv hr1.adv) (hr1.late hp hl .nil)⟩,
            fun he => (hr1.back (hr.back he)).1⟩
        · obtain ⟨rfl, rfl⟩ := pure_ok.1 h2
          exact ⟨fun B s hp hl => ⟨hr1.adv, hr1.late hp hl .nil⟩, fun he => (hr1.back he).1⟩
      refine h'.al.bind ?_ ?_ ?_
      · intro r hr
        cases r with
        | success q => exact hgo _ ha
        | recovered q e => exact hgo _ (by cases hr; simp [ha])
        | panic e => exact .pure _ _
      · intro r v c v' hp hc hlate
        cases r with
        | success q => exact (hlate' _ v v' c hc).1 _ _ hp (by simp only [ha]; exact .nil)
        | recovered q e =>
          exact (hlate' _ v v' c hc).1 _ _ hp (by simp only [ha]; exact Late.nil.append hlate)
        | panic e =>
          obtain ⟨rfl, rfl⟩ := pure_ok.1 hc
          exact ⟨.refl _, by simp only [ha]; exact Late.nil.append hlate⟩
      · intro r w c w' hc he
        cases r with
        | success q => rfl
        | recovered q e => exact (List.append_eq_nil_iff.1 ((hlate' _ w w' c hc).2 he)).2
        | panic e =>
          obtain ⟨rfl, rfl⟩ := pure_ok.1 hc
          exact (List.append_eq_nil_iff.1 he).2
    · exact .pure _ _

theorem al_punct (hE : SameOn E s1 s2) {pt pp : P (View n) n} {t u : Ty m n} (h : Part E s1 s2 l1 l2 S pt t)
    (h' : Part E s1 s2 l1 l2 S pp u) (ef pf fol : TSet n) (fuel : Nat) :
    Al E s1 s2 l1 l2 Res.errs (producePunct View.ops ef pf fol pt pp fuel) := by
  unfold producePunct
  refine h.al.bind ?_ ?_ ?_
  · intro r hr
    cases r with
    | success x => exact (al_punctOuter hE h h' ef pf fol fuel _ rfl).pack fun a => ofPair_errs
    | recovered x e => exact (al_punctOuter hE h h' ef pf fol fuel _ hr).pack fun a => ofPair_errs
    | panic e => exact .pure _ _
  · intro r v c v' hp hc hlate
    cases r with
    | success x =>
      obtain ⟨a, v1, h1, h2⟩ := bind_ok.1 hc
      obtain ⟨rfl, rfl⟩ := pure_ok.1 h2
      have hr := run_pouter h.desc h'.desc _ _ _ _ _ _ _ _ h1
      exact ⟨hr.adv, .ofPair (hr.late hp .nil)⟩
    | recovered x e =>
      obtain ⟨a, v1, h1, h2⟩ := bind_ok.1 hc
      obtain ⟨rfl, rfl⟩ := pure_ok.1 h2
      have hr := run_pouter h.desc h'.desc _ _ _ _ _ _ _ _ h1
      exact ⟨hr.adv, .ofPair (hr.late hp hlate)⟩
    | panic e => obtain ⟨rfl, rfl⟩ := pure_ok.1 hc; exact ⟨.refl _, hlate⟩
  · intro r w c w' hc he
    cases r with
    | success x => rfl
    | recovered x e =>
      obtain ⟨a, v1, h1, h2⟩ := bind_ok.1 hc
      obtain ⟨rfl, rfl⟩ := pure_ok.1 h2
      have he : a.errs = [] := by simpa only [punctDone, ofPair_errs] using he
      exact (run_pouter h.desc h'.desc _ _ _ _ _ _ _ _ h1).back he
    | panic e => obtain ⟨rfl, rfl⟩ := pure_ok.1 hc; exact he

/-! Recover -/

theorem al_head (hE : SameOn E s1 s2) {p : P (View n) n} {t : Ty m n} (h : Part E s1 s2 l1 l2 S p t)
    (hf : TSet n) : Al E s1 s2 l1 l2 (fun h => h.errs ++ h.panic.toList) (recoverHead View.ops hf p) := by
  unfold recoverHead
  refine .peekSrc hE fun tok => ?_
  split
  · refine h.al.bind ?_ ?_ ?_
    · intro r hr
      cases r with
      | success t => exact .pure _ _
      | recovered t e => exact .pure _ _
      | panic e => exact .emptySpan fun _ => .pure _ _
    · intro r v c v' hp hc hlate
      cases r with
      | success t => obtain ⟨rfl, rfl⟩ := pure_ok.1 hc; exact ⟨.refl _, .nil⟩
      | recovered t e => obtain ⟨rfl, rfl⟩ := pure_ok.1 hc; exact ⟨.refl _, Late.append hlate .nil⟩
      | panic e =>
        simp only [bind_ok, mEmptySpan_ok, pure_ok] at hc
        obtain ⟨_, _, ⟨rfl, rfl⟩, rfl, rfl⟩ := hc
        exact ⟨.refl _, Late.nil.append (Late.last hlate)⟩
    · intro r w c w' hc he
      cases r with
      | success t => rfl
      | recovered t e => obtain ⟨rfl, rfl⟩ := pure_ok.1 hc; exact (List.append_eq_nil_iff.1 he).1
      | panic e =>
        simp only [bind_ok, mEmptySpan_ok, pure_ok] at hc
        obtain ⟨_, _, ⟨rfl, rfl⟩, rfl, rfl⟩ := hc
        exact List.getLast?_eq_none_iff.1 (toList_nil.1 (List.append_eq_nil_iff.1 he).2)
  · exact .expecting _ fun _ => .emptySpan fun _ => .pure _ _

theorem recoverSkip_some {tf : TSet n} {panic : Option (Err n)} {v v' : View n} {r}
    (h : recoverSkip View.ops tf panic v = .ok r v') : r ≠ none := (recoverSkip_ok h).1.some

theorem al_tail (hE : SameOn E s1 s2) {p : P (View n) n} {t : Ty m n} (h : Part E s1 s2 l1 l2 S p t)
    (tf : TSet n) (fuel : Nat) :
    Al E s1 s2 l1 l2 (fun r => r.2.1 ++ r.2.2.toList) (recoverLoop View.ops tf p fuel [] none) := by
  cases fuel with
  | zero => exact .fuel _
  | succ fuel =>
    unfold recoverLoop
    -- the second stream has an error once a token was skipped
    have hskip : ∀ (panic : Option (Err n)) (w w' : View n) c, (do
        let panic ← recoverSkip View.ops tf panic
        recoverLoop View.ops tf p fuel [] panic : M (View n) _) w = .ok c w' → c.2.1 ++ c.2.2.toList ≠ [] := by
      intro panic w w' c hc he
      obtain ⟨panic1, w1, h1, h2⟩ := bind_ok.1 hc
      exact recoverSkip_some h1 ((run_tail h.desc _ _ _ _ _ _ _ h2).back he).2
    refine .peekSrc hE fun tok => ?_
    split
    · split
      · refine h.al.bind ?_ ?_ ?_
        · intro r hr
          cases r <;> exact .pure _ _
        · intro r v c v' hp hc hlate
          cases r with
          | success t => obtain ⟨rfl, rfl⟩ := pure_ok.1 hc; exact ⟨.refl _, .nil⟩
          | recovered t e => obtain ⟨rfl, rfl⟩ := pure_ok.1 hc; exact ⟨.refl _, (Late.nil.append hlate).append .nil⟩
          | panic e => obtain ⟨rfl, rfl⟩ := pure_ok.1 hc; exact ⟨.refl _, Late.nil.append (Late.nil.merge hlate)⟩
        · intro r w c w' hc he
          cases r with
          | success t => rfl
          | recovered t e => obtain ⟨rfl, rfl⟩ := pure_ok.1 hc; show e = []; simpa using he
          | panic e => obtain ⟨rfl, rfl⟩ := pure_ok.1 hc; exact mergePanic_nil (List.append_eq_nil_iff.1 he).2
      · exact .pure _ _
    · split
      · refine h.al.bind ?_ ?_ ?_
        · intro r hr
          cases r with
          | success t => exact .pure _ _
          | recovered t e => exact .pure _ _
          | panic e => intro v w a b v' w' _ _ h2 he; exact absurd he (hskip _ _ _ _ h2)
        · intro r v c v' hp hc hlate
          cases r with
          | success t => obtain ⟨rfl, rfl⟩ := pure_ok.1 hc; exact ⟨.refl _, .nil⟩
          | recovered t e => obtain ⟨rfl, rfl⟩ := pure_ok.1 hc; exact ⟨.refl _, (Late.nil.append hlate).append .nil⟩
          | panic e =>
            obtain ⟨panic1, v1, h1, h2⟩ := bind_ok.1 hc
            obtain ⟨hn, rfl⟩ := recoverSkip_ok h1
            have hr := run_tail h.desc _ _ _ _ _ _ _ h2
            have := hr.late (hp.adv (.skip _)) .nil ((Late.nil.merge hlate).note hn hp.le)
            exact ⟨(Adv.skip _).trans hr.adv, this.1.append this.2⟩
        · intro r w c w' hc he
          cases r with
          | success t => rfl
          | recovered t e => obtain ⟨rfl, rfl⟩ := pure_ok.1 hc; show e = []; simpa using he
          | panic e => exact absurd he (hskip _ _ _ _ hc)
      · intro v w a b v' w' _ _ h2 he; exact absurd he (hskip _ _ _ _ h2)

theorem al_recover (hE : SameOn E s1 s2) {pt pp : P (View n) n} {t u : Ty m n} (h : Part E s1 s2 l1 l2 S pt t)
    (h' : Part E s1 s2 l1 l2 S pp u) (hf tf : TSet n) (fuel : Nat) :
    Al E s1 s2 l1 l2 Res.errs (produceRecover View.ops hf tf pt pp fuel) := by
  have hdone : ∀ (hd : RHead n) (x : Option (Tree n) × List (Err n) × Option (Err n)) (v v' : View n) c,
      (match x.1 with
        | some tail => Pure.pure (Res.ofPair (mkRecover hd tail) (x.2.1 ++ x.2.2.toList))
        | none => Pure.pure (.panic (x.2.1 ++ x.2.2.toList)) : P (View n) n) v = .ok c v' →
      v' = v ∧ c.errs = x.2.1 ++ x.2.2.toList := by
    rintro hd ⟨tail, errs, panic⟩ v v' c hc
    cases tail with
    | some y => obtain ⟨rfl, rfl⟩ := pure_ok.1 hc; exact ⟨rfl, ofPair_errs⟩
    | none => obtain ⟨rfl, rfl⟩ := pure_ok.1 hc; exact ⟨rfl, rfl⟩
  unfold produceRecover
  refine (al_head hE h hf).bind ?_ ?_ ?_
  · intro hd he
    obtain ⟨h1, h2⟩ := List.append_eq_nil_iff.1 he
    rw [h1, toList_nil.1 h2]
    refine (al_tail hE h' tf fuel).bind ?_ ?_ ?_
    · rintro ⟨tail, errs, panic⟩ _
      cases tail <;> exact .pure _ _
    · intro x v c v' hp hc hlate
      obtain ⟨rfl, h3⟩ := hdone hd x v v' c hc
      exact ⟨.refl _, by rw [h3]; exact hlate⟩
    · intro x w c w' hc he
      rw [← (hdone hd x w w' c hc).2]; exact he
  · intro hd v c v' hp hc hlate
    obtain ⟨x, v1, h1, h2⟩ := bind_ok.1 hc
    obtain ⟨rfl, h3⟩ := hdone hd x v1 _ c h2
    have hr := run_tail h'.desc _ _ _ _ _ _ _ h1
    have := hr.late hp hlate.left hlate.right
    exact ⟨hr.adv, by rw [h3]; exact this.1.append this.2⟩
  · intro hd w c w' hc he
    obtain ⟨x, v1, h1, h2⟩ := bind_ok.1 hc
    obtain ⟨rfl, h3⟩ := hdone hd x v1 _ c h2
    rw [h3] at he
    obtain ⟨h4, h5⟩ := (run_tail h'.desc _ _ _ _ _ _ _ h1).back he
    rw [h4, h5]; rfl

/-! Terminals and texts -/

theorem al_term (hE : SameOn E s1 s2) (i : Nat) (k : Terminal n) (fol : TSet n) :
    Al E s1 s2 l1 l2 Res.errs (produceTerm View.ops k fol) := by
  intro v w a b v' w' h h1 h2 he
  have hloc := h.loc (Loc.term hE k fol) h1 h2
  refine ⟨?_, hloc⟩
  have hr : Run (m := 0) (fun k => k.elim0) (.ty (.term i k) v a v') := desc_term i k fol v a v' h1
  -- a failure does not move, so the other stream fails as well
  have hsame : v' = v → a = b := by
    rintro rfl
    obtain ⟨cells, u, hu, rfl, rfl, hz, hcells, hus⟩ := h.same
    have hnear : Near E (⟨s1, cells, u ++ l1⟩ : View n) := by
      refine ⟨hz, hcells, ?_⟩
      cases u with
      | nil => exact absurd rfl hu
      | cons t u => exact hus t (by simp)
    have := (Loc.term (l2 := l2) hE k fol).2 cells u a _ u h1 hu rfl hnear
    rw [h2] at this
    cases this
    rfl
  cases hr with
  | tok => exact .nil
  | tokRecovered => rw [hsame rfl, he]; exact .nil
  | tokPanic => rw [hsame rfl, he]; exact .nil
  | tuple ht => cases ht
  | tuplePanic ht => cases ht
  | optNone ht => cases ht
  | optSuccess ht => cases ht
  | optRecovered ht => cases ht
  | optPanic ht => cases ht
  | textSuccess ht => cases ht
  | textRecovered ht => cases ht
  | textPanic ht => cases ht

theorem text_errs {p : P (View n) n} {v v' : View n} {r} (h : produceText View.ops p v = .ok r v') :
    ∃ r1, p v = .ok r1 v' ∧ r1.errs = r.errs := by
  unfold produceText at h
  obtain ⟨r1, v1, h1, h2⟩ := bind_ok.1 h
  cases r1 with
  | success x =>
    obtain ⟨s, v2, h3, h4⟩ := bind_ok.1 h2
    obtain ⟨-, rfl⟩ := mGetSrc_ok.1 h3
    obtain ⟨rfl, rfl⟩ := pure_ok.1 h4
    exact ⟨_, h1, rfl⟩
  | recovered x e =>
    obtain ⟨s, v2, h3, h4⟩ := bind_ok.1 h2
    obtain ⟨-, rfl⟩ := mGetSrc_ok.1 h3
    obtain ⟨rfl, rfl⟩ := pure_ok.1 h4
    exact ⟨_, h1, rfl⟩
  | panic e =>
    obtain ⟨rfl, rfl⟩ := pure_ok.1 h2
    exact ⟨_, h1, rfl⟩

theorem al_text {p : P (View n) n} {t : Ty m n} (h : Part E s1 s2 l1 l2 S p t)
    (hloc : Loc E s1 s2 l1 l2 (produceText View.ops p) (produceText View.ops p)) :
    Al E s1 s2 l1 l2 Res.errs (produceText View.ops p) := by
  intro v w a b v' w' hlock h1 h2 he
  refine ⟨?_, hlock.loc hloc h1 h2⟩
  obtain ⟨r1, g1, g2⟩ := text_errs h1
  obtain ⟨r2, k1, k2⟩ := text_errs h2
  rw [← g2]
  exact (h.al _ _ _ _ _ _ hlock g1 k1 (by rw [k2]; exact he)).1

theorem produce_alarm (hE : SameOn E s1 s2) (S : Schema m n) (md : Metadata (PId m n) n) (fuel : Nat) :
    ∀ t : Ty m n, Al E s1 s2 l1 l2 Res.errs (produce View.ops S md fuel t) := by
  induction fuel with
  | zero => intro t; exact .fuel _
  | succ fuel ih =>
    have h : ∀ t, Part E s1 s2 l1 l2 S (produce View.ops S md fuel t) t :=
      fun t => ⟨run_of_produce S md fuel t, ih t⟩
    intro t
    have hloc := produce_loc (l1 := l1) (l2 := l2) hE S md (fuel + 1) t
    show Al E s1 s2 l1 l2 Res.errs (produceStep View.ops S md fuel (produce View.ops S md fuel) t)
    cases t with
    | term i k => exact al_term hE i k _
    | user k =>
      cases hS : S k with
      | struct f fs => simp only [produceStep, hS]; exact al_struct hE _ (f :: fs) h
      | enum f fs => simp only [produceStep, hS]; exact al_enum hE _ (f :: fs) h _ _
    | box t => exact ih t
    | option t => exact al_option hE (h t) _ _
    | exist t => exact al_option hE (h t) _ _
    | quote t => exact al_text (h t) hloc
    | parse t => exact al_text (h t) hloc
    | plus t => exact al_plus hE (h t) _ _
    | star t =>
      exact al_option hE (t := .plus t) ⟨desc_plus (h t).desc _ _, al_plus hE (h t) _ _⟩ _ _
    | loop t => exact al_loop hE (h t) _ _
    | split t p => exact al_split hE (h t) (h p) _ _ _ _
    | punct t p => exact al_punct hE (h t) (h p) _ _ _ _
    | recover t r => exact al_recover hE (h t) (h r) _ _ _
    | tup2 a b => exact al_tuple _ [a, b] h
    | tup3 a b c => exact al_tuple _ [a, b, c] h
    | tup4 a b c d => exact al_tuple _ [a, b, c, d] h
    | tup5 a b c d e => exact al_tuple _ [a, b, c, d, e] h

end
end Teleparse
