import Verif.Proof.Cost
/-
Cost of the combinators.
-/
set_option linter.unusedSectionVars false
namespace Teleparse
variable {m n : Nat} {md : Metadata (PId m n) n} {G : Grammar (PId m n) n} {F : Frame n} {v : View n} {k u : Nat}

theorem term_cost {t : Terminal n} {fol : TSet n} (h : F.At (u + 3) (v, k)) :
    Tri (produceTerm (VO n) t fol) (v, k) (fun _ s => F.At u s) := by
  unfold produceTerm
  have h1 := h.op
  have h2 := h1.op
  have h3 := h2.op
  cases hlit : t.lit with
  | none =>
    dsimp only
    refine .bind (Q := fun _ s => F.At u s) ?_ fun _ _ h => .pure h
    unfold Ops.parseToken
    dsimp only
    refine .bind (Q := fun x s => x = v.rest.head? ∧ s = (v, k + 1)) (.peek ⟨rfl, rfl⟩) ?_
    rintro _ _ ⟨rfl, rfl⟩
    have fail : ∀ s : TSet n, Tri ((VO n).mExpecting s >>= fun e =>
          (pure (.panic [e]) : M (View n × Nat) (Res n (Token n)))) (v, k + 1) (fun _ s => F.At u s) := by
      intro s
      refine .bind (Q := fun _ s => F.At u s) (.expecting fun _ => h2.weaken (by omega)) ?_
      exact fun _ _ h => .pure h
    cases hr : v.rest with
    | nil => exact fail _
    | cons d rest =>
      simp only [List.head?_cons]
      refine .ite (fun hc => ?_) (fun hc => fail _)
      refine .bind (Q := fun _ s => F.At u s) (.consume fun _ => (h1.eat (by simp [hr])).weaken (by omega)) ?_
      exact fun _ _ h => .pure h
  | some lit =>
    dsimp only
    refine .bind (Q := fun _ s => F.At u s) ?_ fun _ _ h => .pure h
    unfold Ops.parseTokenLit
    refine .bind (Q := fun x s => x = v.rest.head? ∧ s = (v, k + 1)) (.peek ⟨rfl, rfl⟩) ?_
    rintro _ _ ⟨rfl, rfl⟩
    cases hr : v.rest with
    | nil =>
      refine .ite (fun _ => ?_) (fun _ => ?_)
      · refine .bind (Q := fun x s => s = (v, k + 2)) (.currentSpan rfl) ?_
        rintro _ _ rfl
        refine .bind (Q := fun _ s => F.At u s) (.expecting fun _ => h3) ?_
        exact fun _ _ h => .pure h
      · refine .bind (Q := fun _ s => F.At u s) (.eof fun _ => h2.weaken (by omega)) ?_
        exact fun _ _ h => .pure h
    | cons d rest =>
      simp only [List.head?_cons]
      refine .bind (Q := fun x s => s = (v, k + 1)) (.getSrc fun _ _ => rfl) ?_
      rintro s _ rfl
      refine .ite (fun hc => ?_) (fun hc => ?_)
      · refine .bind (Q := fun _ s => F.At u s) (.consume fun _ => (h1.eat (by simp [hr])).weaken (by omega)) ?_
        exact fun _ _ h => .pure h
      refine .ite (fun _ => ?_) (fun _ => ?_)
      · refine .bind (Q := fun x s => s = (v, k + 1)) (.emptySpan fun _ => rfl) ?_
        rintro _ _ rfl
        refine .bind (Q := fun _ s => F.At u s) (.expecting fun _ => h2.weaken (by omega)) ?_
        exact fun _ _ h => .pure h
      · refine .bind (Q := fun _ s => F.At u s) (.expecting fun _ => h2.weaken (by omega)) ?_
        exact fun _ _ h => .pure h

/-! ### Sequences -/

theorem seq_cost {S : Schema m n} {rec : Ty m n → P (View n × Nat) n} (hR : F.R = rmax G) {M : Prop} :
    ∀ (ts : List (Ty m n)) (v : View n) k acc errs, (∀ t ∈ ts, Spec S md G F.w F.R t (rec t)) →
    (¬ M → ∀ t ∈ ts, ∀ w : View n, w.len = F.v0.len → rk G t w < F.r) →
    (M → v.len = F.v0.len → ∀ a t b, ts = a ++ t :: b → (∀ x ∈ a, Null G x.pid) → ∀ w : View n, w.len = F.v0.len → MN G t w →
      rk G t w < F.r) →
    (M → v.len < F.v0.len ∨ FirstIn G ts v ∨ ∀ t ∈ ts, Null G t.pid) →
    F.At (ts.length + u) (v, k) →
    Tri (seqLoop (ts.map rec) acc errs) (v, k) (fun _ s => F.At u s) := by
  intro ts
  induction ts with
  | nil => intro v k acc errs _ _ _ _ h; exact .pure (h.weaken (by simp))
  | cons t ts ih =>
    intro v k acc errs hs hn hm hinv h
    simp only [List.map_cons, seqLoop]
    have h' : F.At (ts.length + u + 1) (v, k) := h.weaken (by simp; omega)
    have hmn : M → v.len = F.v0.len → MN G t v := by
      intro hM hl
      rcases hinv hM with h | h | h
      · omega
      · exact h.cons.imp id (·.1)
      · exact .inr (h t (by simp))
    refine .bind ((hs t (by simp)).call hR h' fun hl => ?_) ?_
    · by_cases hM : M
      · exact hm hM hl [] t ts rfl (by simp) v hl (hmn hM hl)
      · exact hn hM t (by simp) v hl
    rintro r ⟨w, k'⟩ ⟨hpost, hat, -⟩
    have hle := h.le
    have ha := hpost.1
    have hle2 := ha.len_le
    have same : M → ¬ w.len < F.v0.len → Null G t.pid ∧ (FirstIn G ts w ∨ ∀ t ∈ ts, Null G t.pid) := by
      intro hM hl
      have hnf : ¬ FirstAt G t.pid v := fun hf => by
        have := hpost.2.1 hf
        simp only [View.len] at *; omega
      have hvl : v.len = F.v0.len := by simp only [View.len] at *; omega
      have hnull := (hmn hM hvl).resolve_left hnf
      refine ⟨hnull, ?_⟩
      rcases hinv hM with h | h | h
      · omega
      · obtain ⟨pre, t', post, he, h2, h3⟩ := (h.cons.resolve_left hnf).2
        exact .inl ⟨pre, t', post, he, h2, (ha.firstAt (by simp only [View.len] at *; omega)).2 h3⟩
      · exact .inr fun t ht => h t (by simp [ht])
    have rest : ∀ acc errs, Tri (seqLoop (ts.map rec) acc errs) (w, k') (fun _ s => F.At u s) := by
      intro acc errs
      by_cases hl : w.len < F.v0.len
      · refine ih w k' acc errs (fun t ht => hs t (by simp [ht])) ?_ ?_ (fun _ => .inl hl) hat
        · exact fun hM t ht => hn hM t (by simp [ht])
        · intro _ hw; omega
      · refine ih w k' acc errs (fun t ht => hs t (by simp [ht])) ?_ ?_ (fun hM => .inr (same hM hl).2) hat
        · exact fun hM t ht => hn hM t (by simp [ht])
        · rintro hM hw a t' b rfl hna w' hw' hmn'
          refine hm hM (by simp only [View.len] at *; omega) (t :: a) t' b rfl ?_ w' hw' hmn'
          intro x hx
          rcases List.mem_cons.1 hx with rfl | hx
          · exact (same hM hl).1
          · exact hna x hx
    cases r with
    | success x => exact rest _ _
    | recovered x e => exact rest _ _
    | panic e => exact .pure (hat.weaken (by omega))

theorem tuple_cost {ps : List (P (View n × Nat) n)} (h : Tri (seqLoop ps [] []) (v, k) (fun _ s => F.At u s)) :
    Tri (produceTuple ps) (v, k) (fun _ s => F.At u s) := by
  unfold produceTuple
  refine .bind h fun r s hs => ?_
  cases r with
  | error e => exact .pure hs
  | ok x => exact .pure hs

theorem struct_cost {ps : List (P (View n × Nat) n × Option (LSet n))}
    (h : Tri (seqLoop (ps.map (·.1)) [] []) (v, k) (fun _ s => F.At (u + ps.length) s)) :
    Tri (produceStruct (VO n) ps) (v, k) (fun _ s => F.At u s) := by
  unfold produceStruct
  refine .bind h fun r s hs => ?_
  cases r with
  | error e => exact .pure (hs.weaken (by omega))
  | ok x =>
    obtain ⟨l, errs⟩ := x
    obtain ⟨w, k'⟩ := s
    refine .bind (Q := fun _ s => F.At u s) (.fields fun j hj => ?_) ?_
    · have hj' : j ≤ ps.length := by
        rw [List.length_zip, List.length_map] at hj
        omega
      exact ((hs.apply _).ops (j := j) (by omega)).weaken (by omega)
    exact fun _ _ h => .pure h

theorem mapVariant_cost {i : Nat} {sem : Option (LSet n)} {r : Res n (Tree n)} (h : F.At (u + 1) (v, k)) :
    Tri (mapVariant (VO n) i sem r) (v, k) (fun _ s => F.At u s) := by
  cases r with
  | success t =>
    refine .bind (Q := fun _ s => F.At u s) (.fields fun j hj => ?_) ?_
    · exact ((h.apply _).ops (j := j) (by simp only [List.length_cons, List.length_nil] at hj; omega)).weaken
        (by simp only [List.length_cons, List.length_nil] at hj; omega)
    exact fun _ _ h => .pure h
  | recovered t e =>
    refine .bind (Q := fun _ s => F.At u s) (.fields fun j hj => ?_) ?_
    · exact ((h.apply _).ops (j := j) (by simp only [List.length_cons, List.length_nil] at hj; omega)).weaken
        (by simp only [List.length_cons, List.length_nil] at hj; omega)
    exact fun _ _ h => .pure h
  | panic e => exact .pure (h.weaken (by omega))

theorem text_cost {p : P (View n × Nat) n} {Q : View n × Nat → Prop} (h : Tri p (v, k) (fun _ s => Q s)) :
    Tri (produceText (VO n) p) (v, k) (fun _ s => Q s) := by
  unfold produceText
  refine .bind h fun r s hs => ?_
  obtain ⟨w, k'⟩ := s
  cases r with
  | success t =>
    refine .bind (Q := fun _ s => Q s) (.getSrc fun _ _ => hs) ?_
    exact fun _ _ h => .pure h
  | recovered t e =>
    refine .bind (Q := fun _ s => Q s) (.getSrc fun _ _ => hs) ?_
    exact fun _ _ h => .pure h
  | panic e => exact .pure hs

/-! ### Options and lists -/

theorem guard_some {f : TSet n} (h : (v.look.isSome && f.contains v.look) = true) :
    v.rest ≠ [] ∧ f.contains v.look = true := by
  rw [Bool.and_eq_true] at h
  refine ⟨look_some.1 fun hn => ?_, h.2⟩
  rw [hn] at h; exact absurd h.1 (by simp)

theorem option_cost {f : TSet n} {p : P (View n × Nat) n} {mk} (h : F.At (u + 1) (v, k))
    (hp : v.rest ≠ [] → f.contains v.look = true → F.At u (v, k + 1) → Tri p (v, k + 1) (fun _ s => F.At 0 s)) :
    Tri (produceOption (VO n) f p mk) (v, k) (fun _ s => F.At 0 s) := by
  unfold produceOption
  refine .bind (Q := fun x s => x = v.look ∧ s = (v, k + 1)) (.peekSrc ⟨rfl, rfl⟩) ?_
  rintro _ _ ⟨rfl, rfl⟩
  refine .ite (fun hc => ?_) (fun _ => ?_)
  · obtain ⟨h1, h2⟩ := guard_some hc
    refine .bind (hp h1 h2 h.op) fun r s hs => ?_
    obtain ⟨w, k'⟩ := s
    cases r with
    | success t => exact .pure hs
    | recovered t e => exact .pure hs
    | panic e =>
      refine .bind (Q := fun _ s => F.At 0 s) (.emptySpan fun _ => hs) ?_
      exact fun _ _ h => .pure h
  · refine .bind (Q := fun _ s => F.At 0 s) (.emptySpan fun _ => h.op.weaken (by omega)) ?_
    exact fun _ _ h => .pure h

/-- Wherever the lookahead is in `f`, the call consumes a token and pays for itself. -/
def Gains (F : Frame n) (f : TSet n) (p : P (View n × Nat) n) : Prop :=
  ∀ (v : View n) k u, F.At (u + 1) (v, k) → v.rest ≠ [] → f.contains v.look = true →
    Tri p (v, k) (fun _ s => Adv v s.1 ∧ F.At (u + 17) s ∧ s.1.len < v.len)

theorem iter_cost {f : TSet n} {p : P (View n × Nat) n} (hp : Gains F f p) :
    ∀ fuel (v : View n) k acc errs hi, F.At (u + 2) (v, k) →
    Tri (iterLoop (VO n) f p fuel acc errs hi) (v, k) (fun _ s => F.At u s) := by
  intro fuel
  induction fuel with
  | zero => intros; exact .fuel
  | succ fuel ih =>
    intro v k acc errs hi h
    unfold iterLoop
    refine .bind (Q := fun x s => x = v.look ∧ s = (v, k + 1)) (.peekSrc ⟨rfl, rfl⟩) ?_
    rintro _ _ ⟨rfl, rfl⟩
    refine .ite (fun hc => ?_) (fun _ => .pure (h.op.weaken (by omega)))
    obtain ⟨h1, h2⟩ := guard_some hc
    refine .bind (hp v (k + 1) u h.op h1 h2) ?_
    rintro r ⟨w, k'⟩ ⟨-, hs, -⟩
    cases r with
    | success t => exact ih _ _ _ _ _ (hs.weaken (by omega))
    | recovered t e => exact ih _ _ _ _ _ (hs.weaken (by omega))
    | panic e => exact .pure (hs.weaken (by omega))

theorem plus_cost {f : TSet n} {p : P (View n × Nat) n} (hp : Gains F f p) {fuel : Nat}
    (h : Tri p (v, k) (fun _ s => F.At (u + 2) s)) :
    Tri (producePlus (VO n) f p fuel) (v, k) (fun _ s => F.At u s) := by
  unfold producePlus
  refine .bind h fun r s hs => ?_
  obtain ⟨w, k'⟩ := s
  have rest : ∀ t errs, Tri (plusRest (VO n) f p fuel t errs) (w, k') (fun _ s => F.At u s) := by
    intro t errs
    unfold plusRest
    refine .bind (iter_cost hp fuel w k' [t] errs _ hs) ?_
    exact fun _ _ h => .pure h
  cases r with
  | success t => exact rest _ _
  | recovered t e => exact rest _ _
  | panic e => exact .pure (hs.weaken (by omega))

theorem skip_cost {f : TSet n} : ∀ fuel (v : View n) k hi, F.At (u + 3) (v, k) →
    Tri (skipLoop (VO n) f fuel hi) (v, k) (fun r s => F.At (u + 2) s ∧
      (r.2 = true → s.1.rest ≠ [] ∧ f.contains s.1.look = true)) := by
  intro fuel
  induction fuel with
  | zero => intros; exact .fuel
  | succ fuel ih =>
    intro v k hi h
    unfold skipLoop
    refine .bind (Q := fun x s => x = v.look ∧ s = (v, k + 1)) (.peekSrc ⟨rfl, rfl⟩) ?_
    rintro _ _ ⟨rfl, rfl⟩
    refine .ite (fun hc => ?_) (fun hc => .pure ⟨h.op, fun hs => ?_⟩)
    · rw [Bool.and_eq_true] at hc
      have hne : v.rest ≠ [] := look_some.1 fun hn => by rw [hn] at hc; exact absurd hc.1 (by simp)
      refine .bind (Q := fun _ s => s = (v, k + 2)) (.currentSpan rfl) ?_
      rintro _ _ rfl
      refine .bind (Q := fun _ s => s = (v.skip, k + 3)) (.consume fun _ => rfl) ?_
      rintro _ _ rfl
      exact ih _ _ _ ((h.op.op.eat hne).weaken (by omega))
    · simp only at hs ⊢
      refine ⟨look_some.1 fun hn => by rw [hn] at hs; exact absurd hs (by simp), ?_⟩
      rw [hs] at hc
      simpa using hc

theorem loopElem_cost {p : P (View n × Nat) n} {out errs} (h : F.At (u + 2) (v, k))
    (hp : F.At (u + 1) (v, k + 1) → Tri p (v, k + 1) (fun _ s => F.At (u + 17) s)) :
    Tri (loopElem (VO n) p out errs) (v, k) (fun _ s => F.At (u + 16) s) := by
  unfold loopElem
  refine .bind (Q := fun _ s => s = (v, k + 1)) (.currentSpan rfl) ?_
  rintro before _ rfl
  refine .bind (hp h.op) ?_
  rintro r ⟨w, k'⟩ hs
  dsimp only
  refine .bind (Q := fun _ s => F.At (u + 16) s) (.currentSpan hs.op) ?_
  rintro sp s hs
  refine .ite (fun _ => ?_) (fun _ => ?_) <;> exact .pure hs

theorem loop_cost {f : TSet n} {p : P (View n × Nat) n} (hp : Gains F f p) :
    ∀ fuel (v : View n) k out errs, F.At (u + 6) (v, k) →
    Tri (loopLoop (VO n) f p fuel out errs) (v, k) (fun _ s => F.At u s) := by
  intro fuel
  induction fuel with
  | zero => intros; exact .fuel
  | succ fuel ih =>
    intro v k out errs h
    unfold loopLoop
    refine .bind (Q := fun x s => x = v.look ∧ s = (v, k + 1)) (.peekSrc ⟨rfl, rfl⟩) ?_
    rintro _ _ ⟨rfl, rfl⟩
    refine .ite (fun _ => .pure (h.op.weaken (by omega))) (fun hsome => ?_)
    have hne : v.rest ≠ [] := look_some.1 fun hn => by rw [hn] at hsome; exact hsome rfl
    refine .bind (Q := fun r s => F.At (u + 5) s ∧ (r.2 = true → s.1.rest ≠ [] ∧ f.contains s.1.look = true)) ?_ ?_
    · refine .ite (fun hc => ?_) (fun hc => .pure ⟨h.op, fun _ => ⟨hne, by simpa using hc⟩⟩)
      unfold loopSkip
      refine .bind (Q := fun _ s => s = (v, k + 2)) (.currentSpan rfl) ?_
      rintro _ _ rfl
      refine .bind (Q := fun _ s => s = (v.skip, k + 3)) (.consume fun _ => rfl) ?_
      rintro _ _ rfl
      refine .bind (skip_cost (u := u + 3) fuel v.skip (k + 3) _ ((h.op.op.eat hne).weaken (by omega))) ?_
      rintro ⟨hi, more⟩ s ⟨h1, h2⟩
      exact .pure ⟨h1, h2⟩
    rintro ⟨errs', more⟩ ⟨w, k'⟩ ⟨h1, h2⟩
    dsimp only
    refine .ite (fun _ => .pure (h1.weaken (by omega))) (fun hmore => ?_)
    obtain ⟨h3, h4⟩ := h2 (by simpa using hmore)
    refine .bind (loopElem_cost (u := u + 3) h1 fun h5 =>
      (hp w (k' + 1) _ h5 h3 h4).mono fun _ _ h => h.2.1) ?_
    rintro ⟨go, out', errs''⟩ ⟨w', k''⟩ h6
    dsimp only
    exact .ite (fun _ => ih _ _ _ _ (h6.weaken (by omega))) (fun _ => .pure (h6.weaken (by omega)))

theorem produceLoop_cost {f : TSet n} {p : P (View n × Nat) n} (hp : Gains F f p) {fuel : Nat}
    (h : F.At (u + 6) (v, k)) : Tri (produceLoop (VO n) f p fuel) (v, k) (fun _ s => F.At u s) := by
  unfold produceLoop
  refine .bind (loop_cost hp fuel v k [] [] h) ?_
  rintro ⟨out, errs⟩ ⟨w, k'⟩ hs
  dsimp only
  refine .ite (fun _ => ?_) (fun _ => .pure hs)
  refine .bind (Q := fun _ s => F.At u s) (.emptySpan fun _ => hs) ?_
  exact fun _ _ h => .pure h

/-! ### Lists with separators -/

/-- A call after a token was consumed. -/
def Free (F : Frame n) (p : P (View n × Nat) n) : Prop :=
  ∀ (v : View n) k u, F.At (u + 1) (v, k) → v.len < F.v0.len →
    Tri p (v, k) (fun _ s => Adv v s.1 ∧ F.At u s)

/-- The same for positions with at most `L` tokens left. -/
def GainsAt (F : Frame n) (L : Nat) (f : TSet n) (p : P (View n × Nat) n) : Prop :=
  ∀ (v : View n) k u, v.len ≤ L → F.At (u + 1) (v, k) → v.rest ≠ [] → f.contains v.look = true →
    Tri p (v, k) (fun _ s => Adv v s.1 ∧ F.At (u + 17) s ∧ s.1.len < v.len)

theorem splitTry_cost {ef : TSet n} {pt : P (View n × Nat) n} (hp : Free F pt) {q a panic}
    (h : F.At (u + 3) (v, k)) (hl : v.len < F.v0.len) :
    Tri (splitTry (VO n) ef pt q a panic) (v, k) (fun r s => Adv v s.1 ∧ F.At u s ∧
      ∀ x, r = .ok x → x.1 = s.1.look) := by
  unfold splitTry
  refine .bind (Q := fun x s => x = v.look ∧ s = (v, k + 1)) (.peekSrc ⟨rfl, rfl⟩) ?_
  rintro _ _ ⟨rfl, rfl⟩
  refine .ite (fun _ => ?_) (fun _ => ?_)
  · refine .bind (hp v (k + 1) (u + 1) h.op hl) ?_
    rintro r ⟨w, k'⟩ ⟨ha, hs⟩
    cases r with
    | success t => exact .pure ⟨ha, hs.weaken (by omega), fun x hx => by cases hx⟩
    | recovered t e => exact .pure ⟨ha, hs.weaken (by omega), fun x hx => by cases hx⟩
    | panic e =>
      refine .bind (Q := fun x s => x = w.look ∧ s = (w, k' + 1)) (.peekSrc ⟨rfl, rfl⟩) ?_
      rintro _ _ ⟨rfl, rfl⟩
      exact .pure ⟨ha, hs.op, fun x hx => by cases hx; rfl⟩
  · cases panic with
    | some p =>
      refine .bind (Q := fun _ s => s = (v, k + 2)) (.extend fun _ => rfl) ?_
      rintro _ _ rfl
      exact .pure ⟨.refl _, h.op.op.weaken (by omega), fun x hx => by cases hx; rfl⟩
    | none =>
      refine .bind (Q := fun _ s => s = (v, k + 2)) (.expecting fun _ => rfl) ?_
      rintro _ _ rfl
      exact .pure ⟨.refl _, h.op.op.weaken (by omega), fun x hx => by cases hx; rfl⟩

theorem isNone_or {b : Bool} (h : ¬ (v.look.isNone || b) = true) : v.rest ≠ [] := by
  refine look_some.1 fun hn => h ?_
  rw [hn]; rfl

theorem splitInner_cost {ef pf fol : TSet n} {pt : P (View n × Nat) n} (hp : Free F pt) {q} :
    ∀ fuel (v : View n) k a panic, F.At (u + 3) (v, k) → v.len < F.v0.len →
    Tri (splitInner (VO n) ef pf fol pt q fuel a panic) (v, k) (fun _ s => s.1.len ≤ v.len ∧ F.At u s) := by
  intro fuel
  induction fuel with
  | zero => intros; exact .fuel
  | succ fuel ih =>
    intro v k a panic h hl
    unfold splitInner
    refine .bind (splitTry_cost hp h hl) ?_
    rintro r ⟨w, k'⟩ ⟨ha, hs, hx⟩
    cases r with
    | error a => exact .pure ⟨ha.len_le, hs⟩
    | ok x =>
      obtain ⟨tok, panic⟩ := x
      cases hx _ rfl
      dsimp only
      refine .ite (fun _ => .pure ⟨ha.len_le, hs⟩) (fun _ => .ite (fun _ => .pure ⟨ha.len_le, hs⟩) (fun hc => ?_))
      have hne := isNone_or hc
      refine .bind (Q := fun _ s => s = (w.skip, k' + 1)) (.consume fun _ => rfl) ?_
      rintro _ _ rfl
      have h1 := skip_len1 hne
      have h2 := ha.len_le
      refine (ih _ _ _ _ ((hs.eat hne).weaken (by omega)) ?_).mono fun _ s h => ⟨?_, h.2⟩
      · simp only [View.len] at *; omega
      · have h3 := h.1
        simp only [View.len] at *; omega

theorem splitOuter_cost {ef pf fol : TSet n} {pt pp : P (View n × Nat) n} {L : Nat} (hp : Free F pt)
    (hq : GainsAt F L pf pp) : ∀ fuel (v : View n) k a, v.len ≤ L → F.At (u + 2) (v, k) →
    Tri (splitOuter (VO n) ef pf fol pt pp fuel a) (v, k) (fun _ s => F.At u s) := by
  intro fuel
  induction fuel with
  | zero => intros; exact .fuel
  | succ fuel ih =>
    intro v k a hL h
    unfold splitOuter
    refine .bind (Q := fun x s => x = v.look ∧ s = (v, k + 1)) (.peekSrc ⟨rfl, rfl⟩) ?_
    rintro _ _ ⟨rfl, rfl⟩
    refine .ite (fun hc => ?_) (fun _ => .pure (h.op.weaken (by omega)))
    obtain ⟨h1, h2⟩ := guard_some hc
    refine .bind (hq v (k + 1) u hL h.op h1 h2) ?_
    rintro r ⟨w, k'⟩ ⟨-, hs, hl⟩
    have hl' : w.len < F.v0.len := Nat.lt_of_lt_of_le hl h.le
    have rest : ∀ q a, Tri (splitInner (VO n) ef pf fol pt q fuel a none >>= fun x =>
        if x.1 then splitOuter (VO n) ef pf fol pt pp fuel x.2 else pure x.2) (w, k') (fun _ s => F.At u s) := by
      intro q a
      refine .bind (splitInner_cost (u := u + 14) hp fuel w k' a none hs hl') ?_
      rintro ⟨go, a⟩ ⟨w', k''⟩ ⟨h4, h3⟩
      dsimp only at h4 ⊢
      exact .ite (fun _ => ih _ _ _ (by dsimp only at hl; omega) (h3.weaken (by omega))) (fun _ => .pure (h3.weaken (by omega)))
    cases r with
    | success t => exact rest _ _
    | recovered t e => exact rest _ _
    | panic e => exact .pure (hs.weaken (by omega))

theorem split_cost {ef pf fol : TSet n} {pt pp : P (View n × Nat) n} (hp : Free F pt) {fuel : Nat}
    (h : Tri pt (v, k) (fun _ s => F.At (u + 2) s ∧ GainsAt F s.1.len pf pp)) :
    Tri (produceSplit (VO n) ef pf fol pt pp fuel) (v, k) (fun _ s => F.At u s) := by
  unfold produceSplit
  refine .bind h ?_
  rintro r ⟨w, k'⟩ ⟨hs, hq⟩
  cases r with
  | success t =>
    refine .bind (splitOuter_cost hp hq fuel w k' _ (Nat.le_refl _) hs) ?_
    exact fun _ _ h => .pure h
  | recovered t e =>
    refine .bind (splitOuter_cost hp hq fuel w k' _ (Nat.le_refl _) hs) ?_
    exact fun _ _ h => .pure h
  | panic e => exact .pure (hs.weaken (by omega))

theorem punctTry_cost {ef fol : TSet n} {pt : P (View n × Nat) n} (hp : Free F pt) {a panic}
    (h : F.At (u + 2) (v, k)) (hl : v.len < F.v0.len) :
    Tri (punctTry (VO n) ef fol pt a panic) (v, k) (fun _ s => Adv v s.1 ∧ F.At u s) := by
  unfold punctTry
  refine .bind (Q := fun x s => x = v.look ∧ s = (v, k + 1)) (.peekSrc ⟨rfl, rfl⟩) ?_
  rintro _ _ ⟨rfl, rfl⟩
  have h1 : F.At u (v, k + 1) := h.op.weaken (by omega)
  refine .ite (fun _ => .pure ⟨.refl _, h1⟩) (fun _ => .ite (fun _ => ?_) (fun _ =>
    .ite (fun _ => .pure ⟨.refl _, h1⟩) (fun _ => ?_)))
  · refine .bind (hp v (k + 1) u h.op hl) ?_
    rintro r ⟨w, k'⟩ hs
    cases r with
    | success t => exact .pure hs
    | recovered t e => exact .pure hs
    | panic e => exact .pure hs
  · cases panic with
    | some p =>
      refine .bind (Q := fun _ s => s = (v, k + 2)) (.extend fun _ => rfl) ?_
      rintro _ _ rfl
      exact .pure ⟨.refl _, h.op.op⟩
    | none =>
      refine .bind (Q := fun _ s => s = (v, k + 2)) (.currentSpan rfl) ?_
      rintro _ _ rfl
      exact .pure ⟨.refl _, h.op.op⟩

theorem punctInner_cost {ef pf fol : TSet n} {pt : P (View n × Nat) n} (hp : Free F pt) :
    ∀ fuel (v : View n) k a panic, F.At (u + 3) (v, k) → v.len < F.v0.len →
    Tri (punctInner (VO n) ef pf fol pt fuel a panic) (v, k) (fun _ s => s.1.len ≤ v.len ∧ F.At u s) := by
  intro fuel
  induction fuel with
  | zero => intros; exact .fuel
  | succ fuel ih =>
    intro v k a panic h hl
    unfold punctInner
    refine .bind (punctTry_cost (u := u + 1) hp h hl) ?_
    rintro r ⟨w, k'⟩ ⟨ha, hs⟩
    cases r with
    | error a => exact .pure ⟨ha.len_le, hs.weaken (by omega)⟩
    | ok panic =>
      dsimp only
      refine .bind (Q := fun x s => x = w.look ∧ s = (w, k' + 1)) (.peekSrc ⟨rfl, rfl⟩) ?_
      rintro _ _ ⟨rfl, rfl⟩
      refine .ite (fun _ => .pure ⟨ha.len_le, hs.op⟩) (fun _ => .ite (fun _ => .pure ⟨ha.len_le, hs.op⟩) (fun hc => ?_))
      have hne := isNone_or hc
      refine .bind (Q := fun _ s => s = (w.skip, k' + 2)) (.consume fun _ => rfl) ?_
      rintro _ _ rfl
      have h1 := skip_len1 hne
      have h2 := ha.len_le
      refine (ih _ _ _ _ ((hs.op.eat hne).weaken (by omega)) ?_).mono fun _ s h => ⟨?_, h.2⟩
      · simp only [View.len] at *; omega
      · have h3 := h.1
        simp only [View.len] at *; omega

theorem punctOuter_cost {ef pf fol : TSet n} {pt pp : P (View n × Nat) n} {L : Nat} (hp : Free F pt)
    (hq : GainsAt F L pf pp) : ∀ fuel (v : View n) k a, v.len ≤ L → F.At (u + 2) (v, k) →
    Tri (punctOuter (VO n) ef pf fol pt pp fuel a) (v, k) (fun _ s => F.At u s) := by
  intro fuel
  induction fuel with
  | zero => intros; exact .fuel
  | succ fuel ih =>
    intro v k a hL h
    unfold punctOuter
    refine .bind (Q := fun x s => x = v.look ∧ s = (v, k + 1)) (.peekSrc ⟨rfl, rfl⟩) ?_
    rintro _ _ ⟨rfl, rfl⟩
    refine .ite (fun hc => ?_) (fun _ => .pure (h.op.weaken (by omega)))
    obtain ⟨h1, h2⟩ := guard_some hc
    refine .bind (hq v (k + 1) u hL h.op h1 h2) ?_
    rintro r ⟨w, k'⟩ ⟨-, hs, hl⟩
    have hl' : w.len < F.v0.len := Nat.lt_of_lt_of_le hl h.le
    have rest : ∀ a, Tri (punctInner (VO n) ef pf fol pt fuel a none >>= fun x =>
        if x.1 then punctOuter (VO n) ef pf fol pt pp fuel x.2 else pure x.2) (w, k') (fun _ s => F.At u s) := by
      intro a
      refine .bind (punctInner_cost (u := u + 14) hp fuel w k' a none hs hl') ?_
      rintro ⟨go, a⟩ ⟨w', k''⟩ ⟨h4, h3⟩
      dsimp only at h4 ⊢
      exact .ite (fun _ => ih _ _ _ (by dsimp only at hl; omega) (h3.weaken (by omega))) (fun _ => .pure (h3.weaken (by omega)))
    cases r with
    | success t => exact rest _
    | recovered t e => exact rest _
    | panic e => exact .pure (hs.weaken (by omega))

theorem punct_cost {ef pf fol : TSet n} {pt pp : P (View n × Nat) n} (hp : Free F pt) {fuel : Nat}
    (h : Tri pt (v, k) (fun _ s => F.At (u + 2) s ∧ GainsAt F s.1.len pf pp)) :
    Tri (producePunct (VO n) ef pf fol pt pp fuel) (v, k) (fun _ s => F.At u s) := by
  unfold producePunct
  refine .bind h ?_
  rintro r ⟨w, k'⟩ ⟨hs, hq⟩
  cases r with
  | success t =>
    refine .bind (punctOuter_cost hp hq fuel w k' _ (Nat.le_refl _) hs) ?_
    exact fun _ _ h => .pure h
  | recovered t e =>
    refine .bind (punctOuter_cost hp hq fuel w k' _ (Nat.le_refl _) hs) ?_
    exact fun _ _ h => .pure h
  | panic e => exact .pure (hs.weaken (by omega))

/-! ### Recovery -/

theorem recoverHead_cost {hf : TSet n} {pt : P (View n × Nat) n} {K : View n → Prop} (h : F.At (u + 2) (v, k))
    (hp : (hf.contains v.look = true ∨ hf.containsE = true) → F.At (u + 1) (v, k + 1) →
      Tri pt (v, k + 1) (fun _ s => Adv v s.1 ∧ F.At u s ∧ K s.1)) :
    Tri (recoverHead (VO n) hf pt) (v, k) (fun _ s => Adv v s.1 ∧ F.At u s ∧
      ((hf.contains v.look = true ∨ hf.containsE = true) → K s.1)) := by
  unfold recoverHead
  refine .bind (Q := fun x s => x = v.look ∧ s = (v, k + 1)) (.peekSrc ⟨rfl, rfl⟩) ?_
  rintro _ _ ⟨rfl, rfl⟩
  refine .ite (fun hc => ?_) (fun hc => ?_)
  · rw [Bool.or_eq_true] at hc
    refine .bind (hp hc h.op) ?_
    rintro r ⟨w, k'⟩ ⟨h1, h2, h3⟩
    cases r with
    | success t => exact .pure ⟨h1, h2, fun _ => h3⟩
    | recovered t e => exact .pure ⟨h1, h2, fun _ => h3⟩
    | panic e =>
      refine .bind (Q := fun _ s => s = (w, k')) (.emptySpan fun _ => rfl) ?_
      rintro _ _ rfl
      exact .pure ⟨h1, h2, fun _ => h3⟩
  · rw [Bool.or_eq_true] at hc
    refine .bind (Q := fun _ s => s = (v, k + 2)) (.expecting fun _ => rfl) ?_
    rintro _ _ rfl
    refine .bind (Q := fun _ s => s = (v, k + 2)) (.emptySpan fun _ => rfl) ?_
    rintro _ _ rfl
    exact .pure ⟨.refl _, h.op.op, fun hc' => absurd hc' hc⟩

theorem Frame.At.consume (h : F.At (u + 1) (v, k)) : F.At u (v.skip, k + 1) := by
  by_cases hne : v.rest = []
  · have : v.skip = v := by simp [View.skip, View.consume, hne]
    rw [this]; exact h.op
  · exact (h.eat hne).weaken (by omega)

theorem recoverSkip_cost {tf : TSet n} {panic} (h : F.At (u + 2) (v, k)) :
    Tri (recoverSkip (VO n) tf panic) (v, k) (fun _ s => Adv v s.1 ∧ F.At u s ∧ (v.rest ≠ [] → F.At (u + 17) s)) := by
  cases panic with
  | some p =>
    refine .bind (Q := fun _ s => s = (v, k + 1)) (.extend fun _ => rfl) ?_
    rintro _ _ rfl
    refine .bind (Q := fun _ s => s = (v.skip, k + 2)) (.consume fun _ => rfl) ?_
    rintro _ _ rfl
    exact .pure ⟨.skip _, h.op.consume, fun hne => h.op.eat hne⟩
  | none =>
    refine .bind (Q := fun _ s => s = (v, k + 1)) (.expecting fun _ => rfl) ?_
    rintro _ _ rfl
    refine .bind (Q := fun _ s => s = (v.skip, k + 2)) (.consume fun _ => rfl) ?_
    rintro _ _ rfl
    exact .pure ⟨.skip _, h.op.consume, fun hne => h.op.eat hne⟩

theorem recoverLoop_cost {tf : TSet n} {pr : P (View n × Nat) n} {v1 : View n}
    (hp : ∀ (v : View n) k u, Adv v1 v → F.At (u + 1) (v, k) →
      (tf.contains v.look = true ∨ tf.containsE = true) →
      Tri pr (v, k) (fun _ s => Adv v s.1 ∧ F.At u s ∧ (s.1.len < v.len → F.At (u + 17) s))) :
    ∀ fuel (v : View n) k errs panic, Adv v1 v → F.At (u + 4) (v, k) →
    Tri (recoverLoop (VO n) tf pr fuel errs panic) (v, k) (fun _ s => F.At u s) := by
  intro fuel
  induction fuel with
  | zero => intros; exact .fuel
  | succ fuel ih =>
    intro v k errs panic hv h
    unfold recoverLoop
    refine .bind (Q := fun x s => x = v.look ∧ s = (v, k + 1)) (.peekSrc ⟨rfl, rfl⟩) ?_
    rintro _ _ ⟨rfl, rfl⟩
    refine .ite (fun hnone => ?_) (fun hsome => ?_)
    · refine .ite (fun hE => ?_) (fun _ => .pure (h.op.weaken (by omega)))
      refine .bind (hp v (k + 1) _ hv h.op (.inr hE)) ?_
      rintro r ⟨w, k'⟩ ⟨-, hs, -⟩
      cases r with
      | success t => exact .pure (hs.weaken (by omega))
      | recovered t e => exact .pure (hs.weaken (by omega))
      | panic e => exact .pure (hs.weaken (by omega))
    have hne : v.rest ≠ [] := look_some.1 fun hn => by rw [hn] at hsome; exact hsome rfl
    refine .ite (fun hc => ?_) (fun hc => ?_)
    · rw [Bool.or_eq_true] at hc
      refine .bind (hp v (k + 1) _ hv h.op hc) ?_
      rintro r ⟨w, k'⟩ ⟨ha, hs, hg⟩
      cases r with
      | success t => exact .pure (hs.weaken (by omega))
      | recovered t e => exact .pure (hs.weaken (by omega))
      | panic e =>
        by_cases hw : w.rest = []
        · have hlt : w.len < v.len := by
            simp only [View.len, hw]
            exact List.length_pos_iff.2 hne
          refine .bind (recoverSkip_cost (u := u + 17) (hg hlt)) ?_
          rintro panic' ⟨w', k''⟩ ⟨h1, h2, -⟩
          exact ih _ _ _ _ ((hv.trans ha).trans h1) (h2.weaken (by omega))
        · refine .bind (recoverSkip_cost (u := u) hs) ?_
          rintro panic' ⟨w', k''⟩ ⟨h1, -, h2⟩
          exact ih _ _ _ _ ((hv.trans ha).trans h1) ((h2 hw).weaken (by omega))
    · refine .bind (recoverSkip_cost (u := u + 1) h.op) ?_
      rintro panic' ⟨w', k''⟩ ⟨h1, -, h2⟩
      exact ih _ _ _ _ (hv.trans h1) ((h2 hne).weaken (by omega))

end Teleparse
