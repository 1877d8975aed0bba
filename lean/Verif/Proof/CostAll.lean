import Verif.Proof.CostStep
/-
The number of stream operations is linear in the number of consumed tokens.
-/
set_option linter.unusedSectionVars false
namespace Teleparse
variable {m n : Nat} {S : Schema m n} {md : Metadata (PId m n) n} {root : Ty m n} {G : Grammar (PId m n) n}

theorem Frame.start {w R r : Nat} (hw : 0 < w) (hr : r ≤ R) (v : View n) (k : Nat) :
    (Frame.mk w R v k r hw hr).At w (v, k) := by
  refine ⟨.refl _, 0, rfl, ?_⟩
  simp only [Nat.sub_self]
  exact Pay.start

section
variable {w : Nat} {fuel : Nat} {rec : Ty m n → P (View n × Nat) n}
variable (E : Ctx S md root G) (hrec : ∀ t, PReach S root t.pid → Spec S md G w (rmax G) t (rec t))
include E hrec

/-- Parts of a sequence type. -/
theorem Ctx.seq_cost_step {t : Ty m n} {ts : List (Ty m n)} {v : View n} {k u : Nat} {hw : 0 < w}
    (hr : PReach S root t.pid) (hrule : S.rule t.pid = .seq (ts.map Ty.pid)) (hlen : ts.length + u ≤ w) :
    Tri (seqLoop (ts.map rec) [] []) (v, k)
      (fun _ s => (Frame.mk w (rmax G) v k (rk G t v) hw rk_le).At u s) := by
  have hpr : ∀ u ∈ ts, PReach S root u.pid := fun u hu => hr.seq hrule (List.mem_map.2 ⟨u, hu, rfl⟩)
  refine seq_cost (M := MN G t v) rfl ts v k [] [] (fun u hu => hrec u (hpr u hu)) ?_ ?_ ?_
    ((Frame.start hw rk_le v k).weaken hlen)
  · intro hM u hu x _
    exact E.rk_lt hr (hpr u hu) ⟨fun h => absurd h hM, fun _ =>
      .inr (E.and hr hrule (List.mem_map.2 ⟨u, hu, rfl⟩))⟩
  · rintro hM _ a u b rfl hn x _ hmn
    refine E.rk_lt hr (hpr u (by simp)) ⟨fun _ => ⟨hmn, ?_⟩, fun h => absurd hM h⟩
    refine (E.lseq (pre := a.map Ty.pid) (post := b.map Ty.pid) hr ?_ ?_).plus
    · rw [hrule]; simp
    · intro y hy
      obtain ⟨x, hx, rfl⟩ := List.mem_map.1 hy
      exact hn x hx
  · rintro (⟨tok, h1, h2⟩ | h)
    · refine .inr (.inl ?_)
      obtain ⟨pre, j, post, he, hn, hf⟩ := E.seq_first hrule h2
      obtain ⟨a, b, rfl, rfl, hb⟩ := List.map_eq_append_iff.1 he
      obtain ⟨u, c, rfl, rfl, rfl⟩ := List.map_eq_cons_iff.1 hb
      exact ⟨a, u, c, rfl, fun k hk => hn _ (List.mem_map.2 ⟨k, hk, rfl⟩), tok, h1, hf⟩
    · exact .inr (.inr fun u hu => E.seq_null hrule h _ (List.mem_map.2 ⟨u, hu, rfl⟩))

/-- The enum. -/
theorem Ctx.enum_cost {i : Fin m} {f : Field m n} {fs : List (Field m n)} {v : View n} {k : Nat} {hw : 0 < w}
    (hw3 : 3 ≤ w) (hk : S i = .enum f fs) (hr : PReach S root (.user i)) :
    Tri (produceEnum (VO n) (md.jump.lookUp (.user i)) (md.first.get (.user i))
      ((f :: fs).map fun v => (rec v.1, v.2))) (v, k)
      (fun _ s => (Frame.mk w (rmax G) v k (rk G (.user i) v) hw rk_le).At 0 s) := by
  have hrule : S.rule (.user i) = .alt ((f :: fs).map fun f => f.1.pid) := by simp only [Schema.rule, hk]
  have hmem : ∀ u : Field m n, u ∈ f :: fs → u.1.pid ∈ (f :: fs).map fun f => f.1.pid :=
    fun u hu => List.mem_map.2 ⟨u, hu, rfl⟩
  have hstart := (Frame.start (r := rk G (.user i) v) hw rk_le v k).weaken hw3
  have hj := E.jump _ _ ((reach_iff_schema E.gram _).2 hr) hrule v.look
  unfold produceEnum
  refine .bind (Q := fun x s => x = v.look ∧ s = (v, k + 1)) (.peekSrc ⟨rfl, rfl⟩) ?_
  rintro _ _ ⟨rfl, rfl⟩
  have fail : Tri ((VO n).mExpecting (md.first.get (.user i)) >>= fun e =>
      (pure (.panic [e]) : P (View n × Nat) n)) (v, k + 1)
      (fun _ s => (Frame.mk w (rmax G) v k (rk G (.user i) v) hw rk_le).At 0 s) := by
    refine .bind (Q := fun _ s => s = (v, k + 2)) (.expecting fun _ => rfl) ?_
    rintro _ _ rfl
    exact .pure (hstart.op.op.weaken (by omega))
  cases hl : md.jump.lookUp (.user i) v.look with
  | none => exact fail
  | some j =>
    obtain ⟨c, hc, hs⟩ := hj.1 j hl
    rw [List.getElem?_map] at hc
    cases hg : (f :: fs)[j]? with
    | none => rw [hg] at hc; cases hc
    | some u =>
      rw [hg] at hc
      cases hc
      simp only [List.getElem?_map, hg, Option.map_some]
      have hu := List.mem_of_getElem? hg
      have hm : MN G u.1 v := by
        cases hlk : v.look with
        | none => rw [hlk] at hs; exact .inr (nullable_iff.1 (hs.elim id id))
        | some tok =>
          rw [hlk] at hs
          exact hs.imp (fun h => ⟨tok, hlk, firstOf_iff.1 h⟩) nullable_iff.1
      have hpu := PReach.alt hr hrule (hmem u hu)
      refine .bind ((hrec u.1 hpu).call (F := Frame.mk w (rmax G) v k (rk G (.user i) v) hw rk_le) rfl
        hstart.op fun _ => ?_) ?_
      · exact E.rk_lt (t := .user i) hr hpu ⟨fun _ => ⟨hm, (E.lalt hr hrule (hmem u hu)).plus⟩, fun _ => .inl hm⟩
      rintro r ⟨w', k'⟩ ⟨-, h2, -⟩
      exact mapVariant_cost (h2.weaken (by omega))

/-- A part called where the lookahead can begin it, after nothing or something was consumed. -/
theorem Ctx.gains {F : Frame n} {t u : Ty m n} {f : TSet n} {v : View n} (hFw : F.w = w) (hFR : F.R = rmax G)
    (hr : PReach S root t.pid) (hu : PReach S root u.pid) (hFr : F.r = rk G t v)
    (hf : ∀ x : View n, x.rest ≠ [] → f.contains x.look = true → FirstAt G u.pid x)
    (hl : MN G t v → LPlus G t.pid u.pid) : Gains F f (rec u) := by
  subst hFw
  intro x k j hat hne hc
  have hf := hf x hne hc
  refine (hFR ▸ hrec u hu : Spec S md G F.w F.R u (rec u)).gain hFR hat (fun _ => ?_) hf
  rw [hFr]
  exact E.rk_lt hr hu ⟨fun hM => ⟨.inl hf, hl hM⟩, fun _ => .inl (.inl hf)⟩

theorem Ctx.free {F : Frame n} {u : Ty m n} (hFw : F.w = w) (hFR : F.R = rmax G)
    (hu : PReach S root u.pid) : Free F (rec u) := by
  subst hFw
  intro x k j hat hl
  refine ((hFR ▸ hrec u hu : Spec S md G F.w F.R u (rec u)).call hFR hat fun h => ?_).mono fun _ _ h => ⟨h.1.1, h.2.1⟩
  simp only [View.len] at *; omega

theorem Ctx.cost_step (hw : 20 ≤ w) (hwide : ∀ k f fs, S k = .struct f fs → 2 * (f :: fs).length ≤ w)
    (t : Ty m n) (hr : PReach S root t.pid) (v : View n) (k : Nat) :
    Tri (produceStep (VO n) S md fuel rec t) (v, k) (fun _ s =>
      ∃ k1, s.2 = k + k1 ∧ Afford w (rmax G) (rk G t v) (v.len - s.1.len) k1) := by
  have hw0 : 0 < w := by omega
  have hstart := (Frame.start (r := rk G t v) hw0 rk_le v k).weaken hw
  have fin : ∀ {x : P (View n × Nat) n},
      Tri x (v, k) (fun _ s => (Frame.mk w (rmax G) v k (rk G t v) hw0 rk_le).At 0 s) →
      Tri x (v, k) (fun _ s => ∃ k1, s.2 = k + k1 ∧ Afford w (rmax G) (rk G t v) (v.len - s.1.len) k1) :=
    fun h => h.mono fun _ _ h => h.afford
  have tup : ∀ {ts : List (Ty m n)}, t.isTuple ts →
      Tri (produceTuple (ts.map rec)) (v, k) (fun _ s => (Frame.mk w (rmax G) v k (rk G t v) hw0 rk_le).At 0 s) := by
    intro ts ht
    refine tuple_cost (E.seq_cost_step hrec hr (tuple_pid ht) ?_)
    rcases ht with ⟨_, _, rfl, rfl⟩ | ⟨_, _, _, rfl, rfl⟩ | ⟨_, _, _, _, rfl, rfl⟩ | ⟨_, _, _, _, _, rfl, rfl⟩ <;>
      (simp only [List.length_cons, List.length_nil]; omega)
  have opt : ∀ {u : Ty m n} {mk}, t.pid = .opt u.prod →
      Tri (produceOption (VO n) (md.first.get u.pid) (rec u) mk) (v, k)
        (fun _ s => (Frame.mk w (rmax G) v k (rk G t v) hw0 rk_le).At 0 s) := by
    intro u mk hp
    rw [hp] at hr
    obtain ⟨h1, h2⟩ := E.opt_part hr
    refine option_cost hstart fun h3 h4 h5 => ?_
    have hf := E.firstAt.1 ⟨h3, h4⟩
    refine ((hrec u h1).gain (F := Frame.mk w (rmax G) v k (rk G t v) hw0 rk_le) rfl h5 (fun _ => ?_) hf).mono
      fun _ _ h => h.2.1.weaken (by omega)
    exact E.rk_lt (t := t) (hp ▸ hr) h1 ⟨fun _ => ⟨.inl hf, hp ▸ h2⟩, fun _ => .inl (.inl hf)⟩
  have hF : ∀ {t : Ty m n} {x : View n}, x.rest ≠ [] → (md.first.get (.plus t.prod)).contains x.look = true →
      FirstAt G t.pid x := fun h1 h2 => (E.firstAt.1 ⟨h1, h2⟩).imp fun _ h => E.plus_first h
  cases t with
  | term i t => exact fin (term_cost (hstart.weaken (by omega)))
  | user i =>
    cases hk : S i with
    | struct f fs =>
      simp only [produceStep, hk]
      have hrule : S.rule (Ty.user i).pid = .seq (((f :: fs).map (·.1)).map Ty.pid) := by
        simp only [Ty.pid, Ty.prod, PId.id, Schema.rule, hk, List.map_map]; rfl
      refine fin (struct_cost ?_)
      have := E.seq_cost_step (u := 0 + (f :: fs).length) (v := v) (k := k) (hw := hw0) hrec hr hrule
        (by have := hwide i f fs hk; rw [List.length_map]; omega)
      rw [show ((f :: fs).map fun f => (rec f.1, f.2)).map (·.1) = ((f :: fs).map (·.1)).map rec by
        rw [List.map_map, List.map_map]; rfl]
      rw [List.length_map]
      exact this
    | enum f fs =>
      simp only [produceStep, hk]
      exact fin (E.enum_cost hrec (by omega) hk hr)
  | box t => exact (hrec t hr v k).mono fun _ _ h => h.2
  | option t => exact fin (opt rfl)
  | exist t => exact fin (opt rfl)
  | quote t => exact text_cost ((hrec t hr v k).mono fun _ _ h => h.2)
  | parse t => exact text_cost ((hrec t hr v k).mono fun _ _ h => h.2)
  | plus t =>
    obtain ⟨h1, h2, h3⟩ := E.plus_part hr
    have hN : Null G (Ty.plus t).pid → Null G t.pid := fun h => E.seq_null (rule_plus _) h _ (by simp [Ty.pid])
    refine fin (plus_cost (E.gains hrec rfl rfl hr h1 rfl (fun x => hF) fun _ => h2)
      (((hrec t h1).call (F := Frame.mk w (rmax G) v k (rk G (.plus t) v) hw0 rk_le) (u := 2) rfl
        (hstart.weaken (by omega)) fun _ => ?_).mono fun _ _ h => h.2.1))
    exact E.rk_lt hr h1 ⟨fun hM => ⟨hM.imp (fun h => h.imp fun _ h => E.plus_first h) hN, h2⟩, fun _ => .inr h3⟩
  | star t =>
    obtain ⟨h1, h2⟩ := E.star_part hr
    refine fin (option_cost hstart fun h3 h4 h5 => ?_)
    have hf := hF h3 h4
    refine plus_cost (E.gains hrec (t := .star t) rfl rfl hr h1 rfl (fun x => hF) fun _ => h2)
      (((hrec t h1).gain (F := Frame.mk w (rmax G) v k (rk G (.star t) v) hw0 rk_le) rfl h5 (fun _ => ?_) hf).mono
        fun _ _ h => h.2.1.weaken (by omega))
    exact E.rk_lt hr h1 ⟨fun hM => ⟨.inl hf, h2⟩, fun _ => .inl (.inl hf)⟩
  | loop t =>
    obtain ⟨h1, h2, -⟩ := E.plus_part hr
    exact fin (produceLoop_cost (E.gains hrec (t := .loop t) rfl rfl hr h1 rfl (fun x => hF) fun _ => h2)
      (hstart.weaken (by omega)))
  | split t p =>
    obtain ⟨h1, h2, h3, h4, h5, h6, h7⟩ := E.split_part hr
    have ht : MN G (.split t p) v → MN G t v := by
      rintro (⟨tok, h8, h9⟩ | h)
      · rcases h7 tok h9 with h | h
        · exact .inl ⟨tok, h8, h⟩
        · exact .inr h.1
      · exact .inr (h6 h)
    refine fin (split_cost (E.free hrec rfl rfl h1)
      (((hrec t h1).call (F := Frame.mk w (rmax G) v k (rk G (.split t p) v) hw0 rk_le) (u := 2) rfl
        (hstart.weaken (by omega)) fun _ => ?_).mono ?_))
    · exact E.rk_lt hr h1 ⟨fun hM => ⟨ht hM, h3⟩, fun _ => .inr h4⟩
    · rintro r s ⟨hpost, h8, -⟩
      refine ⟨h8, ?_⟩
      intro x k' j hx hat hne hc
      by_cases hl : s.1.len < v.len
      · have hf := E.firstAt.1 ⟨hne, hc⟩
        refine (hrec p h2).gain rfl hat (fun h => ?_) hf
        simp only [View.len] at *; omega
      · exact E.gains hrec (t := .split t p) rfl rfl hr h2 rfl (fun x h9 h10 => E.firstAt.1 ⟨h9, h10⟩)
          (fun hM => h5 ((ht hM).resolve_left fun hf => hl (hpost.2.1 hf))) x k' j hat hne hc
  | punct t p =>
    obtain ⟨h1, h2, h3, h4, h5, h6, h7⟩ := E.punct_part hr
    have ht : MN G (.punct t p) v → MN G t v := by
      rintro (⟨tok, h8, h9⟩ | h)
      · rcases h7 tok h9 with h | h
        · exact .inl ⟨tok, h8, h⟩
        · exact .inr h.1
      · exact .inr (h6 h)
    refine fin (punct_cost (E.free hrec rfl rfl h1)
      (((hrec t h1).call (F := Frame.mk w (rmax G) v k (rk G (.punct t p) v) hw0 rk_le) (u := 2) rfl
        (hstart.weaken (by omega)) fun _ => ?_).mono ?_))
    · exact E.rk_lt hr h1 ⟨fun hM => ⟨ht hM, h3⟩, fun _ => .inr h4⟩
    · rintro r s ⟨hpost, h8, -⟩
      refine ⟨h8, ?_⟩
      intro x k' j hx hat hne hc
      by_cases hl : s.1.len < v.len
      · have hf := E.firstAt.1 ⟨hne, hc⟩
        refine (hrec p h2).gain rfl hat (fun h => ?_) hf
        simp only [View.len] at *; omega
      · exact E.gains hrec (t := .punct t p) rfl rfl hr h2 rfl (fun x h9 h10 => E.firstAt.1 ⟨h9, h10⟩)
          (fun hM => h5 ((ht hM).resolve_left fun hf => hl (hpost.2.1 hf))) x k' j hat hne hc
  | recover t r =>
    have hrule : S.rule (Ty.recover t r).pid = .seq [t.pid, r.pid] := rfl
    have h1 : PReach S root t.pid := hr.seq hrule (by simp)
    have h2 : PReach S root r.pid := hr.seq hrule (by simp)
    have h3 : LPlus G (Ty.recover t r).pid t.pid := (E.lseq (pre := []) hr hrule (by simp)).plus
    have h4 : Null G t.pid → LPlus G (Ty.recover t r).pid r.pid := fun hn =>
      (E.lseq (pre := [t.pid]) hr hrule (by simpa using hn)).plus
    have ht : MN G (.recover t r) v → MN G t v := by
      rintro (⟨tok, h7, h8⟩ | h)
      · rcases E.first2 hrule h8 with h | h
        · exact .inl ⟨tok, h7, h⟩
        · exact .inr h.1
      · exact .inr (E.seq_null hrule h _ (by simp))
    refine fin ?_
    simp only [produceStep, produceRecover]
    refine .bind (recoverHead_cost (u := 4) (K := fun x => FirstAt G t.pid v → x.len < v.len)
      (hstart.weaken (by omega)) fun hg hat =>
      ((hrec t h1).call (F := Frame.mk w (rmax G) v k (rk G (.recover t r) v) hw0 rk_le) rfl hat fun _ => ?_).mono
        fun _ _ h => ⟨h.1.1, h.2.1, h.1.2.1⟩) ?_
    · exact E.rk_lt hr h1 ⟨fun hM => ⟨ht hM, h3⟩, fun _ => .inl (E.mn.1 hg)⟩
    rintro hd ⟨v1, k1⟩ ⟨ha, hat, hK⟩
    refine .bind (recoverLoop_cost (u := 0) (v1 := v1) (fun x k' j hx hat hg => ?_) fuel v1 k1 _ _ (.refl _) hat) ?_
    · refine ((hrec r h2).call (F := Frame.mk w (rmax G) v k (rk G (.recover t r) v) hw0 rk_le) rfl hat
        fun hl => ?_).mono fun _ _ h => ⟨h.1.1, h.2⟩
      refine E.rk_lt hr h2 ⟨fun hM => ⟨E.mn.1 hg, h4 ?_⟩, fun _ => .inl (E.mn.1 hg)⟩
      refine (ht hM).resolve_left fun hf => ?_
      have h5 := hK (E.mn.2 (ht hM)) hf
      have h6 := hx.len_le
      simp only [View.len] at *; omega
    · rintro ⟨tail, errs, panic⟩ s hs
      cases tail with
      | some x => exact .pure hs
      | none => exact .pure hs
  | tup2 a b => exact fin (tup (.inl ⟨a, b, rfl, rfl⟩))
  | tup3 a b c => exact fin (tup (.inr (.inl ⟨a, b, c, rfl, rfl⟩)))
  | tup4 a b c d => exact fin (tup (.inr (.inr (.inl ⟨a, b, c, d, rfl, rfl⟩))))
  | tup5 a b c d e => exact fin (tup (.inr (.inr (.inr ⟨a, b, c, d, e, rfl, rfl⟩))))

end

/-! ### The counter does not change anything -/

theorem erase_closed {σ : Type} (o : Ops σ n) :
    Closed 0 (fun {α} (x : M (σ × Nat) α) (y : M σ α) => ∀ s k, y s = (x (s, k)).mapState Prod.fst) o.counted o where
  pure a s k := rfl
  bind {α β x y f g} hx hf s k := by
    show M.bind y g s = (M.bind x f (s, k)).mapState Prod.fst
    unfold M.bind
    rw [hx s k]
    cases x (s, k) with
    | fuel => rfl
    | crash => rfl
    | ok a s' => exact hf a s'.1 s'.2
  fuel y hy s k := by rw [hy rfl]; rfl
  crash s k := rfl
  peek s k := rfl
  consume s k := rfl
  source s k := rfl
  emptySpan s k := rfl
  apply sp sem s k := rfl

theorem counted_view_closed (ext : Fin n → Bool) :
    Closed 0 (fun {α} (x : M (Parser n × Nat) α) (y : M (View n × Nat) α) =>
      ∀ p k, y (p.view ext, k) = (x (p, k)).mapState fun s => (s.1.view ext, s.2))
      (Parser.ops ext).counted (View.ops (n := n)).counted where
  pure a p k := rfl
  bind {α β x y f g} hx hf p k := by
    show M.bind y g (p.view ext, k) = (M.bind x f (p, k)).mapState _
    unfold M.bind
    rw [hx p k]
    cases x (p, k) with
    | fuel => rfl
    | crash => rfl
    | ok a s => exact hf a s.1 s.2
  fuel y hy p k := by rw [hy rfl]; rfl
  crash p k := rfl
  peek p k := by
    have := view_fill ext p
    simp [Ops.mPeek, Ops.counted, Parser.ops, View.ops, Parser.peek, Out.mapState, this]
  consume p k := by
    have := view_consume ext p
    simp [Ops.mConsume, Ops.counted, Parser.ops, View.ops, Out.mapState, this]
  source p k := rfl
  emptySpan p k := rfl
  apply sp sem p k := rfl

theorem Ctx.post (E : Ctx S md root G) {fuel : Nat} {t : Ty m n} (hr : PReach S root t.pid) {v v' : View n} {r}
    (h : produce View.ops S md fuel t v = .ok r v') : Post S md G t v r v' := by
  obtain ⟨N, o, h1, -, h3⟩ := E.good _ t hr v (Nat.le_refl _)
  refine h3 r v' ?_
  rw [← h1 (max N fuel) (max N fuel) (by omega) (by omega)]
  exact produce_more h (by omega)

theorem Ctx.spec (E : Ctx S md root G) {w : Nat} (hw : 20 ≤ w)
    (hwide : ∀ k f fs, S k = .struct f fs → 2 * (f :: fs).length ≤ w) :
    ∀ (fuel : Nat) (t : Ty m n), PReach S root t.pid → Spec S md G w (rmax G) t (produce (VO n) S md fuel t) := by
  intro fuel
  induction fuel with
  | zero => intro t _ v k; exact .fuel
  | succ fuel ih =>
    intro t hr v k r s h
    have h1 := E.cost_step ih hw hwide t hr v k r s h
    refine ⟨E.post hr (fuel := fuel + 1) ?_, h1⟩
    rw [(erase_closed View.ops).produce S md (fuel + 1) t v k, h]
    rfl

/-- A bound for the number of fields of structs, which are produced and marked. -/
def Schema.width (S : Schema m n) : Nat :=
  20 + ((List.finRange m).map fun k => match S k with
    | .struct f fs => 2 * (f :: fs).length
    | .enum _ _ => 0).sum

theorem le_sum {l : List Nat} {a : Nat} (h : a ∈ l) : a ≤ l.sum := by
  induction l with
  | nil => cases h
  | cons b l ih =>
    rw [List.sum_cons]
    rcases List.mem_cons.1 h with rfl | h
    · omega
    · have := ih h; omega

theorem Schema.width_le (S : Schema m n) {k f fs} (h : S k = .struct f fs) : 2 * (f :: fs).length ≤ S.width := by
  have h1 : 2 * (f :: fs).length ∈ (List.finRange m).map fun k => match S k with
      | .struct f fs => 2 * (f :: fs).length
      | .enum _ _ => 0 := List.mem_map.2 ⟨k, List.mem_finRange k, by rw [h]⟩
  have := le_sum h1
  unfold Schema.width
  omega

/-- Operations per token. -/
def opsPerToken (S : Schema m n) (G : Grammar (PId m n) n) : Nat :=
  big S.width (rmax G) + cost S.width (rmax G)

theorem Afford.linear {w R r c k : Nat} (hw : 0 < w) (h : Afford w R r c k) (hr : r ≤ R) :
    k ≤ (big w R + cost w R) * (c + 1) := by
  have h1 := cost_le hw hr
  have h2 : (big w R + cost w R) * (c + 1) = big w R * c + cost w R * c + (big w R + cost w R) := by
    rw [Nat.mul_add, Nat.mul_one, Nat.add_mul]
  rw [h2]
  have h3 : 0 ≤ cost w R * c := Nat.zero_le _
  by_cases hc : c = 0
  · have := h.1 hc; omega
  · have := h.2 (by omega); omega

theorem Ctx.linear (E : Ctx S md root G) {fuel : Nat} {t : Ty m n} (hr : PReach S root t.pid) {v v' : View n}
    {k k' : Nat} {r} (h : produce (VO n) S md fuel t (v, k) = .ok r (v', k')) :
    k' ≤ k + opsPerToken S G * (v.len - v'.len + 1) := by
  have hw : 20 ≤ S.width := by unfold Schema.width; omega
  obtain ⟨-, k1, h1, h2⟩ := E.spec hw (fun _ _ _ h => S.width_le h) fuel t hr v k r (v', k') h
  simp only at h1
  have := h2.linear (by omega) rk_le
  unfold opsPerToken
  simp only at this
  omega

end Teleparse
