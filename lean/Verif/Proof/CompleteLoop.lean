import Verif.Proof.Complete
import Verif.Proof.LL1
/-
Completeness for types with a `Loop` at the end.
-/
namespace Teleparse
variable {m n : Nat}

/-- An accepted schema for which the parser finds all matches of types without `Loop`. -/
structure Found (S : Schema m n) (md : Metadata (PId m n) n) (root : Ty m n)
    (G : Grammar (PId m n) n) : Prop extends Rules S root G where
  built : Tables S md root G
  fol : ∀ t p, Reach S.tyParts root (.punct t p) → ∀ tok, FollowOf G root.pid (Ty.punct t p).pid (some tok) →
    (md.follow.get (Ty.punct t p).pid).contains (some tok) = true
  ll1 : LL1 G root.pid
  enums : ∀ k v vs, S k = .enum v vs → Reachable G root.pid (.user k) → ∀ (j : Nat) g, (v :: vs)[j]? = some g →
    Nullable G g.1.pid → ∀ tok, FollowOf G root.pid (.user k) (some tok) → md.jump.lookUp (.user k) (some tok) = some j
  seps : ∀ t p, Reach S.tyParts root (.split t p) → ¬ Nullable G p.pid

section
variable {S : Schema m n} {md : Metadata (PId m n) n} {source : Str} {root : Ty m n} {G : Grammar (PId m n) n} {fx : Bool}

theorem Found.comp (E : Found S md root G) {r : Ty m n} (hr : Reach S.tyParts root r) (hl : LoopFree S r) :
    Comp S md source r root G where
  toRules := E.toRules
  built := E.built
  fol := fun t p h => E.fol t p (hr.trans h.ty)
  ll1 := E.ll1
  enums := E.enums
  seps := fun t p h => E.seps t p (hr.trans h.ty)
  loops := hl
  der := fun h hw => h.der E.gram hl hw

theorem Found.reachable (E : Found S md root G) {i : PId m n} (h : PReach S root i) :
    Reachable G root.pid i := (reach_iff_schema E.gram i).2 h

theorem Comp.findsSeq {r : Ty m n} (E : Comp S md source r root G) {pos ts cs xs}
    (h : ParsesSeq S source pos ts cs xs) : FindsSeqX fx S md source r root G pos ts cs xs := by
  induction ts generalizing pos cs xs with
  | nil => cases h; exact .nil
  | cons t ts ih =>
    cases h with
    | cons h1 h2 => exact .cons h1 (E.finds h1) (ih h2)

/-- A match up to the end of input is found. -/
def FindsEndX (fx : Bool) (S : Schema m n) (md : Metadata (PId m n) n) (source : Str) (root : Ty m n)
    (G : Grammar (PId m n) n) (t : Ty m n) : Prop :=
  ∀ pos c x, Parses S source pos t c x → Within S root root t →
    (∀ w, la source (toks c) = some w → FirstI G t.pid w) ∧
    ∀ d, endOf 0 d = pos → Ready source ⟨source, d, toks c⟩ →
      DoesX fx S md t ⟨source, d, toks c⟩ x ⟨source, d ++ c, []⟩

theorem Found.free (E : Found S md root G) {t : Ty m n} (hl : LoopFree S t) : FindsEndX fx S md source root G t := by
  intro pos c x h hw
  have C : Comp S md source t root G := E.comp hw.ty hl
  have hw' : Within S t root t := ⟨.refl, hw.pid⟩
  refine ⟨fun w hla => ?_, fun d hd hr => ?_⟩
  · rcases C.match_cases h hw' with ⟨rfl, _⟩ | ⟨w', hf, _, hla'⟩
    · cases hla
    · have := hla' []
      rw [List.append_nil, hla] at this
      cases this
      exact hf
  · have := C.finds (fx := fx) h d [] hd (by rw [List.append_nil]; exact hr) hw' .nil
    rw [List.append_nil] at this
    exact this

/-! ### Sequences -/

theorem Found.part (E : Found S md root G) {t : Ty m n} (hl : LoopFree S t) (hw : Within S root root t)
    {pos c x} (h : Parses S source pos t c x) :
    (c = [] ∧ Null G t.pid) ∨
      ∃ w, FirstI G t.pid w ∧ c ≠ [] ∧ ∀ rest, la source (toks c ++ rest) = some w :=
  (E.comp hw.ty hl).match_cases h ⟨.refl, hw.pid⟩

theorem Found.ok_end (E : Found S md root G) {u : Ty m n} (hu : FindsEndX fx S md source root G u)
    (hwu : Within S root root u) {i a : PId m n} {pre : List (PId m n)} (hi : Reachable G root.pid i) :
    ∀ {ts : List (Ty m n)} {mid : List (PId m n)} {pos cs xs},
    (i, Rule.seq (pre ++ a :: (mid ++ (ts ++ [u]).map Ty.pid))) ∈ G → (∀ k ∈ mid, Null G k) →
    (∀ t ∈ ts, LoopFree S t ∧ Within S root root t) → ParsesSeq S source pos (ts ++ [u]) cs xs →
    Ok G root source a (toks cs.flatten) := by
  intro ts
  induction ts with
  | nil =>
    intro mid pos cs xs hm hmid _ h tok ht
    cases h with
    | cons h1 h2 =>
      cases h2
      rw [List.flatten_cons, List.flatten_nil, List.append_nil] at ht
      exact FollowOf.between hi hm hmid ((hu _ _ _ h1 hwu).1 _ ht)
  | cons t ts ih =>
    intro mid pos cs xs hm hmid hts h
    cases h with
    | @cons _ _ _ c cs x xs h1 h2 =>
      rw [List.flatten_cons, toks, List.map_append]
      rcases E.part (hts t (by simp)).1 (hts t (by simp)).2 h1 with ⟨rfl, hn⟩ | ⟨w, hf, _, hla⟩
      · simp only [List.map_nil, List.nil_append]
        refine ih (mid := mid ++ [t.pid]) (by simpa using hm) ?_ (fun v hv => hts v (by simp [hv])) h2
        intro k hk
        rcases List.mem_append.1 hk with hk | hk
        · exact hmid k hk
        · rw [List.mem_singleton.1 hk]; exact hn
      · intro tok ht
        rw [hla] at ht
        cases ht
        exact FollowOf.between hi hm hmid hf

theorem Found.head_end (E : Found S md root G) {u : Ty m n} (hu : FindsEndX fx S md source root G u)
    (hwu : Within S root root u) {i : PId m n} :
    ∀ {ts : List (Ty m n)} {mid : List (PId m n)} {pos cs xs},
    (i, Rule.seq (mid ++ (ts ++ [u]).map Ty.pid)) ∈ G → (∀ k ∈ mid, Null G k) →
    (∀ t ∈ ts, LoopFree S t ∧ Within S root root t) → ParsesSeq S source pos (ts ++ [u]) cs xs →
    ∀ w, la source (toks cs.flatten) = some w → FirstI G i w := by
  intro ts
  induction ts with
  | nil =>
    intro mid pos cs xs hm hmid _ h w ht
    cases h with
    | cons h1 h2 =>
      cases h2
      rw [List.flatten_cons, List.flatten_nil, List.append_nil] at ht
      exact FirstI.seq (j := u.pid) hm hmid ((hu _ _ _ h1 hwu).1 _ ht)
  | cons t ts ih =>
    intro mid pos cs xs hm hmid hts h w ht
    cases h with
    | @cons _ _ _ c cs x xs h1 h2 =>
      rw [List.flatten_cons, toks, List.map_append] at ht
      rcases E.part (hts t (by simp)).1 (hts t (by simp)).2 h1 with ⟨rfl, hn⟩ | ⟨w', hf, _, hla⟩
      · simp only [List.map_nil, List.nil_append] at ht
        refine ih (mid := mid ++ [t.pid]) (by simpa using hm) ?_ (fun v hv => hts v (by simp [hv])) h2 w ht
        intro k hk
        rcases List.mem_append.1 hk with hk | hk
        · exact hmid k hk
        · rw [List.mem_singleton.1 hk]; exact hn
      · rw [hla] at ht
        cases ht
        exact FirstI.seq (j := t.pid) hm hmid hf

theorem Found.seq_end (E : Found S md root G) {u : Ty m n} (hu : FindsEndX fx S md source root G u)
    (hwu : Within S root root u) {i : PId m n} (hi : Reachable G root.pid i) :
    ∀ {ts : List (Ty m n)} {pre : List (PId m n)} {pos cs xs} {d : List (Cell n)} {acc : List (Tree n)},
    (i, Rule.seq (pre ++ (ts ++ [u]).map Ty.pid)) ∈ G →
    (∀ t ∈ ts, LoopFree S t ∧ Within S root root t) → ParsesSeq S source pos (ts ++ [u]) cs xs →
    endOf 0 d = pos → Ready source ⟨source, d, toks cs.flatten⟩ →
    Halts (fun _ j => seqLoop ((ts ++ [u]).map (produceX View.ops fx S md j)) acc []) ⟨source, d, toks cs.flatten⟩
      (fun a w => a = .ok (acc ++ xs, []) ∧ w = ⟨source, d ++ cs.flatten, []⟩) := by
  intro ts
  induction ts with
  | nil =>
    intro pre pos cs xs d acc hm _ h hd hr
    cases h with
    | cons h1 h2 =>
      cases h2
      simp only [List.flatten_cons, List.flatten_nil, List.append_nil] at hr ⊢
      simp only [List.nil_append, List.map_cons, List.map_nil, seqLoop]
      exact ((hu _ _ _ h1 hwu).2 d hd hr).to (.pure ⟨rfl, rfl⟩)
  | cons t ts ih =>
    intro pre pos cs xs d acc hm hts h hd hr
    cases h with
    | @cons _ _ _ c cs x xs h1 h2 =>
      rw [List.flatten_cons, toks, List.map_append] at hr ⊢
      have hw := hts t (by simp)
      have hok : Ok G root source t.pid (toks cs.flatten) :=
        E.ok_end hu hwu (mid := []) hi (by simpa using hm) (by simp) (fun v hv => hts v (by simp [hv])) h2
      simp only [List.cons_append, List.map_cons, seqLoop]
      refine ((E.comp hw.2.ty hw.1).finds h1 d _ hd hr ⟨.refl, hw.2.pid⟩ hok.okw).to ?_
      dsimp only
      refine (ih (pre := pre ++ [t.pid]) (by simpa using hm) (fun v hv => hts v (by simp [hv])) h2
        (by rw [endOf_append, hd]) hr.step).mono ?_
      rintro _ _ ⟨rfl, rfl⟩
      exact ⟨by simp, by simp⟩

theorem Found.tuple (E : Found S md root G) {t : Ty m n} {ts : List (Ty m n)} {u : Ty m n}
    (ht : t.isTuple (ts ++ [u])) (hts : ∀ v ∈ ts, LoopFree S v) (hu : FindsEndX fx S md source root G u) :
    FindsEndX fx S md source root G t := by
  intro pos c x h hw
  have hm := E.mem hw.pid
  rw [tuple_pid ht] at hm
  have hw' : ∀ v ∈ ts ++ [u], Within S root root v := by
    intro v hv
    refine ⟨.step hw.ty (by rw [isTuple_parts ht]; exact hv), hw.pid.part ?_⟩
    rw [tuple_pid ht]; exact List.mem_map.2 ⟨v, hv, rfl⟩
  have hts' : ∀ v ∈ ts, LoopFree S v ∧ Within S root root v := fun v hv => ⟨hts v hv, hw' v (by simp [hv])⟩
  obtain ⟨cs, l, rfl, rfl, hs⟩ : ∃ cs l, c = cs.flatten ∧ x = .seq (spanOf l) l ∧
      ParsesSeq S source pos (ts ++ [u]) cs l := by
    have key : ∀ ts', t.isTuple ts' → ts' = ts ++ [u] := by
      intro ts' h'
      rw [← isTuple_parts (S := S) ht, ← isTuple_parts (S := S) h']
    cases h with
    | tuple ht' hs => rw [key _ ht'] at hs; exact ⟨_, _, rfl, rfl, hs⟩
    | _ =>
      exfalso
      rcases ht with ⟨_, _, h, _⟩ | ⟨_, _, _, h, _⟩ | ⟨_, _, _, _, h, _⟩ | ⟨_, _, _, _, _, h, _⟩ <;> cases h
  refine ⟨E.head_end hu (hw' u (by simp)) (mid := []) hm (by simp) hts' hs, fun d hd hr => ?_⟩
  refine Halts.produceX ?_ (by rcases ht with ⟨_, _, rfl, _⟩ | ⟨_, _, _, rfl, _⟩ | ⟨_, _, _, _, rfl, _⟩ | ⟨_, _, _, _, _, rfl, _⟩ <;> simp)
  have e : ∀ i j, produceStep View.ops S md i (produceX View.ops fx S md j) t =
      produceTuple ((ts ++ [u]).map (produceX View.ops fx S md j)) := by
    intro i j
    generalize ts ++ [u] = tl at ht
    rcases ht with ⟨_, _, rfl, rfl⟩ | ⟨_, _, _, rfl, rfl⟩ | ⟨_, _, _, _, rfl, rfl⟩ | ⟨_, _, _, _, _, rfl, rfl⟩ <;> rfl
  simp only [e, produceTuple]
  refine .bind (E.seq_end hu (hw' u (by simp)) (E.reachable hw.pid) (pre := []) (acc := []) hm hts' hs hd hr) ?_
  rintro _ _ ⟨rfl, rfl⟩
  exact .pure ⟨rfl, rfl⟩

theorem Found.struct (E : Found S md root G) {k : Fin m} {f fs} {ts : List (Ty m n)} {u : Ty m n}
    (hk : S k = .struct f fs) (hp : (f :: fs).map (·.1) = ts ++ [u]) (hts : ∀ v ∈ ts, LoopFree S v)
    (hu : FindsEndX fx S md source root G u) : FindsEndX fx S md source root G (.user k) := by
  intro pos c x h hw
  have hrule : S.rule (.user k) = .seq ((ts ++ [u]).map Ty.pid) := by
    simp only [Schema.rule, hk]
    rw [← hp, List.map_map]
    rfl
  have hm := E.mem hw.pid
  rw [show (Ty.user k : Ty m n).pid = PId.user k from rfl, hrule] at hm
  have hw' : ∀ v ∈ ts ++ [u], Within S root root v := by
    intro v hv
    refine ⟨.step hw.ty (by simp only [Schema.tyParts, hk]; rw [hp]; exact hv), hw.pid.part ?_⟩
    rw [show (Ty.user k : Ty m n).pid = PId.user k from rfl, hrule]
    exact List.mem_map.2 ⟨v, hv, rfl⟩
  have hts' : ∀ v ∈ ts, LoopFree S v ∧ Within S root root v := fun v hv => ⟨hts v hv, hw' v (by simp [hv])⟩
  obtain ⟨cs, l, rfl, rfl, hs⟩ : ∃ cs l, c = addAll cs ((f :: fs).map (·.2)) ∧ x = .seq (spanOf l) l ∧
      ParsesSeq S source pos ((f :: fs).map (·.1)) cs l := by
    cases h with
    | struct hk' hs => rw [hk] at hk'; cases hk'; exact ⟨_, _, rfl, rfl, hs⟩
    | enum hk' => rw [hk] at hk'; cases hk'
    | tuple ht' =>
      rcases ht' with ⟨_, _, h, _⟩ | ⟨_, _, _, h, _⟩ | ⟨_, _, _, _, h, _⟩ | ⟨_, _, _, _, _, h, _⟩ <;> cases h
  have hl2 : cs.length = ((f :: fs).map (·.2)).length := by rw [hs.lengths.1]; simp
  have htok : toks (addAll cs ((f :: fs).map (·.2))) = toks cs.flatten := addAll_tokens _ _ hl2
  have hs' := hs
  rw [hp] at hs'
  rw [htok]
  refine ⟨E.head_end hu (hw' u (by simp)) (mid := []) hm (by simp) hts' hs', fun d hd hr => ?_⟩
  refine Halts.produceX ?_
  simp only [produceStep, hk, produceStruct]
  have hs2 := E.seq_end hu (hw' u (by simp)) (E.reachable hw.pid) (pre := []) (acc := []) hm hts' hs' hd hr
  have haft : After (endOf 0 d) cs.flatten :=
    Ready.after (rest := []) (by rw [List.append_nil]; exact hr)
  have hst : Ready source ⟨source, d ++ cs.flatten, []⟩ :=
    Ready.step (by rw [List.append_nil]; exact hr)
  refine .bind (Q := fun a u => a = .ok (l, []) ∧ u = ⟨source, d ++ cs.flatten, []⟩) ?_ ?_
  · have e : ∀ j, ((f :: fs).map fun g => (produceX View.ops fx S md j g.1, g.2)).map (·.1) =
        (ts ++ [u]).map (produceX View.ops fx S md j) := by
      intro j
      rw [← hp]
      simp [Function.comp_def]
    simp only [e]
    exact hs2
  · rintro _ _ ⟨rfl, rfl⟩
    dsimp only
    refine .bind (Q := fun _ w => w = ⟨source, d ++ addAll cs ((f :: fs).map (·.2)), []⟩) ?_ ?_
    · have e : ∀ j, ((f :: fs).map fun g => (produceX View.ops fx S md j g.1, g.2)).map (·.2) =
          (f :: fs).map (·.2) := by
        intro j; simp [Function.comp_def]
      simp only [e]
      refine .fields ?_
      rw [applyAll_groups (pre := d) (pos := pos) rfl hst.sorted.store hd
        (hs.fits (by rw [← hd]; exact haft)) hl2]
    · rintro _ _ rfl
      exact .pure ⟨rfl, rfl⟩

/-! ### Loops -/

theorem Found.loop_iter (E : Found S md root G) {t : Ty m n} (hl : LoopFree S t) (ht : Reach S.tyParts root t)
    (hp : PReach S root (.plus t.prod)) :
    ∀ {k : Nat} {pos cs xs} {d : List (Cell n)} {acc : List (Tree n)},
    ParsesSeq S source pos (List.replicate k t) cs xs → endOf 0 d = pos →
    Ready source ⟨source, d, toks cs.flatten⟩ →
    Halts (fun i j => loopLoop View.ops (md.first.get (.plus t.prod)) (produceX View.ops fx S md j t) i acc [])
      ⟨source, d, toks cs.flatten⟩
      (fun a u => a = (acc ++ xs, []) ∧ u = ⟨source, d ++ cs.flatten, []⟩) := by
  have C : Comp S md source t root G := E.comp ht hl
  have hpt : PReach S root t.pid := hp.part (by simp [Ty.pid, Schema.rule, Rule.parts])
  have hw : Within S t root t := ⟨.refl, hpt⟩
  intro k
  induction k with
  | zero =>
    intro pos cs xs d acc h hd hr
    cases h
    refine .succ ?_
    simp only [loopLoop]
    refine .peekTo (.ite (fun _ => .pure ⟨by simp, by simp⟩) (fun hc => ?_))
    exact absurd (by rw [hr.la]; rfl) hc
  | succ k ih =>
    intro pos cs xs d acc h hd hr
    cases h with
    | @cons _ _ _ c cs x xs h1 h2 =>
      rw [List.flatten_cons, toks, List.map_append] at hr ⊢
      rcases C.match_cases h1 hw with ⟨_, hn⟩ | ⟨w, hf, hne, hla⟩
      · exact absurd hn (C.plus_body hp)
      · have hok : Ok G root source t.pid (toks cs.flatten) := by
          have := C.ok_elem hp hw h2 (rest := []) Ok.nil
          rwa [List.append_nil] at this
        refine .succ ?_
        simp only [loopLoop]
        refine .peekTo (.ite (fun hc => ?_) (fun _ => ?_))
        · rw [hr.la, hla] at hc; cases hc
        · refine .bind (Q := fun a u => a = ([], true) ∧ u = ⟨source, d, toks c ++ toks cs.flatten⟩) ?_ ?_
          · refine .ite (fun hc => ?_) (fun _ => .pure ⟨rfl, rfl⟩)
            rw [hr.la, hla, (C.contains).2 (C.plus_first' hp hf)] at hc
            cases hc
          · rintro _ _ ⟨rfl, rfl⟩
            dsimp only
            refine .ite (fun hc => by cases hc) (fun _ => ?_)
            refine .bind (Q := fun a u => a = (true, acc ++ [x], []) ∧ u = ⟨source, d ++ c, toks cs.flatten⟩) ?_ ?_
            · simp only [loopElem]
              refine .bind (Q := fun a u => a = (View.mk source d (toks c ++ toks cs.flatten)).cur ∧
                u = ⟨source, d, toks c ++ toks cs.flatten⟩) (.currentSpan ⟨rfl, rfl⟩) ?_
              rintro _ _ ⟨rfl, rfl⟩
              refine (C.finds h1 d _ hd hr hw hok.okw).to ?_
              dsimp only
              refine .bind (Q := fun a u => a = (View.mk source (d ++ c) (toks cs.flatten)).cur ∧
                u = ⟨source, d ++ c, toks cs.flatten⟩) (.currentSpan ⟨rfl, rfl⟩) ?_
              rintro _ _ ⟨rfl, rfl⟩
              refine .ite (fun hc => ?_) (fun _ => .pure ⟨rfl, rfl⟩)
              exfalso
              have ha : Adv (View.mk source d (toks c ++ toks cs.flatten))
                  (View.mk source (d ++ c) (toks cs.flatten)) := ⟨rfl, toks c, rfl, by simp⟩
              have := (hr.cur_lo ha (by simp [hne])).1 hc
              have := congrArg List.length this
              simp only [List.length_append, List.length_map] at this
              exact hne (List.eq_nil_of_length_eq_zero (by omega))
            · rintro _ _ ⟨rfl, rfl⟩
              simp only [if_true]
              refine (ih h2 (by rw [endOf_append, hd]) hr.step).mono ?_
              rintro _ _ ⟨rfl, rfl⟩
              exact ⟨by simp, by simp⟩

theorem parses_loop {t : Ty m n} {pos c x} (h : Parses S source pos (.loop t) c x) :
    ∃ k cs l, ParsesSeq S source pos (List.replicate k t) cs l ∧ c = cs.flatten ∧
      x = .list (if l.isEmpty then ⟨pos, pos⟩ else spanOf l) l := by
  cases h with
  | loopNone => exact ⟨0, [], [], .nil, rfl, rfl⟩
  | @loopSome _ _ k _ l hs =>
    refine ⟨k + 1, _, l, hs, rfl, ?_⟩
    cases hs with
    | cons => rfl
  | tuple ht' =>
    rcases ht' with ⟨_, _, h, _⟩ | ⟨_, _, _, h, _⟩ | ⟨_, _, _, _, h, _⟩ | ⟨_, _, _, _, _, h, _⟩ <;> cases h

theorem Found.loop (E : Found S md root G) {t : Ty m n} (hl : LoopFree S t) :
    FindsEndX fx S md source root G (.loop t) := by
  intro pos c x h hw
  have ht : Reach S.tyParts root t := .step hw.ty (by simp [Schema.tyParts])
  have hp : PReach S root (.plus t.prod) := hw.pid
  have C : Comp S md source t root G := E.comp ht hl
  have hpt : PReach S root t.pid := hp.part (by simp [Ty.pid, Schema.rule, Rule.parts])
  obtain ⟨k, cs, l, hs, rfl, rfl⟩ := parses_loop h
  constructor
  · intro w hla
    cases hs' : k with
    | zero => subst hs'; cases hs; cases hla
    | succ k =>
      subst hs'
      cases hs with
      | @cons _ _ _ c cs _ _ h1 h2 =>
        rw [List.flatten_cons, toks, List.map_append] at hla
        rcases C.match_cases h1 ⟨.refl, hpt⟩ with ⟨_, hn⟩ | ⟨w', hf, _, hla'⟩
        · exact absurd hn (C.plus_body hp)
        · rw [hla'] at hla
          cases hla
          exact C.plus_first' hp hf
  · intro d hd hr
    refine Halts.produceX ?_
    simp only [produceStep, produceLoop]
    refine .bind (E.loop_iter hl ht hp (acc := []) hs hd hr) ?_
    rintro _ _ ⟨rfl, rfl⟩
    simp only [List.nil_append]
    refine .ite (fun hc => ?_) (fun hc => ?_)
    · have hnil : l = [] := List.isEmpty_iff.1 hc
      subst hnil
      have : cs = [] := by
        have := hs.lengths
        simp only [List.length_nil] at this
        exact List.eq_nil_of_length_eq_zero (by omega)
      subst this
      refine .emptyTo (.pure ⟨?_, rfl⟩)
      simp only [List.flatten_nil, List.append_nil, Res.ofPair, List.isEmpty_nil, if_true]
      rw [show (View.mk source d []).pos = pos from hd]
    · refine .pure ⟨?_, rfl⟩
      rw [if_neg hc]
      rfl

/-! ### All types -/

theorem Found.text {t u : Ty m n} (ht : TextLike t u) (htp : t.pid = u.pid) (hpart : u ∈ S.tyParts t)
    (hu : FindsEndX fx S md source root G u)
    (hinv : ∀ {pos c x}, Parses S source pos t c x → ∃ y, Parses S source pos u c y ∧
      x = .text y.span (textOf source y.span)) : FindsEndX fx S md source root G t := by
  intro pos c x h hw
  obtain ⟨y, h1, rfl⟩ := hinv h
  obtain ⟨g1, g2⟩ := hu pos c y h1 ⟨.step hw.ty hpart, htp ▸ hw.pid⟩
  rw [htp]
  refine ⟨g1, fun d hd hr => ?_⟩
  refine Halts.produceX ?_ (by cases ht <;> simp)
  have e : ∀ i j, produceStep View.ops S md i (produceX View.ops fx S md j) t =
      produceText View.ops (produceX View.ops fx S md j u) := by
    intro i j; cases ht <;> rfl
  simp only [e, produceText]
  refine (g2 d hd hr).to ?_
  dsimp only
  refine .bind (Q := fun s w => s = textOf source y.span ∧ w = ⟨source, d ++ c, []⟩)
    (.getSrc fun s hs => ⟨get?_textOf hs, rfl⟩) ?_
  rintro _ _ ⟨rfl, rfl⟩
  exact .pure ⟨rfl, rfl⟩

/-- Matches up to the end of input are found. -/
theorem Found.finds (E : Found S md root G) {t : Ty m n} (hl : LoopTail S t) :
    FindsEndX fx S md source root G t := by
  induction hl with
  | free h => exact E.free h
  | loop h => exact E.loop h
  | @box t _ ih =>
    intro pos c x h hw
    have h1 : Parses S source pos t c x := by
      cases h with
      | box h => exact h
      | tuple ht' =>
        rcases ht' with ⟨_, _, h, _⟩ | ⟨_, _, _, h, _⟩ | ⟨_, _, _, _, h, _⟩ | ⟨_, _, _, _, _, h, _⟩ <;> cases h
    obtain ⟨g1, g2⟩ := ih pos c x h1 ⟨.step hw.ty (by simp [Schema.tyParts]), hw.pid⟩
    exact ⟨g1, fun d hd hr => Halts.produceX (g2 d hd hr)⟩
  | quote _ ih =>
    refine Found.text (.quote _) rfl (by simp [Schema.tyParts]) ih ?_
    intro pos c x h
    cases h with
    | quote h => exact ⟨_, h, rfl⟩
    | tuple ht' =>
      rcases ht' with ⟨_, _, h, _⟩ | ⟨_, _, _, h, _⟩ | ⟨_, _, _, _, h, _⟩ | ⟨_, _, _, _, _, h, _⟩ <;> cases h
  | parse _ ih =>
    refine Found.text (.parse _) rfl (by simp [Schema.tyParts]) ih ?_
    intro pos c x h
    cases h with
    | parse h => exact ⟨_, h, rfl⟩
    | tuple ht' =>
      rcases ht' with ⟨_, _, h, _⟩ | ⟨_, _, _, h, _⟩ | ⟨_, _, _, _, h, _⟩ | ⟨_, _, _, _, _, h, _⟩ <;> cases h
  | tuple ht hts _ ih => exact E.tuple ht hts ih
  | struct hk hp hts _ ih => exact E.struct hk hp hts ih

theorem metadata_ll1 {fuel : Nat} (h : S.metadata fuel root = some (.ok md)) (hG : S.IsGrammar root G)
    (hsk : SkipSafe G) : LL1 G root.pid := by
  obtain ⟨G', hG', _, hb⟩ := metadata_build h
  have h1 : ∀ p ∈ G, p ∈ G' := fun p hp => (hG.same hG' p).1 hp
  have h2 : ∀ p ∈ G', p ∈ G := fun p hp => (hG.same hG' p).2 hp
  have hsk' : SkipSafe G' := by
    intro a i l p q s t tok he hm hpq hp hq hn hf hs
    obtain ⟨β, hf⟩ := hf
    exact hsk a i l p q s t tok (he.congr h2) (h2 _ hm) hpq hp hq (Derives.congr h2 hn) ⟨β, hf.congr h2⟩ (hs.congr h2)
  have hl := accepted_ll1 hG'.1 hsk' hb
  intro t l hr hm
  obtain ⟨a1, a2⟩ := hl t l (hr.congr h1) (h1 _ hm)
  refine ⟨fun p q a b hpq hp hq ho => a1 p q a b hpq hp hq ?_, fun p q a b hpq hp hq hn tok hf hfo =>
    a2 p q a b hpq hp hq (Derives.congr h1 hn) tok ?_ (hfo.congr h1)⟩
  · rcases ho with ⟨tok, ⟨β, d1⟩, ⟨γ, d2⟩⟩ | ⟨n1, n2⟩
    · exact .inl ⟨tok, ⟨β, d1.congr h1⟩, ⟨γ, d2.congr h1⟩⟩
    · exact .inr ⟨Derives.congr h1 n1, Derives.congr h1 n2⟩
  · obtain ⟨β, d1⟩ := hf
    exact ⟨β, d1.congr h1⟩

/-- If no token can follow an enum that derives the empty sequence, the table need not say anything about it. -/
theorem enums_of_last (hG : S.IsGrammar root G)
    (henum : ∀ k v vs, S k = .enum v vs → Reachable G root.pid (.user k) → Nullable G (.user k) →
      ∀ tok, ¬ FollowOf G root.pid (.user k) (some tok)) :
    ∀ k v vs, S k = .enum v vs → Reachable G root.pid (.user k) → ∀ (j : Nat) g, (v :: vs)[j]? = some g →
      Nullable G g.1.pid → ∀ tok, FollowOf G root.pid (.user k) (some tok) →
      md.jump.lookUp (.user k) (some tok) = some j := by
  intro k v vs hk hr j g hg hn tok hf
  refine absurd hf (henum k v vs hk hr ?_ tok)
  have hrule : S.rule (.user k) = .alt ((v :: vs).map fun f => f.1.pid) := by simp only [Schema.rule, hk]
  have hm : (PId.user k, Rule.alt ((v :: vs).map fun f => f.1.pid)) ∈ G :=
    (hG.2 _ _).2 ⟨(reach_iff_schema hG _).1 hr, hrule.symm⟩
  exact (Null.alt hm (List.mem_map.2 ⟨g, List.mem_of_getElem? hg, rfl⟩) (nullable_iff.1 hn)).nullable

theorem Found.of_ll1 {fuel : Nat} (h : S.metadata fuel root = some (.ok md)) (hG : S.IsGrammar root G)
    (hll : LL1 G root.pid)
    (hpunct : ∀ t p, Reach S.tyParts root (.punct t p) → ∀ a tok, Beyond G a tok →
      ¬ EndsWith G a (Ty.punct t p).pid)
    (henum : ∀ k v vs, S k = .enum v vs → Reachable G root.pid (.user k) → Nullable G (.user k) →
      ∀ tok, ¬ FollowOf G root.pid (.user k) (some tok))
    (hsep : ∀ t p, Reach S.tyParts root (.split t p) → ¬ Nullable G p.pid) : Found S md root G :=
  ⟨⟨hG⟩, .of_metadata h hG, fun t p hr _ hf => metadata_follow h hG hf fun a tok _ hs => hpunct t p hr a tok hs,
    hll, enums_of_last hG henum, hsep⟩

end
end Teleparse
