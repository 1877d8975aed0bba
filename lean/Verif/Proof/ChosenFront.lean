import Verif.Proof.Chosen
import Verif.Proof.Whole
/-
How a predictive match begins: with a token that can begin the type, or it is empty and the next token cannot begin
the type.
-/
namespace Teleparse
variable {m n : Nat}

/-- The tables are those of the grammar, for the parts of `u`. -/
structure Tab (S : Schema m n) (md : Metadata (PId m n) n) (u : Ty m n) (G : Grammar (PId m n) n) : Prop
    extends Rules S u G where
  seen : ∀ i w, PReach S u i → ((md.first.get i).contains (some w) = true ↔ FirstI G i w)
  jump : ∀ k v vs, PReach S u (.user k) → S k = .enum v vs → ∀ w (j : Nat),
    md.jump.lookUp (.user k) (some w) = some j → ∃ f, (v :: vs)[j]? = some f ∧ FirstI G f.1.pid w

section
variable {S : Schema m n} {md : Metadata (PId m n) n} {source : Str} {u : Ty m n} {G : Grammar (PId m n) n}

theorem Tab.sees (T : Tab S md u G) {i : PId m n} (hi : PReach S u i) {o : Option (TokenSrc n)} :
    md.sees i o ↔ ∃ w, o = some w ∧ FirstI G i w := by
  constructor
  · rintro ⟨w, h1, h2⟩; exact ⟨w, h1, (T.seen i w hi).1 h2⟩
  · rintro ⟨w, h1, h2⟩; exact ⟨w, h1, (T.seen i w hi).2 h2⟩

theorem Tab.sees_some (T : Tab S md u G) {i : PId m n} (hi : PReach S u i) {o : Option (TokenSrc n)} {w}
    (h : md.sees i o) (ho : o = some w) : FirstI G i w := by
  obtain ⟨w', h1, h2⟩ := (T.sees hi).1 h
  rw [ho] at h1
  cases h1
  exact h2

theorem Tab.not_sees (T : Tab S md u G) {i : PId m n} (hi : PReach S u i) {o : Option (TokenSrc n)} {w}
    (h : ¬ md.sees i o) (ho : o = some w) : ¬ FirstI G i w := fun hf => h ((T.sees hi).2 ⟨w, ho, hf⟩)

/-- How a match of `i` begins. -/
def Front (G : Grammar (PId m n) n) (source : Str) (i : PId m n) (c : List (Cell n)) (next : Option (TokenSrc n)) :
    Prop :=
  ∀ w, ahead source c next = some w → (c = [] ∧ Null G i ∧ ¬ FirstI G i w) ∨ (c ≠ [] ∧ FirstI G i w)

/-- The same for the claims. -/
def Claim.Front (S : Schema m n) (source : Str) (u : Ty m n) (G : Grammar (PId m n) n) : Claim m n → Prop
  | .ty _ t c _ next => Reach S.tyParts u t → Teleparse.Front G source t.pid c next
  | .seq _ ts cs _ next => (∀ t ∈ ts, Reach S.tyParts u t) → ∀ w, ahead source cs.flatten next = some w →
      (cs.flatten = [] ∧ ∀ t ∈ ts, Null G t.pid ∧ ¬ FirstI G t.pid w) ∨
      (cs.flatten ≠ [] ∧ ∃ pre j post, ts = pre ++ j :: post ∧ (∀ k ∈ pre, Null G (Ty.pid k)) ∧ FirstI G (Ty.pid j) w)
  | .more _ t cs _ next => Reach S.tyParts u t → PReach S u (.plus t.prod) → ∀ w,
      ahead source cs.flatten next = some w →
      (cs.flatten = [] ∧ ¬ FirstI G (.plus t.prod) w) ∨ (cs.flatten ≠ [] ∧ FirstI G (.plus t.prod) w)
  | .loop _ t cs _ => PReach S u (.plus t.prod) → ∀ w, ahead source cs.flatten none = some w →
      FirstI G (.plus t.prod) w
  | .split _ t p cs _ _ next => Reach S.tyParts u (.split t p) → ∀ w, ahead source cs.flatten next = some w →
      (cs.flatten = [] ∧ ¬ FirstI G p.pid w) ∨ (cs.flatten ≠ [] ∧ FirstI G p.pid w)
  | .punct _ t p cs _ _ next => Reach S.tyParts u (.punct t p) → ∀ w, ahead source cs.flatten next = some w →
      (cs.flatten = [] ∧ ¬ FirstI G p.pid w) ∨ (cs.flatten ≠ [] ∧ FirstI G p.pid w)

theorem Front.opt (E : Rules S u G) {i : PId m n} (h : PReach S u (.opt i)) : Null G (.opt i) :=
  der_null (der_opt_none h E.gram)

theorem Rules.opt_some (E : Rules S u G) {i : PId m n} (h : PReach S u (.opt i)) {tok}
    (hf : FirstI G i.id tok) : FirstI G (.opt i) tok := .alt (E.mem h) (by simp) hf

theorem Rules.plus_some (E : Rules S u G) {i : PId m n} (hp : PReach S u (.plus i)) {tok}
    (h : FirstI G i.id tok) : FirstI G (.plus i) tok :=
  FirstI.seq (pre := []) (j := i.id) (post := [.opt (.plus i)]) (E.mem hp) (by simp) h

theorem Rules.plus_opt (_E : Rules S u G) {i : PId m n} (hp : PReach S u (.plus i)) : PReach S u (.opt (.plus i)) :=
  hp.part (by simp [Schema.rule, Rule.parts])

theorem Rules.plus_null (E : Rules S u G) {i : PId m n} (hp : PReach S u (.plus i)) (h : Null G i.id) :
    Null G (.plus i) := by
  refine .seq (E.mem hp) ?_
  intro j hj
  simp only [List.mem_cons, List.not_mem_nil, or_false] at hj
  rcases hj with rfl | rfl
  · exact h
  · exact Front.opt E (E.plus_opt hp)

/-- FIRST of the production of `Punct`. -/
theorem Rules.punct_first (E : Rules S u G) {t p : PId m n} {tok} :
    FirstI G (.punct t p) tok → FirstI G t.id tok ∨ FirstI G p.id tok := by
  intro h
  have key : ∀ q tok, FirstI G q tok → q = .punct t p ∨ q = .opt (.tup2 p (.opt (.punct t p))) ∨
      q = .tup2 p (.opt (.punct t p)) ∨ q = .opt (.punct t p) → FirstI G t.id tok ∨ FirstI G p.id tok := by
    intro q tok h
    induction h with
    | term hm _ => rintro (rfl | rfl | rfl | rfl) <;> (have := E.rule hm; cases this)
    | @seq q pre j post tok hm hn hf ih =>
      rintro (rfl | rfl | rfl | rfl)
      · have := E.rule hm
        simp only [Schema.rule, Rule.seq.injEq] at this
        match pre, this with
        | [], he => cases he; exact .inl hf
        | [x], he => cases he; exact ih (.inr (.inl rfl))
        | [x, y], he => simp at he
        | x :: y :: z :: pre, he => simp at he
      · have := E.rule hm; cases this
      · have := E.rule hm
        simp only [Schema.rule, Rule.seq.injEq] at this
        match pre, this with
        | [], he => cases he; exact .inr hf
        | [x], he => cases he; exact ih (.inr (.inr (.inr rfl)))
        | [x, y], he => simp at he
        | x :: y :: z :: pre, he => simp at he
      · have := E.rule hm; cases this
    | @alt q l j tok hm hj hf ih =>
      rintro (rfl | rfl | rfl | rfl)
      · have := E.rule hm; cases this
      · have := E.rule hm
        simp only [Schema.rule, Rule.alt.injEq] at this
        subst this
        simp only [List.mem_cons, List.not_mem_nil, or_false] at hj
        rcases hj with rfl | rfl
        · exact ih (.inr (.inr (.inl rfl)))
        · exact absurd hf E.eps_first
      · have := E.rule hm; cases this
      · have := E.rule hm
        simp only [Schema.rule, Rule.alt.injEq] at this
        subst this
        simp only [List.mem_cons, List.not_mem_nil, or_false] at hj
        rcases hj with rfl | rfl
        · exact ih (.inl rfl)
        · exact absurd hf E.eps_first
  exact key _ tok h (.inl rfl)

theorem map_add_eq_nil {c : List (Cell n)} {sem : Option (LSet n)} : c.map (Cell.add sem) = [] ↔ c = [] :=
  List.map_eq_nil_iff

theorem toks_eq_nil {c d : List (Cell n)} (h : toks c = toks d) : c = [] ↔ d = [] := by
  have := congrArg List.length h
  simp only [toks, List.length_map] at this
  rw [← List.length_eq_zero_iff, ← List.length_eq_zero_iff, this]

theorem Front.congr {i : PId m n} {c d : List (Cell n)} {next} (h : Front G source i c next) (e : toks d = toks c) :
    Front G source i d next := by
  intro w hw
  rw [ahead_congr e] at hw
  rw [show (d = []) = (c = []) from propext (toks_eq_nil e),
    show (d ≠ []) = (c ≠ []) from propext (not_congr (toks_eq_nil e))]
  exact h w hw

/-- A sequence. -/
theorem Front.seq (E : Rules S u G) {i : PId m n} (hi : PReach S u i) {ts : List (Ty m n)}
    (hl : S.rule i = .seq (ts.map Ty.pid)) {c : List (Cell n)} {next}
    (h : ∀ w, ahead source c next = some w → (c = [] ∧ ∀ t ∈ ts, Null G t.pid ∧ ¬ FirstI G t.pid w) ∨
      (c ≠ [] ∧ ∃ pre j post, ts = pre ++ j :: post ∧ (∀ k ∈ pre, Null G (Ty.pid k)) ∧ FirstI G (Ty.pid j) w)) :
    Front G source i c next := by
  intro w hw
  rcases h w hw with ⟨h1, h2⟩ | ⟨h1, pre, j, post, rfl, h3, h4⟩
  · refine .inl ⟨h1, .seq (hl ▸ E.mem hi) ?_, ?_⟩
    · intro j hj
      obtain ⟨t, ht, rfl⟩ := List.mem_map.1 hj
      exact (h2 t ht).1
    · intro hf
      obtain ⟨pre, j, post, he, -, hj⟩ := E.seq_first hl hf
      have : j ∈ ts.map Ty.pid := by rw [he]; simp
      obtain ⟨t, ht, rfl⟩ := List.mem_map.1 this
      exact (h2 t ht).2 hj
  · refine .inr ⟨h1, ?_⟩
    have hm := hl ▸ E.mem hi
    rw [List.map_append, List.map_cons] at hm
    refine .seq hm ?_ h4
    intro k hk
    obtain ⟨t, ht, rfl⟩ := List.mem_map.1 hk
    exact h3 t ht

/-- One part of a sequence after another. -/
theorem Front.cons {t : Ty m n} {ts : List (Ty m n)} {c d : List (Cell n)} {next}
    (h1 : Front G source t.pid c (ahead source d next))
    (h2 : ∀ w, ahead source d next = some w → (d = [] ∧ ∀ t ∈ ts, Null G t.pid ∧ ¬ FirstI G t.pid w) ∨
      (d ≠ [] ∧ ∃ pre j post, ts = pre ++ j :: post ∧ (∀ k ∈ pre, Null G (Ty.pid k)) ∧ FirstI G (Ty.pid j) w)) :
    ∀ w, ahead source (c ++ d) next = some w →
      (c ++ d = [] ∧ ∀ u ∈ t :: ts, Null G u.pid ∧ ¬ FirstI G u.pid w) ∨
      (c ++ d ≠ [] ∧ ∃ pre j post, t :: ts = pre ++ j :: post ∧ (∀ k ∈ pre, Null G (Ty.pid k)) ∧
        FirstI G (Ty.pid j) w) := by
  intro w hw
  rw [ahead_append] at hw
  rcases h1 w hw with ⟨rfl, hn, hf⟩ | ⟨hc, hf⟩
  · rw [ahead_nil] at hw
    rcases h2 w hw with ⟨rfl, h3⟩ | ⟨hd, pre, j, post, rfl, h3, h4⟩
    · refine .inl ⟨rfl, ?_⟩
      intro u hu
      rcases List.mem_cons.1 hu with rfl | hu
      · exact ⟨hn, hf⟩
      · exact h3 u hu
    · refine .inr ⟨by simpa using hd, t :: pre, j, post, rfl, ?_, h4⟩
      intro k hk
      rcases List.mem_cons.1 hk with rfl | hk
      · exact hn
      · exact h3 k hk
  · exact .inr ⟨by simp [hc], [], t, ts, rfl, by simp, hf⟩

theorem PReach.opt_of {i : PId m n} {t : Ty m n} (ht : Reach S.tyParts u t) (h : t.pid = i) : PReach S u i :=
  h ▸ reach_pid ht

/-- **How a predictive match begins.** -/
theorem Chosen.front (T : Tab S md u G) {j : Claim m n} (h : Chosen S md source j) : j.Front S source u G := by
  induction h with
  | @term pos i k t next hm =>
    intro ht w hw
    refine .inr ⟨by simp, .term (T.mem (reach_pid ht)) ?_⟩
    simp [ahead, wordOf] at hw
    subst hw
    exact hm
  | @struct pos k f fs cs l next hk h ih =>
    intro ht
    have hlen := (h.holds : ParsesSeq S source pos ((f :: fs).map (·.1)) cs l).lengths
    refine Front.congr (c := cs.flatten) ?_ (addAll_tokens _ _ (by rw [hlen.1]; simp))
    refine Front.seq T.toRules (reach_pid ht) (ts := (f :: fs).map (·.1)) ?_ (ih ?_)
    · simp [Ty.pid, Ty.prod, PId.id, Schema.rule, hk, Function.comp_def]
    · intro t hu
      exact .step ht (by rw [Schema.tyParts, hk]; exact hu)
  | @enum pos k f fs i t sem c x next hk hi hlook h ih =>
    intro ht
    refine Front.congr (c := c) ?_ (add_tokens _ _)
    have hmem : (t, sem) ∈ f :: fs := List.mem_of_getElem? hi
    have hu : Reach S.tyParts u t := .step ht (by rw [Schema.tyParts, hk]; exact List.mem_map_of_mem (f := Prod.fst) hmem)
    intro w hw
    rw [hw] at hlook
    obtain ⟨g, hg, hf⟩ := T.jump k f fs (reach_pid ht) hk w i hlook
    rw [hi] at hg
    cases hg
    rcases ih hu w hw with ⟨_, _, hn⟩ | ⟨hc, _⟩
    · exact absurd hf hn
    · refine .inr ⟨hc, .alt (l := (f :: fs).map fun v => v.1.pid) ?_ (List.mem_map.2 ⟨_, hmem, rfl⟩) hf⟩
      have := T.mem (reach_pid ht)
      simpa [Ty.pid, Ty.prod, PId.id, Schema.rule, hk] using this
  | @tuple pos t ts cs l next htu h ih =>
    intro ht
    refine Front.seq T.toRules (reach_pid ht) (ts := ts) ?_ (ih ?_)
    · rcases htu with ⟨_, _, rfl, rfl⟩ | ⟨_, _, _, rfl, rfl⟩ | ⟨_, _, _, _, rfl, rfl⟩ | ⟨_, _, _, _, _, rfl, rfl⟩ <;> rfl
    · intro w hw
      exact .step ht (by rw [isTuple_parts htu]; exact hw)
  | box h ih => exact fun ht => ih (.step ht (by simp [Schema.tyParts]))
  | quote h ih => exact fun ht => ih (.step ht (by simp [Schema.tyParts]))
  | parse h ih => exact fun ht => ih (.step ht (by simp [Schema.tyParts]))
  | @optNone pos t next hn | @existNone pos t next hn =>
    intro ht w hw
    have hpid : PReach S u (.opt t.prod) := reach_pid ht
    have hb : PReach S u t.pid := reach_pid (.step ht (by simp [Schema.tyParts]))
    rw [ahead_nil] at hw
    exact .inl ⟨rfl, Front.opt T.toRules hpid, fun hf => T.not_sees hb hn hw (T.opt_first hf)⟩
  | @optSome pos t c x next hs h ih | @existSome pos t c x next hs h ih =>
    intro ht w hw
    have hu : Reach S.tyParts u t := .step ht (by simp [Schema.tyParts])
    have hf := T.sees_some (reach_pid hu) hs hw
    rcases ih hu w hw with ⟨_, _, hn⟩ | ⟨hc, _⟩
    · exact absurd hf hn
    · exact .inr ⟨hc, T.opt_some (reach_pid ht) hf⟩
  | @plus pos t c x cs xs next h hs ih1 ih2 =>
    intro ht w hw
    have hu : Reach S.tyParts u t := .step ht (by simp [Schema.tyParts])
    have hp : PReach S u (.plus t.prod) := reach_pid ht
    rw [ahead_append] at hw
    rcases ih1 hu w hw with ⟨rfl, h1, h2⟩ | ⟨hc, hf⟩
    · rw [ahead_nil] at hw
      rcases ih2 hu hp w hw with ⟨h3, h4⟩ | ⟨h3, h4⟩
      · exact .inl ⟨by simpa using h3, T.plus_null hp h1, h4⟩
      · exact .inr ⟨by simpa using h3, h4⟩
    · exact .inr ⟨by simp [hc], T.plus_some hp hf⟩
  | @starNone pos t next hn =>
    intro ht w hw
    have hpid : PReach S u (.opt (.plus t.prod)) := reach_pid ht
    have hb : PReach S u (Ty.plus t).pid := reach_pid (.step ht (by simp [Schema.tyParts]))
    rw [ahead_nil] at hw
    exact .inl ⟨rfl, Front.opt T.toRules hpid, fun hf => T.not_sees hb hn hw (T.opt_first hf)⟩
  | @starSome pos t c x cs xs next hs h hm ih1 ih2 =>
    intro ht w hw
    have hb : Reach S.tyParts u (.plus t) := .step ht (by simp [Schema.tyParts])
    have hu : Reach S.tyParts u t := .step hb (by simp [Schema.tyParts])
    have hp : PReach S u (.plus t.prod) := reach_pid hb
    have hf : FirstI G (.plus t.prod) w := T.sees_some (reach_pid hb) hs hw
    rw [ahead_append] at hw
    have hpid : PReach S u (.opt (.plus t.prod)) := reach_pid ht
    rcases ih1 hu w hw with ⟨rfl, h1, h2⟩ | ⟨hc, _⟩
    · exact absurd (T.plus_first hf) h2
    · exact .inr ⟨by simp [hc], T.opt_some hpid hf⟩
  | loopNone => intro _ w hw; cases hw
  | @loopSome pos t cs xs hne h ih =>
    intro ht w hw
    refine .inr ⟨?_, ih (reach_pid ht) w hw⟩
    intro e
    rw [e] at hw
    cases hw
  | @split pos t p c x cs ps es next h hs ih1 ih2 =>
    intro ht w hw
    have hu : Reach S.tyParts u t := .step ht (by simp [Schema.tyParts])
    have hpid : PReach S u (.tup2 t.prod (.opt (.plus (.tup2 p.prod t.prod)))) := reach_pid ht
    have ho : PReach S u (.opt (.plus (.tup2 p.prod t.prod))) :=
      hpid.part (by simp [Schema.rule, Rule.parts, PId.id])
    have hpl : PReach S u (.plus (.tup2 p.prod t.prod)) := ho.part (by simp [Schema.rule, Rule.parts, PId.id])
    have hpa : PReach S u (.tup2 p.prod t.prod) := hpl.part (by simp [Schema.rule, Rule.parts, PId.id])
    rw [ahead_append] at hw
    rcases ih1 hu w hw with ⟨rfl, h1, h2⟩ | ⟨hc, hf⟩
    · rw [ahead_nil] at hw
      rcases ih2 ht w hw with ⟨h3, h4⟩ | ⟨h3, h4⟩
      · refine .inl ⟨by simpa using h3, .seq (T.mem hpid) ?_, ?_⟩
        · intro j hj
          simp only [List.mem_cons, List.not_mem_nil, or_false] at hj
          rcases hj with rfl | rfl
          · exact h1
          · exact Front.opt T.toRules ho
        · intro hf
          rcases T.first2 (a := t.pid) (b := .opt (.plus (.tup2 p.prod t.prod))) rfl hf with hf | ⟨_, hf⟩
          · exact h2 hf
          · rcases T.first2 (a := p.pid) (b := t.pid) rfl (T.plus_first (T.opt_first hf)) with hf | ⟨_, hf⟩
            · exact h4 hf
            · exact h2 hf
      · refine .inr ⟨by simpa using h3, ?_⟩
        refine FirstI.seq (pre := [t.pid]) (j := .opt (.plus (.tup2 p.prod t.prod))) (post := []) (T.mem hpid) (by simpa using h1) ?_
        refine T.opt_some ho (T.plus_some hpl ?_)
        exact FirstI.seq (pre := []) (j := p.pid) (post := [t.pid]) (T.mem hpa) (by simp) h4
    · exact .inr ⟨by simp [hc], FirstI.seq (pre := []) (j := t.pid) (post := [_]) (T.mem hpid) (by simp) hf⟩
  | @punct pos t p c x cs ps es next h hs ih1 ih2 =>
    intro ht w hw
    have hu : Reach S.tyParts u t := .step ht (by simp [Schema.tyParts])
    have hpid : PReach S u (.punct t.prod p.prod) := reach_pid ht
    have ho : PReach S u (.opt (.tup2 p.prod (.opt (.punct t.prod p.prod)))) :=
      hpid.part (by simp [Schema.rule, Rule.parts, PId.id])
    have hpa : PReach S u (.tup2 p.prod (.opt (.punct t.prod p.prod))) := ho.part (by simp [Schema.rule, Rule.parts, PId.id])
    rw [ahead_append] at hw
    rcases ih1 hu w hw with ⟨rfl, h1, h2⟩ | ⟨hc, hf⟩
    · rw [ahead_nil] at hw
      rcases ih2 ht w hw with ⟨h3, h4⟩ | ⟨h3, h4⟩
      · refine .inl ⟨by simpa using h3, .seq (T.mem hpid) ?_, ?_⟩
        · intro j hj
          simp only [List.mem_cons, List.not_mem_nil, or_false] at hj
          rcases hj with rfl | rfl
          · exact h1
          · exact Front.opt T.toRules ho
        · intro hf
          rcases T.punct_first hf with hf | hf
          · exact h2 hf
          · exact h4 hf
      · refine .inr ⟨by simpa using h3, ?_⟩
        refine FirstI.seq (pre := [t.pid]) (j := .opt (.tup2 p.prod (.opt (.punct t.prod p.prod)))) (post := []) (T.mem hpid)
          (by simpa using h1) ?_
        refine T.opt_some ho ?_
        exact FirstI.seq (pre := []) (j := p.pid) (post := [.opt (.punct t.prod p.prod)]) (T.mem hpa) (by simp) h4
    · exact .inr ⟨by simp [hc], FirstI.seq (pre := []) (j := t.pid) (post := [_]) (T.mem hpid) (by simp) hf⟩
  | @recover pos t r c x d y next h1 h2 h3 h4 ih1 ih2 =>
    intro ht
    have hu : Reach S.tyParts u t := .step ht (by simp [Schema.tyParts])
    have hr : Reach S.tyParts u r := .step ht (by simp [Schema.tyParts])
    refine Front.seq T.toRules (reach_pid ht) (ts := [t, r]) rfl (Front.cons (ih1 hu) ?_)
    have := Front.cons (ts := []) (d := []) (next := next) (by rw [ahead_nil]; exact ih2 hr)
      (fun w _ => .inl ⟨rfl, by simp⟩)
    simpa using this
  | seqNil => exact fun _ w _ => .inl ⟨rfl, by simp⟩
  | @seqCons pos t ts c cs x xs next h hs ih1 ih2 =>
    intro ht
    show ∀ w, ahead source (c ++ cs.flatten) next = some w → _
    exact Front.cons (ih1 (ht t (by simp))) (ih2 fun v hv => ht v (by simp [hv]))
  | moreStop hn =>
    intro ht hp w hw
    exact .inl ⟨rfl, T.not_sees hp hn hw⟩
  | @moreGo pos t c cs x xs next hs h hm ih1 ih2 =>
    intro ht hp w hw
    have hw' : ahead source (c ++ cs.flatten) next = some w := hw
    have hf : FirstI G (.plus t.prod) w := T.sees_some hp hs hw'
    rw [ahead_append] at hw'
    rcases ih1 ht w hw' with ⟨rfl, h1, h2⟩ | ⟨hc, _⟩
    · exact absurd (T.plus_first hf) h2
    · exact .inr ⟨by simp [hc], hf⟩
  | loopStop => intro _ w hw; cases hw
  | loopGo hs hc h hm ih1 ih2 =>
    intro hp w hw
    exact T.sees_some hp hs hw
  | splitStop hn =>
    intro ht w hw
    exact .inl ⟨rfl, T.not_sees (reach_pid (.step ht (by simp [Schema.tyParts]))) hn hw⟩
  | @splitGo pos t p c q d x cs ps es next hs h hs2 hd hm ih1 ih2 ih3 =>
    intro ht w hw
    have hp : Reach S.tyParts u p := .step ht (by simp [Schema.tyParts])
    have hw' : ahead source (c ++ (d ++ cs.flatten)) next = some w := hw
    have hf := T.sees_some (reach_pid hp) hs hw'
    rw [ahead_append] at hw'
    rcases ih1 hp w hw' with ⟨rfl, h1, h2⟩ | ⟨hc, _⟩
    · exact absurd hf h2
    · exact .inr ⟨by simp [hc], hf⟩
  | punctStop hn =>
    intro ht w hw
    exact .inl ⟨rfl, T.not_sees (reach_pid (.step ht (by simp [Schema.tyParts]))) hn hw⟩
  | @punctTrail pos t p c q next hs h hn hfol ih =>
    intro ht w hw
    have hp : Reach S.tyParts u p := .step ht (by simp [Schema.tyParts])
    have hw' : ahead source c next = some w := by simpa using hw
    have hf := T.sees_some (reach_pid hp) hs hw'
    rcases ih hp w hw' with ⟨rfl, h1, h2⟩ | ⟨hc, _⟩
    · exact absurd hf h2
    · exact .inr ⟨by simp [hc], hf⟩
  | @punctGo pos t p c q d x cs ps es next hs h hs2 hd hm ih1 ih2 ih3 =>
    intro ht w hw
    have hp : Reach S.tyParts u p := .step ht (by simp [Schema.tyParts])
    have hw' : ahead source (c ++ (d ++ cs.flatten)) next = some w := hw
    have hf := T.sees_some (reach_pid hp) hs hw'
    rw [ahead_append] at hw'
    rcases ih1 hp w hw' with ⟨rfl, h1, h2⟩ | ⟨hc, _⟩
    · exact absurd hf h2
    · exact .inr ⟨by simp [hc], hf⟩

end

end Teleparse
