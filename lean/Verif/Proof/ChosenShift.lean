import Verif.Proof.ChosenFront
/-
A predictive match with the tables of a larger root, and with more tokens after it, is one with the tables of a part, and
with nothing after it.
-/
namespace Teleparse
variable {m n : Nat}

/-- The tables of a part `u` have what predictive matching needs, if they have the FOLLOW tokens of `Punct`. -/
structure SameTables (S : Schema m n) (md md' : Metadata (PId m n) n) (u : Ty m n) (G : Grammar (PId m n) n) : Prop where
  first : ∀ i, PReach S u i → ∀ x, (md.first.get i).contains x = true → (md'.first.get i).contains x = true
  jump : ∀ k v vs, PReach S u (.user k) → S k = .enum v vs →
    ∀ x, md.jump.lookUp (.user k) x = md'.jump.lookUp (.user k) x
  only : ∀ i, PReach S u i → ∀ x, (md'.first.get i).contains x = true → (md.first.get i).contains x = true
  punct : ∀ a b, Reach S.tyParts u (.punct a b) → ∀ w,
    (md.follow.get (Ty.punct a b).pid).contains (some w) = true → FollowOf G u.pid (Ty.punct a b).pid (some w) →
      (md'.follow.get (Ty.punct a b).pid).contains (some w) = true

/-- The next token after a match of `i` stays, and can follow `i` in `u`, or there is none any more. -/
def Shift (G : Grammar (PId m n) n) (u : Ty m n) (i : PId m n) (next next' : Option (TokenSrc n)) : Prop :=
  next' = none ∨ (next' = next ∧ ∀ w, next = some w → FollowOf G u.pid i (some w))

section
variable {S : Schema m n} {md md' : Metadata (PId m n) n} {source : Str} {u : Ty m n} {G : Grammar (PId m n) n}
  {next next' : Option (TokenSrc n)}

theorem Shift.end_ {i : PId m n} : Shift G u i next none := .inl rfl

theorem Shift.or {i : PId m n} (h : Shift G u i next next') : next' = none ∨ next' = next := h.imp id And.left

theorem Shift.of_none {i : PId m n} (h : Shift G u i none next') : next' = none := by
  rcases h with h | ⟨h, _⟩ <;> exact h

theorem Shift.alt {i j : PId m n} {l} (h : Shift G u i next next') (hm : (i, Rule.alt l) ∈ G) (hj : j ∈ l) :
    Shift G u j next next' := h.imp id fun ⟨h1, h2⟩ => ⟨h1, fun w hw => (h2 w hw).alt hm hj⟩

theorem Shift.last {i j : PId m n} {pre post} (h : Shift G u i next next')
    (hm : (i, Rule.seq (pre ++ j :: post)) ∈ G) (hn : ∀ w, next = some w → ∀ k ∈ post, Null G k) :
    Shift G u j next next' := h.imp id fun ⟨h1, h2⟩ => ⟨h1, fun w hw => (h2 w hw).seq hm (hn w hw)⟩

/-- What comes next has tokens. -/
theorem Shift.inside {i : PId m n} {c : List (Cell n)} (hc : c ≠ [])
    (h : ∀ w, ahead source c next = some w → FollowOf G u.pid i (some w)) :
    Shift G u i (ahead source c next) (ahead source c next') := .inr ⟨ahead_cons hc _ _, h⟩

theorem SameTables.sees (A : SameTables S md md' u G) {i : PId m n} (hi : PReach S u i) {o} (h : md.sees i o) : md'.sees i o := by
  obtain ⟨w, h1, h2⟩ := h
  exact ⟨w, h1, A.first i hi _ h2⟩

theorem SameTables.not_sees (A : SameTables S md md' u G) {i : PId m n} (hi : PReach S u i) (h : ¬ md.sees i next)
    (hs : next' = none ∨ next' = next) : ¬ md'.sees i next' := by
  rcases hs with rfl | rfl
  · exact not_sees_none
  · rintro ⟨w, h1, h2⟩
    exact h ⟨w, h1, A.only i hi _ h2⟩

/-- A part that begins with a token in FIRST is not empty. -/
theorem Front.take {i : PId m n} {c : List (Cell n)} (hf : Front G source i c next) {w}
    (hw : ahead source c next = some w) (h : FirstI G i w) : c ≠ [] := by
  rcases hf w hw with ⟨_, _, hn⟩ | ⟨hc, _⟩
  · exact absurd h hn
  · exact hc

theorem Tab.take (T : Tab S md u G) {i : PId m n} (hi : PReach S u i) {c : List (Cell n)}
    (hf : Front G source i c next) (h : md.sees i (ahead source c next)) : c ≠ [] := by
  obtain ⟨w, h1, h2⟩ := (T.sees hi).1 h
  exact hf.take h1 h2

theorem SameTables.sees_take (A : SameTables S md md' u G) (T : Tab S md u G) {i : PId m n} (hi : PReach S u i)
    {c : List (Cell n)} (hf : Front G source i c next) (h : md.sees i (ahead source c next)) :
    md'.sees i (ahead source c next') := by
  rw [ahead_cons (T.take hi hf h) next' next]
  exact A.sees hi h

theorem SameTables.starts (A : SameTables S md md' u G) (T : Tab S md u G) {i : PId m n} (hi : PReach S u i)
    {c : List (Cell n)} (hf : Front G source i c next) (hs : next' = none ∨ next' = next)
    (h : md.starts i (ahead source c next)) : md'.starts i (ahead source c next') := by
  rcases h with h | h
  · rcases hs with rfl | rfl
    · by_cases hc : c = []
      · subst hc
        rw [ahead_nil] at h ⊢
        cases hn : next with
        | none => rw [hn] at h; exact .inl (A.first i hi _ h)
        | some w =>
          rw [hn] at h
          exact absurd rfl (hf.take (by rw [ahead_nil, hn]) ((T.seen i w hi).1 h))
      · rw [ahead_cons hc none next]
        exact .inl (A.first i hi _ h)
    · exact .inl (A.first i hi _ h)
  · exact .inr (A.first i hi none h)

/-- A part of a sequence and the parts after it. -/
theorem Shift.part {i a : PId m n} {pre : List (PId m n)} {ts : List (Ty m n)} {c : List (Cell n)}
    (E : Rules S u G) (hi : PReach S u i) (hm : S.rule i = .seq (pre ++ a :: ts.map Ty.pid))
    (hf : ∀ w, ahead source c next = some w → (c = [] ∧ ∀ t ∈ ts, Null G t.pid ∧ ¬ FirstI G t.pid w) ∨
      (c ≠ [] ∧ ∃ pre j post, ts = pre ++ j :: post ∧ (∀ k ∈ pre, Null G (Ty.pid k)) ∧ FirstI G (Ty.pid j) w))
    (h : Shift G u i next next') : Shift G u a (ahead source c next) (ahead source c next') := by
  have hmem := hm ▸ E.mem hi
  by_cases hc : c = []
  · subst hc
    rw [ahead_nil, ahead_nil]
    refine h.last hmem ?_
    intro w hw k hk
    obtain ⟨t, ht, rfl⟩ := List.mem_map.1 hk
    rcases hf w (by rw [ahead_nil, hw]) with ⟨_, h1⟩ | ⟨h1, _⟩
    · exact (h1 t ht).1
    · exact absurd rfl h1
  · refine Shift.inside hc ?_
    intro w hw
    rcases hf w hw with ⟨h1, _⟩ | ⟨_, mid, j, post, rfl, h2, h3⟩
    · exact absurd h1 hc
    · rw [List.map_append, List.map_cons] at hmem
      refine FollowOf.between ((reach_iff_schema E.gram i).2 hi) hmem ?_ h3
      intro k hk
      obtain ⟨t, ht, rfl⟩ := List.mem_map.1 hk
      exact h2 t ht

/-- One part and an optional part after it. -/
theorem Shift.opt {i a b : PId m n} {c : List (Cell n)} (E : Rules S u G) (hi : PReach S u i)
    (hm : S.rule i = .seq [a, .opt b]) (hf : c ≠ [] → ∀ w, ahead source c next = some w → FirstI G b.id w)
    (h : Shift G u i next next') : Shift G u a (ahead source c next) (ahead source c next') := by
  have hmem := hm ▸ E.mem hi
  have ho : PReach S u (.opt b) := hi.part (by rw [hm]; simp [Rule.parts])
  by_cases hc : c = []
  · subst hc
    rw [ahead_nil, ahead_nil]
    refine h.last (pre := []) (post := [.opt b]) hmem ?_
    intro w hw k hk
    rw [List.mem_singleton.1 hk]
    exact Front.opt E ho
  · refine Shift.inside hc ?_
    intro w hw
    exact FollowOf.between (pre := []) (mid := []) (post := []) ((reach_iff_schema E.gram i).2 hi) hmem (by simp)
      (E.opt_some ho (hf hc w hw))

/-- What the claims become. -/
def Claim.Shifts (S : Schema m n) (md' : Metadata (PId m n) n) (source : Str) (u : Ty m n) (G : Grammar (PId m n) n) :
    Claim m n → Prop
  | .ty pos t c x next => Reach S.tyParts u t → ∀ next', Shift G u t.pid next next' →
      Chosen S md' source (.ty pos t c x next')
  | .seq pos ts cs xs next => ∀ i pre, PReach S u i → S.rule i = .seq (pre ++ ts.map Ty.pid) →
      (∀ t ∈ ts, Reach S.tyParts u t) → ∀ next', Shift G u i next next' → Chosen S md' source (.seq pos ts cs xs next')
  | .more pos t cs xs next => Reach S.tyParts u t → PReach S u (.plus t.prod) → ∀ next',
      Shift G u (.plus t.prod) next next' → Chosen S md' source (.more pos t cs xs next')
  | .loop pos t cs xs => Reach S.tyParts u t → PReach S u (.plus t.prod) → Chosen S md' source (.loop pos t cs xs)
  | .split pos t p cs ps es next => Reach S.tyParts u (.split t p) → ∀ next', Shift G u (Ty.split t p).pid next next' →
      Chosen S md' source (.split pos t p cs ps es next')
  | .punct pos t p cs ps es next => Reach S.tyParts u (.punct t p) → ∀ next', Shift G u (Ty.punct t p).pid next next' →
      Chosen S md' source (.punct pos t p cs ps es next')

/-- An element and the elements after it. -/
theorem Shift.elem {pos : Nat} {t : Ty m n} {cs : List (List (Cell n))} {xs} (T : Tab S md u G)
    (ht : Reach S.tyParts u t) (hp : PReach S u (.plus t.prod)) (h : Chosen S md source (.more pos t cs xs next))
    (hs : Shift G u (.plus t.prod) next next') :
    Shift G u t.pid (ahead source cs.flatten next) (ahead source cs.flatten next') := by
  refine hs.opt T.toRules hp (a := t.pid) (b := .plus t.prod) rfl ?_
  intro hc w hw
  rcases h.front T ht hp w hw with ⟨h1, _⟩ | ⟨_, h1⟩
  · exact absurd h1 hc
  · exact h1

set_option linter.unusedSectionVars false
section split
variable {t p : Ty m n} (T : Tab S md u G) (ht : Reach S.tyParts u (.split t p))
include T ht

theorem Tab.split_opt : PReach S u (.opt (.plus (.tup2 p.prod t.prod))) :=
  (reach_pid ht).part (by simp [Ty.pid, Ty.prod, PId.id, Schema.rule, Rule.parts])

theorem Tab.split_plus : PReach S u (.plus (.tup2 p.prod t.prod)) :=
  (T.split_opt ht).part (by simp [PId.id, Schema.rule, Rule.parts])

theorem Tab.split_pair : PReach S u (.tup2 p.prod t.prod) :=
  (T.split_plus ht).part (by simp [PId.id, Schema.rule, Rule.parts])

theorem Tab.split_elem : Reach S.tyParts u t := .step ht (by simp [Schema.tyParts])

theorem Tab.split_sep : Reach S.tyParts u p := .step ht (by simp [Schema.tyParts])

theorem Tab.split_pair_first {w} (h : FirstI G p.pid w) : FirstI G (.plus (.tup2 p.prod t.prod)) w :=
  T.plus_some (T.split_plus ht)
    (FirstI.seq (pre := []) (j := p.pid) (post := [t.pid]) (T.mem (T.split_pair ht)) (by simp) h)

theorem Shift.split_elem {pos cs ps es} (h : Chosen S md source (.split pos t p cs ps es next))
    (hs : Shift G u (Ty.split t p).pid next next') :
    Shift G u t.pid (ahead source cs.flatten next) (ahead source cs.flatten next') := by
  refine hs.opt T.toRules (reach_pid ht) (a := t.pid) (b := .plus (.tup2 p.prod t.prod)) rfl ?_
  intro hc w hw
  rcases h.front T ht w hw with ⟨h1, _⟩ | ⟨_, h1⟩
  · exact absurd h1 hc
  · exact T.split_pair_first ht h1

/-- A separator with the element after it. -/
theorem Shift.split_pair {pos cs ps es} (h : Chosen S md source (.split pos t p cs ps es next))
    (hs : Shift G u (Ty.split t p).pid next next') :
    Shift G u (.tup2 p.prod t.prod) (ahead source cs.flatten next) (ahead source cs.flatten next') := by
  have h1 : Shift G u (.opt (.plus (.tup2 p.prod t.prod))) next next' :=
    hs.last (pre := [t.pid]) (post := []) (T.mem (reach_pid ht)) (by simp)
  have h2 : Shift G u (.plus (.tup2 p.prod t.prod)) next next' :=
    h1.alt (l := [.plus (.tup2 p.prod t.prod), .eps]) (T.mem (T.split_opt ht)) (by simp)
  refine h2.opt T.toRules (T.split_plus ht) (a := .tup2 p.prod t.prod) (b := .plus (.tup2 p.prod t.prod)) rfl ?_
  intro hc w hw
  rcases h.front T ht w hw with ⟨h1, _⟩ | ⟨_, h1⟩
  · exact absurd h1 hc
  · exact T.split_pair_first ht h1

end split

section punct
variable {t p : Ty m n} (T : Tab S md u G) (ht : Reach S.tyParts u (.punct t p))
include T ht

theorem Tab.punct_opt : PReach S u (.opt (.tup2 p.prod (.opt (.punct t.prod p.prod)))) :=
  (reach_pid ht).part (by simp [Ty.pid, Ty.prod, PId.id, Schema.rule, Rule.parts])

theorem Tab.punct_pair : PReach S u (.tup2 p.prod (.opt (.punct t.prod p.prod))) :=
  (T.punct_opt ht).part (by simp [PId.id, Schema.rule, Rule.parts])

theorem Tab.punct_more : PReach S u (.opt (.punct t.prod p.prod)) :=
  (T.punct_pair ht).part (by simp [PId.id, Schema.rule, Rule.parts])

theorem Tab.punct_elem : Reach S.tyParts u t := .step ht (by simp [Schema.tyParts])

theorem Tab.punct_sep : Reach S.tyParts u p := .step ht (by simp [Schema.tyParts])

theorem Shift.punct_elem {pos cs ps es} (h : Chosen S md source (.punct pos t p cs ps es next))
    (hs : Shift G u (Ty.punct t p).pid next next') :
    Shift G u t.pid (ahead source cs.flatten next) (ahead source cs.flatten next') := by
  refine hs.opt T.toRules (reach_pid ht) (a := t.pid) (b := .tup2 p.prod (.opt (.punct t.prod p.prod))) rfl ?_
  intro hc w hw
  rcases h.front T ht w hw with ⟨h1, _⟩ | ⟨_, h1⟩
  · exact absurd h1 hc
  · exact FirstI.seq (pre := []) (j := p.pid) (post := [.opt (.punct t.prod p.prod)]) (T.mem (T.punct_pair ht)) (by simp) h1

/-- A separator with an element after it. -/
theorem Tab.punct_sep_follow {w} (hf : FirstI G t.pid w) : FollowOf G u.pid p.pid (some w) :=
  FollowOf.between (pre := []) (mid := []) (post := []) (b := PId.opt (.punct t.prod p.prod))
    ((reach_iff_schema T.gram _).2 (T.punct_pair ht)) (T.mem (T.punct_pair ht)) (by simp)
    (T.opt_some (T.punct_more ht) (FirstI.seq (pre := []) (j := t.pid)
      (post := [.opt (.tup2 p.prod (.opt (.punct t.prod p.prod)))]) (T.mem (reach_pid ht)) (by simp) hf))

/-- A trailing separator. -/
theorem Shift.punct_trail (hs : Shift G u (Ty.punct t p).pid next next') : Shift G u p.pid next next' := by
  have h1 : Shift G u (.opt (.tup2 p.prod (.opt (.punct t.prod p.prod)))) next next' :=
    hs.last (pre := [t.pid]) (post := []) (T.mem (reach_pid ht)) (by simp)
  have h2 : Shift G u (.tup2 p.prod (.opt (.punct t.prod p.prod))) next next' :=
    h1.alt (l := [.tup2 p.prod (.opt (.punct t.prod p.prod)), .eps]) (T.mem (T.punct_opt ht)) (by simp)
  refine h2.last (pre := []) (post := [.opt (.punct t.prod p.prod)]) (T.mem (T.punct_pair ht)) ?_
  intro _ _ k hk
  rw [List.mem_singleton.1 hk]
  exact Front.opt T.toRules (T.punct_more ht)

end punct

/-- **A predictive match stays one**, with the tables of the part, if the next token goes or can follow. -/
theorem Chosen.shift (T : Tab S md u G) (A : SameTables S md md' u G) {j : Claim m n} (h : Chosen S md source j) :
    j.Shifts S md' source u G := by
  induction h with
  | term hm => exact fun _ _ _ => .term hm
  | @struct pos k f fs cs l next hk h ih =>
    intro ht next' hs
    refine .struct hk (ih (.user k) [] (reach_pid ht) ?_ ?_ _ hs)
    · simp [Schema.rule, hk, Function.comp_def]
    · intro t hu
      exact .step ht (by rw [Schema.tyParts, hk]; exact hu)
  | @enum pos k f fs i t sem c x next hk hi hlook h ih =>
    intro ht next' hs
    have hmem : (t, sem) ∈ f :: fs := List.mem_of_getElem? hi
    have hu : Reach S.tyParts u t := .step ht (by rw [Schema.tyParts, hk]; exact List.mem_map_of_mem (f := Prod.fst) hmem)
    have hrule : ((PId.user k : PId m n), Rule.alt ((f :: fs).map fun v => v.1.pid)) ∈ G := by
      have := T.mem (reach_pid ht)
      simpa [Ty.pid, Ty.prod, PId.id, Schema.rule, hk] using this
    refine .enum hk hi ?_ (ih hu _ (hs.alt hrule (List.mem_map.2 ⟨_, hmem, rfl⟩)))
    rw [← A.jump k f fs (reach_pid ht) hk, ← hlook]
    by_cases hc : c = []
    · subst hc
      rw [ahead_nil] at hlook
      rw [ahead_nil, ahead_nil]
      cases hn : next with
      | none => rw [hn] at hs; rw [hs.of_none]
      | some w =>
        rw [hn] at hlook
        obtain ⟨g, hg, hf⟩ := T.jump k f fs (reach_pid ht) hk w i hlook
        rw [hi] at hg
        cases hg
        exact absurd rfl ((h.front T hu).take (by rw [ahead_nil, hn]) hf)
    · rw [ahead_cons hc]
  | @tuple pos t ts cs l next htu h ih =>
    intro ht next' hs
    refine .tuple htu (ih t.pid [] (reach_pid ht) (by rw [List.nil_append]; exact tuple_pid htu) ?_ _ hs)
    intro w hw
    exact .step ht (by rw [isTuple_parts htu]; exact hw)
  | box h ih => exact fun ht next' hs => .box (ih (.step ht (by simp [Schema.tyParts])) _ hs)
  | quote h ih => exact fun ht next' hs => .quote (ih (.step ht (by simp [Schema.tyParts])) _ hs)
  | parse h ih => exact fun ht next' hs => .parse (ih (.step ht (by simp [Schema.tyParts])) _ hs)
  | @optNone pos t next hn =>
    exact fun ht next' hs => .optNone (A.not_sees (reach_pid (.step ht (by simp [Schema.tyParts]))) hn hs.or)
  | @existNone pos t next hn =>
    exact fun ht next' hs => .existNone (A.not_sees (reach_pid (.step ht (by simp [Schema.tyParts]))) hn hs.or)
  | @optSome pos t c x next hg h ih =>
    intro ht next' hs
    have hu : Reach S.tyParts u t := .step ht (by simp [Schema.tyParts])
    exact .optSome (A.sees_take T (reach_pid hu) (h.front T hu) hg)
      (ih hu _ (hs.alt (l := [t.pid, .eps]) (T.mem (reach_pid ht)) (by simp)))
  | @existSome pos t c x next hg h ih =>
    intro ht next' hs
    have hu : Reach S.tyParts u t := .step ht (by simp [Schema.tyParts])
    exact .existSome (A.sees_take T (reach_pid hu) (h.front T hu) hg)
      (ih hu _ (hs.alt (l := [t.pid, .eps]) (T.mem (reach_pid ht)) (by simp)))
  | @plus pos t c x cs xs next h hm ih1 ih2 =>
    intro ht next' hs
    have hu : Reach S.tyParts u t := .step ht (by simp [Schema.tyParts])
    have hp : PReach S u (.plus t.prod) := reach_pid ht
    exact .plus (ih1 hu _ (Shift.elem T hu hp hm hs)) (ih2 hu hp _ hs)
  | @starNone pos t next hn =>
    exact fun ht next' hs => .starNone (A.not_sees (reach_pid (.step ht (by simp [Schema.tyParts]))) hn hs.or)
  | @starSome pos t c x cs xs next hg h hm ih1 ih2 =>
    intro ht next' hs
    have hb : Reach S.tyParts u (.plus t) := .step ht (by simp [Schema.tyParts])
    have hu : Reach S.tyParts u t := .step hb (by simp [Schema.tyParts])
    have hp : PReach S u (.plus t.prod) := reach_pid hb
    have hs' : Shift G u (.plus t.prod) next next' :=
      hs.alt (l := [.plus t.prod, .eps]) (T.mem (reach_pid ht)) (by simp)
    have hfr : Front G source (Ty.plus t).pid (c ++ cs.flatten) next := (Chosen.plus h hm).front T hb
    exact .starSome (A.sees_take T (reach_pid hb) hfr hg) (ih1 hu _ (Shift.elem T hu hp hm hs')) (ih2 hu hp _ hs')
  | loopNone => intro _ next' hs; rw [hs.of_none]; exact .loopNone
  | @loopSome pos t cs xs hne h ih =>
    intro ht next' hs
    rw [hs.of_none]
    exact .loopSome hne (ih (.step ht (by simp [Schema.tyParts])) (reach_pid ht))
  | @split pos t p c x cs ps es next h hm ih1 ih2 =>
    intro ht next' hs
    exact .split (ih1 (T.split_elem ht) _ (Shift.split_elem T ht hm hs)) (ih2 ht _ hs)
  | @punct pos t p c x cs ps es next h hm ih1 ih2 =>
    intro ht next' hs
    exact .punct (ih1 (T.punct_elem ht) _ (Shift.punct_elem T ht hm hs)) (ih2 ht _ hs)
  | @recover pos t r c x d y next h1 h2 h3 h4 ih1 ih2 =>
    intro ht next' hs
    have hu : Reach S.tyParts u t := .step ht (by simp [Schema.tyParts])
    have hr : Reach S.tyParts u r := .step ht (by simp [Schema.tyParts])
    have hfr := h4.front T hr
    have hseq : ∀ w, ahead source d next = some w → (d = [] ∧ ∀ t ∈ [r], Null G t.pid ∧ ¬ FirstI G t.pid w) ∨
        (d ≠ [] ∧ ∃ pre j post, [r] = pre ++ j :: post ∧ (∀ k ∈ pre, Null G (Ty.pid k)) ∧ FirstI G (Ty.pid j) w) := by
      have := Front.cons (ts := []) (d := []) (next := next) (by rw [ahead_nil]; exact hfr)
        (fun w _ => .inl ⟨rfl, by simp⟩)
      simpa using this
    have hst : Shift G u t.pid (ahead source d next) (ahead source d next') :=
      Shift.part (pre := []) (ts := [r]) T.toRules (reach_pid ht) rfl hseq hs
    refine .recover ?_ (ih1 hu _ hst) (A.starts T (reach_pid hr) hfr hs.or h3)
      (ih2 hr _ (hs.last (pre := [t.pid]) (post := []) (T.mem (reach_pid ht)) (by simp)))
    rw [ahead_append] at h1 ⊢
    exact A.starts T (reach_pid hu) (h2.front T hu) hst.or h1
  | seqNil => exact fun _ _ _ _ _ _ _ => .seqNil
  | @seqCons pos t ts c cs x xs next h hm ih1 ih2 =>
    intro i pre hi hl ht next' hs
    have hts : ∀ v ∈ ts, Reach S.tyParts u v := fun v hv => ht v (by simp [hv])
    refine .seqCons (ih1 (ht t (by simp)) _ (hs.part T.toRules hi hl (hm.front T hts))) ?_
    exact ih2 i (pre ++ [t.pid]) hi (by simpa using hl) hts _ hs
  | moreStop hn => exact fun ht hp next' hs => .moreStop (A.not_sees hp hn hs.or)
  | @moreGo pos t c cs x xs next hg h hm ih1 ih2 =>
    intro ht hp next' hs
    have hst := Shift.elem T ht hp hm hs
    refine .moreGo ?_ (ih1 ht _ hst) (ih2 ht hp _ hs)
    have hc : c ≠ [] := by
      rw [ahead_append] at hg
      obtain ⟨w, h1, h2⟩ := (T.sees (i := .plus t.prod) hp).1 hg
      exact (h.front T ht).take h1 (T.plus_first h2)
    rw [ahead_append] at hg ⊢
    rw [ahead_cons hc _ (ahead source cs.flatten next)]
    exact A.sees hp hg
  | loopStop => exact fun _ _ => .loopStop
  | @loopGo pos t c cs x xs hg hc h hm ih1 ih2 =>
    intro ht hp
    refine .loopGo (A.sees hp hg) hc (ih1 ht _ (.inr ⟨rfl, ?_⟩)) (ih2 ht hp)
    intro w hw
    exact FollowOf.between (pre := []) (mid := []) (post := []) (b := PId.opt (.plus t.prod))
      ((reach_iff_schema T.gram _).2 hp) (T.mem hp) (by simp)
      (T.opt_some (T.plus_opt hp) (hm.front T hp w hw))
  | splitStop hn => exact fun ht next' hs => .splitStop (A.not_sees (reach_pid (T.split_sep ht)) hn hs.or)
  | @splitGo pos t p c q d x cs ps es next hg h hg2 hd hm ih1 ih2 ih3 =>
    intro ht next' hs
    have hp := T.split_sep ht
    have hu := T.split_elem ht
    have hpair := Shift.split_pair T ht hm hs
    have hst : Shift G u t.pid (ahead source cs.flatten next) (ahead source cs.flatten next') :=
      hpair.last (pre := [p.pid]) (post := []) (T.mem (T.split_pair ht)) (by simp)
    have hfr := hd.front T hu
    have hseq : ∀ w, ahead source d (ahead source cs.flatten next) = some w →
        (d = [] ∧ ∀ v ∈ [t], Null G v.pid ∧ ¬ FirstI G v.pid w) ∨
        (d ≠ [] ∧ ∃ pre j post, [t] = pre ++ j :: post ∧ (∀ k ∈ pre, Null G (Ty.pid k)) ∧ FirstI G (Ty.pid j) w) := by
      have := Front.cons (ts := []) (d := []) (next := ahead source cs.flatten next) (by rw [ahead_nil]; exact hfr)
        (fun w _ => .inl ⟨rfl, by simp⟩)
      simpa using this
    have hsp : Shift G u p.pid (ahead source d (ahead source cs.flatten next))
        (ahead source d (ahead source cs.flatten next')) :=
      Shift.part (pre := []) (ts := [t]) T.toRules (T.split_pair ht) rfl hseq hpair
    rw [← ahead_append, ← ahead_append] at hsp
    refine .splitGo ?_ (ih1 hp _ hsp) ?_ (ih2 hu _ hst) (ih3 ht _ hs)
    · rw [ahead_append] at hg ⊢
      exact A.sees_take T (reach_pid hp) (h.front T hp) hg
    · rw [ahead_append] at hg2 ⊢
      exact A.starts T (reach_pid hu) hfr hst.or hg2
  | punctStop hn => exact fun ht next' hs => .punctStop (A.not_sees (reach_pid (T.punct_sep ht)) hn hs.or)
  | @punctTrail pos t p c q next hg h hn hfol ih =>
    intro ht next' hs
    have hp := T.punct_sep ht
    refine .punctTrail (A.sees_take T (reach_pid hp) (h.front T hp) hg) (ih hp _ (Shift.punct_trail T ht hs))
      (A.not_sees (reach_pid (T.punct_elem ht)) hn hs.or) ?_
    intro w hw
    rcases hs with hs | ⟨hs, hs'⟩
    · rw [hs] at hw; cases hw
    · rw [hs] at hw
      exact A.punct t p ht w (hfol w hw) (hs' w hw)
  | @punctGo pos t p c q d x cs ps es next hg h hg2 hd hm ih1 ih2 ih3 =>
    intro ht next' hs
    have hp := T.punct_sep ht
    have hu := T.punct_elem ht
    have hst := Shift.punct_elem T ht hm hs
    have hdn : d ≠ [] := by
      rw [ahead_append] at hg2
      exact T.take (reach_pid hu) (hd.front T hu) hg2
    have hsp : Shift G u p.pid (ahead source (d ++ cs.flatten) next) (ahead source (d ++ cs.flatten) next') := by
      refine Shift.inside (by simp [hdn]) ?_
      intro w hw
      exact T.punct_sep_follow ht (T.sees_some (reach_pid hu) hg2 hw)
    refine .punctGo ?_ (ih1 hp _ hsp) ?_ (ih2 hu _ hst) (ih3 ht _ hs)
    · rw [ahead_append] at hg ⊢
      exact A.sees_take T (reach_pid hp) (h.front T hp) hg
    · rw [ahead_append] at hg2 ⊢
      exact A.sees_take T (reach_pid hu) (hd.front T hu) hg2

end

end Teleparse
