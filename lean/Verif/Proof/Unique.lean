import Verif.Proof.Complete
/-
Matches of a type are unique, when the tokens after them can follow the type.
-/
set_option linter.unusedSectionVars false
namespace Teleparse
variable {m n : Nat} {S : Schema m n} {source : Str} {r root : Ty m n} {G : Grammar (PId m n) n}

/-- Every other match at the same place is the same. -/
def Uniq (S : Schema m n) (source : Str) (r root : Ty m n) (G : Grammar (PId m n) n) (pos : Nat) (t : Ty m n)
    (c : List (Cell n)) (x : Tree n) : Prop :=
  ∀ c' x' rest rest', Parses S source pos t c' x' → toks c ++ rest = toks c' ++ rest' → Within S r root t →
    Ok G root source t.pid rest → Ok G root source t.pid rest' → c = c' ∧ x = x'

inductive UniqSeq (S : Schema m n) (source : Str) (r root : Ty m n) (G : Grammar (PId m n) n) :
    Nat → List (Ty m n) → List (List (Cell n)) → List (Tree n) → Prop
  | nil {pos} : UniqSeq S source r root G pos [] [] []
  | cons {pos t ts c cs x xs} : Parses S source pos t c x → Uniq S source r root G pos t c x →
      UniqSeq S source r root G (endOf pos c) ts cs xs →
      UniqSeq S source r root G pos (t :: ts) (c :: cs) (x :: xs)

theorem UniqSeq.parses {pos ts cs xs} (h : UniqSeq S source r root G pos ts cs xs) :
    ParsesSeq S source pos ts cs xs := by
  induction h with
  | nil => exact .nil
  | cons h1 _ _ ih => exact .cons h1 ih

theorem toks_flatten_cons (c : List (Cell n)) (cs : List (List (Cell n))) (rest : List (Token n)) :
    toks (c :: cs).flatten ++ rest = toks c ++ (toks cs.flatten ++ rest) := by
  simp [toks]

/-- Consecutive parts of a sequence. -/
theorem Amb.useq (E : Amb S source r root G) {i : PId m n} (hi : Reachable G root.pid i) :
    ∀ {ts : List (Ty m n)} {pre : List (PId m n)} {pos cs xs cs' xs'} {rest rest' : List (Token n)},
    (i, Rule.seq (pre ++ ts.map Ty.pid)) ∈ G → UniqSeq S source r root G pos ts cs xs →
    ParsesSeq S source pos ts cs' xs' → toks cs.flatten ++ rest = toks cs'.flatten ++ rest' →
    (∀ t ∈ ts, Within S r root t) → Ok G root source i rest → Ok G root source i rest' →
    cs = cs' ∧ xs = xs' := by
  intro ts
  induction ts with
  | nil =>
    intro pre pos cs xs cs' xs' rest rest' _ h h' _ _ _ _
    cases h; cases h'
    exact ⟨rfl, rfl⟩
  | cons t ts ih =>
    intro pre pos cs xs cs' xs' rest rest' hm h h' he hw ho ho'
    cases h with
    | cons h1 h2 h3 =>
      cases h' with
      | cons g1 g2 =>
        rw [toks_flatten_cons, toks_flatten_cons] at he
        have hw2 : ∀ u ∈ ts, Within S r root u := fun u hu => hw u (by simp [hu])
        obtain ⟨rfl, rfl⟩ := h2 _ _ _ _ g1 he (hw t (by simp))
          (E.ok_part (mid := []) (by simpa using hm) hi (by simp) h3.parses hw2 ho)
          (E.ok_part (mid := []) (by simpa using hm) hi (by simp) g2 hw2 ho')
        obtain ⟨rfl, rfl⟩ := ih (pre := pre ++ [t.pid]) (by simpa using hm) h3 g2
          (List.append_cancel_left he) hw2 ho ho'
        exact ⟨rfl, rfl⟩

/-! ### Enums and options -/

theorem Amb.enum_same (E : Amb S source r root G) {k : Fin m} {l : List (PId m n)}
    (hrule : S.rule (.user k) = .alt l) (hp : PReach S root (.user k)) {pos pos' t t' c c' x x' i j}
    {rest rest' : List (Token n)} (hi : l[(i : Nat)]? = some t.pid) (hj : l[(j : Nat)]? = some t'.pid)
    (h : Parses S source pos t c x) (h' : Parses S source pos' t' c' x') (hw : Within S r root t)
    (hw' : Within S r root t') (he : toks c ++ rest = toks c' ++ rest')
    (ho : Ok G root source (.user k) rest) (ho' : Ok G root source (.user k) rest') : i = j := by
  have hm := E.mem hp
  rw [hrule] at hm
  have L := E.ll1 _ _ (E.reachable hp) hm
  have key : ∀ (p q : Nat) (a b : PId m n), p ≠ q → l[p]? = some a → l[q]? = some b → ¬ Overlap G a b := by
    intro p q a b hne h1 h2 hov
    rcases Nat.lt_or_gt_of_ne hne with hlt | hgt
    · exact L.1 p q a b hlt h1 h2 hov
    · refine L.1 q p b a hgt h2 h1 ?_
      rcases hov with ⟨tok, h3, h4⟩ | ⟨h3, h4⟩
      · exact .inl ⟨tok, h4, h3⟩
      · exact .inr ⟨h4, h3⟩
  rcases Nat.decEq i j with hne | rfl
  · exfalso
    rcases E.match_cases h hw with ⟨rfl, hn⟩ | ⟨w, hf, _, hla⟩ <;>
      rcases E.match_cases h' hw' with ⟨rfl, hn'⟩ | ⟨w', hf', _, hla'⟩
    · exact key i j _ _ hne hi hj (.inr ⟨hn.nullable, hn'.nullable⟩)
    · have : la source rest = some w' := by
        rw [← hla' rest', ← he]; rfl
      exact L.2 i j _ _ hne hi hj hn.nullable w' hf'.firstOf (ho _ this)
    · have : la source rest' = some w := by
        rw [← hla rest, he]; rfl
      exact L.2 j i _ _ (fun h => hne h.symm) hj hi hn'.nullable w hf.firstOf (ho' _ this)
    · have h1 := hla rest
      rw [he, hla'] at h1
      cases h1
      exact key i j _ _ hne hi hj (.inl ⟨w, hf.firstOf, hf'.firstOf⟩)
  · rfl

/-- An optional part is present or not. -/
theorem Amb.opt_clash (E : Amb S source r root G) {i : PId m n} {t : Ty m n} (hp : PReach S root (.opt i))
    (hi : i.id = t.pid) (hw : Within S r root t) {pos c x} {rest rest' : List (Token n)}
    (h : Parses S source pos t c x) (he : rest = toks c ++ rest') (ho : Ok G root source (.opt i) rest) :
    False := by
  obtain ⟨w, hf, hla⟩ := E.opt_match hp hi h hw
  exact E.opt_no hp ho ⟨w, by rw [he]; exact hla _, by rw [hi]; exact hf⟩

/-! ### Repetition -/

theorem Amb.reps (E : Amb S source r root G) {t : Ty m n} (hp : PReach S root (.plus t.prod))
    (hw : Within S r root t) : ∀ {k k' : Nat} {pos cs xs cs' xs'} {rest rest' : List (Token n)},
    UniqSeq S source r root G pos (List.replicate k t) cs xs →
    ParsesSeq S source pos (List.replicate k' t) cs' xs' →
    toks cs.flatten ++ rest = toks cs'.flatten ++ rest' → Ok G root source (.plus t.prod) rest →
    Ok G root source (.plus t.prod) rest' → cs = cs' ∧ xs = xs' := by
  have ho : PReach S root (.opt (.plus t.prod)) := hp.part (by simp [Schema.rule, Rule.parts])
  have clash : ∀ {pos c x} {l rest : List (Token n)}, Parses S source pos t c x → rest = toks c ++ l →
      Ok G root source (.plus t.prod) rest → False := by
    intro pos c x l rest h he hok
    rcases E.match_cases h hw with ⟨_, hn⟩ | ⟨w, hf, _, hla⟩
    · exact E.plus_body hp hn
    · refine E.opt_no ho (i := .plus t.prod) (rest := rest) ?_ ⟨w, by rw [he]; exact hla _, E.plus_first' hp hf⟩
      exact Ok.last (pre := [t.prod.id]) (post := []) hok (E.mem hp) (by simp)
  intro k
  induction k with
  | zero =>
    intro k' pos cs xs cs' xs' rest rest' h h' he hok hok'
    cases h
    cases k' with
    | zero => cases h'; exact ⟨rfl, rfl⟩
    | succ k' =>
      cases h' with
      | cons g1 g2 =>
        rw [toks_flatten_cons] at he
        exact (clash g1 (by simpa using he) hok).elim
  | succ k ih =>
    intro k' pos cs xs cs' xs' rest rest' h h' he hok hok'
    cases h with
    | cons h1 h2 h3 =>
      rw [toks_flatten_cons] at he
      cases k' with
      | zero =>
        cases h'
        exact (clash h1 (by simpa using he.symm) hok').elim
      | succ k' =>
        cases h' with
        | cons g1 g2 =>
          rw [toks_flatten_cons] at he
          obtain ⟨rfl, rfl⟩ := h2 _ _ _ _ g1 he hw (E.ok_elem hp hw h3.parses hok) (E.ok_elem hp hw g2 hok')
          obtain ⟨rfl, rfl⟩ := ih h3 g2 (List.append_cancel_left he) hok hok'
          exact ⟨rfl, rfl⟩

/-! ### Split -/

theorem interleave_inj {α : Type} : ∀ {a b a' b' : List α}, interleave a b = interleave a' b' →
    (a.length = b.length ∨ a.length = b.length + 1) → (a'.length = b'.length ∨ a'.length = b'.length + 1) →
    a = a' ∧ b = b' := by
  suffices H : ∀ (k : Nat) (a b a' b' : List α), a.length + b.length ≤ k → interleave a b = interleave a' b' →
      (a.length = b.length ∨ a.length = b.length + 1) → (a'.length = b'.length ∨ a'.length = b'.length + 1) →
      a = a' ∧ b = b' from fun {a b a' b'} => H _ a b a' b' (Nat.le_refl _)
  intro k
  induction k with
  | zero =>
    intro a b a' b' hk h hl hl'
    have ha : a = [] := List.eq_nil_of_length_eq_zero (by omega)
    have hb : b = [] := List.eq_nil_of_length_eq_zero (by omega)
    subst ha hb
    cases a' with
    | nil => exact ⟨rfl, (List.eq_nil_of_length_eq_zero (by simp at hl'; simp [← hl'])).symm⟩
    | cons => rw [interleave_cons] at h; simp [interleave] at h
  | succ k ih =>
    intro a b a' b' hk h hl hl'
    cases a with
    | nil =>
      have hb : b = [] := List.eq_nil_of_length_eq_zero (by simp at hl; simp [← hl])
      subst hb
      cases a' with
      | nil => exact ⟨rfl, (List.eq_nil_of_length_eq_zero (by simp at hl'; simp [← hl'])).symm⟩
      | cons => rw [interleave_cons] at h; simp [interleave] at h
    | cons x a =>
      cases a' with
      | nil => rw [interleave_cons] at h; simp [interleave] at h
      | cons x' a' =>
        rw [interleave_cons, interleave_cons] at h
        obtain ⟨rfl, h2⟩ := List.cons.inj h
        simp only [List.length_cons] at hk hl hl'
        obtain ⟨rfl, rfl⟩ := ih b a b' a' (by omega) h2 (by omega) (by omega)
        exact ⟨rfl, rfl⟩

section split
variable {t p : Ty m n} (E : Amb S source r root G) (hs : Within S r root (.split t p))
include E hs

/-- A separator with its element begins with a token. -/
theorem Amb.split_pair_la {pos pos' c c' x x'} (h : Parses S source pos p c x) (h' : Parses S source pos' t c' x') :
    ∃ w, FirstI G (.tup2 p.prod t.prod) w ∧ ∀ rest, la source (toks c ++ (toks c' ++ rest)) = some w := by
  have hb := E.split_pair hs
  rcases E.match_cases h (E.split_sep hs) with ⟨rfl, hn⟩ | ⟨w, hf, _, hla⟩
  · rcases E.match_cases h' (E.split_elem hs) with ⟨rfl, hn'⟩ | ⟨w, hf, _, hla⟩
    · refine absurd ?_ (E.plus_body (E.split_plus hs))
      refine Null.seq (E.mem hb) ?_
      intro j hj
      simp only [List.mem_cons, List.not_mem_nil, or_false] at hj
      rcases hj with rfl | rfl
      · exact hn
      · exact hn'
    · exact ⟨w, FirstI.seq (pre := [p.pid]) (j := t.pid) (post := []) (E.mem hb) (by simpa using hn) hf,
        fun rest => hla rest⟩
  · exact ⟨w, E.split_pair_first hs hf, fun rest => hla _⟩

theorem Amb.spair {pos k cs xs rest} (h : ParsesSeq S source pos (alternate p t (k + k)) cs xs)
    (hok : Ok G root source (Ty.split t p).pid rest) :
    Ok G root source (.tup2 p.prod t.prod) (toks cs.flatten ++ rest) ∧
      Ok G root source t.pid (toks cs.flatten ++ rest) := by
  have hpl := E.split_plus hs
  have ho : PReach S root (.opt (.plus (.tup2 p.prod t.prod))) := E.split_opt hs
  cases k with
  | zero =>
    cases h
    have h1 : Ok G root source (.opt (.plus (.tup2 p.prod t.prod))) rest :=
      Ok.last (pre := [t.pid]) (post := []) hok (E.mem hs.pid) (by simp)
    have h2 : Ok G root source (.plus (.tup2 p.prod t.prod)) rest := h1.alt (E.mem ho) (by simp [PId.id])
    constructor
    · refine Ok.last (pre := []) (post := [.opt (.plus (.tup2 p.prod t.prod))]) h2 (E.mem hpl) ?_
      intro k hk; rw [List.mem_singleton.1 hk]; exact E.opt_null ho
    · refine Ok.last (pre := []) (post := [_]) hok (E.mem hs.pid) ?_
      intro k hk; rw [List.mem_singleton.1 hk]; exact E.opt_null ho
  | succ k =>
    rw [show k + 1 + (k + 1) = k + k + 1 + 1 by omega] at h
    cases h with
    | cons h1 h2 =>
      cases h2 with
      | cons h2 h3 =>
        obtain ⟨w, hf, hla⟩ := E.split_pair_la hs h1 h2
        constructor
        · intro tok ht
          rw [toks_flatten_cons, toks_flatten_cons, hla] at ht
          cases ht
          exact FollowOf.between (pre := []) (mid := []) (post := []) (E.reachable hpl) (E.mem hpl) (by simp)
            (E.opt_some ho (E.plus_first' hpl hf))
        · intro tok ht
          rw [toks_flatten_cons, toks_flatten_cons, hla] at ht
          cases ht
          exact FollowOf.between (pre := []) (mid := []) (post := []) (E.reachable hs.pid) (E.mem hs.pid) (by simp)
            (E.opt_some ho (E.plus_first' hpl hf))

theorem Amb.pairs : ∀ {k k' : Nat} {pos cs xs cs' xs'} {rest rest' : List (Token n)},
    UniqSeq S source r root G pos (alternate p t (k + k)) cs xs →
    ParsesSeq S source pos (alternate p t (k' + k')) cs' xs' →
    toks cs.flatten ++ rest = toks cs'.flatten ++ rest' → Ok G root source (Ty.split t p).pid rest →
    Ok G root source (Ty.split t p).pid rest' → cs = cs' ∧ xs = xs' := by
  have hpl := E.split_plus hs
  have hb := E.split_pair hs
  have ho : PReach S root (.opt (.plus (.tup2 p.prod t.prod))) := E.split_opt hs
  have clash : ∀ {pos pos' c c' x x'} {l rest : List (Token n)}, Parses S source pos p c x →
      Parses S source pos' t c' x' → rest = toks c ++ (toks c' ++ l) →
      Ok G root source (Ty.split t p).pid rest → False := by
    intro pos pos' c c' x x' l rest h h' he hok
    obtain ⟨w, hf, hla⟩ := E.split_pair_la hs h h'
    refine E.opt_no ho (rest := rest) ?_ ⟨w, by rw [he]; exact hla _, E.plus_first' hpl hf⟩
    exact Ok.last (pre := [t.pid]) (post := []) hok (E.mem hs.pid) (by simp)
  have hok_sep : ∀ {pos c x} {l : List (Token n)}, Parses S source pos t c x →
      Ok G root source (.tup2 p.prod t.prod) l → Ok G root source p.pid (toks c ++ l) := by
    intro pos c x l h hok
    rcases E.match_cases h (E.split_elem hs) with ⟨rfl, hn⟩ | ⟨w, hf, _, hla⟩
    · refine Ok.last (pre := []) (post := [t.pid]) hok (E.mem hb) ?_
      intro k hk; rw [List.mem_singleton.1 hk]; exact hn
    · intro tok ht
      rw [hla] at ht
      cases ht
      exact FollowOf.between (pre := []) (mid := []) (post := []) (E.reachable hb) (E.mem hb) (by simp) hf
  intro k
  induction k with
  | zero =>
    intro k' pos cs xs cs' xs' rest rest' h h' he hok hok'
    cases h
    cases k' with
    | zero => cases h'; exact ⟨rfl, rfl⟩
    | succ k' =>
      rw [show k' + 1 + (k' + 1) = k' + k' + 1 + 1 by omega] at h'
      cases h' with
      | cons g1 g2 =>
        cases g2 with
        | cons g2 g3 =>
          rw [toks_flatten_cons, toks_flatten_cons] at he
          exact (clash g1 g2 (by simpa using he) hok).elim
  | succ k ih =>
    intro k' pos cs xs cs' xs' rest rest' h h' he hok hok'
    rw [show k + 1 + (k + 1) = k + k + 1 + 1 by omega] at h
    cases h with
    | cons h1 h2 h3 =>
      cases h3 with
      | cons a1 a2 a3 =>
        rw [toks_flatten_cons, toks_flatten_cons] at he
        cases k' with
        | zero =>
          cases h'
          exact (clash h1 a1 (by simpa using he.symm) hok').elim
        | succ k' =>
          rw [show k' + 1 + (k' + 1) = k' + k' + 1 + 1 by omega] at h'
          cases h' with
          | cons g1 g2 =>
            cases g2 with
            | cons b1 b2 =>
              rw [toks_flatten_cons, toks_flatten_cons] at he
              obtain ⟨o1, o2⟩ := E.spair hs a3.parses hok
              obtain ⟨o1', o2'⟩ := E.spair hs b2 hok'
              obtain ⟨rfl, rfl⟩ := h2 _ _ _ _ g1 he (E.split_sep hs) (hok_sep a1 o1) (hok_sep b1 o1')
              have he := List.append_cancel_left he
              obtain ⟨rfl, rfl⟩ := a2 _ _ _ _ b1 he (E.split_elem hs) o2 o2'
              obtain ⟨rfl, rfl⟩ := ih a3 b2 (List.append_cancel_left he) hok hok'
              exact ⟨rfl, rfl⟩

end split

/-! ### Punct -/

section punct
variable {t p : Ty m n} (E : Amb S source r root G) (hs : Within S r root (.punct t p))
include E hs

theorem Amb.puncts : ∀ (k : Nat),
    (∀ {k' : Nat} {pos cs xs cs' xs'} {rest rest' : List (Token n)},
      UniqSeq S source r root G pos (alternate p t k) cs xs → ParsesSeq S source pos (alternate p t k') cs' xs' →
      toks cs.flatten ++ rest = toks cs'.flatten ++ rest' → Ok G root source (Ty.punct t p).pid rest →
      Ok G root source (Ty.punct t p).pid rest' → cs = cs' ∧ xs = xs') ∧
    (∀ {k' : Nat} {pos cs xs cs' xs'} {rest rest' : List (Token n)},
      UniqSeq S source r root G pos (alternate t p k) cs xs → ParsesSeq S source pos (alternate t p k') cs' xs' →
      toks cs.flatten ++ rest = toks cs'.flatten ++ rest' → Ok G root source (Ty.punct t p).pid rest →
      Ok G root source (Ty.punct t p).pid rest' → cs = cs' ∧ xs = xs') := by
  have clashP : ∀ {pos c x} {l rest : List (Token n)}, Parses S source pos p c x → rest = toks c ++ l →
      Ok G root source (Ty.punct t p).pid rest → False := by
    intro pos c x l rest h he hok
    obtain ⟨w, hf, hla⟩ := E.punct_sep_first hs h
    refine E.opt_no (E.punct_opt hs) (rest := rest) ?_ ⟨w, by rw [he]; exact hla _, E.punct_pair_first hs hf⟩
    exact Ok.last (pre := [t.pid]) (post := []) hok (E.mem hs.pid) (by simp)
  have clashT : ∀ {pos c x} {l rest : List (Token n)}, Parses S source pos t c x → rest = toks c ++ l →
      Ok G root source (Ty.punct t p).pid rest → False := by
    intro pos c x l rest h he hok
    obtain ⟨w, hf, hla⟩ := E.punct_elem_first hs h
    refine E.opt_no (E.punct_more hs) (rest := rest) ?_ ⟨w, by rw [he]; exact hla _, E.punct_first hs hf⟩
    exact Ok.last (pre := [p.pid]) (post := []) (E.punct_ok_more hs hok) (E.mem (E.punct_pair hs)) (by simp)
  intro k
  induction k with
  | zero =>
    constructor
    · intro k' pos cs xs cs' xs' rest rest' h h' he hok hok'
      cases h
      cases k' with
      | zero => cases h'; exact ⟨rfl, rfl⟩
      | succ k' =>
        cases h' with
        | cons g1 g2 =>
          rw [toks_flatten_cons] at he
          exact (clashP g1 (by simpa using he) hok).elim
    · intro k' pos cs xs cs' xs' rest rest' h h' he hok hok'
      cases h
      cases k' with
      | zero => cases h'; exact ⟨rfl, rfl⟩
      | succ k' =>
        cases h' with
        | cons g1 g2 =>
          rw [toks_flatten_cons] at he
          exact (clashT g1 (by simpa using he) hok).elim
  | succ k ih =>
    constructor
    · intro k' pos cs xs cs' xs' rest rest' h h' he hok hok'
      cases h with
      | cons h1 h2 h3 =>
        rw [toks_flatten_cons] at he
        cases k' with
        | zero =>
          cases h'
          exact (clashP h1 (by simpa using he.symm) hok').elim
        | succ k' =>
          cases h' with
          | cons g1 g2 =>
            rw [toks_flatten_cons] at he
            obtain ⟨rfl, rfl⟩ := h2 _ _ _ _ g1 he (E.punct_sep hs) (E.punct_ok_sep hs h3.parses hok)
              (E.punct_ok_sep hs g2 hok')
            obtain ⟨rfl, rfl⟩ := ih.2 h3 g2 (List.append_cancel_left he) hok hok'
            exact ⟨rfl, rfl⟩
    · intro k' pos cs xs cs' xs' rest rest' h h' he hok hok'
      cases h with
      | cons h1 h2 h3 =>
        rw [toks_flatten_cons] at he
        cases k' with
        | zero =>
          cases h'
          exact (clashT h1 (by simpa using he.symm) hok').elim
        | succ k' =>
          cases h' with
          | cons g1 g2 =>
            rw [toks_flatten_cons] at he
            obtain ⟨rfl, rfl⟩ := h2 _ _ _ _ g1 he (E.punct_elem hs) (E.punct_ok_elem hs h3.parses hok)
              (E.punct_ok_elem hs g2 hok')
            obtain ⟨rfl, rfl⟩ := ih.1 h3 g2 (List.append_cancel_left he) hok hok'
            exact ⟨rfl, rfl⟩

end punct

/-! ### All types -/

local macro "no_tuple" h:ident : tactic =>
  `(tactic| (rcases $h:ident with ⟨_, _, h, _⟩ | ⟨_, _, _, h, _⟩ | ⟨_, _, _, _, h, _⟩ | ⟨_, _, _, _, _, h, _⟩ <;> cases h))

theorem Amb.uniq (E : Amb S source r root G) {pos : Nat} {t : Ty m n} {c : List (Cell n)} {x : Tree n}
    (h : Parses S source pos t c x) : Uniq S source r root G pos t c x := by
  refine Parses.rec (S := S) (source := source)
    (motive_1 := fun pos t c x _ => Uniq S source r root G pos t c x)
    (motive_2 := fun pos ts cs l _ => UniqSeq S source r root G pos ts cs l)
    ?term ?struct ?enum ?tuple ?box ?optNone ?optSome ?existNone ?existSome ?quote ?parse ?plus ?starNone
    ?starSome ?loopNone ?loopSome ?split ?punct ?recover ?nil ?cons h
  case term =>
    intro pos i k t hm c' x' rest rest' h' he _ _ _
    cases h' with
    | term hm' =>
      simp only [toks, List.map_cons, List.map_nil, List.cons_append, List.nil_append, List.cons.injEq,
        Cell.ofToken] at he
      obtain ⟨rfl, -⟩ := he
      exact ⟨rfl, rfl⟩
    | tuple ht => no_tuple ht
  case struct =>
    intro pos k f fs cs l hk hp ih c' x' rest rest' h' he hw ho ho'
    have hrule : S.rule (.user k) = .seq ([] ++ ((f :: fs).map (·.1)).map Ty.pid) := by
      simp [Schema.rule, hk, Function.comp_def]
    have hm := E.mem hw.pid
    rw [show (Ty.user k : Ty m n).pid = PId.user k from rfl, hrule] at hm
    cases h' with
    | tuple ht => no_tuple ht
    | enum hk' => rw [hk] at hk'; cases hk'
    | struct hk' hp' =>
      rw [hk] at hk'
      cases hk'
      have e1 := addAll_tokens cs ((f :: fs).map (·.2)) (by rw [hp.lengths.1]; simp)
      have e2 := addAll_tokens _ ((f :: fs).map (·.2)) (by rw [hp'.lengths.1]; simp)
      rw [toks, toks, e1, e2] at he
      have hall : ∀ t ∈ (f :: fs).map (·.1), Within S r root t := by
        intro t ht
        refine ⟨.step hw.ty (by simp only [Schema.tyParts, hk]; exact ht), hw.pid.part ?_⟩
        rw [show (Ty.user k : Ty m n).pid = PId.user k from rfl, hrule]
        exact List.mem_map.2 ⟨t, ht, rfl⟩
      obtain ⟨rfl, rfl⟩ := E.useq (E.reachable hw.pid) hm ih hp' he hall ho ho'
      exact ⟨rfl, rfl⟩
  case enum =>
    intro pos k f fs i t sem c x hk hi hp ih c' x' rest rest' h' he hw ho ho'
    have hrule : S.rule (.user k) = .alt ((f :: fs).map fun f => f.1.pid) := by simp only [Schema.rule, hk]
    have hwv : ∀ {g}, g ∈ f :: fs → Within S r root g.1 := by
      intro g hg
      have hj : g.1.pid ∈ (f :: fs).map fun f => f.1.pid := List.mem_map.2 ⟨g, hg, rfl⟩
      refine ⟨.step hw.ty ?_, hw.pid.part ?_⟩
      · simp only [Schema.tyParts, hk]; exact List.mem_map.2 ⟨g, hg, rfl⟩
      · rw [show (Ty.user k : Ty m n).pid = PId.user k from rfl, hrule]; exact hj
    have hm := E.mem hw.pid
    rw [show (Ty.user k : Ty m n).pid = PId.user k from rfl, hrule] at hm
    cases h' with
    | tuple ht => no_tuple ht
    | struct hk' => rw [hk] at hk'; cases hk'
    | @enum _ _ _ _ j t' sem' c' x' hk' hj hp' =>
      rw [hk] at hk'
      cases hk'
      rw [toks, toks, add_tokens, add_tokens] at he
      have hij : i = j := E.enum_same hrule hw.pid (t := t) (t' := t') (by rw [List.getElem?_map, hi]; rfl)
        (by rw [List.getElem?_map, hj]; rfl) hp hp' (hwv (List.mem_of_getElem? hi))
        (hwv (List.mem_of_getElem? hj)) he ho ho'
      subst hij
      rw [hi] at hj
      cases hj
      have hmem : t.pid ∈ (f :: fs).map fun f => f.1.pid :=
        List.mem_map.2 ⟨_, List.mem_of_getElem? hi, rfl⟩
      obtain ⟨rfl, rfl⟩ := ih _ _ _ _ hp' he (hwv (List.mem_of_getElem? hi)) (ho.alt hm hmem) (ho'.alt hm hmem)
      exact ⟨rfl, rfl⟩
  case tuple =>
    intro pos t ts cs l ht hp ih c' x' rest rest' h' he hw ho ho'
    have hm := E.mem hw.pid
    rw [tuple_pid ht] at hm
    have hall : ∀ u ∈ ts, Within S r root u := by
      intro u hu
      refine ⟨.step hw.ty (by rw [isTuple_parts ht]; exact hu), hw.pid.part ?_⟩
      rw [tuple_pid ht]; exact List.mem_map.2 ⟨u, hu, rfl⟩
    cases h' with
    | tuple ht' hp' =>
      have : _ = ts := (isTuple_parts (S := S) ht').symm.trans (isTuple_parts ht)
      subst this
      obtain ⟨rfl, rfl⟩ := E.useq (pre := []) (E.reachable hw.pid) hm ih hp' he hall ho ho'
      exact ⟨rfl, rfl⟩
    | _ => no_tuple ht
  case box =>
    intro pos t c x _ ih c' x' rest rest' h' he hw ho ho'
    cases h' with
    | tuple ht => no_tuple ht
    | box h' => exact ih _ _ _ _ h' he ⟨.step hw.ty (by simp [Schema.tyParts]), hw.pid⟩ ho ho'
  case quote =>
    intro pos t c x _ ih c' x' rest rest' h' he hw ho ho'
    cases h' with
    | tuple ht => no_tuple ht
    | quote h' =>
      obtain ⟨rfl, rfl⟩ := ih _ _ _ _ h' he ⟨.step hw.ty (by simp [Schema.tyParts]), hw.pid⟩ ho ho'
      exact ⟨rfl, rfl⟩
  case parse =>
    intro pos t c x _ ih c' x' rest rest' h' he hw ho ho'
    cases h' with
    | tuple ht => no_tuple ht
    | parse h' =>
      obtain ⟨rfl, rfl⟩ := ih _ _ _ _ h' he ⟨.step hw.ty (by simp [Schema.tyParts]), hw.pid⟩ ho ho'
      exact ⟨rfl, rfl⟩
  case optNone =>
    intro pos t c' x' rest rest' h' he hw ho ho'
    have hw' : Within S r root t := ⟨.step hw.ty (by simp [Schema.tyParts]),
      hw.pid.part (by simp [Ty.pid, Ty.prod, PId.id, Schema.rule, Rule.parts])⟩
    cases h' with
    | tuple ht => no_tuple ht
    | optNone => exact ⟨rfl, rfl⟩
    | optSome h' => exact (E.opt_clash hw.pid rfl hw' h' (by simpa using he) ho).elim
  case existNone =>
    intro pos t c' x' rest rest' h' he hw ho ho'
    have hw' : Within S r root t := ⟨.step hw.ty (by simp [Schema.tyParts]),
      hw.pid.part (by simp [Ty.pid, Ty.prod, PId.id, Schema.rule, Rule.parts])⟩
    cases h' with
    | tuple ht => no_tuple ht
    | existNone => exact ⟨rfl, rfl⟩
    | existSome h' => exact (E.opt_clash hw.pid rfl hw' h' (by simpa using he) ho).elim
  case starNone =>
    intro pos t c' x' rest rest' h' he hw ho ho'
    have hw' : Within S r root (.plus t) := ⟨.step hw.ty (by simp [Schema.tyParts]),
      hw.pid.part (by simp [Ty.pid, Ty.prod, PId.id, Schema.rule, Rule.parts])⟩
    cases h' with
    | tuple ht => no_tuple ht
    | starNone => exact ⟨rfl, rfl⟩
    | starSome h' => exact (E.opt_clash hw.pid rfl hw' (.plus h') (by simpa using he) ho).elim
  case optSome =>
    intro pos t c x hp ih c' x' rest rest' h' he hw ho ho'
    have hw' : Within S r root t := ⟨.step hw.ty (by simp [Schema.tyParts]),
      hw.pid.part (by simp [Ty.pid, Ty.prod, PId.id, Schema.rule, Rule.parts])⟩
    cases h' with
    | tuple ht => no_tuple ht
    | optNone => exact (E.opt_clash hw.pid rfl hw' hp (by simpa using he.symm) ho').elim
    | optSome h' =>
      obtain ⟨rfl, rfl⟩ := ih _ _ _ _ h' he hw' (ho.alt (E.mem hw.pid) (by simp [Ty.pid]))
        (ho'.alt (E.mem hw.pid) (by simp [Ty.pid]))
      exact ⟨rfl, rfl⟩
  case existSome =>
    intro pos t c x hp ih c' x' rest rest' h' he hw ho ho'
    have hw' : Within S r root t := ⟨.step hw.ty (by simp [Schema.tyParts]),
      hw.pid.part (by simp [Ty.pid, Ty.prod, PId.id, Schema.rule, Rule.parts])⟩
    cases h' with
    | tuple ht => no_tuple ht
    | existNone => exact (E.opt_clash hw.pid rfl hw' hp (by simpa using he.symm) ho').elim
    | existSome h' =>
      obtain ⟨rfl, rfl⟩ := ih _ _ _ _ h' he hw' (ho.alt (E.mem hw.pid) (by simp [Ty.pid]))
        (ho'.alt (E.mem hw.pid) (by simp [Ty.pid]))
      exact ⟨rfl, rfl⟩
  case plus =>
    intro pos t k cs l hp ih c' x' rest rest' h' he hw ho ho'
    have hw' : Within S r root t := ⟨.step hw.ty (by simp [Schema.tyParts]),
      hw.pid.part (by simp [Ty.pid, Ty.prod, PId.id, Schema.rule, Rule.parts])⟩
    cases h' with
    | tuple ht => no_tuple ht
    | plus h' =>
      obtain ⟨rfl, rfl⟩ := E.reps hw.pid hw' ih h' he ho ho'
      exact ⟨rfl, rfl⟩
  case starSome =>
    intro pos t k cs l hp ih c' x' rest rest' h' he hw ho ho'
    have hwp : Within S r root (.plus t) := ⟨.step hw.ty (by simp [Schema.tyParts]),
      hw.pid.part (by simp [Ty.pid, Ty.prod, PId.id, Schema.rule, Rule.parts])⟩
    have hw' : Within S r root t := ⟨.step hwp.ty (by simp [Schema.tyParts]),
      hwp.pid.part (by simp [Ty.pid, Ty.prod, PId.id, Schema.rule, Rule.parts])⟩
    cases h' with
    | tuple ht => no_tuple ht
    | starNone => exact (E.opt_clash hw.pid rfl hwp (.plus hp) (by simpa using he.symm) ho').elim
    | starSome h' =>
      obtain ⟨rfl, rfl⟩ := E.reps hwp.pid hw' ih h' he (ho.alt (E.mem hw.pid) (by simp [PId.id]))
        (ho'.alt (E.mem hw.pid) (by simp [PId.id]))
      exact ⟨rfl, rfl⟩
  case loopNone => intro pos t c' x' rest rest' _ _ hw; exact absurd rfl (E.loops _ hw.ty t)
  case loopSome => intro pos t k cs l _ _ c' x' rest rest' _ _ hw; exact absurd rfl (E.loops _ hw.ty t)
  case split =>
    intro pos t p cs es ps hl hp ih c' x' rest rest' h' he hw ho ho'
    cases h' with
    | tuple ht => no_tuple ht
    | @split _ _ _ cs' es' ps' hl' hp' =>
      rw [hl, show ps.length + 1 + ps.length = ps.length + ps.length + 1 by omega] at ih
      rw [hl', show ps'.length + 1 + ps'.length = ps'.length + ps'.length + 1 by omega] at hp'
      have key : cs = cs' ∧ interleave es ps = interleave es' ps' := by
        generalize interleave es ps = xs at ih ⊢
        generalize interleave es' ps' = xs' at hp' ⊢
        cases ih with
        | cons h1 h2 h3 =>
          cases hp' with
          | cons g1 g2 =>
            rw [toks_flatten_cons, toks_flatten_cons] at he
            obtain ⟨rfl, rfl⟩ := h2 _ _ _ _ g1 he (E.split_elem hw) (E.spair hw h3.parses ho).2
              (E.spair hw g2 ho').2
            obtain ⟨rfl, rfl⟩ := E.pairs hw h3 g2 (List.append_cancel_left he) ho ho'
            exact ⟨rfl, rfl⟩
      obtain ⟨rfl, h2⟩ := key
      obtain ⟨rfl, rfl⟩ := interleave_inj h2 (.inr hl) (.inr hl')
      exact ⟨rfl, rfl⟩
  case punct =>
    intro pos t p cs es ps hne hl hp ih c' x' rest rest' h' he hw ho ho'
    cases h' with
    | tuple ht => no_tuple ht
    | @punct _ _ _ cs' es' ps' hne' hl' hp' =>
      obtain ⟨rfl, h2⟩ := (E.puncts hw _).2 ih hp' he ho ho'
      obtain ⟨rfl, rfl⟩ := interleave_inj h2 hl.symm hl'.symm
      exact ⟨rfl, rfl⟩
  case recover =>
    intro pos t u cs x y hp ih c' x' rest rest' h' he hw ho ho'
    cases h' with
    | tuple ht => no_tuple ht
    | recover h' =>
      have hall : ∀ v ∈ [t, u], Within S r root v := by
        intro v hv
        refine ⟨.step hw.ty (by simpa [Schema.tyParts] using hv), hw.pid.part ?_⟩
        simp only [List.mem_cons, List.not_mem_nil, or_false] at hv
        rcases hv with rfl | rfl <;> simp [Ty.pid, Ty.prod, PId.id, Schema.rule, Rule.parts]
      obtain ⟨rfl, h2⟩ := E.useq (pre := []) (ts := [t, u]) (E.reachable hw.pid) (E.mem hw.pid) ih h' he hall ho ho'
      cases h2; exact ⟨rfl, rfl⟩
  case nil => intro pos; exact .nil
  case cons => intro pos t ts c cs x xs h1 _ i1 i2; exact .cons h1 i1 i2

end Teleparse
