import Verif.Spec.Names
/-
Names of productions: reading a name gives the set of sequences that the production stands for.
-/
namespace Teleparse
variable {m n : Nat}

theorem terminal_eq (N : Idents m) (k : Nat) (t : Terminal n) : N.terminal k t = terminalName N k t := by
  obtain ⟨ty, lit⟩ := t
  cases lit <;> rfl

/-! ### Sets of sequences -/

theorem Lang.nothing_cat (A : Lang) : Lang.nothing.cat A = A := by
  funext w
  refine propext ⟨?_, fun h => ⟨[], w, rfl, rfl, h⟩⟩
  rintro ⟨u, v, rfl, rfl, h⟩
  exact h

theorem Lang.cat_nothing (A : Lang) : A.cat .nothing = A := by
  funext w
  refine propext ⟨?_, fun h => ⟨w, [], by simp, h, rfl⟩⟩
  rintro ⟨u, v, rfl, h, rfl⟩
  simpa using h

theorem Lang.cat_assoc (A B C : Lang) : (A.cat B).cat C = A.cat (B.cat C) := by
  funext w
  refine propext ⟨?_, ?_⟩
  · rintro ⟨_, v, rfl, ⟨u1, u2, rfl, h1, h2⟩, h3⟩
    exact ⟨u1, u2 ++ v, by simp, h1, u2, v, rfl, h2, h3⟩
  · rintro ⟨u, _, rfl, h1, v1, v2, rfl, h2, h3⟩
    exact ⟨u ++ v1, v2, by simp, ⟨u, v1, rfl, h1, h2⟩, h3⟩

theorem Lang.opt_plus (A : Lang) : A.plus.opt = Lang.Star A := by
  funext w
  refine propext ⟨?_, ?_⟩
  · rintro (rfl | ⟨u, v, rfl, h1, h2⟩)
    · exact .nil
    · exact .cons h1 h2
  · intro h
    cases h with
    | nil => exact .inl rfl
    | cons h1 h2 => exact .inr ⟨_, _, rfl, h1, h2⟩

theorem Lang.list_eq (A P : Lang) : A.list P = A.cat (P.cat (A.list P).opt).opt := by
  funext w
  refine propext ⟨?_, ?_⟩
  · rintro ⟨u, _, rfl, h1, v1, v2, rfl, h2, h3⟩
    refine ⟨u, _, rfl, h1, ?_⟩
    cases h2 with
    | nil =>
      rcases h3 with rfl | h3
      · exact .inl rfl
      · exact .inr ⟨v2, [], by simp, h3, .inl rfl⟩
    | cons h2 h2' =>
      obtain ⟨x, y, rfl, hx, hy⟩ := h2
      exact .inr ⟨x, y ++ (_ ++ v2), by simp, hx, .inr ⟨y, _, rfl, hy, _, v2, rfl, h2', h3⟩⟩
  · rintro ⟨u, v, rfl, h1, rfl | ⟨x, y, rfl, hx, rfl | ⟨a, _, rfl, ha, b, c, rfl, hb, hc⟩⟩⟩
    · exact ⟨u, [], rfl, h1, [], [], rfl, .nil, .inl rfl⟩
    · exact ⟨u, x ++ [], rfl, h1, [], x ++ [], rfl, .nil, .inr (by simpa using hx)⟩
    · exact ⟨u, _, rfl, h1, x ++ a ++ b, c, by simp, .cons ⟨x, a, rfl, hx, ha⟩ hb, hc⟩

/-- The sequences a production stands for, by its structure. -/
def PId.den (N : Idents m) : PId m n → Lang
  | .term k t => .single (terminalName N k t)
  | .eps => .nothing
  | .user k => .single (N.user k)
  | .opt p => (p.den N).opt
  | .plus p => (p.den N).plus
  | .punct a b => (a.den N).list (b.den N)
  | .box p => p.den N
  | .tup2 a b => (a.den N).cat (b.den N)
  | .tup3 a b c => (a.den N).cat ((b.den N).cat (c.den N))
  | .tup4 a b c d => (a.den N).cat ((b.den N).cat ((c.den N).cat (d.den N)))
  | .tup5 a b c d e => (a.den N).cat ((b.den N).cat ((c.den N).cat ((d.den N).cat (e.den N))))

theorem PId.den_id (N : Idents m) (p : PId m n) : p.id.den N = p.den N := by
  induction p with
  | box p ih => exact ih
  | _ => rfl

/-- Sequences of productions. -/
def denAll (N : Idents m) : List (PId m n) → Lang
  | [] => .nothing
  | p :: l => (p.den N).cat (denAll N l)

theorem denAll_append (N : Idents m) (a b : List (PId m n)) : denAll N (a ++ b) = (denAll N a).cat (denAll N b) := by
  induction a with
  | nil => exact (Lang.nothing_cat _).symm
  | cons p a ih => rw [List.cons_append, denAll, denAll, ih, Lang.cat_assoc]

theorem den_leaf (N : Idents m) {p : PId m n} {s : Str} (h : leafName N p = some s) : p.den N = .single s := by
  induction p with
  | term k t => cases h; rfl
  | user k => cases h; rfl
  | box p ih => exact ih h
  | _ => cases h

theorem den_eps (N : Idents m) (S : Schema m n) {p : PId m n} (hl : leafName N p = none) (h : S.rule p = .eps) :
    p.den N = .nothing := by
  induction p with
  | box p ih => exact ih hl h
  | term k t => cases hl
  | user k => cases hl
  | eps => rfl
  | _ => cases h

theorem den_alt (N : Idents m) (S : Schema m n) {p : PId m n} {l} (hl : leafName N p = none) (h : S.rule p = .alt l)
    (w : List Str) : p.den N w ↔ ∃ j ∈ l, j.den N w := by
  induction p with
  | box p ih => exact ih hl h
  | term k t => cases hl
  | user k => cases hl
  | opt p =>
    cases h
    simp only [List.mem_cons, List.not_mem_nil, or_false, exists_eq_or_imp, exists_eq_left, PId.den_id]
    exact or_comm
  | _ => cases h

theorem den_seq (N : Idents m) (S : Schema m n) {p : PId m n} {l} (hl : leafName N p = none) (h : S.rule p = .seq l) :
    p.den N = denAll N l := by
  induction p with
  | box p ih => exact ih hl h
  | term k t => cases hl
  | user k => cases hl
  | eps => cases h
  | opt p => cases h
  | plus p =>
    cases h
    simp only [denAll, PId.den_id, PId.den, Lang.cat_nothing, Lang.opt_plus]
    rfl
  | punct a b =>
    cases h
    simp only [denAll, PId.den_id, PId.den, Lang.cat_nothing]
    exact Lang.list_eq _ _
  | _ =>
    cases h
    simp only [denAll, PId.den_id, PId.den, Lang.cat_nothing]

theorem Stands.den {S : Schema m n} {N : Idents m} {l : List (PId m n)} {w} (h : Stands S N l w) :
    denAll N l w := by
  induction h with
  | nil => rfl
  | @name p l s w hl _ ih => exact ⟨[s], w, rfl, by rw [den_leaf N hl]; rfl, ih⟩
  | eps hl hr _ ih => rw [denAll, den_eps N S hl hr, Lang.nothing_cat]; exact ih
  | seq hl hr _ ih => rw [denAll, den_seq N S hl hr, ← denAll_append]; exact ih
  | alt hl hr hj _ ih =>
    obtain ⟨u, v, rfl, h1, h2⟩ := ih
    exact ⟨u, v, rfl, (den_alt N S hl hr u).2 ⟨_, hj, h1⟩, h2⟩

/-- Replace a part by a sequence it stands for. -/
def Fills (S : Schema m n) (N : Idents m) (p : PId m n) (u : List Str) : Prop :=
  ∀ l v, Stands S N l v → Stands S N (p :: l) (u ++ v)

theorem Fills.opt {S : Schema m n} {N : Idents m} {p : PId m n} (h : ∀ u, p.den N u → Fills S N p.id u) {u}
    (hu : (p.den N).opt u) : Fills S N (.opt p) u := by
  intro l v hv
  rcases hu with rfl | hu
  · exact .alt (j := .eps) rfl rfl (by simp) (.eps rfl rfl hv)
  · exact .alt (j := p.id) rfl rfl (by simp) (h u hu l v hv)

theorem Fills.star {S : Schema m n} {N : Idents m} {p : PId m n} (h : ∀ u, p.den N u → Fills S N p.id u) {u}
    (hu : Lang.Star (p.den N) u) : Fills S N (.opt (.plus p)) u := by
  induction hu with
  | nil => intro l v hv; exact .alt (j := .eps) rfl rfl (by simp) (.eps rfl rfl hv)
  | cons h1 _ ih =>
    intro l v hv
    refine .alt (j := .plus p) rfl rfl (by simp [PId.id]) (.seq rfl rfl ?_)
    rw [List.append_assoc]
    exact h _ h1 _ _ (ih _ _ hv)

theorem Fills.list {S : Schema m n} {N : Idents m} {p q : PId m n} (h : ∀ u, p.den N u → Fills S N p.id u)
    (hq : ∀ u, q.den N u → Fills S N q.id u) {u1 u2} (hu1 : Lang.Star ((q.den N).cat (p.den N)) u1)
    (hu2 : (q.den N).opt u2) : ∀ u, p.den N u → Fills S N (.punct p q) (u ++ (u1 ++ u2)) := by
  induction hu1 with
  | nil =>
    intro u hu l v hv
    refine .seq rfl rfl ?_
    rw [List.append_assoc]
    refine h u hu _ _ ?_
    simp only [List.nil_append]
    rcases hu2 with rfl | hu2
    · exact .alt (j := .eps) rfl rfl (by simp) (.eps rfl rfl hv)
    · exact .alt (j := .tup2 q (.opt (.punct p q))) rfl rfl (by simp [PId.id]) (.seq rfl rfl (hq _ hu2 _ _
        (.alt (j := .eps) rfl rfl (by simp [PId.id]) (.eps rfl rfl hv))))
  | @cons x y h1 _ ih =>
    intro u hu l v hv
    obtain ⟨a, b, rfl, ha, hb⟩ := h1
    refine .seq rfl rfl ?_
    rw [List.append_assoc]
    refine h u hu _ _ (.alt (j := .tup2 q (.opt (.punct p q))) rfl rfl (by simp [PId.id]) (.seq rfl rfl ?_))
    have := hq a ha _ _ (.alt (p := .opt (.punct p q)) (j := .punct p q) rfl rfl (by simp [PId.id]) (ih b hb l v hv))
    simpa [PId.id] using this

theorem fills (S : Schema m n) (N : Idents m) (p : PId m n) : ∀ u, p.den N u → Fills S N p.id u := by
  induction p with
  | term k t => rintro u rfl l v hv; exact .name rfl hv
  | user k => rintro u rfl l v hv; exact .name rfl hv
  | eps => rintro u rfl l v hv; exact .eps rfl rfl hv
  | box p ih => exact ih
  | opt p ih => exact fun u hu => .opt ih hu
  | plus p ih =>
    rintro _ ⟨u, v, rfl, h1, h2⟩ l w hw
    refine .seq rfl rfl ?_
    rw [List.append_assoc]
    exact ih u h1 _ _ (Fills.star ih h2 _ _ hw)
  | punct a b iha ihb =>
    rintro _ ⟨u, _, rfl, h1, v1, v2, rfl, h2, h3⟩
    exact Fills.list iha ihb h2 h3 u h1
  | tup2 a b iha ihb =>
    rintro _ ⟨u, v, rfl, h1, h2⟩ l w hw
    refine .seq rfl rfl ?_
    simp only [List.append_assoc]
    exact iha u h1 _ _ (ihb v h2 _ _ hw)
  | tup3 a b c iha ihb ihc =>
    rintro _ ⟨u, _, rfl, h1, u2, u3, rfl, h2, h3⟩ l w hw
    refine .seq rfl rfl ?_
    simp only [List.append_assoc]
    exact iha u h1 _ _ (ihb _ h2 _ _ (ihc _ h3 _ _ hw))
  | tup4 a b c d iha ihb ihc ihd =>
    rintro _ ⟨u, _, rfl, h1, u2, _, rfl, h2, u3, u4, rfl, h3, h4⟩ l w hw
    refine .seq rfl rfl ?_
    simp only [List.append_assoc]
    exact iha u h1 _ _ (ihb _ h2 _ _ (ihc _ h3 _ _ (ihd _ h4 _ _ hw)))
  | tup5 a b c d e iha ihb ihc ihd ihe =>
    rintro _ ⟨u, _, rfl, h1, u2, _, rfl, h2, u3, _, rfl, h3, u4, u5, rfl, h4, h5⟩ l w hw
    refine .seq rfl rfl ?_
    simp only [List.append_assoc]
    exact iha u h1 _ _ (ihb _ h2 _ _ (ihc _ h3 _ _ (ihd _ h4 _ _ (ihe _ h5 _ _ hw))))

/-- The rules and the structure agree. -/
theorem stands_iff (S : Schema m n) (N : Idents m) (p : PId m n) (w : List Str) :
    Stands S N [p.id] w ↔ p.den N w := by
  constructor
  · intro h
    have := h.den
    rwa [denAll, denAll, Lang.cat_nothing, PId.den_id] at this
  · intro h
    simpa using fills S N p w h [] [] .nil

/-! ### The form of names -/

/-- Ends with `)+` or `]+`. -/
def EndsPlus (s : Str) : Prop := ∃ a, s = a ++ [41, 43] ∨ s = a ++ [93, 43]

theorem EndsPlus.of_suffix {x s : Str} (h : EndsPlus s) : EndsPlus (x ++ s) := by
  obtain ⟨a, rfl | rfl⟩ := h
  · exact ⟨x ++ a, .inl (by simp)⟩
  · exact ⟨x ++ a, .inr (by simp)⟩

theorem endsPlus_cat {y z : Str} (h : EndsPlus (y ++ 32 :: z)) : EndsPlus z := by
  have key : ∀ c a : Nat, ∀ l : Str, y ++ 32 :: z = l ++ [a, c] → c ≠ 32 → a ≠ 32 → ∃ l', z = l' ++ [a, c] := by
    intro c a l h hc ha
    have h' := congrArg List.reverse h
    simp only [List.reverse_append, List.reverse_cons, List.reverse_nil, List.nil_append, List.cons_append,
      List.append_assoc] at h'
    generalize hz : z.reverse = zr at h'
    match zr, h' with
    | [], h' => simp at h'; exact absurd h'.1.symm hc
    | [x], h' => simp at h'; exact absurd h'.2.1.symm ha
    | x :: x' :: zr, h' =>
      simp only [List.cons_append, List.cons.injEq] at h'
      refine ⟨zr.reverse, ?_⟩
      have := congrArg List.reverse hz
      simp only [List.reverse_reverse, List.reverse_cons, List.append_assoc, List.cons_append, List.nil_append] at this
      rw [this, h'.1, h'.2.1]
  obtain ⟨l, h | h⟩ := h
  · obtain ⟨l', h⟩ := key 43 41 l h (by decide) (by decide); exact ⟨l', .inl h⟩
  · obtain ⟨l', h⟩ := key 43 93 l h (by decide) (by decide); exact ⟨l', .inr h⟩

theorem stripSuffix_append (x suf : Str) : stripSuffix suf (x ++ suf) = some x := by
  unfold stripSuffix
  rw [if_pos]
  · simp
  · simp [List.isSuffixOf_iff_suffix]

theorem stripSuffix_none {suf s : Str} (h : ∀ a, s ≠ a ++ suf) : stripSuffix suf s = none := by
  unfold stripSuffix
  rw [if_neg]
  rw [List.isSuffixOf_iff_suffix]
  rintro ⟨a, ha⟩
  exact h a ha.symm

theorem optName_other {s : Str} (h : s.head? ≠ some 40 ∨ ¬ EndsPlus s) : optName s = 40 :: (s ++ [41, 63]) := by
  unfold optName
  simp only
  split
  · rename_i rest
    have hne : ¬ EndsPlus (40 :: rest) := by
      rcases h with h | h
      · exact absurd rfl h
      · exact h
    rw [stripSuffix_none (suf := ascii ")+"), stripSuffix_none (suf := ascii "]+")]
    · rfl
    · rintro a rfl; exact hne ⟨40 :: a, .inr rfl⟩
    · rintro a rfl; exact hne ⟨40 :: a, .inl rfl⟩
  · rfl

theorem optName_plus (x : Str) : optName (40 :: (x ++ [41, 43])) = 40 :: (x ++ [41, 42]) := by
  unfold optName
  simp only
  rw [show stripSuffix (ascii ")+") (x ++ [41, 43]) = some x from stripSuffix_append x [41, 43]]
  rfl

theorem optName_list (x : Str) : optName (40 :: (x ++ [93, 43])) = 40 :: (x ++ [93, 42]) := by
  unfold optName
  simp only
  rw [stripSuffix_none (suf := ascii ")+"),
    show stripSuffix (ascii "]+") (x ++ [93, 43]) = some x from stripSuffix_append x [93, 43]]
  · rfl
  · intro a h
    have := congrArg List.reverse h
    simp [ascii] at this

/-- An optional name ends with `?` or `*`. -/
theorem optName_end (s : Str) : ∃ a, optName s = a ++ [63] ∨ optName s = a ++ [42] := by
  unfold optName
  simp only
  split
  · split
    · rename_i x _
      exact ⟨40 :: x ++ [41], .inr (by simp [ascii])⟩
    · split
      · rename_i x _
        exact ⟨40 :: x ++ [93], .inr (by simp [ascii])⟩
      · rename_i rest _ _ _ _
        exact ⟨40 :: 40 :: rest ++ [41], .inl (by simp [ascii])⟩
  · exact ⟨40 :: s ++ [41], .inl (by simp [ascii])⟩

theorem not_endsPlus_of_last {s : Str} {c : Nat} (hc : c ≠ 43) : ¬ EndsPlus (s ++ [c]) := by
  rintro ⟨a, h | h⟩ <;>
  · have := congrArg List.getLast? h
    simp at this
    exact hc this

theorem PlainName.head {s : Str} (h : PlainName s) : s.head? ≠ some 40 := by
  cases s with
  | nil => simp
  | cons c s => simpa using (h.2 c (by simp)).2.1

theorem PlainName.ends {s : Str} (h : PlainName s) : ¬ EndsPlus s := by
  rintro ⟨a, rfl | rfl⟩
  · exact (h.2 41 (by simp)).2.2.1 rfl
  · exact (h.2 93 (by simp)).2.2.2.2 rfl

theorem debug_ne_nil (N : Idents m) (p : PId m n) (hp : p.Plain N) : p.debug N ≠ [] := by
  induction p with
  | term k t => rw [PId.debug, terminal_eq]; exact hp.1
  | user k => exact hp.1
  | box p ih => exact ih hp
  | opt p _ =>
    obtain ⟨a, h | h⟩ := optName_end (p.debug N) <;> simp [PId.debug, h]
  | _ => simp [PId.debug, ascii]

theorem debug_head (N : Idents m) (p : PId m n) (hp : p.Plain N) (h : p.opens = false) :
    (p.debug N).head? ≠ some 40 := by
  have cat : ∀ (a : PId m n) (s : Str), a.Plain N → (a.debug N).head? ≠ some 40 →
      (a.debug N ++ s).head? ≠ some 40 := by
    intro a s ha h
    have := debug_ne_nil N a ha
    cases hd : a.debug N with
    | nil => exact absurd hd this
    | cons c l => rw [hd] at h; simpa using h
  induction p with
  | term k t => rw [PId.debug, terminal_eq]; exact hp.head
  | user k => exact hp.head
  | box p ih => exact ih hp h
  | eps => cases h
  | opt p _ => cases h
  | plus p _ => cases h
  | punct a b _ _ => cases h
  | tup2 a b iha => simp only [PId.debug, List.append_assoc]; exact cat a _ hp.1 (iha hp.1 h)
  | tup3 a b c iha => simp only [PId.debug, List.append_assoc]; exact cat a _ hp.1 (iha hp.1 h)
  | tup4 a b c d iha => simp only [PId.debug, List.append_assoc]; exact cat a _ hp.1 (iha hp.1 h)
  | tup5 a b c d e iha => simp only [PId.debug, List.append_assoc]; exact cat a _ hp.1 (iha hp.1 h)

theorem debug_ends (N : Idents m) (p : PId m n) (hp : p.Plain N) (h : p.shuts = false) :
    ¬ EndsPlus (p.debug N) := by
  induction p with
  | term k t => rw [PId.debug, terminal_eq]; exact hp.ends
  | user k => exact hp.ends
  | box p ih => exact ih hp h
  | eps => exact not_endsPlus_of_last (s := [40]) (c := 41) (by decide)
  | opt p _ =>
    simp only [PId.debug]
    obtain ⟨a, h | h⟩ := optName_end (p.debug N) <;> rw [h] <;> exact not_endsPlus_of_last (by decide)
  | plus p _ => cases h
  | punct a b _ _ => cases h
  | tup2 a b _ ih => exact fun he => ih hp.2 h (endsPlus_cat (by simpa [PId.debug, ascii] using he))
  | tup3 a b c _ _ ih =>
    exact fun he => ih hp.2.2 h (endsPlus_cat (y := a.debug N ++ 32 :: b.debug N) (by simpa [PId.debug, ascii] using he))
  | tup4 a b c d _ _ _ ih =>
    exact fun he => ih hp.2.2.2 h (endsPlus_cat (y := a.debug N ++ 32 :: (b.debug N ++ 32 :: c.debug N))
      (by simpa [PId.debug, ascii] using he))
  | tup5 a b c d e _ _ _ _ ih =>
    exact fun he => ih hp.2.2.2.2 h (endsPlus_cat
      (y := a.debug N ++ 32 :: (b.debug N ++ 32 :: (c.debug N ++ 32 :: d.debug N)))
      (by simpa [PId.debug, ascii] using he))

/-! ### Reading -/

theorem run_nil (r : Reader) : r.run [] = some r := rfl

theorem run_cons (r : Reader) (c : Nat) (s : Str) : r.run (c :: s) = (r.step c).bind fun r' => r'.run s := rfl

theorem run_append (r : Reader) (a b : Str) : r.run (a ++ b) = (r.run a).bind fun r' => r'.run b := by
  induction a generalizing r with
  | nil => rfl
  | cons c a ih =>
    rw [List.cons_append, run_cons, run_cons]
    cases r.step c with
    | none => rfl
    | some r' => exact ih r'

/-- Reading `s` reads one more `A`. -/
def Adds (s : Str) (A : Lang) : Prop :=
  ∀ st cur, ∃ r, Reader.run ⟨st, cur, .nothing⟩ s = some r ∧ r.stack = st ∧ r.done = some (cur.cat A)

theorem run_word {s : Str} (h : ∀ c ∈ s, c ≠ 32 ∧ c ≠ 40 ∧ c ≠ 41 ∧ c ≠ 91 ∧ c ≠ 93) (st : List Open) (cur : Lang)
    (w : Str) : Reader.run ⟨st, cur, .word w⟩ s = some ⟨st, cur, .word (w ++ s)⟩ := by
  induction s generalizing w with
  | nil => simp [run_nil]
  | cons c s ih =>
    obtain ⟨h1, h2, h3, h4, h5⟩ := h c (by simp)
    have : Reader.step ⟨st, cur, .word w⟩ c = some ⟨st, cur, .word (w ++ [c])⟩ := by
      simp only [Reader.step, h1, h2, h3, h4, h5, if_false]
      split
      · rfl
      · split
        · rfl
        · split <;> rfl
    rw [run_cons, this]
    have := ih (fun c hc => h c (by simp [hc])) (w ++ [c])
    simpa using this

theorem adds_word {s : Str} (h : PlainName s) : Adds s (.single s) := by
  intro st cur
  obtain ⟨h0, h⟩ := h
  cases s with
  | nil => exact absurd rfl h0
  | cons c s =>
    obtain ⟨h1, h2, h3, h4, h5⟩ := h c (by simp)
    refine ⟨⟨st, cur, .word (c :: s)⟩, ?_, rfl, rfl⟩
    have : Reader.step ⟨st, cur, .nothing⟩ c = some ⟨st, cur, .word [c]⟩ := by
      simp only [Reader.step, h1, h2, h3, h4, h5, if_false]
      split
      · rfl
      · split
        · rfl
        · split <;> rfl
    rw [run_cons, this]
    exact run_word (fun c hc => h c (by simp [hc])) st cur [c]

theorem adds_eps : Adds [40, 41] .nothing := by
  intro st cur
  exact ⟨⟨st, cur, .group .nothing⟩, rfl, rfl, rfl⟩

theorem adds_cat {s t : Str} {A B : Lang} (h1 : Adds s A) (h2 : Adds t B) : Adds (s ++ 32 :: t) (A.cat B) := by
  intro st cur
  obtain ⟨r, h3, h4, h5⟩ := h1 st cur
  obtain ⟨r', h6, h7, h8⟩ := h2 st (cur.cat A)
  refine ⟨r', ?_, h7, by rw [h8, Lang.cat_assoc]⟩
  rw [run_append, h3, Option.bind_some, run_cons]
  have : r.step 32 = some ⟨st, cur.cat A, .nothing⟩ := by simp [Reader.step, h5, h4]
  rw [this, Option.bind_some, h6]

/-- Blanks before and after make no difference. -/
theorem adds_blank {s : Str} {A : Lang} (h : Adds s A) : Adds (32 :: (s ++ [32])) A := by
  intro st cur
  obtain ⟨r, h3, h4, h5⟩ := h st cur
  refine ⟨⟨st, cur.cat A, .nothing⟩, ?_, rfl, rfl⟩
  rw [run_cons]
  have h6 : Reader.step ⟨st, cur, .nothing⟩ 32 = some ⟨st, cur, .nothing⟩ := rfl
  rw [h6, Option.bind_some, run_append, h3, Option.bind_some, run_cons]
  have : r.step 32 = some ⟨st, cur.cat A, .nothing⟩ := by simp [Reader.step, h5, h4]
  rw [this]
  rfl

theorem run_paren {s : Str} {A : Lang} (h : Adds s A) (st cur) (t : Str) :
    Reader.run ⟨st, cur, .nothing⟩ (40 :: (s ++ 41 :: t)) = Reader.run ⟨st, cur, .group A⟩ t := by
  obtain ⟨r, h3, h4, h5⟩ := h (.paren cur :: st) .nothing
  rw [run_cons]
  have h6 : Reader.step ⟨st, cur, .nothing⟩ 40 = some ⟨.paren cur :: st, .nothing, .nothing⟩ := rfl
  rw [h6, Option.bind_some, run_append, h3, Option.bind_some, run_cons]
  have : r.step 41 = some ⟨st, cur, .group A⟩ := by simp [Reader.step, h5, h4, Lang.nothing_cat]
  rw [this]
  rfl

theorem run_bracket {s : Str} {A P : Lang} (h : Adds s P) (st cur) (t : Str) :
    Reader.run ⟨st, cur, .group A⟩ (91 :: (s ++ 93 :: t)) = Reader.run ⟨st, cur, .list A P⟩ t := by
  obtain ⟨r, h3, h4, h5⟩ := h (.bracket cur A :: st) .nothing
  rw [run_cons]
  have h6 : Reader.step ⟨st, cur, .group A⟩ 91 = some ⟨.bracket cur A :: st, .nothing, .nothing⟩ := rfl
  rw [h6, Option.bind_some, run_append, h3, Option.bind_some, run_cons]
  have : r.step 93 = some ⟨st, cur, .list A P⟩ := by simp [Reader.step, h5, h4, Lang.nothing_cat]
  rw [this]
  rfl

theorem adds_opt {s : Str} {A : Lang} (h : Adds s A) : Adds (40 :: (s ++ [41, 63])) A.opt :=
  fun st cur => ⟨⟨st, cur.cat A.opt, .nothing⟩, run_paren h st cur [63], rfl, rfl⟩

theorem adds_plus {s : Str} {A : Lang} (h : Adds s A) : Adds (40 :: (s ++ [41, 43])) A.plus :=
  fun st cur => ⟨⟨st, cur.cat A.plus, .nothing⟩, run_paren h st cur [43], rfl, rfl⟩

theorem adds_star {s : Str} {A : Lang} (h : Adds s A) : Adds (40 :: (s ++ [41, 42])) (.Star A) :=
  fun st cur => ⟨⟨st, cur.cat (.Star A), .nothing⟩, run_paren h st cur [42], rfl, rfl⟩

theorem adds_list {s t : Str} {A P : Lang} (h : Adds s A) (h2 : Adds t P) :
    Adds (40 :: (s ++ 41 :: 91 :: (t ++ [93, 43]))) (A.list P) :=
  fun st cur => ⟨⟨st, cur.cat (A.list P), .nothing⟩,
    (run_paren h st cur _).trans (run_bracket h2 st cur [43]), rfl, rfl⟩

theorem adds_list_opt {s t : Str} {A P : Lang} (h : Adds s A) (h2 : Adds t P) :
    Adds (40 :: (s ++ 41 :: 91 :: (t ++ [93, 42]))) (A.list P).opt :=
  fun st cur => ⟨⟨st, cur.cat (A.list P).opt, .nothing⟩,
    (run_paren h st cur _).trans (run_bracket h2 st cur [42]), rfl, rfl⟩

/-- A name and its optional form are read as they should. -/
theorem adds_debug (N : Idents m) (p : PId m n) (hp : p.Plain N) (hc : p.Clear) :
    Adds (p.debug N) (p.den N) ∧
    (¬ (p.isTuple = true ∧ p.opens = true ∧ p.shuts = true) → Adds (optName (p.debug N)) (p.den N).opt) := by
  -- where the optional form is the usual one
  have usual : ∀ p : PId m n, p.Plain N → (p.opens = false ∨ p.shuts = false) → Adds (p.debug N) (p.den N) →
      Adds (optName (p.debug N)) (p.den N).opt := by
    intro p hp h ha
    rw [optName_other (h.imp (debug_head N p hp) (debug_ends N p hp))]
    exact adds_opt ha
  have tuple : ∀ p : PId m n, p.Plain N → p.isTuple = true → Adds (p.debug N) (p.den N) →
      Adds (p.debug N) (p.den N) ∧
      (¬ (p.isTuple = true ∧ p.opens = true ∧ p.shuts = true) → Adds (optName (p.debug N)) (p.den N).opt) := by
    intro p hp ht ha
    refine ⟨ha, fun hn => usual p hp ?_ ha⟩
    cases h1 : p.opens with
    | false => exact .inl rfl
    | true =>
      cases h2 : p.shuts with
      | false => exact .inr rfl
      | true => exact absurd ⟨ht, h1, h2⟩ hn
  induction p with
  | term k t =>
    have h : Adds ((PId.term k t).debug N) ((PId.term k t).den N) := by
      rw [PId.debug, terminal_eq]; exact adds_word hp
    exact ⟨h, fun _ => usual _ hp (.inl rfl) h⟩
  | user k => exact ⟨adds_word hp, fun _ => usual _ hp (.inl rfl) (adds_word hp)⟩
  | eps => exact ⟨adds_eps, fun _ => usual _ hp (.inr rfl) adds_eps⟩
  | box p ih => exact ih hp hc
  | opt p ih =>
    have h := (ih hp hc.1).2 hc.2
    exact ⟨h, fun _ => usual _ hp (.inr rfl) h⟩
  | plus p ih =>
    have h := adds_blank (ih hp hc).1
    have he : (PId.plus p).debug N = 40 :: ((32 :: (p.debug N ++ [32])) ++ [41, 43]) := by
      simp [PId.debug, ascii]
    rw [he, optName_plus]
    refine ⟨adds_plus h, fun _ => ?_⟩
    rw [PId.den, Lang.opt_plus]
    exact adds_star h
  | punct a b iha ihb =>
    have h1 := adds_blank (iha hp.1 hc.1).1
    have h2 := (ihb hp.2 hc.2).1
    have he : (PId.punct a b).debug N =
        40 :: ((32 :: (a.debug N ++ [32])) ++ 41 :: 91 :: b.debug N ++ [93, 43]) := by
      simp [PId.debug, ascii]
    rw [he, optName_list]
    have e : ∀ z : Str, 40 :: ((32 :: (a.debug N ++ [32])) ++ 41 :: 91 :: b.debug N ++ z) =
        40 :: ((32 :: (a.debug N ++ [32])) ++ 41 :: 91 :: (b.debug N ++ z)) := fun z => by simp
    rw [e, e]
    exact ⟨adds_list h1 h2, fun _ => adds_list_opt h1 h2⟩
  | tup2 a b iha ihb =>
    refine tuple _ hp rfl ?_
    have := adds_cat (iha hp.1 hc.1).1 (ihb hp.2 hc.2).1
    simpa [PId.debug, ascii, PId.den] using this
  | tup3 a b c iha ihb ihc =>
    refine tuple _ hp rfl ?_
    have := adds_cat (iha hp.1 hc.1).1 (adds_cat (ihb hp.2.1 hc.2.1).1 (ihc hp.2.2 hc.2.2).1)
    simpa [PId.debug, ascii, PId.den] using this
  | tup4 a b c d iha ihb ihc ihd =>
    refine tuple _ hp rfl ?_
    have := adds_cat (iha hp.1 hc.1).1 (adds_cat (ihb hp.2.1 hc.2.1).1
      (adds_cat (ihc hp.2.2.1 hc.2.2.1).1 (ihd hp.2.2.2 hc.2.2.2).1))
    simpa [PId.debug, ascii, PId.den] using this
  | tup5 a b c d e iha ihb ihc ihd ihe =>
    refine tuple _ hp rfl ?_
    have := adds_cat (iha hp.1 hc.1).1 (adds_cat (ihb hp.2.1 hc.2.1).1
      (adds_cat (ihc hp.2.2.1 hc.2.2.1).1 (adds_cat (ihd hp.2.2.2.1 hc.2.2.2.1).1 (ihe hp.2.2.2.2 hc.2.2.2.2).1)))
    simpa [PId.debug, ascii, PId.den] using this

theorem read_debug (N : Idents m) (p : PId m n) (hp : p.Plain N) (hc : p.Clear) :
    readName (p.debug N) = some (p.den N) := by
  obtain ⟨r, h1, h2, h3⟩ := (adds_debug N p hp hc).1 [] .nothing
  unfold readName
  simp only [h1, h2, List.isEmpty_nil, if_true, h3, Lang.nothing_cat]

end Teleparse
