import Verif.Proof.Alarm
import Verif.Props.Completeness
import Verif.Props.Lookahead
/-
Property C69: no false alarms.
-/
namespace Teleparse
variable {m n : Nat}

/-! ## C69: no error in what is the beginning of a correct input -/

/-- Where the first of the tokens begins, or the end of the source. -/
def beginOf (source : Str) (l : List (Token n)) : Nat := (l.head?.map (·.span.lo)).getD source.length

theorem suffixPos_eq (source : Str) (l : List (Token n)) : suffixPos source l = beginOf source l := by
  unfold suffixPos beginOf View.cur
  cases l <;> rfl

theorem lock_of (ext : Fin n → Bool) (common q1 q2 : Str) (items1 items2 : List (Item n))
    (hw1 : ItemsWF (common ++ q1) items1) (hw2 : ItemsWF (common ++ q2) items2) (p1 p2 : Parser n)
    (h1 : Reached ext (common ++ q1) items1 p1) (h2 : Reached ext (common ++ q2) items2 p2)
    (u l1 l2 : List (Token n)) (hu : u ≠ []) (ha : ∀ a ∈ u, a.span.hi ≤ common.length)
    (htok : p1.info.tokens = p2.info.tokens) (hs1 : (p1.view ext).rest = u ++ l1)
    (hs2 : (p2.view ext).rest = u ++ l2) :
    Lock (fun y => Edge (common ++ q1) y ∧ Edge (common ++ q2) y ∧ y ≤ common.length) (common ++ q1)
      (common ++ q2) l1 l2 (p1.view ext) (p2.view ext) := by
  have hin1 := (h1.inSource hw1).good
  have hin2 := (h2.inSource hw2).good
  have hsort := (h1.ready hw1).sorted.tokens
  have hpos : ∀ x ∈ (p1.view ext).cells.map (·.token) ++ (p1.view ext).rest, x.span.lo < x.span.hi := hsort.1
  refine ⟨h1.ready hw1, p1.info.tokens, u, hu, ?_, ?_, ⟨Edge.zero _, Edge.zero _, Nat.zero_le _⟩, ?_, ?_⟩
  · have hs := (h1.ready hw1).inSource.src
    have hc : (p1.view ext).cells = p1.info.tokens := rfl
    rw [← hs1, ← hs, ← hc]
  · have hs := (h2.ready hw2).inSource.src
    have hc : (p2.view ext).cells = p2.info.tokens := rfl
    rw [← hs2, ← hs, htok, ← hc]
  · intro x hx
    obtain ⟨a, u', rfl⟩ : ∃ a u', u = a :: u' := by
      cases u with
      | nil => exact absurd rfl hu
      | cons a u => exact ⟨a, u, rfl⟩
    have hle : x.span.hi ≤ a.span.lo :=
      (List.pairwise_append.1 hsort.2).2.2 x hx a (by rw [hs1]; simp)
    have hap := hpos a (by rw [hs1]; simp)
    have hxp := hpos x (List.mem_append_left _ hx)
    have hac := ha a (by simp)
    have g1 := hin1.cells x hx
    have g2 := hin2.cells x (by
      have hc : (p2.view ext).cells = p2.info.tokens := rfl
      rw [hc, ← htok]; exact hx)
    exact ⟨⟨g1.1, g2.1, by omega⟩, g1.2, g2.2, by omega⟩
  · intro x hx
    have hxp := hpos x (List.mem_append_right _ (by rw [hs1]; exact List.mem_append_left _ hx))
    have hxc := ha x hx
    have g1 := hin1.rest x (by rw [hs1]; exact List.mem_append_left _ hx)
    have g2 := hin2.rest x (by rw [hs2]; exact List.mem_append_left _ hx)
    exact ⟨⟨g1.1, g2.1, by omega⟩, g1.2, g2.2, hxc⟩

theorem alarm_fuel (ext : Fin n → Bool) (S : Schema m n) (md : Metadata (PId m n) n) (t : Ty m n)
    (common q1 q2 : Str) (items1 items2 : List (Item n)) (hw1 : ItemsWF (common ++ q1) items1)
    (hw2 : ItemsWF (common ++ q2) items2) (p1 p2 : Parser n)
    (h1 : Reached ext (common ++ q1) items1 p1) (h2 : Reached ext (common ++ q2) items2 p2)
    (u l1 l2 : List (Token n)) (ha : ∀ a ∈ u, a.span.hi ≤ common.length)
    (htok : p1.info.tokens = p2.info.tokens) (hs1 : (p1.view ext).rest = u ++ l1)
    (hs2 : (p2.view ext).rest = u ++ l2) {fuel : Nat} {r1 r2 : Res n (Tree n)} {p1' p2' : Parser n}
    (hy1 : produce (Parser.ops ext) S md fuel t p1 = .ok r1 p1')
    (hy2 : produce (Parser.ops ext) S md fuel t p2 = .ok r2 p2') (hc : r2.errs = []) :
    ∀ e ∈ r1.errs, beginOf (common ++ q1) l1 ≤ e.span.lo := by
  have hv1 := produce_view ext S md fuel t p1
  rw [hy1] at hv1
  have hv1 : produce View.ops S md fuel t (p1.view ext) = .ok r1 (p1'.view ext) := hv1
  have hv2 := produce_view ext S md fuel t p2
  rw [hy2] at hv2
  have hv2 : produce View.ops S md fuel t (p2.view ext) = .ok r2 (p2'.view ext) := hv2
  rw [← suffixPos_eq]
  by_cases hu : u = []
  · subst hu
    have hready := h1.ready hw1
    have hle : suffixPos (common ++ q1) l1 ≤ (p1.view ext).cur.lo := by
      unfold suffixPos View.cur
      rw [hs1, hready.inSource.src, List.nil_append]
      exact Nat.le_refl _
    exact (run_of_produce S md fuel t _ _ _ hv1).late ⟨hready, hle⟩
  · exact (produce_alarm (sameOn_common common q1 q2) S md fuel t _ _ _ _ _ _
      (lock_of ext common q1 q2 items1 items2 hw1 hw2 p1 p2 h1 h2 u l1 l2 hu ha htok hs1 hs2) hv1 hv2 hc).1

/-- Let two parsers have the same consumed tokens, with streams `u ++ l1` and `u ++ l2`, in sources that agree up
to the end of `u`. If the second one produces a type without errors, every error of the first one begins at the
first token of `l1` or later (or is at the end of the source). -/
theorem C69_produce (ext : Fin n → Bool) (S : Schema m n) (md : Metadata (PId m n) n) (t : Ty m n)
    (common q1 q2 : Str) (items1 items2 : List (Item n)) (hw1 : ItemsWF (common ++ q1) items1)
    (hw2 : ItemsWF (common ++ q2) items2) (p1 p2 p1' p2' : Parser n)
    (h1 : Reached ext (common ++ q1) items1 p1) (h2 : Reached ext (common ++ q2) items2 p2)
    (u l1 l2 : List (Token n)) (ha : ∀ a ∈ u, a.span.hi ≤ common.length)
    (htok : p1.info.tokens = p2.info.tokens) (hs1 : (p1.view ext).rest = u ++ l1)
    (hs2 : (p2.view ext).rest = u ++ l2) (r1 r2 : Res n (Tree n)) (hy1 : Yields ext S md t p1 r1 p1')
    (hy2 : Yields ext S md t p2 r2 p2') (hc : r2.errs = []) :
    ∀ e ∈ r1.errs, beginOf (common ++ q1) l1 ≤ e.span.lo := by
  obtain ⟨f1, hy1⟩ := hy1
  obtain ⟨f2, hy2⟩ := hy2
  exact alarm_fuel ext S md t common q1 q2 items1 items2 hw1 hw2 p1 p2 h1 h2 u l1 l2 ha htok hs1 hs2
    (produce_more hy1 (Nat.le_max_left f1 f2)) (produce_more hy2 (Nat.le_max_right f1 f2)) hc

/-- `Root::parse`: if some input that begins with the same tokens (`pre`) is parsed without syntax errors, no
syntax error is reported before the first token after `pre`. In other words: if a syntax error is reported at a
token, then no input with the same tokens up to and including this token is parsed without syntax errors. -/
theorem C69_parse (ext : Fin n → Bool) (S : Schema m n) (fuel fuel' : Nat) (root : Ty m n)
    (common q1 q2 : Str) (pre post1 post2 : List (Item n)) (hw1 : ItemsWF (common ++ q1) (pre ++ post1))
    (hw2 : ItemsWF (common ++ q2) (pre ++ post2)) (ha : ∀ a ∈ streamOf ext pre, a.span.hi ≤ common.length)
    (x1 x2 : Option (Tree n)) (p1 p2 : Parser n)
    (h1 : rootParse ext S fuel root (common ++ q1) (pre ++ post1) = .ok (.ok x1) p1)
    (h2 : rootParse ext S fuel' root (common ++ q2) (pre ++ post2) = .ok (.ok x2) p2)
    (hc : ∀ e ∈ p2.info.errors, e.kind = .unexpectedCharacters) :
    ∀ e ∈ p1.info.errors, e.kind ≠ .unexpectedCharacters →
      beginOf (common ++ q1) (streamOf ext post1) ≤ e.span.lo := by
  obtain ⟨md, r, q, chars, hmd, hq, -, -, herr, hch, -⟩ := C48_parse ext S fuel root _ _ _ h1
  obtain ⟨md', r', q', chars', hmd', hq', -, -, herr', hch', -⟩ := C48_parse ext S fuel' root _ _ _ h2
  have e1 := metadata_more hmd (Nat.le_max_left fuel fuel')
  have e2 := metadata_more hmd' (Nat.le_max_right fuel fuel')
  rw [e1] at e2
  cases e2
  have hr' : r'.errs = [] := by
    rw [List.eq_nil_iff_forall_not_mem]
    intro e he
    refine produce_kinds hq' e he (hc e ?_)
    rw [herr']
    exact List.mem_append_right _ he
  intro e he hk
  rw [herr] at he
  rcases List.mem_append.1 he with he | he
  · exact absurd (hch e (by simpa [Parser.new] using he)) hk
  · refine alarm_fuel ext S md root common q1 q2 _ _ hw1 hw2 _ _ .new .new (streamOf ext pre)
      (streamOf ext post1) (streamOf ext post2) ha rfl ?_ ?_
      (produce_more hq (Nat.le_max_left fuel fuel')) (produce_more hq' (Nat.le_max_right fuel fuel')) hr' e he
    · show streamOf ext (pre ++ post1) = _
      rw [streamOf_append]
    · show streamOf ext (pre ++ post2) = _
      rw [streamOf_append]

/-- The same, with sentences of the grammar instead of inputs that are parsed without errors: if the tokens up
to and including the one with the error were the beginning of a sentence, there would be no error. Missing for the
full statement: the grammars excluded from `C35_parse_partial`. -/
theorem C69_sentence_partial (ext : Fin n → Bool) (S : Schema m n) (fuel fuel' : Nat) (root : Ty m n)
    (md : Metadata (PId m n) n) (G : Grammar (PId m n) n) (hmd : S.metadata fuel root = some (.ok md))
    (hG : S.IsGrammar root G) (hsafe : SkipSafe G)
    (hpunct : ∀ t p, Reach S.tyParts root (.punct t p) → ∀ a tok, Beyond G a tok →
      ¬ EndsWith G a (Ty.punct t p).pid)
    (henum : ∀ k v vs, S k = .enum v vs → Reachable G root.pid (.user k) → Nullable G (.user k) →
      ∀ tok, ¬ FollowOf G root.pid (.user k) (some tok))
    (hsep : ∀ t p, Reach S.tyParts root (.split t p) → ¬ Nullable G p.pid) (hl : LoopTail S root)
    (common q1 q2 : Str) (pre post1 post2 : List (Item n)) (hw1 : ItemsWF (common ++ q1) (pre ++ post1))
    (hw2 : ItemsWF (common ++ q2) (pre ++ post2)) (ha : ∀ a ∈ streamOf ext pre, a.span.hi ≤ common.length)
    (hs : Derives G [.nt root.pid] ((inputWords ext (common ++ q2) (pre ++ post2)).map .tok))
    (x1 : Option (Tree n)) (p1 : Parser n)
    (h1 : rootParse ext S fuel' root (common ++ q1) (pre ++ post1) = .ok (.ok x1) p1) :
    ∀ e ∈ p1.info.errors, e.kind ≠ .unexpectedCharacters →
      beginOf (common ++ q1) (streamOf ext post1) ≤ e.span.lo := by
  obtain ⟨x, c, p', N, hp, -, -, -, -, herr, -⟩ := C35_parse_partial ext S fuel root md G hmd hG hsafe hpunct
    henum hsep hl _ _ hw2 hs
  exact C69_parse ext S fuel' N root common q1 q2 pre post1 post2 hw1 hw2 ha x1 (some x) p1 p' h1
    (hp N (Nat.le_refl _)) herr

/-- Example: a word and a number, on `a b` and on `a 1`; the word `b` is unexpected, and `a` is the beginning of a
correct input. -/
def alT : Ty 0 3 := .tup2 exWord (.term 1 ⟨1, none⟩)
example :
    ItemsWF ([97] ++ [32, 98]) ([.token ⟨⟨0, 1⟩, 0⟩] ++ [.token ⟨⟨2, 3⟩, 0⟩] : List (Item 3)) ∧
    ItemsWF ([97] ++ [32, 49]) ([.token ⟨⟨0, 1⟩, 0⟩] ++ [.token ⟨⟨2, 3⟩, 1⟩] : List (Item 3)) ∧
    (∃ p1, rootParse (fun _ => false) exS 20 alT ([97] ++ [32, 98])
        ([.token ⟨⟨0, 1⟩, 0⟩] ++ [.token ⟨⟨2, 3⟩, 0⟩]) = .ok (.ok none) p1 ∧
      p1.info.errors.map (·.span) = [⟨2, 3⟩]) ∧
    (∃ x p2, rootParse (fun _ => false) exS 20 alT ([97] ++ [32, 49])
        ([.token ⟨⟨0, 1⟩, 0⟩] ++ [.token ⟨⟨2, 3⟩, 1⟩]) = .ok (.ok x) p2 ∧ p2.info.errors.length = 0) :=
  ⟨by unfold ItemsWF; decide, by unfold ItemsWF; decide, ⟨_, by rfl, by rfl⟩, ⟨_, _, by rfl, by rfl⟩⟩

end Teleparse
