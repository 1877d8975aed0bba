import Verif.Proof.Infer
import Verif.Props.Cost
import Verif.Props.RepairEnum
import Verif.Props.Book
/-
Property C128: left recursion never gets through, in programs that compile. Also C29 for such programs.
-/
namespace Teleparse
variable {m n : Nat}

/-! ## C128: programs whose lexicons are found -/

/-- The search for the lexicons ends exactly if no type asks for itself. -/
theorem C128_search (S : Schema m n) : S.Infers ↔ ∃ fuel, ∀ k : Fin m, S.infersWithin fuel (.user k) = true := by
  constructor
  · intro h
    have more : ∀ f (p : PId m n), S.infersWithin f p = true → ∀ g, f ≤ g → S.infersWithin g p = true := by
      intro f
      induction f with
      | zero => intro p h; cases h
      | succ f ih =>
        intro p h g hg
        obtain ⟨g, rfl⟩ : ∃ g', g = g' + 1 := ⟨g - 1, by omega⟩
        exact List.all_eq_true.2 fun q hq => ih q (List.all_eq_true.1 h q hq) g (by omega)
    have all : ∀ l : List (PId m n), (∀ q ∈ l, ∃ f, S.infersWithin f q = true) →
        ∃ f, ∀ q ∈ l, S.infersWithin f q = true := by
      intro l
      induction l with
      | nil => intro _; exact ⟨0, by simp⟩
      | cons q l ih =>
        intro h
        obtain ⟨f, h1⟩ := ih fun r hr => h r (by simp [hr])
        obtain ⟨g, h2⟩ := h q (by simp)
        refine ⟨max f g, fun r hr => ?_⟩
        rcases List.mem_cons.1 hr with rfl | hr
        · exact more g _ h2 _ (by omega)
        · exact more f _ (h1 r hr) _ (by omega)
    have key : ∀ p : PId m n, Resolves S p → ∃ f, S.infersWithin f p = true := by
      intro p hp
      induction hp with
      | @intro p _ ih =>
        obtain ⟨f, h1⟩ := all (S.asks p) ih
        exact ⟨f + 1, List.all_eq_true.2 h1⟩
    obtain ⟨f, h1⟩ := all ((List.finRange m).map .user) (by
      intro q hq
      obtain ⟨k, -, rfl⟩ := List.mem_map.1 hq
      exact key _ (infers_iff.1 h k))
    exact ⟨f, fun k => h1 _ (List.mem_map.2 ⟨k, List.mem_finRange k, rfl⟩)⟩
  · rintro ⟨f, h⟩
    exact infers_iff.2 fun k => resolves_of_within f _ (h k)

/-- Everything but the empty production can begin with a token. -/
theorem C128_first (S : Schema m n) (hS : S.Infers) (root : Ty m n) (G : Grammar (PId m n) n)
    (hG : S.IsGrammar root G) (i : PId m n) (hi : Reachable G root.pid i) (hne : i ≠ .eps) : ∃ w, FirstOf G i w := by
  rcases reachable_proper hG hi with h | h
  · exact absurd h hne
  · have hid := reachable_id hG hi
    obtain ⟨w, hw⟩ := (resolves_struct (infers_iff.1 hS) i).first hG h (by rw [hid]; exact hi)
    rw [hid] at hw
    exact ⟨w, hw.firstOf⟩

/-- An accepted grammar has no left recursion, of productive or of useless productions. -/
theorem C128_no_left (S : Schema m n) (hS : S.Infers) (root : Ty m n) (fuel : Nat) (md : Metadata (PId m n) n)
    (hmd : S.metadata fuel root = some (.ok md)) (G : Grammar (PId m n) n) (hG : S.IsGrammar root G)
    (i : PId m n) (hi : Reachable G root.pid i) : ¬ LeftDerives G i i := by
  intro hl
  obtain ⟨k, h3, h4⟩ := hl.lsteps
  obtain ⟨G', hG', _, hb⟩ := metadata_build hmd
  have h1 : ∀ p ∈ G, p ∈ G' := fun p hp => (hG.same hG' p).1 hp
  exact infers_no_left_cycle hG' hS (fun _ _ hr hm _ _ _ _ => accepted_alt hG'.1 hb hr hm)
    (fun _ _ _ _ _ _ hr hm ha hmid tok h1 h2 =>
      accepted_seq hG'.1 hb hr hm ha.nullable (fun k hk => (hmid k hk).nullable) tok h1.firstOf h2.firstOf)
    (hi.congr h1) (h3.congr h1) (h4.congr h1)

/-- Neither has an LL(1) grammar. -/
theorem C128_ll1 (S : Schema m n) (hS : S.Infers) (root : Ty m n) (G : Grammar (PId m n) n) (hG : S.IsGrammar root G)
    (hll : LL1 G root.pid) (i : PId m n) (hi : Reachable G root.pid i) : ¬ LeftDerives G i i := by
  intro hl
  obtain ⟨k, h3, h4⟩ := hl.lsteps
  refine infers_no_left_cycle hG hS (fun t l hr hm => (hll t l hr hm).1) ?_ hi h3 h4
  intro t pre a mid b post hr hm ha hmid tok h1 h2
  exact ll1_disjoint hG.1 hll h1 (.step hr ⟨_, hm, by simp [Rule.parts]⟩) ha (.between hr hm hmid h2)

/-- A program that compiles with a left-recursive type: its grammar is rejected. -/
theorem C128_rejected (S : Schema m n) (hS : S.Infers) (root : Ty m n) (G : Grammar (PId m n) n)
    (hG : S.IsGrammar root G) (i : PId m n) (hi : Reachable G root.pid i) (hl : LeftDerives G i i) :
    ∃ e fuel, ∀ fuel' ≥ fuel, S.metadata fuel' root = some (.error e) := by
  obtain ⟨r, f, h⟩ := C33_schema_total S root
  cases r with
  | error e => exact ⟨e, f, h⟩
  | ok md => exact absurd hl (C128_no_left S hS root f md (h f (Nat.le_refl _)) G hG i hi)

/-- Parsing takes linear time (and returns), under the last two conditions of C38. -/
theorem C128_linear (S : Schema m n) (hS : S.Infers) (fuel : Nat) (root : Ty m n) (md : Metadata (PId m n) n)
    (G : Grammar (PId m n) n) (hmd : S.metadata fuel root = some (.ok md)) (hG : S.IsGrammar root G)
    (hneeds : ∀ i, Reachable G root.pid i → ¬ Needs G i i)
    (henum : ∀ k v vs, S k = .enum v vs → Nullable G (.user k) → ∀ i tok rest, Reachable G root.pid i →
      ¬ Derives G [.nt i] (.nt (.user k) :: .tok tok :: rest)) :
    ∃ K, ∀ (ext : Fin n → Bool) (source : Str) (items : List (Item n)), ItemsWF source items →
      ∀ p : Parser n, Reached ext source items p →
        ∃ r p' k, Takes ext S md root p r p' k ∧ k ≤ K * (p.consumedSince p' + 1) :=
  C76_returns S fuel root md G hmd hG (fun i hi => C128_no_left S hS root fuel md hmd G hG i hi) hneeds henum

/-! ## C29 for programs -/

/-- What holds of C29 for programs: left recursion is refused, by the compiler or by the analysis of the grammar.
Missing for the full statement: the kind of error (`C29_never`). -/
theorem C29_program_partial (S : Schema m n) (root : Ty m n) (G : Grammar (PId m n) n) (hG : S.IsGrammar root G)
    (i : PId m n) (hi : Reachable G root.pid i) (hl : LeftDerives G i i) :
    ¬ S.Infers ∨ ∃ e fuel, ∀ fuel' ≥ fuel, S.metadata fuel' root = some (.error e) := by
  by_cases hS : S.Infers
  · exact .inr (C128_rejected S hS root G hG i hi hl)
  · exact .inl hS

/-! ### Examples -/

/-- The condition from a finished search. -/
theorem infers_of_within {S : Schema m n} (fuel : Nat) (h : ∀ k : Fin m, S.infersWithin fuel (.user k) = true) : S.Infers :=
  (C128_search S).2 ⟨fuel, h⟩

/-- The types of `C38_false_needs` and `C38_false_enum` are in programs that compile, so C38 is false for programs. The
struct `A = A word` of `C38_false` is not. -/
example : ndxS.Infers ∧ vxS.Infers ∧ ¬ uxS.Infers :=
  ⟨infers_of_within 9 (by decide), infers_of_within 9 (by decide), fun h => h 0 (.one (by decide))⟩

/-- `E' = (+ T E')?` as in the book (recursion.md), with `T` a word and `+` the literal `x`: refused, because
the tuple asks all of its elements. -/
def inA : Schema 1 3 := fun _ => .struct (.option (.tup3 fxX exWord' (.box (.user 0))), none) []
where exWord' : Ty 1 3 := .term 0 ⟨0, none⟩
      fxX : Ty 1 3 := .term 2 ⟨2, some [120]⟩
/-- The remedy: `E' = E+?`, `E+ = + T E'`. -/
def inB : Schema 2 3 := fun k =>
  if k = 0 then .struct (.option (.user 1), none) []
  else .struct (.term 2 ⟨2, some [120]⟩, none) [(.term 0 ⟨0, none⟩, none), (.box (.user 0), none)]
/-- `F = ident | ( E )`, and the other way round (with `F` in place of `E`). -/
def inC : Schema 1 3 := fun _ =>
  .enum (.term 0 ⟨0, none⟩, none) [(.tup3 (.term 1 ⟨1, none⟩) (.box (.user 0)) (.term 2 ⟨2, none⟩), none)]
def inD : Schema 1 3 := fun _ =>
  .enum (.tup3 (.term 1 ⟨1, none⟩) (.box (.user 0)) (.term 2 ⟨2, none⟩), none) [(.term 0 ⟨0, none⟩, none)]

/-- The programs of the book's note on recursion: the ones it calls wrong are refused, the others are not. -/
theorem C128_book : ¬ inA.Infers ∧ inB.Infers ∧ inC.Infers ∧ ¬ inD.Infers := by
  refine ⟨fun h => h 0 ?_, infers_of_within 9 (by decide), infers_of_within 9 (by decide), fun h => h 0 ?_⟩
  · exact .trans (.one (q := .opt (.tup3 inA.fxX.prod inA.exWord'.prod (.box (.user 0)))) (by decide))
      (.trans (.one (q := .tup3 inA.fxX.prod inA.exWord'.prod (.box (.user 0))) (by decide))
        (.trans (.one (q := .box (.user 0)) (by decide)) (.one (by decide))))
  · exact .trans (.one (q := .tup3 (.term 1 ⟨1, none⟩) (.box (.user 0)) (.term 2 ⟨2, none⟩)) (by decide))
      (.trans (.one (q := .box (.user 0)) (by decide)) (.one (by decide)))

/-- The two programs in the introduction of the book. -/
example : Book.recurS.Infers ∧ Book.simpleS.Infers :=
  ⟨infers_of_within 12 (by decide), infers_of_within 12 (by decide)⟩

/-- Left recursion that the compiler lets through: `E = word | E`, `A = num? A word`. Both are rejected. -/
def inE : Schema 1 3 := fun _ => .enum (.term 0 ⟨0, none⟩, none) [(.box (.user 0), none)]
def inF : Schema 1 3 := fun _ => .struct (.option (.term 1 ⟨1, none⟩), none) [(.box (.user 0), none), (.term 0 ⟨0, none⟩, none)]
example : inE.Infers ∧ inE.metadata 40 (.user 0) = some (.error (.firstFirst (.user 0) (.term 0 ⟨0, none⟩) (.user 0))) ∧
    inF.Infers ∧ inF.metadata 40 (.user 0) =
      some (.error (.firstFollowSeq (.user 0) (.opt (.term 1 ⟨1, none⟩)) (.user 0))) :=
  ⟨infers_of_within 9 (by decide), by rfl, infers_of_within 9 (by decide), by rfl⟩

/-- A useless type, `B = X | Y`, `X = word B`, `Y = num B`: accepted, so not left recursive; it returns on every input. -/
def inS : Schema 3 3 := fun k =>
  if k = 0 then .enum (.user 1, none) [(.user 2, none)]
  else if k = 1 then .struct (.term 0 ⟨0, none⟩, none) [(.box (.user 0), none)]
  else .struct (.term 1 ⟨1, none⟩, none) [(.box (.user 0), none)]
def inMd : Metadata (PId 3 3) 3 := okOf ⟨[], [], []⟩ (inS.metadata 60 (.user 0))
def inG : Grammar (PId 3 3) 3 := (registerFrom inS.rule 60 (.user 0)).getD []
theorem inG_ok : inS.IsGrammar (.user 0) inG := .of_register (fuel := 60) rfl

example : ∃ K, ∀ (ext : Fin 3 → Bool) (source : Str) (items : List (Item 3)), ItemsWF source items →
    ∀ p : Parser 3, Reached ext source items p →
      ∃ r p' k, Takes ext inS inMd (.user 0) p r p' k ∧ k ≤ K * (p.consumedSince p' + 1) := by
  have h0 : ∀ p ∈ inG, p.2 ≠ .eps ∧ p.2 ≠ .seq [] := by decide +kernel
  exact C128_linear inS (infers_of_within 9 (by decide)) 60 (.user 0) inMd inG rfl inG_ok
    (fun i _ => needs_of_lower (f := fun | .user k => k.val | _ => 0) (by decide +kernel) i)
    (fun _ _ _ _ hn => absurd (nullable_iff.1 hn) (no_null h0 _))

end Teleparse
