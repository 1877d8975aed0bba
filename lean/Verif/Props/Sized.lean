import Verif.Proof.Sized
import Verif.Props.Infer
/-
Property C129: boxes around fields make types finite and change nothing else.
-/
namespace Teleparse
variable {m n : Nat}

/-! ## C129: the size of types, and boxes -/

/-- The computation of the sizes ends exactly if no type stores itself; it then goes through each type at most once on
the way down. -/
theorem C129_size (S : Schema m n) : (S.Sized ↔ ∃ fuel, ∀ k, S.sizedWithin fuel k = true) ∧
    (S.Sized → ∀ k, S.sizedWithin (m + 1) k = true) :=
  ⟨⟨fun h => ⟨m + 1, sized_within h⟩, fun ⟨f, h⟩ => sized_of_within f h⟩, sized_within⟩

/-- Every program has a version with boxes in which all types are finite. -/
theorem C129_boxed (S : Schema m n) : S.boxed.Sized ∧ S.SameButBoxes S.boxed := by
  constructor
  · refine sized_of_within 1 fun k => ?_
    have : S.boxed.holds k = [] := by
      unfold Schema.holds Schema.boxed
      have key : ∀ l : List (Field m n), (l.map fun f => ((.box f.1 : Ty m n), f.2)).flatMap (fun f => f.1.holds) = [] := by
        intro l
        induction l with
        | nil => rfl
        | cons a l ih => exact ih
      cases S k with
      | struct f fs => exact key (f :: fs)
      | enum f fs => exact key (f :: fs)
    simp [Schema.sizedWithin, this]
  · have key : ∀ l : List (Field m n), FieldsBoxed l (l.map fun f => (.box f.1, f.2)) := by
      intro l
      induction l with
      | nil => exact .nil
      | cons a l ih => exact .cons rfl rfl ih
    intro k
    unfold Schema.boxed
    cases S k with
    | struct f fs => exact .struct (key (f :: fs))
    | enum f fs => exact .enum (key (f :: fs))

/-- Boxes around fields do not matter for the lexicons. -/
theorem C129_infers (S S' : Schema m n) (h : S.SameButBoxes S') : S.Infers ↔ S'.Infers := by
  rw [infers_iff, infers_iff]
  exact ⟨fun hS k => same_resolves h (hS k), fun hS k => same_resolves (same_symm h) (hS k)⟩

/-- They do not matter for the analysis of the grammar: the result is the same, tables or error. -/
theorem C129_metadata (S S' : Schema m n) (h : S.SameButBoxes S') (root root' : Ty m n) (hr : root.bare = root'.bare)
    (fuel : Nat) : S.metadata fuel root = S'.metadata fuel root' := by
  unfold Schema.metadata
  rw [pid_of_bare hr, funext (same_rule h)]

/-- They do not matter for `Produce::produce`, for any tables and in any state: same result, with or without errors, and
same state after it. -/
theorem C129_produce (ext : Fin n → Bool) (S S' : Schema m n) (h : S.SameButBoxes S') (t t' : Ty m n)
    (ht : t.bare = t'.bare) (md : Metadata (PId m n) n) (p p' : Parser n) (r : Res n (Tree n)) :
    Yields ext S md t p r p' ↔ Yields ext S' md t' p r p' := by
  constructor
  · rintro ⟨f, hf⟩
    obtain ⟨N, hN⟩ := same_result h ht hf
    exact ⟨N, hN N (Nat.le_refl _)⟩
  · rintro ⟨f, hf⟩
    obtain ⟨N, hN⟩ := same_result (same_symm h) ht.symm hf
    exact ⟨N, hN N (Nat.le_refl _)⟩

/-- Also with the same number of operations. -/
theorem C129_cost (ext : Fin n → Bool) (S S' : Schema m n) (h : S.SameButBoxes S') (t t' : Ty m n)
    (ht : t.bare = t'.bare) (md : Metadata (PId m n) n) (p p' : Parser n) (r : Res n (Tree n)) (k : Nat) :
    Takes ext S md t p r p' k ↔ Takes ext S' md t' p r p' k :=
  ⟨fun ⟨f, hf⟩ => same_result h ht (hf f (Nat.le_refl _)),
    fun ⟨f, hf⟩ => same_result (same_symm h) ht.symm (hf f (Nat.le_refl _))⟩

/-- They do not matter for `Parser::parse`, which returns the same and leaves the parser in the same state. -/
theorem C129_parse (ext : Fin n → Bool) (S S' : Schema m n) (h : S.SameButBoxes S') (root root' : Ty m n)
    (hr : root.bare = root'.bare) (p p' : Parser n) (r : Except (GErr (PId m n)) (Option (Tree n))) (fuel : Nat)
    (hp : p.parse ext S fuel root = .ok r p') : ∃ N, ∀ f ≥ N, p.parse ext S' f root' = .ok r p' := by
  unfold Parser.parse at hp ⊢
  cases hm : S.metadata fuel root with
  | none => rw [hm] at hp; cases hp
  | some x =>
    rw [hm] at hp
    have hm' : ∀ f ≥ fuel, S'.metadata f root' = some x := fun f hf => by
      rw [← C129_metadata S S' h root root' hr]; exact metadata_any hm hf
    cases x with
    | error e =>
      refine ⟨fuel, fun f hf => ?_⟩
      rw [hm' f hf]
      exact hp
    | ok md =>
      dsimp only at hp
      unfold Parser.parseWithMeta at hp ⊢
      cases hq : produce (Parser.ops ext) S md fuel root p with
      | fuel => rw [hq] at hp; cases hp
      | crash => rw [hq] at hp; cases hp
      | ok x q =>
        obtain ⟨N, hN⟩ := same_result h hr hq
        refine ⟨max fuel N, fun f hf => ?_⟩
        rw [hm' f (by omega)]
        dsimp only
        rw [hN f (by omega)]
        rw [hq] at hp
        exact hp

/-- So every program whose lexicons are found has a version that compiles and behaves in the same way. -/
theorem C129_compiles (S : Schema m n) (hS : S.Infers) : ∃ S' : Schema m n, S'.Sized ∧ S'.Infers ∧
    (∀ fuel root, S'.metadata fuel root = S.metadata fuel root) ∧
    ∀ ext md t p r p', Yields ext S' md t p r p' ↔ Yields ext S md t p r p' := by
  obtain ⟨h1, h2⟩ := C129_boxed S
  exact ⟨S.boxed, h1, (C129_infers S _ h2).1 hS, fun fuel root => (C129_metadata S _ h2 root root rfl fuel).symm,
    fun ext md t p r p' => (C129_produce ext S _ h2 t t rfl md p p' r).symm⟩

/-! ### Examples -/

/-- `E' = (+ T E')?` without the box. -/
def szA : Schema 1 3 := fun _ => .struct (.option (.tup3 (.term 2 ⟨2, some [120]⟩) (.term 0 ⟨0, none⟩) (.user 0)), none) []

/-- The first error in the book's note on recursion, and the programs after it: the one with a box has the second error
only. -/
theorem C129_book : ¬ szA.Sized ∧ (inA.Sized ∧ ¬ inA.Infers) ∧ (inB.Sized ∧ inB.Infers) ∧ inC.Sized ∧ inC.Infers := by
  refine ⟨fun h => h 0 (.of (by decide)), ⟨sized_of_within 9 (by decide), C128_book.1⟩,
    ⟨sized_of_within 9 (by decide), C128_book.2.1⟩, sized_of_within 9 (by decide), C128_book.2.2.1⟩

/-- Lists need no box: `A = word A*`. -/
def szL : Schema 1 3 := fun _ => .struct (.term 0 ⟨0, none⟩, none) [(.star (.user 0), none)]
/-- `Recover` does: `A = word Recover<A, num>`. -/
def szR : Schema 1 3 := fun _ => .struct (.term 0 ⟨0, none⟩, none) [(.recover (.user 0) (.term 1 ⟨1, none⟩), none)]
example : szL.Sized ∧ ¬ szR.Sized ∧ szR.boxed.Sized :=
  ⟨sized_of_within 9 (by decide), fun h => h 0 (.of (by decide)), (C129_boxed szR).1⟩

/-- The programs in the introduction of the book compile as they are. -/
example : Book.recurS.Sized ∧ Book.simpleS.Sized := ⟨sized_of_within 9 (by decide), sized_of_within 9 (by decide)⟩

/-- The types of `C38_false_needs` and `C38_false_enum` are in programs that compile, if there are boxes around the
fields. -/
example : ndxS.boxed.Sized ∧ ndxS.boxed.Infers ∧ vxS.boxed.Sized ∧ vxS.boxed.Infers :=
  ⟨(C129_boxed _).1, infers_of_within 9 (by decide), (C129_boxed _).1, infers_of_within 9 (by decide)⟩

/-- A parse with an error: the recursive example of C38, with and without boxes. -/
example (p p' : Parser 3) (r) : Yields exExt txS txMd txT p r p' ↔ Yields exExt txS.boxed txMd (.box txT) p r p' :=
  C129_produce exExt txS txS.boxed (C129_boxed txS).2 txT (.box txT) rfl txMd p p' r

end Teleparse
