import Verif.Proof.Size
import Verif.Props.ErrCount
/-
Property C116: how large the tree is.
-/
namespace Teleparse
variable {m n : Nat}

/-! ## C116: the size of the tree -/

/-- The tree of any type has fewer nodes than twice the number of calls of `peek_token` and `consume_token`, for any
schema and any tables. -/
theorem C116_ops (ext : Fin n → Bool) (S : Schema m n) (md : Metadata (PId m n) n) (t : Ty m n) (p p' : Parser n)
    (r : Res n (Tree n)) (k : Nat) (h : Takes ext S md t p r p' k) (x : Tree n)
    (hx : r = .success x ∨ ∃ e, r = .recovered x e) : x.size < 2 * k := by
  obtain ⟨fuel, h⟩ := h
  have := produce_grow (o := Parser.ops ext) S md fuel t _ _ _ _ _ (h fuel (Nat.le_refl _))
  rcases hx with rfl | ⟨e, rfl⟩ <;> simp only [Res.sz] at this <;> omega

/-- Parsing a type from any state gives a tree of at most `K * (c + 1)` nodes, where `c` is the number of tokens
consumed. `K` depends on the types only. -/
theorem C116_linear (S : Schema m n) (t : Ty m n) : ∃ K, ∀ (md : Metadata (PId m n) n) (ext : Fin n → Bool)
    (p p' : Parser n) (r : Res n (Tree n)), Yields ext S md t p r p' →
      ∀ x, (r = .success x ∨ ∃ e, r = .recovered x e) → x.size ≤ K * (p.consumedSince p' + 1) := by
  obtain ⟨K, hK⟩ := C76_linear S t
  refine ⟨2 * K, fun md ext p p' r hy x hx => ?_⟩
  obtain ⟨k, h⟩ := (C76_defined ext S md t p p' r).1 hy
  have h1 := hK md ext p p' r k h
  have := C116_ops ext S md t p p' r k h x hx
  rw [Nat.mul_assoc]
  omega

/-- A whole text: the tree that `T::parse` returns has at most `K * (N + 1)` nodes, where `N` is the number of tokens
of the text. -/
theorem C116_text (S : Schema m n) (root : Ty m n) :
    ∃ K, ∀ (ext : Fin n → Bool) (source : Str) (items : List (Item n)),
      ∀ fuel x p', rootParse ext S fuel root source items = .ok (.ok (some x)) p' →
        x.size ≤ K * ((tokensOf items).length + 1) := by
  obtain ⟨K, hK⟩ := C116_linear S root
  refine ⟨K, fun ext source items f x p' h => ?_⟩
  obtain ⟨md, r, q, h1, hq, -, h3, -, -⟩ := syntaxErrors_parse h
  have hr := hK md ext _ q r ⟨f, hq⟩ x ((h3 x).1 rfl)
  have hqr : Reached ext source items q := Yields.reached .new ⟨f, hq⟩
  have := congrArg List.length hqr.total
  simp only [List.length_append, List.length_map] at this
  have h6 : (streamOf ext items).length ≤ (tokensOf items).length := List.length_filter_le _ _
  refine Nat.le_trans hr (Nat.mul_le_mul_left _ ?_)
  unfold Parser.consumedSince
  omega

/-! ### Examples -/

/-- The type `E = num | L`, `L = word E* "x"`, read by `Loop<E>`: the bound holds for every text. -/
example : ∃ K, ∀ (source : Str) (items : List (Item 3)) fuel x p',
    rootParse exExt txS fuel txT source items = .ok (.ok (some x)) p' →
      x.size ≤ K * ((tokensOf items).length + 1) :=
  (C116_text txS txT).imp fun _ h => h exExt

/-- The number of nodes of a result and the number of operations. -/
def sizeOps (r : Out (Parser 3 × Nat) (Res 3 (Tree 3))) : Option (Nat × Nat) :=
  match r with
  | .ok (.success x) s => some (x.size, s.2)
  | .ok (.recovered x _) s => some (x.size, s.2)
  | _ => none

/-- On two numbers the loop of the example gives five nodes (the list, two variants, two terminals) with 13
operations. -/
example : sizeOps (produce (Parser.ops exExt).counted txS txMd 12 txT
    (Parser.new [49, 50] [.token ⟨⟨0, 1⟩, 1⟩, .token ⟨⟨1, 2⟩, 1⟩], 0)) = some (5, 13) := by rfl

/-- The factor two is needed: an absent option is one node for one operation. -/
example : sizeOps (produce (Parser.ops exExt).counted txS txMd 12 (.option (.user 0)) (Parser.new [] [], 0)) =
    some (1, 1) := by rfl

end Teleparse
