import Verif.Model.Produce
/-
How much work parsing does: the number of calls of `peek_token`, `consume_token` and `apply_semantic`.
-/
namespace Teleparse
variable {n : Nat} {σ : Type}

/-- A stream with a counter that grows by one with every `peek_token` and every `consume_token` (all other
ways of looking at the input go through these two, parser_impl.rs:165-246) and with every `apply_semantic`. -/
def Ops.counted (o : Ops σ n) : Ops (σ × Nat) n where
  peek s := ((o.peek s.1).1, ((o.peek s.1).2, s.2 + 1))
  consume s := ((o.consume s.1).1, ((o.consume s.1).2, s.2 + 1))
  source s := o.source s.1
  emptySpan s := o.emptySpan s.1
  applySemantic s sp sem := (o.applySemantic s.1 sp sem, s.2 + 1)

/-- Producing `t` from `p` gives `r` and `p'` with `k` calls of `peek_token`, `consume_token` and
`apply_semantic`, for any fuel that is large enough. -/
def Takes {m : Nat} (ext : Fin n → Bool) (S : Schema m n) (md : Metadata (PId m n) n) (t : Ty m n)
    (p : Parser n) (r : Res n (Tree n)) (p' : Parser n) (k : Nat) : Prop :=
  ∃ fuel, ∀ fuel' ≥ fuel, produce (Parser.ops ext).counted S md fuel' t (p, 0) = .ok r (p', k)

/-- Number of tokens consumed on the way from `p` to `p'`. -/
def Parser.consumedSince (p p' : Parser n) : Nat := p'.info.tokens.length - p.info.tokens.length

end Teleparse
