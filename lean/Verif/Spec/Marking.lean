import Verif.Model.TokenCost
import Verif.Model.Produce
/-
How much work the semantic types cost: the number of tokens in the token store that `apply_semantic` looks at.
-/
namespace Teleparse
variable {m n : Nat} {σ : Type}

/-- A stream with a counter for the tokens that `apply_semantic` (parser_impl.rs:248-253, lex/vec.rs:156-161, 208-230)
looks at. `cells` is the token store. -/
def Ops.marked (o : Ops σ n) (cells : σ → TokenVec n) : Ops (σ × Nat) n where
  peek s := ((o.peek s.1).1, ((o.peek s.1).2, s.2))
  consume s := ((o.consume s.1).1, ((o.consume s.1).2, s.2))
  source s := o.source s.1
  emptySpan s := o.emptySpan s.1
  applySemantic s sp sem := (o.applySemantic s.1 sp sem, s.2 + ((cells s.1).applySemanticInsideT sp sem).looks)

/-- The counted parser. -/
def Parser.opsMarked (ext : Fin n → Bool) : Ops (Parser n × Nat) n := (Parser.ops ext).marked fun p => p.info.tokens

/-- Producing `t` from `p` gives `r` and `p'`, and `apply_semantic` looks at `k` tokens in all, for any fuel that is
large enough. -/
def MarksWith (ext : Fin n → Bool) (S : Schema m n) (md : Metadata (PId m n) n) (t : Ty m n)
    (p : Parser n) (r : Res n (Tree n)) (p' : Parser n) (k : Nat) : Prop :=
  ∃ fuel, ∀ fuel' ≥ fuel, produce (Parser.opsMarked ext) S md fuel' t (p, 0) = .ok r (p', k)

end Teleparse
