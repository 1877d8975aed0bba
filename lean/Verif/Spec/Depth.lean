import Verif.Spec.Parses
/-
How deep the calls of `Produce::produce` are nested.
-/
namespace Teleparse
variable {m n : Nat} {σ : Type}

/-- `T::produce` on a stack with room for `depth` calls of `produce` inside of each other (the calls of
`parser_impl.rs` and the two frames of `Star` are part of the call they are made by). `iters` bounds the iterations
of the loops, which do not need stack. -/
def nested (o : Ops σ n) (S : Schema m n) (md : Metadata (PId m n) n) (iters : Nat) : Nat → Ty m n → P σ n
  | 0, _ => M.fuel
  | depth + 1, t => produceStep o S md iters (nested o S md iters depth) t

/-- Producing `t` in the state `p` returns `r`, and `depth` calls inside of each other are enough. -/
def FitsIn (ext : Fin n → Bool) (S : Schema m n) (md : Metadata (PId m n) n) (depth : Nat) (t : Ty m n) (p : Parser n)
    (r : Res n (Tree n)) (p' : Parser n) : Prop :=
  ∃ iters, nested (Parser.ops ext) S md iters depth t p = .ok r p'

/-- A type and all types written inside of it. -/
def Ty.subs : Ty m n → List (Ty m n)
  | .term k t => [.term k t]
  | .user k => [.user k]
  | .box a => .box a :: a.subs
  | .option a => .option a :: a.subs
  | .exist a => .exist a :: a.subs
  | .quote a => .quote a :: a.subs
  | .parse a => .parse a :: a.subs
  | .plus a => .plus a :: a.subs
  | .star a => .star a :: a.subs
  | .loop a => .loop a :: a.subs
  | .split a b => .split a b :: (a.subs ++ b.subs)
  | .punct a b => .punct a b :: (a.subs ++ b.subs)
  | .recover a b => .recover a b :: (a.subs ++ b.subs)
  | .tup2 a b => .tup2 a b :: (a.subs ++ b.subs)
  | .tup3 a b c => .tup3 a b c :: (a.subs ++ b.subs ++ c.subs)
  | .tup4 a b c d => .tup4 a b c d :: (a.subs ++ b.subs ++ c.subs ++ d.subs)
  | .tup5 a b c d e => .tup5 a b c d e :: (a.subs ++ b.subs ++ c.subs ++ d.subs ++ e.subs)

/-- All types written in the root and in the fields and variants of the declarations. -/
def Schema.written (S : Schema m n) (root : Ty m n) : List (Ty m n) :=
  root.subs ++ (List.finRange m).flatMap fun k => (S.tyParts (.user k)).flatMap Ty.subs

/-- `u` is inside of `t`: a part, or a part of a part, and so on. -/
def Schema.Inside (S : Schema m n) (t u : Ty m n) : Prop := ∃ a ∈ S.tyParts t, Reach S.tyParts a u

/-- No type that the root is made of is inside of itself. -/
def Schema.Flat (S : Schema m n) (root : Ty m n) : Prop :=
  ∀ t, Reach S.tyParts root t → ¬ S.Inside t t

end Teleparse
