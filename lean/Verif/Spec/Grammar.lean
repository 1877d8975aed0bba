import Verif.Model.Grammar
/-
Textbook notions for a context-free grammar: derivations of sentential forms, FIRST, FOLLOW,
productivity, left recursion, LL(1). Nothing here mentions the analysis.
-/
namespace Teleparse
variable {I : Type} {n : Nat}

/-- A symbol of a sentential form: a production or a token. -/
inductive Sym (I : Type) (n : Nat) where
  | nt (i : I)
  | tok (t : TokenSrc n)
  deriving DecidableEq

/-- `i` can be replaced by the sentential form. A terminal is replaced by any token it stands for. -/
inductive Expands (G : Grammar I n) : I → List (Sym I n) → Prop
  | eps {i} : (i, Rule.eps) ∈ G → Expands G i []
  | term {i t tok} : (i, Rule.term t) ∈ G → t.Matches tok → Expands G i [.tok tok]
  | seq {i l} : (i, Rule.seq l) ∈ G → Expands G i (l.map .nt)
  | alt {i l j} : (i, Rule.alt l) ∈ G → j ∈ l → Expands G i [.nt j]

/-- Derivation of sentential forms in any number of steps. -/
inductive Derives (G : Grammar I n) : List (Sym I n) → List (Sym I n) → Prop
  | refl (α) : Derives G α α
  | step {α β γ δ} {i : I} : Expands G i γ → Derives G (α ++ γ ++ β) δ →
      Derives G (α ++ .nt i :: β) δ

/-- `i` derives the empty sequence. -/
def Nullable (G : Grammar I n) (i : I) : Prop := Derives G [.nt i] []

/-- `tok` can begin a sentential form derived from `i`. -/
def FirstOf (G : Grammar I n) (i : I) (tok : TokenSrc n) : Prop :=
  ∃ β, Derives G [.nt i] (.tok tok :: β)

/-- After the tokens `w`, `tok` can go on a sentential form derived from `i`. -/
def Continues (G : Grammar I n) (i : I) (w : List (TokenSrc n)) (tok : TokenSrc n) : Prop :=
  ∃ β, Derives G [.nt i] (w.map .tok ++ .tok tok :: β)

/-- `tok` (`none` for the end of input) can directly follow `i` in a sentential form of `root`. -/
def FollowOf (G : Grammar I n) (root i : I) : Option (TokenSrc n) → Prop
  | some tok => ∃ α β, Derives G [.nt root] (α ++ .nt i :: .tok tok :: β)
  | none => ∃ α, Derives G [.nt root] (α ++ [.nt i])

/-- `i` derives some finite sequence of tokens. -/
def Productive (G : Grammar I n) (i : I) : Prop :=
  ∃ w : List (TokenSrc n), Derives G [.nt i] (w.map .tok)

/-- `i` is a part of a part ... of `root`. -/
inductive Reach (parts : I → List I) (root : I) : I → Prop
  | refl : Reach parts root root
  | step {i j} : Reach parts root i → j ∈ parts i → Reach parts root j

/-- `j` is the leftmost symbol of a sentential form derived from `i` by a first step at least. -/
def LeftDerives (G : Grammar I n) (i j : I) : Prop :=
  ∃ γ β, Expands G i γ ∧ Derives G γ (.nt j :: β)

/-- Everything derived from `i` has a `j` in it, because `j` is a part of a sequence that is a part of a sequence ...
that is `i`. -/
inductive Needs (G : Grammar I n) : I → I → Prop
  | part {i j : I} {l : List I} : (i, Rule.seq l) ∈ G → j ∈ l → Needs G i j
  | trans {i j k : I} : Needs G i j → Needs G j k → Needs G i k

/-- Every production has one right-hand side. -/
def Grammar.Functional (G : Grammar I n) : Prop := (G.map Prod.fst).Nodup

/-- Every production is part of a sentential form of the root. -/
def Grammar.Connected (G : Grammar I n) (root : I) : Prop :=
  ∀ i r, (i, r) ∈ G → ∃ α β, Derives G [.nt root] (α ++ .nt i :: β)

/-- The productions the grammar has for `i`'s right-hand side. -/
def PartOf (G : Grammar I n) (i j : I) : Prop := ∃ r, (i, r) ∈ G ∧ j ∈ r.parts

/-- `i` is a part of a part ... of `root`, in the grammar. -/
inductive Reachable (G : Grammar I n) (root : I) : I → Prop
  | refl : Reachable G root root
  | step {i j} : Reachable G root i → PartOf G i j → Reachable G root j

/-- No part of a sequence other than the first and the last one derives the empty sequence. -/
def NoNullableInterior (G : Grammar I n) : Prop :=
  ∀ x pre y post, (x, Rule.seq (pre ++ y :: post)) ∈ G → pre ≠ [] → post ≠ [] → ¬ Nullable G y

/-- The token can come after the part `a` of some sequence, when at least one part between derives the empty
sequence. -/
def Beyond (G : Grammar I n) (a : I) (tok : TokenSrc n) : Prop :=
  ∃ x pre mid b post, (x, Rule.seq (pre ++ a :: (mid ++ b :: post))) ∈ G ∧ mid ≠ [] ∧
    (∀ k ∈ mid, Nullable G k) ∧ FirstOf G b tok

/-- Some sentential form of `a` has `i` at its end. -/
def EndsWith (G : Grammar I n) (a i : I) : Prop := ∃ α, Derives G [.nt a] (α ++ [.nt i])

/-- No choice at the end of a part `a` that can be empty is in doubt because of a token that comes after `a`
and after at least one empty part. -/
def SkipSafe (G : Grammar I n) : Prop :=
  ∀ a i l (p q : Nat) s t tok, EndsWith G a i → (i, Rule.alt l) ∈ G → p ≠ q → l[p]? = some s → l[q]? = some t →
    Nullable G s → FirstOf G t tok → ¬ Beyond G a tok

/-- If an earlier nullable part of a sequence can begin with *every* token of a type, then no later
part of the sequence can begin with a token of that type. -/
def NoBareRepeat (G : Grammar I n) (root : I) : Prop :=
  ∀ t pre a mid b post ty, Reachable G root t → (t, Rule.seq (pre ++ a :: (mid ++ b :: post))) ∈ G →
    Nullable G a → (∀ x, FirstOf G a ⟨ty, x⟩) → ∀ x, ¬ FirstOf G b ⟨ty, x⟩

/-- Two productions that cannot be told apart by one token of lookahead: they share a FIRST token or
both derive the empty sequence. -/
def Overlap (G : Grammar I n) (a b : I) : Prop :=
  (∃ tok, FirstOf G a tok ∧ FirstOf G b tok) ∨ (Nullable G a ∧ Nullable G b)

/-- The textbook LL(1) condition on the productions reachable from `root`: any two alternatives of a
union are told apart by their FIRST sets, and if one of them derives the empty sequence then the FIRST
sets of the others are disjoint from the FOLLOW set of the union. -/
def LL1 (G : Grammar I n) (root : I) : Prop :=
  ∀ t l, Reachable G root t → (t, Rule.alt l) ∈ G →
    (∀ (p q : Nat) a b, p < q → l[p]? = some a → l[q]? = some b → ¬ Overlap G a b) ∧
    (∀ (p q : Nat) a b, p ≠ q → l[p]? = some a → l[q]? = some b → Nullable G a →
      ∀ tok, FirstOf G b tok → ¬ FollowOf G root t (some tok))

end Teleparse
