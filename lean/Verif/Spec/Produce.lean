import Verif.Spec.Lexing
import Verif.Spec.Tree
import Verif.Spec.Grammar
/-
Specification of what producing a syntax type means, independent of fuel.
-/
namespace Teleparse
variable {m n : Nat}

/-- Producing `t` on the parser `p` returns `r` and leaves the parser `p'`. -/
def Yields (ext : Fin n → Bool) (S : Schema m n) (md : Metadata (PId m n) n) (t : Ty m n) (p : Parser n)
    (r : Res n (Tree n)) (p' : Parser n) : Prop :=
  ∃ fuel, produce (Parser.ops ext) S md fuel t p = .ok r p'

/-- The next token and its text. -/
def Parser.lookahead (ext : Fin n → Bool) (p : Parser n) : Option (TokenSrc n) :=
  (p.view ext).rest.head?.map fun t => ⟨t.ty, (p.info.source.drop t.span.lo).take (t.span.hi - t.span.lo)⟩

/-- The span of the next token, or of the end of the source. -/
def Parser.nextSpan (ext : Fin n → Bool) (p : Parser n) : Span :=
  ((p.view ext).rest.head?.map (·.span)).getD ⟨p.info.source.length, p.info.source.length⟩

/-- `p.lookahead` is a token in `set`. -/
def Parser.canStart (ext : Fin n → Bool) (p : Parser n) (set : TSet n) : Bool :=
  (p.lookahead ext).isSome && set.contains (p.lookahead ext)

/-- The errors of a result. -/
def Res.errs {α : Type} : Res n α → List (Err n)
  | .success _ => []
  | .recovered _ e => e
  | .panic e => e

/-- The tree of a result. -/
def Res.tree? {α : Type} : Res n α → Option α
  | .success x => some x
  | .recovered x _ => some x
  | .panic _ => none

/-- The same kind of result with the tree changed. -/
def Res.mapTree {α β : Type} (f : α → β) : Res n α → Res n β
  | .success x => .success (f x)
  | .recovered x e => .recovered (f x) e
  | .panic e => .panic e

/-- Parts produced one after the other, up to the first that fails: the results of those attempted. -/
inductive Parts (ext : Fin n → Bool) (S : Schema m n) (md : Metadata (PId m n) n) :
    List (Ty m n) → Parser n → List (Res n (Tree n)) → Parser n → Prop
  | nil {p} : Parts ext S md [] p [] p
  | next {t ts p r p1 rs p'} : Yields ext S md t p r p1 → r.tree?.isSome = true →
      Parts ext S md ts p1 rs p' → Parts ext S md (t :: ts) p (r :: rs) p'
  | fail {t ts p e p1} : Yields ext S md t p (.panic e) p1 → Parts ext S md (t :: ts) p [.panic e] p1

/-- Errors in order. -/
def allErrs (rs : List (Res n (Tree n))) : List (Err n) := rs.flatMap Res.errs

/-- The trees of results without failures. -/
def allTrees (rs : List (Res n (Tree n))) : List (Tree n) := rs.filterMap Res.tree?

/-- No part failed. -/
def noneFailed (rs : List (Res n (Tree n))) : Prop := ∀ r ∈ rs, r.tree?.isSome = true

/-- The result of a sequence with the given results of its parts: success if no part failed and there are
no errors, recovered if no part failed and there are errors, a failure otherwise. -/
inductive SeqResult (rs : List (Res n (Tree n))) : Res n (Tree n) → Prop
  | success : noneFailed rs → allErrs rs = [] →
      SeqResult rs (.success (.seq (spanOf (allTrees rs)) (allTrees rs)))
  | recovered : noneFailed rs → allErrs rs ≠ [] →
      SeqResult rs (.recovered (.seq (spanOf (allTrees rs)) (allTrees rs)) (allErrs rs))
  | panic : ¬ noneFailed rs → SeqResult rs (.panic (allErrs rs))

/-- Applying the semantic types of the fields to the tokens inside the fields' trees. -/
def Parser.applyAll (p : Parser n) : List (Tree n × Option (LSet n)) → Parser n
  | [] => p
  | (_, none) :: l => p.applyAll l
  | (t, some sem) :: l => (p.applySemantic t.span sem).applyAll l

/-- `G` is the grammar of the productions reachable from `root`. -/
def Schema.IsGrammar (S : Schema m n) (root : Ty m n) (G : Grammar (PId m n) n) : Prop :=
  G.Functional ∧ ∀ i r, (i, r) ∈ G ↔ Reach (fun t => (S.rule t).parts) root.pid i ∧ r = S.rule i

/-- The lookahead (`none` at the end of input) can begin `i`: a FIRST token, or the end of input and `i`
derives the empty sequence. -/
def Starts (G : Grammar (PId m n) n) (i : PId m n) : Option (TokenSrc n) → Prop
  | some tok => FirstOf G i tok
  | none => Nullable G i

/-- Types that always return a tree. -/
inductive CannotFail (S : Schema m n) : Ty m n → Prop
  | option (t) : CannotFail S (.option t)
  | exist (t) : CannotFail S (.exist t)
  | star (t) : CannotFail S (.star t)
  | loop (t) : CannotFail S (.loop t)
  | box {t} : CannotFail S t → CannotFail S (.box t)
  | quote {t} : CannotFail S t → CannotFail S (.quote t)
  | parse {t} : CannotFail S t → CannotFail S (.parse t)
  | plus {t} : CannotFail S t → CannotFail S (.plus t)
  | split {t} (p) : CannotFail S t → CannotFail S (.split t p)
  | punct {t} (p) : CannotFail S t → CannotFail S (.punct t p)
  | tup2 {a b} : CannotFail S a → CannotFail S b → CannotFail S (.tup2 a b)
  | tup3 {a b c} : CannotFail S a → CannotFail S b → CannotFail S c → CannotFail S (.tup3 a b c)
  | tup4 {a b c d} : CannotFail S a → CannotFail S b → CannotFail S c → CannotFail S d →
      CannotFail S (.tup4 a b c d)
  | tup5 {a b c d e} : CannotFail S a → CannotFail S b → CannotFail S c → CannotFail S d →
      CannotFail S e → CannotFail S (.tup5 a b c d e)
  | struct {k f fs} : S k = .struct f fs → (∀ g ∈ f :: fs, CannotFail S g.1) → CannotFail S (.user k)

/-- The tuple type with the given parts. -/
def Ty.isTuple (t : Ty m n) (ts : List (Ty m n)) : Prop :=
  (∃ a b, t = .tup2 a b ∧ ts = [a, b]) ∨ (∃ a b c, t = .tup3 a b c ∧ ts = [a, b, c]) ∨
  (∃ a b c d, t = .tup4 a b c d ∧ ts = [a, b, c, d]) ∨
  (∃ a b c d e, t = .tup5 a b c d e ∧ ts = [a, b, c, d, e])

end Teleparse
