import Verif.Spec.Produce
import Verif.Spec.TokenStore
/-
Specification of parsing without an algorithm: which consumed tokens match a syntax type, and what the
tree and the semantic types of the tokens are. No lookahead, no tables, no errors.
-/
namespace Teleparse
variable {m n : Nat}

/-- Two lists of the same length, related element by element. -/
inductive All2 {α β : Type} (R : α → β → Prop) : List α → List β → Prop
  | nil : All2 R [] []
  | cons {a l b k} : R a b → All2 R l k → All2 R (a :: l) (b :: k)

/-- The text of a span. -/
def textOf (source : Str) (sp : Span) : Str := (source.drop sp.lo).take (sp.hi - sp.lo)

/-- Position after the cells, if `pos` is the position before. -/
def endOf (pos : Nat) (c : List (Cell n)) : Nat := (c.getLast?.map (·.token.span.hi)).getD pos

/-- The cell with semantic types added. -/
def Cell.add (sem : Option (LSet n)) (c : Cell n) : Cell n :=
  match sem with
  | none => c
  | some s => { c with semantic := c.semantic.union s }

/-- Groups of cells, the `i`-th with the `i`-th semantic types added, one after the other. -/
def addAll : List (List (Cell n)) → List (Option (LSet n)) → List (Cell n)
  | c :: cs, sem :: sems => c.map (Cell.add sem) ++ addAll cs sems
  | _, _ => []

/-- `a, b, a, b, ...` -/
def alternate {α : Type} (a b : α) : Nat → List α
  | 0 => []
  | k + 1 => a :: alternate b a k

/-- First of `xs`, first of `ys`, second of `xs`, ..., until one is used up. -/
def interleave {α : Type} : List α → List α → List α
  | [], _ => []
  | x :: xs, ys => x :: interleave ys xs
termination_by xs ys => xs.length + ys.length
decreasing_by simp; omega

mutual
/-- The cells, consumed after position `pos`, match the type, and this is the tree. An absent optional part
has an empty span at the end of the token before. -/
inductive Parses (S : Schema m n) (source : Str) : Nat → Ty m n → List (Cell n) → Tree n → Prop
  | term {pos i k t} : k.Matches ⟨t.ty, textOf source t.span⟩ →
      Parses S source pos (.term i k) [Cell.ofToken t] (.tok t)
  | struct {pos k f fs cs l} : S k = .struct f fs → ParsesSeq S source pos ((f :: fs).map (·.1)) cs l →
      Parses S source pos (.user k) (addAll cs ((f :: fs).map (·.2))) (.seq (spanOf l) l)
  | enum {pos k f fs i t sem c x} : S k = .enum f fs → (f :: fs)[(i : Nat)]? = some (t, sem) →
      Parses S source pos t c x → Parses S source pos (.user k) (c.map (Cell.add sem)) (.variant i x)
  | tuple {pos t ts cs l} : t.isTuple ts → ParsesSeq S source pos ts cs l →
      Parses S source pos t cs.flatten (.seq (spanOf l) l)
  | box {pos t c x} : Parses S source pos t c x → Parses S source pos (.box t) c x
  | optNone {pos t} : Parses S source pos (.option t) [] (.optNone ⟨pos, pos⟩)
  | optSome {pos t c x} : Parses S source pos t c x →
      Parses S source pos (.option t) c (.optSome x.span x)
  | existNone {pos t} : Parses S source pos (.exist t) [] (.exist ⟨pos, pos⟩ false)
  | existSome {pos t c x} : Parses S source pos t c x →
      Parses S source pos (.exist t) c (.exist x.span true)
  | quote {pos t c x} : Parses S source pos t c x →
      Parses S source pos (.quote t) c (.text x.span (textOf source x.span))
  | parse {pos t c x} : Parses S source pos t c x →
      Parses S source pos (.parse t) c (.text x.span (textOf source x.span))
  | plus {pos t k cs l} : ParsesSeq S source pos (List.replicate (k + 1) t) cs l →
      Parses S source pos (.plus t) cs.flatten (.list (spanOf l) l)
  | starNone {pos t} : Parses S source pos (.star t) [] (.list ⟨pos, pos⟩ [])
  | starSome {pos t k cs l} : ParsesSeq S source pos (List.replicate (k + 1) t) cs l →
      Parses S source pos (.star t) cs.flatten (.list (spanOf l) l)
  | loopNone {pos t} : Parses S source pos (.loop t) [] (.list ⟨pos, pos⟩ [])
  | loopSome {pos t k cs l} : ParsesSeq S source pos (List.replicate (k + 1) t) cs l →
      Parses S source pos (.loop t) cs.flatten (.list (spanOf l) l)
  | split {pos t p cs es ps} : es.length = ps.length + 1 →
      ParsesSeq S source pos (alternate t p (es.length + ps.length)) cs (interleave es ps) →
      Parses S source pos (.split t p) cs.flatten (.split (spanOf (interleave es ps)) es ps)
  | punct {pos t p cs es ps} : es ≠ [] → es.length = ps.length + 1 ∨ es.length = ps.length →
      ParsesSeq S source pos (alternate t p (es.length + ps.length)) cs (interleave es ps) →
      Parses S source pos (.punct t p) cs.flatten (.split (spanOf (interleave es ps)) es ps)
  | recover {pos t r cs x y} : ParsesSeq S source pos [t, r] cs [x, y] →
      Parses S source pos (.recover t r) cs.flatten (.recover x.span x y)

/-- The groups of cells match the types one after the other. -/
inductive ParsesSeq (S : Schema m n) (source : Str) :
    Nat → List (Ty m n) → List (List (Cell n)) → List (Tree n) → Prop
  | nil {pos} : ParsesSeq S source pos [] [] []
  | cons {pos t ts c cs x xs} : Parses S source pos t c x → ParsesSeq S source (endOf pos c) ts cs xs →
      ParsesSeq S source pos (t :: ts) (c :: cs) (x :: xs)
end

/-! ### Failing without an error -/

/-- The types of the immediate parts. `Star<T>` is an optional `Plus<T>`. -/
def Schema.tyParts (S : Schema m n) : Ty m n → List (Ty m n)
  | .term _ _ => []
  | .user k =>
    match S k with
    | .struct f fs => (f :: fs).map (·.1)
    | .enum f fs => (f :: fs).map (·.1)
  | .star t => [.plus t]
  | .box t | .option t | .exist t | .quote t | .parse t | .plus t | .loop t => [t]
  | .split t p | .punct t p | .recover t p => [t, p]
  | .tup2 a b => [a, b]
  | .tup3 a b c => [a, b, c]
  | .tup4 a b c d => [a, b, c, d]
  | .tup5 a b c d e => [a, b, c, d, e]

/-- The parts whose failure does not make the whole fail. -/
def Ty.absorbed : Ty m n → List (Ty m n)
  | .star t => [.plus t]
  | .option t | .exist t | .plus t | .loop t => [t]
  | .split t p | .punct t p => [t, p]
  | .recover t _ => [t]
  | _ => []

/-- Types whose failure can be silent: `Recover`, and what fails when a `Recover` in it fails. -/
inductive Silent (S : Schema m n) : Ty m n → Prop
  | recover (t r) : Silent S (.recover t r)
  | box {t} : Silent S t → Silent S (.box t)
  | quote {t} : Silent S t → Silent S (.quote t)
  | parse {t} : Silent S t → Silent S (.parse t)
  | plus {t} : Silent S t → Silent S (.plus t)
  | split {t p} : Silent S t → Silent S (.split t p)
  | punct {t p} : Silent S t → Silent S (.punct t p)
  | tuple {t ts u} : t.isTuple ts → u ∈ ts → Silent S u → Silent S t
  | user {k u} : u ∈ S.tyParts (.user k) → Silent S u → Silent S (.user k)

/-- No silent failure is absorbed anywhere in the type. -/
def Loud (S : Schema m n) (t : Ty m n) : Prop :=
  ∀ u, Reach S.tyParts t u → ∀ e ∈ u.absorbed, ¬ Silent S e

/-- The tokens of the cells with their texts. -/
def wordOf (source : Str) (c : List (Cell n)) : List (TokenSrc n) :=
  c.map fun d => ⟨d.token.ty, textOf source d.token.span⟩

/-- Types whose matches begin with a token of the leftmost terminal. -/
inductive Leads (S : Schema m n) : Ty m n → Prop
  | term (i k) : Leads S (.term i k)
  | struct {k f fs} : S k = .struct f fs → Leads S f.1 → Leads S (.user k)
  | enum {k f fs} : S k = .enum f fs → (∀ g ∈ f :: fs, Leads S g.1) → Leads S (.user k)
  | tuple {t u us} : t.isTuple (u :: us) → Leads S u → Leads S t
  | box {t} : Leads S t → Leads S (.box t)
  | quote {t} : Leads S t → Leads S (.quote t)
  | parse {t} : Leads S t → Leads S (.parse t)
  | plus {t} : Leads S t → Leads S (.plus t)
  | split {t} (p) : Leads S t → Leads S (.split t p)
  | punct {t} (p) : Leads S t → Leads S (.punct t p)
  | recover {t} (r) : Leads S t → Leads S (.recover t r)

/-- `Loop` does not occur in the type. -/
def LoopFree (S : Schema m n) (t : Ty m n) : Prop :=
  ∀ u, Reach S.tyParts t u → ∀ a, u ≠ .loop a

/-- `Loop`, which always runs to the end of input, occurs only as the last part. -/
inductive LoopTail (S : Schema m n) : Ty m n → Prop
  | free {t} : LoopFree S t → LoopTail S t
  | loop {t} : LoopFree S t → LoopTail S (.loop t)
  | box {t} : LoopTail S t → LoopTail S (.box t)
  | quote {t} : LoopTail S t → LoopTail S (.quote t)
  | parse {t} : LoopTail S t → LoopTail S (.parse t)
  | tuple {t ts u} : t.isTuple (ts ++ [u]) → (∀ v ∈ ts, LoopFree S v) → LoopTail S u → LoopTail S t
  | struct {k f fs ts u} : S k = .struct f fs → (f :: fs).map (·.1) = ts ++ [u] → (∀ v ∈ ts, LoopFree S v) →
      LoopTail S u → LoopTail S (.user k)

/-- `Recover` does not occur in the type. -/
def RecoverFree (S : Schema m n) (t : Ty m n) : Prop :=
  ∀ u, Reach S.tyParts t u → ∀ a b, u ≠ .recover a b

end Teleparse
