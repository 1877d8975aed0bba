import Verif.Spec.Tokens
/-
Specification: what a tree with mistakes in it is a tree of. A `Form` is a tree over words, without positions; some of
the words are tokens of the input, the others were put in.
-/
namespace Teleparse
variable {m n : Nat}

/-- A word of a corrected input: a token of the input, or a word that was put in. -/
inductive Leaf (n : Nat) where
  | kept (t : Token n)
  | put (w : TokenSrc n)

def Leaf.word (source : Str) : Leaf n → TokenSrc n
  | .kept t => ⟨t.ty, textOf source t.span⟩
  | .put w => w

/-- A tree over words. Boxes, `Quote` and `Parse` leave no trace; `Exists` keeps what it found. The elements and
separators of a list alternate. -/
inductive Form (n : Nat) where
  | leaf (l : Leaf n)
  | node (l : List (Form n))
  | variant (i : Nat) (x : Form n)
  | absent
  | present (x : Form n)

mutual
/-- The words of the form from left to right. -/
def Form.leaves : Form n → List (Leaf n)
  | .leaf l => [l]
  | .node l => leavesAll l
  | .variant _ x => x.leaves
  | .absent => []
  | .present x => x.leaves

def leavesAll : List (Form n) → List (Leaf n)
  | [] => []
  | x :: l => x.leaves ++ leavesAll l
end

/-- The tokens of the input among the words. -/
def keptOf (l : List (Leaf n)) : List (Token n) :=
  l.filterMap fun | .kept t => some t | .put _ => none

/-- The number of words that were put in. -/
def putsOf (l : List (Leaf n)) : Nat :=
  l.countP fun | .kept _ => false | .put _ => true

mutual
/-- The words match the type, and this is how. Nothing is said about lookahead, tables or errors. -/
inductive FormOf (S : Schema m n) (source : Str) : Ty m n → Form n → Prop
  | term {i k l} : k.Matches (l.word source) → FormOf S source (.term i k) (.leaf l)
  | struct {k f fs l} : S k = .struct f fs → FormsOf S source ((f :: fs).map (·.1)) l →
      FormOf S source (.user k) (.node l)
  | enum {k f fs i t sem x} : S k = .enum f fs → (f :: fs)[(i : Nat)]? = some (t, sem) → FormOf S source t x →
      FormOf S source (.user k) (.variant i x)
  | tuple {t ts l} : t.isTuple ts → FormsOf S source ts l → FormOf S source t (.node l)
  | box {t x} : FormOf S source t x → FormOf S source (.box t) x
  | quote {t x} : FormOf S source t x → FormOf S source (.quote t) x
  | parse {t x} : FormOf S source t x → FormOf S source (.parse t) x
  | optNone {t} : FormOf S source (.option t) .absent
  | optSome {t x} : FormOf S source t x → FormOf S source (.option t) (.present x)
  | existNone {t} : FormOf S source (.exist t) .absent
  | existSome {t x} : FormOf S source t x → FormOf S source (.exist t) (.present x)
  | plus {t l k} : FormsOf S source (List.replicate (k + 1) t) l → FormOf S source (.plus t) (.node l)
  | star {t l k} : FormsOf S source (List.replicate k t) l → FormOf S source (.star t) (.node l)
  | loop {t l k} : FormsOf S source (List.replicate k t) l → FormOf S source (.loop t) (.node l)
  | split {t p l k} : FormsOf S source (alternate t p (2 * k + 1)) l → FormOf S source (.split t p) (.node l)
  | punct {t p l k} : FormsOf S source (alternate t p (k + 1)) l → FormOf S source (.punct t p) (.node l)
  | recover {t r l} : FormsOf S source [t, r] l → FormOf S source (.recover t r) (.node l)

/-- The forms match the types one by one. -/
inductive FormsOf (S : Schema m n) (source : Str) : List (Ty m n) → List (Form n) → Prop
  | nil : FormsOf S source [] []
  | cons {t ts x l} : FormOf S source t x → FormsOf S source ts l → FormsOf S source (t :: ts) (x :: l)
end

mutual
/-- The tree has the form, where terminals stand for words as `R` says. With `gaps`, elements of lists and heads of
`Recover` can be missing in the tree. `Exists`, `Quote` and `Parse` do not show what is in them. -/
inductive Tree.Has (R : Token n → Leaf n → Prop) (gaps : Prop) : Tree n → Form n → Prop
  | tok {t l} : R t l → Tree.Has R gaps (.tok t) (.leaf l)
  | seq {sp l fs} : HasAll R gaps l fs → Tree.Has R gaps (.seq sp l) (.node fs)
  | variant {i x f} : Tree.Has R gaps x f → Tree.Has R gaps (.variant i x) (.variant i f)
  | optNone {sp} : Tree.Has R gaps (.optNone sp) .absent
  | optSome {sp x f} : Tree.Has R gaps x f → Tree.Has R gaps (.optSome sp x) (.present f)
  | existNone {sp} : Tree.Has R gaps (.exist sp false) .absent
  | existSome {sp f} : Tree.Has R gaps (.exist sp true) (.present f)
  | text {sp s f} : Tree.Has R gaps (.text sp s) f
  | list {sp l fs} : HasAll R gaps l fs → Tree.Has R gaps (.list sp l) (.node fs)
  | split {sp es ps fs' fs gs} : HasAll R gaps es fs' → fs' = fs ∨ (gaps ∧ fs'.Sublist fs) → HasAll R gaps ps gs →
      fs.length = gs.length + 1 ∨ fs.length = gs.length →
      Tree.Has R gaps (.split sp es ps) (.node (interleave fs gs))
  | recover {hs x y f g} : Tree.Has R gaps x f → Tree.Has R gaps y g →
      Tree.Has R gaps (.recover hs x y) (.node [f, g])
  | recoverNone {hs y f g} : gaps → Tree.Has R gaps y g → Tree.Has R gaps (.recoverNone hs y) (.node [f, g])

inductive HasAll (R : Token n → Leaf n → Prop) (gaps : Prop) : List (Tree n) → List (Form n) → Prop
  | nil : HasAll R gaps [] []
  | cons {x l f fs} : Tree.Has R gaps x f → HasAll R gaps l fs → HasAll R gaps (x :: l) (f :: fs)
end

/-- A token in a tree stands for itself; a terminal with an empty span stands for a word that was put in. -/
def StandsFor (t : Token n) : Leaf n → Prop
  | .kept u => u = t ∧ t.span.lo < t.span.hi
  | .put w => w.ty = t.ty ∧ t.span.lo = t.span.hi

/-- The token has the type and the text of the word. The word is one of a corrected `source`, the token one of the text
`source'`. -/
def SameWord (source source' : Str) (t : Token n) (l : Leaf n) : Prop :=
  l.word source = ⟨t.ty, textOf source' t.span⟩

/-- No `Punct` and no `Recover` in the type: these leave out what they cannot find. -/
def NoGaps (S : Schema m n) (t : Ty m n) : Prop :=
  ∀ u, Reach S.tyParts t u → ∀ a b, u ≠ .punct a b ∧ u ≠ .recover a b

/-- What `Punct` and `Recover` in the type can leave out is a type that some words match. -/
def Fillable (S : Schema m n) (source : Str) (t : Ty m n) : Prop :=
  ∀ u, Reach S.tyParts t u → ∀ a b, u = .punct a b ∨ u = .recover a b →
    ∃ f, FormOf S source a f ∧ keptOf f.leaves = []

end Teleparse
