import Verif.Spec.Parses
/-
Specification of error-free parsing as predictive matching: a match of a type (`Parses`) in which every choice is
the one that the computed sets give for the next token. Nothing is said about errors, recovery or the state of a parser.
-/
namespace Teleparse
variable {m n : Nat}

/-- The next token before the cells `c`, if `next` is the next token after them. -/
def ahead (source : Str) (c : List (Cell n)) (next : Option (TokenSrc n)) : Option (TokenSrc n) :=
  (wordOf source c).head?.or next

/-- There is a next token and it is in the FIRST set. -/
def Metadata.sees {I : Type} [DecidableEq I] (md : Metadata I n) (i : I) (next : Option (TokenSrc n)) : Prop :=
  ∃ w, next = some w ∧ (md.first.get i).contains (some w) = true

/-- A part that must be there can begin: the next token, or the end of input, is in the FIRST set, or the part can be
empty. -/
def Metadata.starts {I : Type} [DecidableEq I] (md : Metadata I n) (i : I) (next : Option (TokenSrc n)) : Prop :=
  (md.first.get i).contains next = true ∨ (md.first.get i).containsE = true

/-- Claims about predictive matching. In each, `pos` is the position after the token before, and `next` is the next
token after the match. -/
inductive Claim (m n : Nat) where
  /-- the cells `c` match `t`, with the tree `x` -/
  | ty (pos : Nat) (t : Ty m n) (c : List (Cell n)) (x : Tree n) (next : Option (TokenSrc n))
  /-- the groups of cells match the types -/
  | seq (pos : Nat) (ts : List (Ty m n)) (cs : List (List (Cell n))) (xs : List (Tree n)) (next : Option (TokenSrc n))
  /-- the groups are all elements of a repetition of `t`, after the first -/
  | more (pos : Nat) (t : Ty m n) (cs : List (List (Cell n))) (xs : List (Tree n)) (next : Option (TokenSrc n))
  /-- the groups are elements of `t` up to the end of input -/
  | loop (pos : Nat) (t : Ty m n) (cs : List (List (Cell n))) (xs : List (Tree n))
  /-- the groups are separators `p` and elements `t`, in turn, after the first element of a `Split` -/
  | split (pos : Nat) (t p : Ty m n) (cs : List (List (Cell n))) (ps es : List (Tree n)) (next : Option (TokenSrc n))
  /-- the groups are separators `p` and elements `t`, in turn, after the first element of a `Punct` -/
  | punct (pos : Nat) (t p : Ty m n) (cs : List (List (Cell n))) (ps es : List (Tree n)) (next : Option (TokenSrc n))

/-- Predictive matching with the sets of `md`. -/
inductive Chosen (S : Schema m n) (md : Metadata (PId m n) n) (source : Str) : Claim m n → Prop
  | term {pos i k t next} : k.Matches ⟨t.ty, textOf source t.span⟩ →
      Chosen S md source (.ty pos (.term i k) [Cell.ofToken t] (.tok t) next)
  | struct {pos k f fs cs l next} : S k = .struct f fs →
      Chosen S md source (.seq pos ((f :: fs).map (·.1)) cs l next) →
      Chosen S md source (.ty pos (.user k) (addAll cs ((f :: fs).map (·.2))) (.seq (spanOf l) l) next)
  /-- the variant is the one in the jump table -/
  | enum {pos k f fs i t sem c x next} : S k = .enum f fs → (f :: fs)[(i : Nat)]? = some (t, sem) →
      md.jump.lookUp (.user k) (ahead source c next) = some i → Chosen S md source (.ty pos t c x next) →
      Chosen S md source (.ty pos (.user k) (c.map (Cell.add sem)) (.variant i x) next)
  | tuple {pos t ts cs l next} : t.isTuple ts → Chosen S md source (.seq pos ts cs l next) →
      Chosen S md source (.ty pos t cs.flatten (.seq (spanOf l) l) next)
  | box {pos t c x next} : Chosen S md source (.ty pos t c x next) → Chosen S md source (.ty pos (.box t) c x next)
  /-- an optional part is there iff the next token can begin it -/
  | optNone {pos t next} : ¬ md.sees t.pid next →
      Chosen S md source (.ty pos (.option t) [] (.optNone ⟨pos, pos⟩) next)
  | optSome {pos t c x next} : md.sees t.pid (ahead source c next) → Chosen S md source (.ty pos t c x next) →
      Chosen S md source (.ty pos (.option t) c (.optSome x.span x) next)
  | existNone {pos t next} : ¬ md.sees t.pid next →
      Chosen S md source (.ty pos (.exist t) [] (.exist ⟨pos, pos⟩ false) next)
  | existSome {pos t c x next} : md.sees t.pid (ahead source c next) → Chosen S md source (.ty pos t c x next) →
      Chosen S md source (.ty pos (.exist t) c (.exist x.span true) next)
  | quote {pos t c x next} : Chosen S md source (.ty pos t c x next) →
      Chosen S md source (.ty pos (.quote t) c (.text x.span (textOf source x.span)) next)
  | parse {pos t c x next} : Chosen S md source (.ty pos t c x next) →
      Chosen S md source (.ty pos (.parse t) c (.text x.span (textOf source x.span)) next)
  | plus {pos t c x cs xs next} : Chosen S md source (.ty pos t c x (ahead source cs.flatten next)) →
      Chosen S md source (.more (endOf pos c) t cs xs next) →
      Chosen S md source (.ty pos (.plus t) (c ++ cs.flatten) (.list (spanOf (x :: xs)) (x :: xs)) next)
  | starNone {pos t next} : ¬ md.sees (Ty.plus t).pid next →
      Chosen S md source (.ty pos (.star t) [] (.list ⟨pos, pos⟩ []) next)
  | starSome {pos t c x cs xs next} : md.sees (Ty.plus t).pid (ahead source (c ++ cs.flatten) next) →
      Chosen S md source (.ty pos t c x (ahead source cs.flatten next)) →
      Chosen S md source (.more (endOf pos c) t cs xs next) →
      Chosen S md source (.ty pos (.star t) (c ++ cs.flatten) (.list (spanOf (x :: xs)) (x :: xs)) next)
  /-- `Loop` takes all tokens that are left -/
  | loopNone {pos t} : Chosen S md source (.ty pos (.loop t) [] (.list ⟨pos, pos⟩ []) none)
  | loopSome {pos t cs xs} : xs ≠ [] → Chosen S md source (.loop pos t cs xs) →
      Chosen S md source (.ty pos (.loop t) cs.flatten (.list (spanOf xs) xs) none)
  | split {pos t p c x cs ps es next} : Chosen S md source (.ty pos t c x (ahead source cs.flatten next)) →
      Chosen S md source (.split (endOf pos c) t p cs ps es next) →
      Chosen S md source (.ty pos (.split t p) (c ++ cs.flatten)
        (.split (spanOf (interleave (x :: es) ps)) (x :: es) ps) next)
  | punct {pos t p c x cs ps es next} : Chosen S md source (.ty pos t c x (ahead source cs.flatten next)) →
      Chosen S md source (.punct (endOf pos c) t p cs ps es next) →
      Chosen S md source (.ty pos (.punct t p) (c ++ cs.flatten)
        (.split (spanOf (interleave (x :: es) ps)) (x :: es) ps) next)
  | recover {pos t r c x d y next} : md.starts t.pid (ahead source (c ++ d) next) →
      Chosen S md source (.ty pos t c x (ahead source d next)) → md.starts r.pid (ahead source d next) →
      Chosen S md source (.ty (endOf pos c) r d y next) →
      Chosen S md source (.ty pos (.recover t r) (c ++ d) (.recover x.span x y) next)
  | seqNil {pos next} : Chosen S md source (.seq pos [] [] [] next)
  | seqCons {pos t ts c cs x xs next} : Chosen S md source (.ty pos t c x (ahead source cs.flatten next)) →
      Chosen S md source (.seq (endOf pos c) ts cs xs next) →
      Chosen S md source (.seq pos (t :: ts) (c :: cs) (x :: xs) next)
  /-- a repetition goes on iff the next token can begin it -/
  | moreStop {pos t next} : ¬ md.sees (Ty.plus t).pid next → Chosen S md source (.more pos t [] [] next)
  | moreGo {pos t c cs x xs next} : md.sees (Ty.plus t).pid (ahead source (c ++ cs.flatten) next) →
      Chosen S md source (.ty pos t c x (ahead source cs.flatten next)) →
      Chosen S md source (.more (endOf pos c) t cs xs next) →
      Chosen S md source (.more pos t (c :: cs) (x :: xs) next)
  | loopStop {pos t} : Chosen S md source (.loop pos t [] [])
  | loopGo {pos t c cs x xs} : md.sees (Ty.loop t).pid (ahead source (c ++ cs.flatten) none) → c ≠ [] →
      Chosen S md source (.ty pos t c x (ahead source cs.flatten none)) →
      Chosen S md source (.loop (endOf pos c) t cs xs) → Chosen S md source (.loop pos t (c :: cs) (x :: xs))
  /-- a `Split` goes on iff the next token can begin a separator -/
  | splitStop {pos t p next} : ¬ md.sees p.pid next → Chosen S md source (.split pos t p [] [] [] next)
  | splitGo {pos t p c q d x cs ps es next} : md.sees p.pid (ahead source (c ++ (d ++ cs.flatten)) next) →
      Chosen S md source (.ty pos p c q (ahead source (d ++ cs.flatten) next)) →
      md.starts t.pid (ahead source (d ++ cs.flatten) next) →
      Chosen S md source (.ty (endOf pos c) t d x (ahead source cs.flatten next)) →
      Chosen S md source (.split (endOf (endOf pos c) d) t p cs ps es next) →
      Chosen S md source (.split pos t p (c :: d :: cs) (q :: ps) (x :: es) next)
  | punctStop {pos t p next} : ¬ md.sees p.pid next → Chosen S md source (.punct pos t p [] [] [] next)
  /-- a trailing separator: nothing more, or a token that can follow and cannot begin an element -/
  | punctTrail {pos t p c q next} : md.sees p.pid (ahead source c next) → Chosen S md source (.ty pos p c q next) →
      ¬ md.sees t.pid next → (∀ w, next = some w → (md.follow.get (Ty.punct t p).pid).contains (some w) = true) →
      Chosen S md source (.punct pos t p [c] [q] [] next)
  | punctGo {pos t p c q d x cs ps es next} : md.sees p.pid (ahead source (c ++ (d ++ cs.flatten)) next) →
      Chosen S md source (.ty pos p c q (ahead source (d ++ cs.flatten) next)) →
      md.sees t.pid (ahead source (d ++ cs.flatten) next) →
      Chosen S md source (.ty (endOf pos c) t d x (ahead source cs.flatten next)) →
      Chosen S md source (.punct (endOf (endOf pos c) d) t p cs ps es next) →
      Chosen S md source (.punct pos t p (c :: d :: cs) (q :: ps) (x :: es) next)

end Teleparse
