import Verif.Spec.Parses
import Verif.Model.Metadata
/-
A check on a root and its tables. It is not part of the code: it is a condition that can be computed for a given
grammar, and that is enough for everything a user can expect of a parser.
-/
namespace Teleparse
variable {m n : Nat}

/-- What comes from the members of the list by `step`, up to a depth. -/
def grow {I : Type} [DecidableEq I] (step : List I → List I) : Nat → List I → List I
  | 0, l => l
  | k + 1, l =>
    match ((step l).filter fun t => !l.contains t).eraseDups with
    | [] => l
    | more => grow step k (l ++ more)

/-- The types in the given ones, up to a depth. -/
def Schema.spread (S : Schema m n) (fuel : Nat) (l : List (Ty m n)) : List (Ty m n) :=
  grow (fun l => l.flatMap S.tyParts) fuel l

/-- The list has all parts of its types. -/
def Schema.closed (S : Schema m n) (l : List (Ty m n)) : Bool :=
  l.all fun a => (S.tyParts a).all fun b => decide (b ∈ l)

/-- No type in `t` has the property `bad`. -/
def Schema.lacks (S : Schema m n) (fuel : Nat) (bad : Ty m n → Bool) (t : Ty m n) : Bool :=
  let l := S.spread fuel [t]
  decide (t ∈ l) && S.closed l && l.all fun a => !bad a

def Ty.isLoopB : Ty m n → Bool
  | .loop _ => true
  | _ => false

def Ty.isRecoverB : Ty m n → Bool
  | .recover _ _ => true
  | _ => false

def Ty.isPunctB : Ty m n → Bool
  | .punct _ _ => true
  | _ => false

/-- `Split` with a separator that can be empty. -/
def Ty.emptySep (nul : PId m n → Bool) : Ty m n → Bool
  | .split _ p => nul p.pid
  | _ => false

/-- `Loop` occurs only as the last part. -/
def Schema.loopLast (S : Schema m n) (free : Ty m n → Bool) : Nat → Ty m n → Bool
  | 0, t => free t
  | k + 1, t => free t || match t with
    | .loop a => free a
    | .box a | .quote a | .parse a => S.loopLast free k a
    | .tup2 a b => free a && S.loopLast free k b
    | .tup3 a b c => free a && free b && S.loopLast free k c
    | .tup4 a b c d => free a && free b && free c && S.loopLast free k d
    | .tup5 a b c d e => free a && free b && free c && free d && S.loopLast free k e
    | .user u => match S u with
      | .struct f fs => ((f :: fs).map (·.1)).dropLast.all free &&
        S.loopLast free k (((f :: fs).map (·.1)).getLast (by simp))
      | .enum _ _ => false
    | _ => false

/-- The productions with a rule over the given ones. -/
def prodStep {I : Type} [DecidableEq I] (G : Grammar I n) (s : List I) : List I :=
  (G.filter fun p => match p.2 with
    | .eps => true
    | .term _ => true
    | .seq l => l.all fun j => s.contains j
    | .alt l => l.any fun j => s.contains j).map (·.1)

/-- The productions found to derive something, in `k` rounds. -/
def prodIter {I : Type} [DecidableEq I] (G : Grammar I n) : Nat → List I
  | 0 => []
  | k + 1 => prodStep G (prodIter G k)

/-- The parts of a sequence after which all parts are nullable. -/
def tailsOf (nul : PId m n → Bool) : List (PId m n) → List (PId m n)
  | [] => []
  | y :: l => if l.all nul then y :: tailsOf nul l else tailsOf nul l

/-- The last parts of the rules of the given productions. -/
def tailStep (G : Grammar (PId m n) n) (nul : PId m n → Bool) (s : List (PId m n)) : List (PId m n) :=
  G.flatMap fun p => if s.contains p.1 then
    match p.2 with
    | .alt l => l
    | .seq l => tailsOf nul l
    | _ => []
  else []

/-- The parts of a sequence. -/
def seqOf : Rule (PId m n) n → List (PId m n)
  | .seq l => l
  | _ => []
/-- The alternatives of a choice. -/
def altOf : Rule (PId m n) n → List (PId m n)
  | .alt l => l
  | _ => []

/-- The first part, and the next one if it can be empty, and so on. -/
def nexts (nul : PId m n → Bool) : List (PId m n) → List (PId m n)
  | [] => []
  | b :: l => b :: if nul b then nexts nul l else []

/-- The pairs of parts with parts between them that can all be empty, at least one. -/
def gaps (nul : PId m n → Bool) : List (PId m n) → List (PId m n × PId m n)
  | a :: c :: l => (if nul c then (nexts nul l).map fun b => (a, b) else []) ++ gaps nul (c :: l)
  | _ => []

def PId.isPunct : PId m n → Bool
  | .punct _ _ => true
  | _ => false

/-- If parts between `a` and `b` are empty, what `b` begins with does not matter for the end of `a`: there is no
`Punct` at the end of `a`, and no choice with an empty alternative and one that begins like `b`. -/
def gapCheck (G : Grammar (PId m n) n) (first : PId m n → TSet n) (k : Nat) : Bool :=
  let nul := fun i => (first i).contains none
  G.all fun p => (gaps nul (seqOf p.2)).all fun ab =>
    let s := grow (tailStep G nul) k [ab.1]
    (tailStep G nul s).all (fun i => s.contains i) && s.all (fun i => !i.isPunct) &&
      G.all fun q => !s.contains q.1 || ((altOf q.2).all fun j => !nul j) ||
        (altOf q.2).all fun j => !(first j).intersects (first ab.2) false

/-- The check. The grammar is accepted, and: empty parts of sequences do not matter for what is before them, every
production derives something, no enum can be empty, no separator of `Split` can be empty, `Loop` occurs only as the
last part, `Recover` does not occur in options, repetitions and lists. -/
def Schema.plain (S : Schema m n) (fuel : Nat) (root : Ty m n) : Bool :=
  match registerFrom S.rule fuel root.pid, S.metadata fuel root with
  | some G, some (.ok md) =>
    let nul : PId m n → Bool := fun i => (md.first.get i).contains none
    let l := S.spread fuel [root]
    gapCheck G md.first.get fuel &&
    (G.map (·.1)).all (fun i => (prodIter G fuel).contains i) &&
    (List.finRange m).all (fun k => match S k with
      | .enum _ _ => !nul (.user k)
      | .struct _ _ => true) &&
    S.lacks fuel (Ty.emptySep nul) root &&
    S.loopLast (S.lacks fuel Ty.isLoopB) fuel root &&
    decide (root ∈ l) && S.closed l && l.all (fun a => a.absorbed.all (S.lacks fuel Ty.isRecoverB))
  | _, _ => false

end Teleparse
