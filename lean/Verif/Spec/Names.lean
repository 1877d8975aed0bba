import Verif.Model.Names
/-
Specification for names of productions: how a name is read as an expression in (extended) Backus-Naur form, and the
sequences of types that a production stands for.
-/
namespace Teleparse
variable {m n : Nat}

/-! ## Sequences of names -/

/-- A set of sequences of names. -/
abbrev Lang := List Str → Prop

/-- Only the empty sequence. -/
def Lang.nothing : Lang := fun w => w = []
/-- Only the name `s`. -/
def Lang.single (s : Str) : Lang := fun w => w = [s]
/-- `A` then `B` -/
def Lang.cat (A B : Lang) : Lang := fun w => ∃ u v, w = u ++ v ∧ A u ∧ B v
/-- `A` or nothing -/
def Lang.opt (A : Lang) : Lang := fun w => w = [] ∨ A w
/-- any number of `A` -/
inductive Lang.Star (A : Lang) : Lang
  | nil : Lang.Star A []
  | cons {u v : List Str} : A u → Lang.Star A v → Lang.Star A (u ++ v)
/-- at least one `A` -/
def Lang.plus (A : Lang) : Lang := A.cat (Lang.Star A)
/-- at least one `A`, with `P` between them and possibly at the end -/
def Lang.list (A P : Lang) : Lang := A.cat ((Lang.Star (P.cat A)).cat P.opt)

/-! ## Reading a name

`(..)?`, `(..)*`, `(..)+` are options and repetitions, `(..)[P]+` and `(..)[P]*` are repetitions with the separator
`P`; what is written one after the other follows one after the other; everything else is a name. -/

/-- An open bracket, with what was read before it, and the elements in front of a `[`. -/
inductive Open
  | paren (before : Lang)
  | bracket (before elem : Lang)

/-- What was just read and may go on. -/
inductive Pending
  | nothing
  | word (s : Str)
  | group (A : Lang)
  | list (A P : Lang)

structure Reader where
  stack : List Open
  cur : Lang
  last : Pending

/-- What was read since the last open bracket. -/
def Reader.done (r : Reader) : Option Lang :=
  match r.last with
  | .nothing => some r.cur
  | .word s => some (r.cur.cat (.single s))
  | .group A => some (r.cur.cat A)
  | .list _ _ => none

/-- A character of a name. -/
def Reader.char (r : Reader) (c : Nat) : Option Reader :=
  match r.last with
  | .word s => some ⟨r.stack, r.cur, .word (s ++ [c])⟩
  | _ => r.done.map fun A => ⟨r.stack, A, .word [c]⟩

def Reader.step (r : Reader) (c : Nat) : Option Reader :=
  if c = 32 then r.done.map fun A => ⟨r.stack, A, .nothing⟩
  else if c = 40 then r.done.map fun A => ⟨.paren A :: r.stack, .nothing, .nothing⟩
  else if c = 41 then
    match r.stack with
    | .paren b :: st => r.done.map fun A => ⟨st, b, .group A⟩
    | _ => none
  else if c = 91 then
    match r.last with
    | .group A => some ⟨.bracket r.cur A :: r.stack, .nothing, .nothing⟩
    | _ => none
  else if c = 93 then
    match r.stack with
    | .bracket b A :: st => r.done.map fun P => ⟨st, b, .list A P⟩
    | _ => none
  else if c = 63 then
    match r.last with
    | .group A => some ⟨r.stack, r.cur.cat A.opt, .nothing⟩
    | _ => r.char c
  else if c = 43 then
    match r.last with
    | .group A => some ⟨r.stack, r.cur.cat A.plus, .nothing⟩
    | .list A P => some ⟨r.stack, r.cur.cat (A.list P), .nothing⟩
    | _ => r.char c
  else if c = 42 then
    match r.last with
    | .group A => some ⟨r.stack, r.cur.cat (.Star A), .nothing⟩
    | .list A P => some ⟨r.stack, r.cur.cat (A.list P).opt, .nothing⟩
    | _ => r.char c
  else r.char c

def Reader.run (r : Reader) (s : Str) : Option Reader := s.foldlM Reader.step r

/-- What an expression stands for; `none` if it is not one. -/
def readName (s : Str) : Option Lang :=
  match Reader.run ⟨[], .nothing, .nothing⟩ s with
  | some r => if r.stack.isEmpty then r.done else none
  | none => none

/-! ## What a production stands for -/

/-- The name of a terminal: its literal, if it has one. -/
def terminalName (N : Idents m) (k : Nat) : Terminal n → Str
  | ⟨_, some lit⟩ => lit
  | ⟨_, none⟩ => N.term k

/-- The types that have a name: user-defined types and terminals. -/
def leafName (N : Idents m) : PId m n → Option Str
  | .user k => some (N.user k)
  | .term k t => some (terminalName N k t)
  | .box p => leafName N p
  | _ => none

/-- The sequence of productions `l` can stand for the sequence `w` of types that have a name: productions without a
name are replaced by their rules. -/
inductive Stands (S : Schema m n) (N : Idents m) : List (PId m n) → List Str → Prop
  | nil : Stands S N [] []
  | name {p l s w} : leafName N p = some s → Stands S N l w → Stands S N (p :: l) (s :: w)
  | eps {p l w} : leafName N p = none → S.rule p = .eps → Stands S N l w → Stands S N (p :: l) w
  | seq {p l l' w} : leafName N p = none → S.rule p = .seq l' → Stands S N (l' ++ l) w → Stands S N (p :: l) w
  | alt {p l l' j w} : leafName N p = none → S.rule p = .alt l' → j ∈ l' → Stands S N (j :: l) w →
      Stands S N (p :: l) w

/-- The name is not empty and has no blanks or brackets. -/
def PlainName (s : Str) : Prop := s ≠ [] ∧ ∀ c ∈ s, c ≠ 32 ∧ c ≠ 40 ∧ c ≠ 41 ∧ c ≠ 91 ∧ c ≠ 93

/-- All names of user types and terminals inside of a production are plain. -/
def PId.Plain (N : Idents m) : PId m n → Prop
  | .term k t => PlainName (terminalName N k t)
  | .eps => True
  | .user k => PlainName (N.user k)
  | .opt p | .plus p | .box p => p.Plain N
  | .punct a b | .tup2 a b => a.Plain N ∧ b.Plain N
  | .tup3 a b c => a.Plain N ∧ b.Plain N ∧ c.Plain N
  | .tup4 a b c d => a.Plain N ∧ b.Plain N ∧ c.Plain N ∧ d.Plain N
  | .tup5 a b c d e => a.Plain N ∧ b.Plain N ∧ c.Plain N ∧ d.Plain N ∧ e.Plain N

/-- Tuples, also in boxes. -/
def PId.isTuple : PId m n → Bool
  | .box p => p.isTuple
  | .tup2 .. | .tup3 .. | .tup4 .. | .tup5 .. => true
  | _ => false

/-- Begins with an option or a repetition. -/
def PId.opens : PId m n → Bool
  | .opt _ | .plus _ | .punct _ _ | .eps => true
  | .box p => p.opens
  | .tup2 a _ | .tup3 a _ _ | .tup4 a _ _ _ | .tup5 a _ _ _ _ => a.opens
  | .term _ _ | .user _ => false

/-- Ends with a repetition of at least one element. -/
def PId.shuts : PId m n → Bool
  | .plus _ | .punct _ _ => true
  | .box p => p.shuts
  | .tup2 _ z | .tup3 _ _ z | .tup4 _ _ _ z | .tup5 _ _ _ _ z => z.shuts
  | .term _ _ | .user _ | .opt _ | .eps => false

/-- No tuple in an option both begins with an option or repetition and ends with a repetition. -/
def PId.Clear : PId m n → Prop
  | .term _ _ | .eps | .user _ => True
  | .opt p => p.Clear ∧ ¬ (p.isTuple = true ∧ p.opens = true ∧ p.shuts = true)
  | .plus p | .box p => p.Clear
  | .punct a b | .tup2 a b => a.Clear ∧ b.Clear
  | .tup3 a b c => a.Clear ∧ b.Clear ∧ c.Clear
  | .tup4 a b c d => a.Clear ∧ b.Clear ∧ c.Clear ∧ d.Clear
  | .tup5 a b c d e => a.Clear ∧ b.Clear ∧ c.Clear ∧ d.Clear ∧ e.Clear

end Teleparse
