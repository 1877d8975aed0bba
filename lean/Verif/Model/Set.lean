import Verif.Model.Lex
/-
Model of `lex::Set` (bit set of token types) and of the enumeration functions generated by
`derive_lexicon`.
-/
namespace Teleparse

/-- Bit width chosen by the macro for `n` variants, macros/src/lexicon.rs:48-59. (More than 128
variants are rejected by the macro; the model returns 128.) -/
def bitWidth (n : Nat) : Nat :=
  if n ≤ 8 then 8 else if n ≤ 16 then 16 else if n ≤ 32 then 32 else if n ≤ 64 then 64 else 128

/-- `Lexicon::Bit` -/
abbrev Bits (n : Nat) := BitVec (bitWidth n)

/-- Generated `to_bit`, macros/src/lexicon.rs:307: `(1 << self.id()) as Self::Bit`. The literal `1`
has no type constraint, so it is an `i32`: the shift is 32 bits wide, and the cast to a wider
unsigned type sign-extends. This is the build with overflow checks (`debug`): shifting by 32 or more
panics (`none`). -/
def toBitDebug {n : Nat} (t : Fin n) : Option (Bits n) :=
  if t.val < 32 then some (((1 : BitVec 32) <<< t.val).signExtend (bitWidth n)) else none

/-- Generated `to_bit` in a build without overflow checks (`release`): the shift amount is taken
modulo 32. -/
def toBit {n : Nat} (t : Fin n) : Bits n :=
  ((1 : BitVec 32) <<< (t.val % 32)).signExtend (bitWidth n)

/-- lex/set.rs:10 -/
structure LSet (n : Nat) where
  bits : Bits n
  deriving DecidableEq, Repr

namespace LSet
variable {n : Nat}

/-- lex/set.rs:30-32 -/
def new : LSet n := ⟨0⟩
/-- lex/set.rs:43-45 -/
def insert (s : LSet n) (t : Fin n) : LSet n := ⟨s.bits ||| toBit t⟩
/-- lex/set.rs:48-50 -/
def remove (s : LSet n) (t : Fin n) : LSet n := ⟨s.bits &&& ~~~ toBit t⟩
/-- lex/set.rs:53-55 -/
def contains (s : LSet n) (t : Fin n) : Bool := (s.bits &&& toBit t) != 0
/-- lex/set.rs:57-59 -/
def containsAll (s o : LSet n) : Bool := (s.bits &&& o.bits) == o.bits
/-- lex/set.rs:62-64 -/
def isEmpty (s : LSet n) : Bool := s.bits == 0
/-- lex/set.rs:66-68 -/
def union (s o : LSet n) : LSet n := ⟨s.bits ||| o.bits⟩

end LSet

/-- Generated `from_id_unchecked`, macros/src/lexicon.rs:306 (a transmute, undefined behaviour out of
range; the model uses an option). -/
def fromId? (n : Nat) (id : Nat) : Option (Fin n) := if h : id < n then some ⟨id, h⟩ else none

/-- Generated `id`, macros/src/lexicon.rs:305 -/
def tyId {n : Nat} (t : Fin n) : Nat := t.val

/-- Generated `first`, macros/src/lexicon.rs:308. An empty enum is rejected by the macro
(macros/src/lexicon.rs:36-38), so `none` does not occur. -/
def tyFirst? (n : Nat) : Option (Fin n) := fromId? n 0

/-- Generated `next`, macros/src/lexicon.rs:310-318: `None` for the last variant, else the variant
with the next id. -/
def tyNext? {n : Nat} (t : Fin n) : Option (Fin n) :=
  if t.val ≥ n - 1 then none else fromId? n (t.val + 1)

/-- The start state of the iterator, lex/set.rs:82 -/
def iterStart : Nat := 129

/-- lex/set.rs:85-88 -/
structure SetIter (n : Nat) where
  set : LSet n
  cur : Nat
  deriving DecidableEq, Repr

/-- `Iter::new`, lex/set.rs:91-93 -/
def SetIter.new {n : Nat} (s : LSet n) : SetIter n := ⟨s, iterStart⟩

/-- The loop skipping empty slots, lex/set.rs:106-110. Fuel: number of further steps; `n` steps are
always enough since `next` increases the id. -/
def SetIter.skip {n : Nat} (s : LSet n) : Nat → Fin n → Option (Fin n) × Nat
  | fuel, t =>
    if s.contains t then (some t, tyId t)
    else match fuel with
      | 0 => (none, tyId t)
      | fuel + 1 =>
        match tyNext? t with
        | none => (none, tyId t)
        | some t' => SetIter.skip s fuel t'

/-- `Iter::next`, lex/set.rs:98-111 -/
def SetIter.next {n : Nat} (it : SetIter n) : Option (Fin n) × SetIter n :=
  let start? : Option (Fin n) :=
    if it.cur = iterStart then tyFirst? n
    else (fromId? n it.cur).bind tyNext?
  match start? with
  | none => (none, it)
  | some t =>
    let r := SetIter.skip it.set n t
    (r.1, ⟨it.set, r.2⟩)

/-- Collect an iterator: call `next` until it returns `None`. Fuel bounds the number of calls. -/
def SetIter.collect {n : Nat} : Nat → SetIter n → List (Fin n)
  | 0, _ => []
  | fuel + 1, it =>
    match it.next with
    | (none, _) => []
    | (some t, it') => t :: SetIter.collect fuel it'

end Teleparse
