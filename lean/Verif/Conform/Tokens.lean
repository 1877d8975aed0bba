import Verif.Model.TokenVec
import Verif.Model.Message
/-
The unit tests in lex/vec.rs, lex/token.rs and lex/set.rs. These are tests of the model, not proofs. The names are
those of the tests.
-/
namespace Teleparse.Conform

/-- `TestTokenType`, src/test.rs:5-14 -/
abbrev A : Fin 7 := 0
abbrev B : Fin 7 := 1
abbrev C : Fin 7 := 2
abbrev D : Fin 7 := 3
abbrev E : Fin 7 := 4
abbrev G : Fin 7 := 6

def setOf (l : List (Fin 7)) : LSet 7 := l.foldl LSet.insert LSet.new

/-- `example()`, lex/vec.rs:367-379 -/
def vec : TokenVec 7 :=
  let v : TokenVec 7 := ((((((TokenVec.push [] ⟨⟨1, 2⟩, B⟩).push ⟨⟨3, 4⟩, C⟩).push ⟨⟨4, 5⟩, C⟩).push
    ⟨⟨7, 9⟩, B⟩).push ⟨⟨11, 13⟩, C⟩).push ⟨⟨15, 17⟩, C⟩)
  ((v.applySemanticInside ⟨4, 9⟩ (setOf [A])).applySemanticInside ⟨3, 13⟩ (setOf [D])).applySemanticInside ⟨1, 17⟩
    (setOf [E])

/-- `vec[lo..hi]` -/
def part (lo hi : Nat) : TokenVec 7 := (vec.drop lo).take (hi - lo)

/-- `|x| x.semantics().contains(t)` -/
def has (t : Fin 7) (c : Cell 7) : Bool := c.semantic.contains t

/-! ## lex/vec.rs -/

/-- at_span_empty -/
example :
    vec.atSpan ⟨0, 1⟩ = none ∧
    vec.atSpan ⟨2, 3⟩ = none ∧
    vec.atSpan ⟨1, 4⟩ = none ∧
    vec.atSpan ⟨1, 1⟩ = none ∧
    vec.atSpan ⟨16, 17⟩ = none := by decide +kernel

/-- at_span_ok -/
example :
    vec.atSpan ⟨1, 2⟩ = vec[0]? ∧
    vec.atSpan ⟨1, 3⟩ = vec[0]? ∧
    vec.atSpan ⟨3, 4⟩ = vec[1]? ∧
    vec.atSpan ⟨15, 18⟩ = vec[5]? := by decide +kernel

/-- overlap_empty_input -/
example :
    vec.overlap? ⟨2, 2⟩ = some [] ∧
    vec.overlap? ⟨7, 7⟩ = some [] ∧
    TokenVec.overlap? ([] : TokenVec 7) ⟨0, 0⟩ = some [] ∧
    TokenVec.overlap? ([] : TokenVec 7) ⟨0, 1⟩ = some [] ∧
    TokenVec.overlap? ([] : TokenVec 7) ⟨1, 2⟩ = some [] ∧
    TokenVec.overlap? ([] : TokenVec 7) ⟨2, 2⟩ = some [] ∧
    TokenVec.overlap? ([] : TokenVec 7) ⟨0, 2⟩ = some [] ∧
    TokenVec.inside? ([] : TokenVec 7) ⟨2, 2⟩ = some [] ∧
    TokenVec.inside? ([] : TokenVec 7) ⟨7, 7⟩ = some [] := by decide +kernel

/-- overlap_none -/
example :
    vec.overlap? ⟨2, 3⟩ = some [] ∧
    vec.overlap? ⟨9, 10⟩ = some [] ∧
    vec.inside? ⟨2, 3⟩ = some [] ∧
    vec.inside? ⟨9, 10⟩ = some [] := by decide +kernel

/-- both_end_fully_inside -/
example :
    vec.overlap? ⟨1, 9⟩ = some (part 0 4) ∧
    vec.inside? ⟨1, 9⟩ = some (part 0 4) := by decide +kernel

/-- left_fully_inside_right_partially_inside -/
example :
    vec.overlap? ⟨3, 8⟩ = some (part 1 4) ∧
    vec.inside? ⟨3, 8⟩ = some (part 1 3) := by decide +kernel

/-- left_fully_inside_right_fully_outside -/
example :
    vec.overlap? ⟨1, 10⟩ = some (part 0 4) ∧
    vec.inside? ⟨1, 10⟩ = some (part 0 4) := by decide +kernel

/-- left_fully_inside_right_touching -/
example :
    vec.overlap? ⟨1, 15⟩ = some (part 0 5) ∧
    vec.inside? ⟨1, 15⟩ = some (part 0 5) := by decide +kernel

/-- left_fully_inside_right_over_max -/
example :
    vec.overlap? ⟨7, 100⟩ = some (part 3 6) ∧
    vec.inside? ⟨7, 100⟩ = some (part 3 6) := by decide +kernel

/-- left_partially_inside_right_fully_inside -/
example :
    vec.overlap? ⟨8, 13⟩ = some (part 3 5) ∧
    vec.inside? ⟨8, 13⟩ = some (part 4 5) := by decide +kernel

/-- both_partially_inside -/
example :
    vec.overlap? ⟨8, 16⟩ = some (part 3 6) ∧
    vec.inside? ⟨8, 16⟩ = some (part 4 5) ∧
    vec.inside? ⟨8, 12⟩ = some [] := by decide +kernel

/-- left_partially_inside_right_fully_outside -/
example :
    vec.overlap? ⟨8, 14⟩ = some (part 3 5) ∧
    vec.inside? ⟨8, 14⟩ = some (part 4 5) := by decide +kernel

/-- left_partially_inside_right_touching -/
example :
    vec.overlap? ⟨8, 15⟩ = some (part 3 5) ∧
    vec.inside? ⟨8, 15⟩ = some (part 4 5) := by decide +kernel

/-- left_partially_inside_right_over_max -/
example :
    vec.overlap? ⟨12, 100⟩ = some (part 4 6) ∧
    vec.inside? ⟨12, 100⟩ = some (part 5 6) := by decide +kernel

/-- left_fully_outside_right_fully_inside -/
example :
    vec.overlap? ⟨6, 13⟩ = some (part 3 5) ∧
    vec.inside? ⟨6, 13⟩ = some (part 3 5) := by decide +kernel

/-- left_fully_outside_right_partially_inside -/
example :
    vec.overlap? ⟨6, 12⟩ = some (part 3 5) ∧
    vec.inside? ⟨6, 12⟩ = some (part 3 4) := by decide +kernel

/-- both_fully_outside -/
example :
    vec.overlap? ⟨6, 14⟩ = some (part 3 5) ∧
    vec.inside? ⟨6, 14⟩ = some (part 3 5) := by decide +kernel

/-- left_fully_outside_right_touching -/
example :
    vec.overlap? ⟨6, 15⟩ = some (part 3 5) ∧
    vec.inside? ⟨6, 15⟩ = some (part 3 5) := by decide +kernel

/-- left_fully_outside_right_over_max -/
example :
    vec.overlap? ⟨6, 100⟩ = some (part 3 6) ∧
    vec.inside? ⟨6, 100⟩ = some (part 3 6) := by decide +kernel

/-- left_fully_outside_touching_right_fully_inside -/
example :
    vec.overlap? ⟨2, 13⟩ = some (part 1 5) ∧
    vec.inside? ⟨2, 13⟩ = some (part 1 5) := by decide +kernel

/-- left_full_outside_touching_right_partially_inside -/
example :
    vec.overlap? ⟨2, 12⟩ = some (part 1 5) ∧
    vec.inside? ⟨2, 12⟩ = some (part 1 4) := by decide +kernel

/-- left_full_outside_touching_right_fully_outside -/
example :
    vec.overlap? ⟨2, 10⟩ = some (part 1 4) ∧
    vec.inside? ⟨2, 10⟩ = some (part 1 4) := by decide +kernel

/-- left_full_outside_touching_right_fully_outside_touching -/
example :
    vec.overlap? ⟨2, 15⟩ = some (part 1 5) ∧
    vec.inside? ⟨2, 15⟩ = some (part 1 5) := by decide +kernel

/-- left_full_outside_touching_right_over_max -/
example :
    vec.overlap? ⟨2, 100⟩ = some (part 1 6) ∧
    vec.inside? ⟨2, 100⟩ = some (part 1 6) := by decide +kernel

/-- left_over_min_right_fully_inside -/
example :
    vec.overlap? ⟨0, 13⟩ = some (part 0 5) ∧
    vec.inside? ⟨0, 13⟩ = some (part 0 5) := by decide +kernel

/-- left_over_min_right_partially_inside -/
example :
    vec.overlap? ⟨0, 8⟩ = some (part 0 4) ∧
    vec.inside? ⟨0, 8⟩ = some (part 0 3) := by decide +kernel

/-- left_over_min_right_fully_outside -/
example :
    vec.overlap? ⟨0, 6⟩ = some (part 0 3) ∧
    vec.inside? ⟨0, 6⟩ = some (part 0 3) := by decide +kernel

/-- left_over_min_right_touching -/
example :
    vec.overlap? ⟨0, 11⟩ = some (part 0 4) ∧
    vec.inside? ⟨0, 11⟩ = some (part 0 4) := by decide +kernel

/-- left_over_min_right_over_max -/
example :
    vec.overlap? ⟨0, 100⟩ = some (part 0 6) ∧
    vec.inside? ⟨0, 100⟩ = some (part 0 6) := by decide +kernel

/-- search_lo -/
example :
    vec.searchLo 0 = (false, 0) ∧
    vec.searchLo 4 = (true, 2) ∧
    vec.searchLo 8 = (false, 4) ∧
    vec.searchLo 5 = (false, 3) ∧
    vec.searchLo 14 = (false, 5) ∧
    vec.searchLo 16 = (false, 6) := by decide +kernel

/-- search_hi -/
example :
    vec.searchHi 0 = (false, 0) ∧
    vec.searchHi 1 = (false, 0) ∧
    vec.searchHi 2 = (true, 0) ∧
    vec.searchHi 4 = (true, 1) ∧
    vec.searchHi 6 = (false, 3) ∧
    vec.searchHi 13 = (true, 4) ∧
    vec.searchHi 18 = (false, 6) := by decide +kernel

/-- begin_none -/
example :
    vec.beginsAtMatches? 5 (fun _ => true) = some none ∧
    vec.beginsAtMatches? 8 (fun _ => true) = some none ∧
    vec.beginsAtMatches? 11 (has G) = some none := by decide +kernel

/-- begin_single -/
example :
    vec.beginsAtMatches? 7 (has A) = some (some (part 3 4)) := by decide +kernel

/-- begin_many -/
example :
    vec.beginsAtMatches? 7 (has D) = some (some (part 3 5)) := by decide +kernel

/-- begin_to_end -/
example :
    vec.beginsAtMatches? 7 (has E) = some (some (part 3 6)) ∧
    vec.beginsAtMatches? 7 (fun _ => true) = some (some (part 3 6)) := by decide +kernel

/-- end_none -/
example :
    vec.endsAtMatches? 7 (fun _ => true) = some none ∧
    vec.endsAtMatches? 10 (fun _ => true) = some none ∧
    vec.endsAtMatches? 13 (has G) = some none := by decide +kernel

/-- end_single -/
example :
    vec.endsAtMatches? 5 (has A) = some (some (part 2 3)) := by decide +kernel

/-- end_many -/
example :
    vec.endsAtMatches? 5 (has D) = some (some (part 1 3)) := by decide +kernel

/-- end_from_begin -/
example :
    vec.endsAtMatches? 5 (has E) = some (some (part 0 3)) ∧
    vec.endsAtMatches? 5 (fun _ => true) = some (some (part 0 3)) := by decide +kernel

/-! ## lex/token.rs -/

/-- test_src -/
example : (⟨⟨0, 1⟩, A⟩ : Token 7).src (ascii "abc") = ascii "a" := by decide +kernel
/-- test_src_empty -/
example : (⟨⟨0, 0⟩, A⟩ : Token 7).src (ascii "abc") = [] ∧ (⟨⟨1, 1⟩, A⟩ : Token 7).src (ascii "abc") = [] ∧
    (⟨⟨1, 0⟩, A⟩ : Token 7).src (ascii "abc") = [] := by decide +kernel
/-- test_overflows -/
example : (⟨⟨0, 100⟩, A⟩ : Token 7).src (ascii "abc") = ascii "abc" := by decide +kernel

/-! ## lex/set.rs -/

/-- new -/
example : (LSet.new : LSet 7).isEmpty := by decide +kernel
/-- insert -/
example : (LSet.new.insert A).contains A ∧ ¬ (LSet.new.insert A).isEmpty := by decide +kernel
/-- remove -/
example : ¬ ((setOf [A, B, C]).remove B).contains B ∧ (setOf [A, B, C]).remove B = setOf [A, C] := by decide +kernel

/-- The results of `next` until `None`. -/
def members (l : List (Fin 7)) : List (Fin 7) := (SetIter.new (setOf l)).collect 100

/-- iter_empty, iter_single, iter_continous, iter_skip, iter_skip_many -/
example : members [] = [] ∧ members [A] = [A] ∧ members [A, B, C] = [A, B, C] ∧ members [A, C] = [A, C] ∧
    members [A, C, D, G] = [A, C, D, G] := by decide +kernel

end Teleparse.Conform
