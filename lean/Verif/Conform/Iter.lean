import Verif.Conform.Base
/-
The unit tests in tp_impl/*.rs. The names are those of the tests.
-/
namespace Teleparse.Conform
open Prog

/-! ## tp_impl/iter.rs -/

def IdentList : Root := root "IdentList" [.plus Ident]

/-- parse_single_item -/
example : once IdentList "a" =
    expected (some (.seq ⟨0, 1⟩ [.list ⟨0, 1⟩ [ident 0 1]])) [] "" := by decide +kernel

/-- parse_two_items -/
example : once IdentList "a b" =
    expected (some (.seq ⟨0, 3⟩ [.list ⟨0, 3⟩ [ident 0 1, ident 2 3]])) [] "" := by decide +kernel

/-- parse_many -/
example : once IdentList "a b c  d e" =
    expected (some (.seq ⟨0, 10⟩ [.list ⟨0, 10⟩ [ident 0 1, ident 2 3, ident 4 5, ident 7 8, ident 9 10]])) [] "" := by decide +kernel

/-- parse_with_panic -/
example : once IdentList "a b c+e" =
    expected (some (.seq ⟨0, 5⟩ [.list ⟨0, 5⟩ [ident 0 1, ident 2 3, ident 4 5]])) [] "+e" := by decide +kernel

/-- parse_with_panic, second call -/
example : twice IdentList "a b c+e" =
    expected none [expects 5 6 0 none] "+e" := by decide +kernel

/-- parse_with_panic, after `parser.consume_token()` and a third call -/
example : ((((parse IdentList (parser "a b c+e")).bind fun r => parse IdentList r.2).bind fun r =>
      parse IdentList (r.2.consume (lexicon mathDecl).shouldExtract).2).map fun r => r.1.map treeCode) =
    some (some (treeCode (.seq ⟨6, 7⟩ [.list ⟨6, 7⟩ [ident 6 7]]))) := by decide +kernel

def ListPlusList : Root := root "ListPlusList" [.plus Ident, OpAdd, .plus Ident]

/-- parse_single_item_each -/
example : once ListPlusList "a+ b" =
    expected (some (.seq ⟨0, 4⟩ [.list ⟨0, 1⟩ [ident 0 1], op 1 2, .list ⟨3, 4⟩ [ident 3 4]])) [] "" := by decide +kernel

/-- parse_multiple_items_each -/
example : once ListPlusList "a b c + b c d" =
    expected (some (.seq ⟨0, 13⟩ [.list ⟨0, 5⟩ [ident 0 1, ident 2 3, ident 4 5], op 6 7, .list ⟨8, 13⟩ [ident 8 9, ident 10 11, ident 12 13]])) [] "" := by decide +kernel

def ListOfOption : Root := root "ListOfOption" [.plus (.option Ident)]

/-- list_of_option_not_ll1 -/
example : grammarError 4 ListOfOption =
    firstFollowSeq "( (Ident)? )+" "(Ident)?" "( (Ident)? )*" "Ident" := by decide +kernel

def SameList : Root := root "SameList" [.plus OpAdd, .plus OpAdd]

/-- two_list_of_same_not_ll1 -/
example : grammarError 4 SameList =
    firstFollow "( + )*" "\"+\"" := by decide +kernel

def SeparatedList : Root := root "SeparatedList" [Ident, .plus (.tup2 OpAdd Ident)]

/-- parse_separated_list -/
example : once SeparatedList "a + b + c" =
    expected (some (.seq ⟨0, 9⟩ [ident 0 1, .list ⟨2, 9⟩ [.seq ⟨2, 5⟩ [op 2 3, ident 4 5], .seq ⟨6, 9⟩ [op 6 7, ident 8 9]]])) [] "" := by decide +kernel

/-- parse_separated_list_multiple -/
example : once SeparatedList "a  +b c+e" =
    expected (some (.seq ⟨0, 5⟩ [ident 0 1, .list ⟨3, 5⟩ [.seq ⟨3, 5⟩ [op 3 4, ident 4 5]]])) [] "c+e" := by decide +kernel

/-- parse_separated_list_multiple, second call -/
example : twice SeparatedList "a  +b c+e" =
    expected (some (.seq ⟨6, 9⟩ [ident 6 7, .list ⟨7, 9⟩ [.seq ⟨7, 9⟩ [op 7 8, ident 8 9]]])) [] "" := by decide +kernel

/-- parse_separated_list_panic -/
example : once SeparatedList "a + b + +e" =
    expected (some (.seq ⟨0, 5⟩ [ident 0 1, .list ⟨2, 5⟩ [.seq ⟨2, 5⟩ [op 2 3, ident 4 5]]])) [expects 8 9 0 none] "+e" := by decide +kernel

def IdentListStar : Root := root "IdentListStar" [.star Ident]

/-- parse_star -/
example : once IdentListStar "" =
    expected (some (.seq ⟨0, 0⟩ [.list ⟨0, 0⟩ []])) [] "" := by decide +kernel

/-- parse_star -/
example : once IdentListStar "a b c" =
    expected (some (.seq ⟨0, 5⟩ [.list ⟨0, 5⟩ [ident 0 1, ident 2 3, ident 4 5]])) [] "" := by decide +kernel

def ConsecutiveStar : Root := root "ConsecutiveStar" [.star Ident, .star Ident]

/-- consecutive_star_not_ll1 -/
example : grammarError 4 ConsecutiveStar =
    firstFollowSeq "ConsecutiveStar" "( Ident )*" "( Ident )*" "Ident" := by decide +kernel

def LoopRoot : Root := root "LoopRoot" [.loop Ident]

/-- parse_loop_empty -/
example : once LoopRoot "" =
    expected (some (.seq ⟨0, 0⟩ [.list ⟨0, 0⟩ []])) [] "" := by decide +kernel

/-- parse_loop_empty_all_invalid -/
example : once LoopRoot "+++" =
    expected (some (.seq ⟨3, 3⟩ [.list ⟨3, 3⟩ []])) [⟨⟨0, 3⟩, .unexpectedTokens⟩] "" := by decide +kernel

/-- parse_loop -/
example : once LoopRoot "a b c" =
    expected (some (.seq ⟨0, 5⟩ [.list ⟨0, 5⟩ [ident 0 1, ident 2 3, ident 4 5]])) [] "" := by decide +kernel

/-- parse_loop_recover -/
example : once LoopRoot "+a+ b++ c" =
    expected (some (.seq ⟨1, 9⟩ [.list ⟨1, 9⟩ [ident 1 2, ident 4 5, ident 8 9]])) [⟨⟨0, 1⟩, .unexpectedTokens⟩, ⟨⟨2, 3⟩, .unexpectedTokens⟩, ⟨⟨5, 7⟩, .unexpectedTokens⟩] "" := by decide +kernel

def LoopOption : Root := root "LoopOption" [.loop (.option Ident)]

/-- loop_option_not_ll1 -/
example : grammarError 4 LoopOption =
    firstFollowSeq "( (Ident)? )+" "(Ident)?" "( (Ident)? )*" "Ident" := by decide +kernel

def LoopRecover : Root := root "LoopRecover" [.loop (.recover Ident (.option OpAdd))]

/-- loop_will_not_stuck -/
example : once LoopRecover "((((" =
    expected (some (.seq ⟨4, 4⟩ [.list ⟨4, 4⟩ []])) [⟨⟨0, 4⟩, .unexpectedTokens⟩] "" := by decide +kernel

def LoopRecover2 : Root := root "LoopRecover2" [.loop (.recover (.option Ident) (.option OpAdd))]

/-- loop_recover_option_not_ll1 -/
example : grammarError 4 LoopRecover2 =
    firstFollowSeq "( (Ident)? (+)? )+" "(Ident)? (+)?" "( (Ident)? (+)? )*" "\"+\", Ident" := by decide +kernel

/-! ## tp_impl/option.rs -/

def OptIdent : Root := root "OptIdent" [.option Ident]

/-- test_none -/
example : once OptIdent "+" =
    expected (some (.seq ⟨0, 0⟩ [.optNone ⟨0, 0⟩])) [] "+" := by decide +kernel

/-- test_some -/
example : once OptIdent "a" =
    expected (some (.seq ⟨0, 1⟩ [.optSome ⟨0, 1⟩ (ident 0 1)])) [] "" := by decide +kernel

def SeqRoot : Root := root "Seq" [.option OpAdd, OpAdd]

/-- test_seq_not_ll1 -/
example : grammarError 4 SeqRoot =
    firstFollowSeq "Seq" "(+)?" "+" "\"+\"" := by decide +kernel

def Seq2 : Root := root "Seq2" [OpAdd, .option OpAdd]

/-- test_seq2 -/
example : once Seq2 "+    " =
    expected (some (.seq ⟨0, 1⟩ [op 0 1, .optNone ⟨1, 1⟩])) [] "" := by decide +kernel

def Nested : Root := root "Nested" [.option (.option Ident)]

/-- test_nested_not_ll1 -/
example : grammarError 4 Nested =
    firstFirst "((Ident)?)?" "(Ident)?" "()" "<empty>" := by decide +kernel

def ExistIdent : Root := root "ExistIdent" [.exist Ident]

/-- parse_exist -/
example : once ExistIdent "a" =
    expected (some (.seq ⟨0, 1⟩ [.exist ⟨0, 1⟩ true])) [] "" := by decide +kernel

/-- parse_exist -/
example : once ExistIdent "+" =
    expected (some (.seq ⟨0, 0⟩ [.exist ⟨0, 0⟩ false])) [] "+" := by decide +kernel

/-! ## tp_impl/string.rs -/

def Stringified : Root := root "Stringified" [.quote Ident]

/-- test_stringify -/
example : once Stringified "a" =
    expected (some (.seq ⟨0, 1⟩ [.text ⟨0, 1⟩ (ascii "a")])) [] "" := by decide +kernel

def Parsed : Root := root "Parsed" [.parse Ident, .parse Integer, .parse Integer]

/-- test_parse: the texts given to `from_str` -/
example : once Parsed "abc 456 314" =
    expected (some (.seq ⟨0, 11⟩ [.text ⟨0, 3⟩ (ascii "abc"), .text ⟨4, 7⟩ (ascii "456"), .text ⟨8, 11⟩ (ascii "314")])) [] "" := by decide +kernel

/-! ## tp_impl/tuple.rs -/

def Tuple2 : Root := root "Tuple2" [Ident, Ident]

/-- parse_tuple_2 -/
example : once Tuple2 "a b" =
    expected (some (.seq ⟨0, 3⟩ [ident 0 1, ident 2 3])) [] "" := by decide +kernel

/-- parse_tuple_2 -/
example : once Tuple2 "+" =
    expected none [expects 0 1 0 none] "+" := by decide +kernel

/-- parse_tuple_2 -/
example : once Tuple2 "a b c" =
    expected (some (.seq ⟨0, 3⟩ [ident 0 1, ident 2 3])) [] "c" := by decide +kernel

def Tuple3 : Root := root "Tuple3" [Ident, OpAdd, Ident]

/-- parse_tuple_3 -/
example : once Tuple3 "a+b" =
    expected (some (.seq ⟨0, 3⟩ [ident 0 1, op 1 2, ident 2 3])) [] "" := by decide +kernel

def NestedTuple : Root := root "Nested" [.tup3 Ident OpMul Ident, OpAdd, .tup3 Ident OpMul Ident]

/-- parse_nested -/
example : once NestedTuple "a*b + c*d" =
    expected (some (.seq ⟨0, 9⟩ [.seq ⟨0, 3⟩ [ident 0 1, op 1 2, ident 2 3], op 4 5, .seq ⟨6, 9⟩ [ident 6 7, op 7 8, ident 8 9]])) [] "" := by decide +kernel

end Teleparse.Conform
