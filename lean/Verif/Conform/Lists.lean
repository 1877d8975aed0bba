import Verif.Conform.Base
/-
The unit tests in tp_impl/*.rs. The names are those of the tests.
-/
namespace Teleparse.Conform
open Prog

/-! ## tp_impl/split.rs -/

def SplitTest : Root := root "SplitTest" [.split Ident OpAdd]

/-- parse_empty -/
example : once SplitTest "(" =
    expected none [expects 0 1 0 none] "(" := by decide +kernel

/-- parse_one -/
example : once SplitTest "a" =
    expected (some (.seq ⟨0, 1⟩ [.split ⟨0, 1⟩ [ident 0 1] []])) [] "" := by decide +kernel

/-- parse_two -/
example : once SplitTest "a+b" =
    expected (some (.seq ⟨0, 3⟩ [.split ⟨0, 3⟩ [ident 0 1, ident 2 3] [op 1 2]])) [] "" := by decide +kernel

/-- parse_many -/
example : once SplitTest "a+b+c+d" =
    expected (some (.seq ⟨0, 7⟩ [.split ⟨0, 7⟩ [ident 0 1, ident 2 3, ident 4 5, ident 6 7] [op 1 2, op 3 4, op 5 6]])) [] "" := by decide +kernel

/-- parse_stop_expecting_split -/
example : once SplitTest "a + b c + d" =
    expected (some (.seq ⟨0, 5⟩ [.split ⟨0, 5⟩ [ident 0 1, ident 4 5] [op 2 3]])) [] "c + d" := by decide +kernel

/-- parse_stop_expecting_split, second call -/
example : twice SplitTest "a + b c + d" =
    expected (some (.seq ⟨6, 11⟩ [.split ⟨6, 11⟩ [ident 6 7, ident 10 11] [op 8 9]])) [] "" := by decide +kernel

/-- parse_recover_expecting_item -/
example : once SplitTest "a+(c)+" =
    expected (some (.seq ⟨0, 4⟩ [.split ⟨0, 4⟩ [ident 0 1, ident 3 4] [op 1 2]])) [expects 2 3 0 none] ")+" := by decide +kernel

/-- parse_recover_skip_sees_separator -/
example : once SplitTest "a+(+c" =
    expected (some (.seq ⟨0, 5⟩ [.split ⟨0, 5⟩ [ident 0 1, ident 4 5] [op 3 4]])) [expects 2 4 0 none] "" := by decide +kernel

/-- parse_recover_expecting_item_skip_multiple -/
example : once SplitTest "a+((+c" =
    expected (some (.seq ⟨0, 6⟩ [.split ⟨0, 6⟩ [ident 0 1, ident 5 6] [op 4 5]])) [expects 2 5 0 none] "" := by decide +kernel

def SplitTestFollow : Root := root "SplitTestFollow" [.split Ident OpAdd, ParenClose]

/-- parse_recover_follow -/
example : once SplitTestFollow "a+c+()" =
    expected (some (.seq ⟨0, 6⟩ [.split ⟨0, 3⟩ [ident 0 1, ident 2 3] [op 1 2], paren 5 6])) [expects 4 6 0 none] "" := by decide +kernel

def SplitOfOption : Root := root "SplitOfOption" [.split (.option Ident) OpAdd]

/-- parse_split_option -/
example : once SplitOfOption "a+++c" =
    expected (some (.seq ⟨0, 5⟩ [.split ⟨0, 5⟩ [.optSome ⟨0, 1⟩ (ident 0 1), .optNone ⟨2, 2⟩, .optNone ⟨3, 3⟩, .optSome ⟨4, 5⟩ (ident 4 5)] [op 1 2, op 2 3, op 3 4]])) [] "" := by decide +kernel

def SplitSame : Root := root "SplitSame" [.split Ident Ident]

/-- parse_split_same -/
example : once SplitSame "a b c d e" =
    expected (some (.seq ⟨0, 9⟩ [.split ⟨0, 9⟩ [ident 0 1, ident 4 5, ident 8 9] [ident 2 3, ident 6 7]])) [] "" := by decide +kernel

def SplitOptionSame : Root := root "SplitOptionSame" [.split (.option Ident) Ident]

/-- split_option_same_conflict -/
example : grammarError 4 SplitOptionSame =
    firstFollowSeq "(Ident)? ( Ident (Ident)? )*" "(Ident)?" "( Ident (Ident)? )*" "Ident" := by decide +kernel

def SplitOptionSepSame : Root := root "SplitOptionSepSame" [.split Ident (.option Ident)]

/-- split_option_same_conflict_sep -/
example : grammarError 4 SplitOptionSepSame =
    firstFollowSeq "(Ident)? Ident" "(Ident)?" "Ident" "Ident" := by decide +kernel

def Split2 : Root := root "Split2" [.split (.tup3 ParenOpen Ident ParenClose) OpAdd]

/-- parse_partial_item_recover_autofill -/
example : once Split2 "(a)+(b+(c)" =
    expected (some (.seq ⟨0, 10⟩ [.split ⟨0, 10⟩ [.seq ⟨0, 3⟩ [paren 0 1, ident 1 2, paren 2 3], .seq ⟨4, 6⟩ [paren 4 5, ident 5 6, paren 6 6], .seq ⟨7, 10⟩ [paren 7 8, ident 8 9, paren 9 10]] [op 3 4, op 6 7]])) [expects 6 7 2 (some ")")] "" := by decide +kernel

/-- parse_partial_item_recover_skip -/
example : once Split2 "(a)+(+(c)" =
    expected (some (.seq ⟨0, 9⟩ [.split ⟨0, 9⟩ [.seq ⟨0, 3⟩ [paren 0 1, ident 1 2, paren 2 3], .seq ⟨6, 9⟩ [paren 6 7, ident 7 8, paren 8 9]] [op 5 6]])) [expects 5 6 0 none] "" := by decide +kernel

def SplitBothOption : Root := root "SplitBothOption" [.split (.option Ident) (.option OpAdd)]

/-- split_both_option_conflict -/
example : grammarError 4 SplitBothOption =
    firstFollowSeq "(Ident)? ( (+)? (Ident)? )*" "(Ident)?" "( (+)? (Ident)? )*" "Ident" := by decide +kernel

/-! ## tp_impl/punct.rs -/

def PunctTest : Root := root "PunctTest" [.punct Ident OpAdd]

/-- parse_empty -/
example : once PunctTest "(" =
    expected none [expects 0 1 0 none] "(" := by decide +kernel

/-- parse_one -/
example : once PunctTest "a" =
    expected (some (.seq ⟨0, 1⟩ [.split ⟨0, 1⟩ [ident 0 1] []])) [] "" := by decide +kernel

/-- parse_one_trailing -/
example : once PunctTest "a+" =
    expected (some (.seq ⟨0, 2⟩ [.split ⟨0, 2⟩ [ident 0 1] [op 1 2]])) [] "" := by decide +kernel

/-- parse_two -/
example : once PunctTest "a+b" =
    expected (some (.seq ⟨0, 3⟩ [.split ⟨0, 3⟩ [ident 0 1, ident 2 3] [op 1 2]])) [] "" := by decide +kernel

/-- parse_two_trailing -/
example : once PunctTest "a+b+" =
    expected (some (.seq ⟨0, 4⟩ [.split ⟨0, 4⟩ [ident 0 1, ident 2 3] [op 1 2, op 3 4]])) [] "" := by decide +kernel

/-- parse_many -/
example : once PunctTest "a+b+c+d" =
    expected (some (.seq ⟨0, 7⟩ [.split ⟨0, 7⟩ [ident 0 1, ident 2 3, ident 4 5, ident 6 7] [op 1 2, op 3 4, op 5 6]])) [] "" := by decide +kernel

/-- parse_many_trailing -/
example : once PunctTest "a+b+c+d+" =
    expected (some (.seq ⟨0, 8⟩ [.split ⟨0, 8⟩ [ident 0 1, ident 2 3, ident 4 5, ident 6 7] [op 1 2, op 3 4, op 5 6, op 7 8]])) [] "" := by decide +kernel

/-- parse_stop_expecting_split -/
example : once PunctTest "a + b c + d" =
    expected (some (.seq ⟨0, 5⟩ [.split ⟨0, 5⟩ [ident 0 1, ident 4 5] [op 2 3]])) [] "c + d" := by decide +kernel

/-- parse_stop_expecting_split, second call -/
example : twice PunctTest "a + b c + d" =
    expected (some (.seq ⟨6, 11⟩ [.split ⟨6, 11⟩ [ident 6 7, ident 10 11] [op 8 9]])) [] "" := by decide +kernel

def ParenPunct : Root := root "ParenPunct" [ParenOpen, .punct Ident OpAdd]

/-- parse_stop_expecting_item -/
example : once ParenPunct "(a + b + (c + d" =
    expected (some (.seq ⟨0, 15⟩ [paren 0 1, .split ⟨1, 15⟩ [ident 1 2, ident 5 6, ident 10 11, ident 14 15] [op 3 4, op 7 8, op 12 13]])) [expects 9 10 0 none] "" := by decide +kernel

def ParenPunct2 : Root := root "ParenPunct2" [.punct Ident OpAdd, ParenClose]

/-- parse_recover_with_follow -/
example : once ParenPunct2 "a+b+1 1 1)" =
    expected (some (.seq ⟨0, 10⟩ [.split ⟨0, 4⟩ [ident 0 1, ident 2 3] [op 1 2, op 3 4], paren 9 10])) [⟨⟨4, 9⟩, .expecting ((TSet.one 0 none).union (TSet.one 2 (some (ascii ")"))) true).1⟩] "" := by decide +kernel

def Punct2 : Root := root "Punct2" [.punct (.tup3 ParenOpen Ident ParenClose) OpAdd]

/-- parse_partial_item_recover_autofill -/
example : once Punct2 "(a)+(b+(c)" =
    expected (some (.seq ⟨0, 10⟩ [.split ⟨0, 10⟩ [.seq ⟨0, 3⟩ [paren 0 1, ident 1 2, paren 2 3], .seq ⟨4, 6⟩ [paren 4 5, ident 5 6, paren 6 6], .seq ⟨7, 10⟩ [paren 7 8, ident 8 9, paren 9 10]] [op 3 4, op 6 7]])) [expects 6 7 2 (some ")")] "" := by decide +kernel

/-- parse_partial_item_recover_autofill_trailing -/
example : once Punct2 "(a)+(b+(c)+" =
    expected (some (.seq ⟨0, 11⟩ [.split ⟨0, 11⟩ [.seq ⟨0, 3⟩ [paren 0 1, ident 1 2, paren 2 3], .seq ⟨4, 6⟩ [paren 4 5, ident 5 6, paren 6 6], .seq ⟨7, 10⟩ [paren 7 8, ident 8 9, paren 9 10]] [op 3 4, op 6 7, op 10 11]])) [expects 6 7 2 (some ")")] "" := by decide +kernel

/-- parse_partial_item_recover_skip -/
example : once Punct2 "(a)+(+(c)" =
    expected (some (.seq ⟨0, 9⟩ [.split ⟨0, 9⟩ [.seq ⟨0, 3⟩ [paren 0 1, ident 1 2, paren 2 3], .seq ⟨6, 9⟩ [paren 6 7, ident 7 8, paren 8 9]] [op 3 4, op 5 6]])) [expects 5 6 0 none] "" := by decide +kernel

/-- parse_partial_item_recover_trailing -/
example : once Punct2 "(a)+(+" =
    expected (some (.seq ⟨0, 6⟩ [.split ⟨0, 6⟩ [.seq ⟨0, 3⟩ [paren 0 1, ident 1 2, paren 2 3]] [op 3 4, op 5 6]])) [expects 5 6 0 none] "" := by decide +kernel

def PunctSame : Root := root "PunctSame" [.punct Ident Ident]

/-- parse_punct_same -/
example : once PunctSame "a b c d e" =
    expected (some (.seq ⟨0, 9⟩ [.split ⟨0, 9⟩ [ident 0 1, ident 4 5, ident 8 9] [ident 2 3, ident 6 7]])) [] "" := by decide +kernel

/-- parse_punct_same_trailing -/
example : once PunctSame "a b c d e f" =
    expected (some (.seq ⟨0, 11⟩ [.split ⟨0, 11⟩ [ident 0 1, ident 4 5, ident 8 9] [ident 2 3, ident 6 7, ident 10 11]])) [] "" := by decide +kernel

def PunctOfOption : Root := root "PunctOfOption" [.punct (.option Ident) OpAdd]

/-- punct_option_not_ll1 -/
example : grammarError 4 PunctOfOption =
    firstFirst "( (Ident)? )[+]*" "( (Ident)? )[+]+" "()" "<empty>" := by decide +kernel

def PunctOfOptionSep : Root := root "PunctOfOptionSep" [.punct Ident (.option OpAdd)]

/-- punct_option_sep_not_ll1 -/
example : grammarError 4 PunctOfOptionSep =
    firstFirst "((+)? ( Ident )[(+)?]*)?" "(+)? ( Ident )[(+)?]*" "()" "<empty>" := by decide +kernel

def PunctBothOption : Root := root "PunctBothOption" [.punct (.option Ident) (.option OpAdd)]

/-- punct_both_option_conflict -/
example : grammarError 4 PunctBothOption =
    firstFollowSeq "( (Ident)? )[(+)?]+" "(Ident)?" "((+)? ( (Ident)? )[(+)?]*)?" "Ident" := by decide +kernel

/-! ## tp_impl/recover.rs -/

def RecoverTest : Root := root "RecoverTest" [.recover (.tup3 ParenOpen Ident ParenClose) OpAdd]

/-- parse_ok -/
example : once RecoverTest "(a)+" =
    expected (some (.seq ⟨0, 4⟩ [.recover ⟨0, 3⟩ (.seq ⟨0, 3⟩ [paren 0 1, ident 1 2, paren 2 3]) (op 3 4)])) [] "" := by decide +kernel

/-- parse_recover_head_no_first_no_skip -/
example : once RecoverTest "+" =
    expected (some (.seq ⟨0, 1⟩ [.recoverNone ⟨0, 0⟩ (op 0 1)])) [expects 0 1 2 (some "(")] "" := by decide +kernel

/-- parse_recover_head_no_first_skip -/
example : once RecoverTest "a)+" =
    expected (some (.seq ⟨0, 3⟩ [.recoverNone ⟨0, 0⟩ (op 2 3)])) [expects 0 2 2 (some "(")] "" := by decide +kernel

/-- parse_recover_head_first_no_skip -/
example : once RecoverTest "(+" =
    expected (some (.seq ⟨1, 2⟩ [.recoverNone ⟨1, 1⟩ (op 1 2)])) [expects 1 2 0 none] "" := by decide +kernel

/-- parse_recover_head_first_skip -/
example : once RecoverTest "()a+" =
    expected (some (.seq ⟨1, 4⟩ [.recoverNone ⟨1, 1⟩ (op 3 4)])) [expects 1 3 0 none] "" := by decide +kernel

def Recover2 : Root := root "Recover2" [.recover (.tup3 ParenOpen Ident ParenClose) (.tup4 ParenOpen OpAdd Ident ParenClose)]

/-- parse_panic_tail_no_first -/
example : once Recover2 "(a)+" =
    expected none [expects 3 4 2 (some "(")] "" := by decide +kernel

/-- parse_recover_tail_panic_no_skip -/
example : once Recover2 "(a)(+)(+b)" =
    expected (some (.seq ⟨0, 10⟩ [.recover ⟨0, 3⟩ (.seq ⟨0, 3⟩ [paren 0 1, ident 1 2, paren 2 3]) (.seq ⟨6, 10⟩ [paren 6 7, op 7 8, ident 8 9, paren 9 10])])) [expects 5 6 0 none] "" := by decide +kernel

/-- parse_recover_tail_panic_skip -/
example : once Recover2 "(a)(+)ccc(+b)" =
    expected (some (.seq ⟨0, 13⟩ [.recover ⟨0, 3⟩ (.seq ⟨0, 3⟩ [paren 0 1, ident 1 2, paren 2 3]) (.seq ⟨9, 13⟩ [paren 9 10, op 10 11, ident 11 12, paren 12 13])])) [expects 5 9 0 none] "" := by decide +kernel

def RecoverOption : Root := root "RecoverOption" [.recover (.option Ident) OpAdd]

/-- parse_option_none_ok -/
example : once RecoverOption "+" =
    expected (some (.seq ⟨0, 1⟩ [.recover ⟨0, 0⟩ (.optNone ⟨0, 0⟩) (op 0 1)])) [] "" := by decide +kernel

/-- parse_option_some_ok -/
example : once RecoverOption "a+" =
    expected (some (.seq ⟨0, 2⟩ [.recover ⟨0, 1⟩ (.optSome ⟨0, 1⟩ (ident 0 1)) (op 1 2)])) [] "" := by decide +kernel

/-- parse_option_some_skip_ok -/
example : once RecoverOption "a((+" =
    expected (some (.seq ⟨0, 4⟩ [.recover ⟨0, 1⟩ (.optSome ⟨0, 1⟩ (ident 0 1)) (op 3 4)])) [expects 1 3 1 (some "+")] "" := by decide +kernel

def RecoverOption2 : Root := root "RecoverOption2" [.recover Ident (.option OpAdd)]

/-- parse_option2_none_ok -/
example : once RecoverOption2 "a" =
    expected (some (.seq ⟨0, 1⟩ [.recover ⟨0, 1⟩ (ident 0 1) (.optNone ⟨1, 1⟩)])) [] "" := by decide +kernel

/-- parse_option2_none_recover -/
example : once RecoverOption2 "(" =
    expected (some (.seq ⟨0, 0⟩ [.recoverNone ⟨0, 0⟩ (.optNone ⟨0, 0⟩)])) [expects 0 1 0 none] "(" := by decide +kernel

end Teleparse.Conform
