{
 "claims": [
  {
   "property": "C01",
   "status": "proved",
   "theorems": [
    "Teleparse.C01_token",
    "Teleparse.C01_end",
    "Teleparse.C01_all"
   ],
   "note": ""
  },
  {
   "property": "C02",
   "status": "proved",
   "theorems": [
    "Teleparse.C02_calls",
    "Teleparse.C02_reached",
    "Teleparse.C02_peek_pure"
   ],
   "note": ""
  },
  {
   "property": "C03",
   "status": "proved",
   "theorems": [
    "Teleparse.C03_extracted",
    "Teleparse.C03_never_seen",
    "Teleparse.C03_all"
   ],
   "note": ""
  },
  {
   "property": "C04",
   "status": "proved",
   "theorems": [
    "Teleparse.C04_recorded",
    "Teleparse.C04_all",
    "Teleparse.C04_idempotent"
   ],
   "note": ""
  },
  {
   "property": "C05",
   "status": "proved",
   "theorems": [
    "Teleparse.C05_produce",
    "Teleparse.C05_reached",
    "Teleparse.C05_sorted"
   ],
   "note": ""
  },
  {
   "property": "C06",
   "status": "partial",
   "theorems": [
    "Teleparse.C06_never_filled",
    "Teleparse.C06_false"
   ],
   "note": "The claim is false: Info::invalid_tokens is never written. C06_never_filled proves it stays empty in every reachable state, C06_false gives a parse that skips a token without recording it."
  },
  {
   "property": "C07",
   "status": "proved",
   "theorems": [
    "Teleparse.C07_parse_token"
   ],
   "note": ""
  },
  {
   "property": "C08",
   "status": "proved",
   "theorems": [
    "Teleparse.C08_parse_token_lit"
   ],
   "note": ""
  },
  {
   "property": "C09",
   "status": "proved",
   "theorems": [
    "Teleparse.C09_positions"
   ],
   "note": ""
  },
  {
   "property": "C10",
   "status": "proved",
   "theorems": [
    "Teleparse.C10_inside",
    "Teleparse.C10_bounds"
   ],
   "note": ""
  },
  {
   "property": "C11",
   "status": "partial",
   "theorems": [
    "Teleparse.C11_overlap_exact",
    "Teleparse.C11_overlap_partial",
    "Teleparse.C11_overlap_empty_partial",
    "Teleparse.C11_false",
    "Teleparse.C11_bounds"
   ],
   "note": "False as stated (C11_false): an empty span strictly inside a token. C11_overlap_exact states what is returned for every span; C11_overlap_partial is the property for non-empty spans."
  },
  {
   "property": "C12",
   "status": "proved",
   "theorems": [
    "Teleparse.C12_at_span",
    "Teleparse.C12_at_span_own"
   ],
   "note": ""
  },
  {
   "property": "C13",
   "status": "proved",
   "theorems": [
    "Teleparse.C13_begins_at",
    "Teleparse.C13_ends_at",
    "Teleparse.C13_begins_at_longest"
   ],
   "note": ""
  },
  {
   "property": "C14",
   "status": "proved",
   "theorems": [
    "Teleparse.C14_apply",
    "Teleparse.C14_tokens_unchanged",
    "Teleparse.C14_sorted",
    "Teleparse.C14_members",
    "Teleparse.C14_types",
    "Teleparse.C14_idempotent",
    "Teleparse.C14_commute",
    "Teleparse.C14_order"
   ],
   "note": ""
  },
  {
   "property": "C15",
   "status": "proved",
   "theorems": [
    "Teleparse.C15_new",
    "Teleparse.C15_insert",
    "Teleparse.C15_remove",
    "Teleparse.C15_union",
    "Teleparse.C15_ext",
    "Teleparse.C15_containsAll",
    "Teleparse.C15_isEmpty",
    "Teleparse.C15_debug_release",
    "Teleparse.C15_over32"
   ],
   "note": "C15_over32 documents a latent wrong shift for lexicons that do not compile."
  },
  {
   "property": "C16",
   "status": "proved",
   "theorems": [
    "Teleparse.C16_iter",
    "Teleparse.C16_iter_sorted",
    "Teleparse.C16_fused"
   ],
   "note": ""
  },
  {
   "property": "C17",
   "status": "partial",
   "theorems": [
    "Teleparse.C17_get_partial",
    "Teleparse.C17_panic_iff",
    "Teleparse.C17_false"
   ],
   "note": "False as stated (C17_false): panics when lo is past the end and lo < hi. C17_panic_iff characterises the panics; C17_get_partial is the property under its hypothesis."
  },
  {
   "property": "C18",
   "status": "proved",
   "theorems": [
    "Teleparse.C18_lit_empty",
    "Teleparse.C18_lit_insert",
    "Teleparse.C18_lit_union",
    "Teleparse.C18_lit_intersects",
    "Teleparse.C18_lit_intersection",
    "Teleparse.C18_lit_isEmpty",
    "Teleparse.C18_empty",
    "Teleparse.C18_insert",
    "Teleparse.C18_union",
    "Teleparse.C18_union_unchanged",
    "Teleparse.C18_intersects",
    "Teleparse.C18_insert_e",
    "Teleparse.C18_remove_e"
   ],
   "note": ""
  },
  {
   "property": "C19",
   "status": "partial",
   "theorems": [
    "Teleparse.C19_false",
    "Teleparse.C19_lit_false",
    "Teleparse.C19_clear_exact",
    "Teleparse.C19_clear_partial"
   ],
   "note": "False as stated (C19_false): a literal-less terminal survives clear. C19_clear_exact characterises what stays; C19_clear_partial is the property for sets without such a terminal."
  },
  {
   "property": "C20",
   "status": "proved",
   "theorems": [
    "Teleparse.C20_registered",
    "Teleparse.C20_unique",
    "Teleparse.C20_none"
   ],
   "note": ""
  },
  {
   "property": "C21",
   "status": "proved",
   "theorems": [
    "Teleparse.C21_token",
    "Teleparse.C21_epsilon"
   ],
   "note": ""
  },
  {
   "property": "C22",
   "status": "proved",
   "theorems": [
    "Teleparse.C22_first_terminates",
    "Teleparse.C22_follow_terminates",
    "Teleparse.C22_first_order",
    "Teleparse.C22_follow_order",
    "Teleparse.C22_result_order"
   ],
   "note": ""
  },
  {
   "property": "C23",
   "status": "proved",
   "theorems": [
    "Teleparse.C23_sound"
   ],
   "note": ""
  },
  {
   "property": "C24",
   "status": "partial",
   "theorems": [
    "Teleparse.C24_false",
    "Teleparse.C24_complete_partial",
    "Teleparse.C24_lacks_partial"
   ],
   "note": "False as stated (C24_false): FOLLOW is not propagated past nullable middle parts of a sequence. C24_lacks_partial: in every grammar the only tokens that can be missing are those that come beyond an empty part; C24_complete_partial: complete when only the first and last part of a sequence can be empty."
  },
  {
   "property": "C25",
   "status": "proved",
   "theorems": [
    "Teleparse.C25_reported",
    "Teleparse.C25_rejected"
   ],
   "note": ""
  },
  {
   "property": "C26",
   "status": "proved",
   "theorems": [
    "Teleparse.C26_rejected"
   ],
   "note": ""
  },
  {
   "property": "C27",
   "status": "partial",
   "theorems": [
    "Teleparse.C27_false",
    "Teleparse.C27_computed",
    "Teleparse.C27_exact_partial",
    "Teleparse.C27_ll1_partial"
   ],
   "note": "False as stated (C27_false), consequence of C24. C27_computed: no overlap with the FOLLOW sets that were computed. C27_exact_partial: an accepted grammar is textbook LL(1) exactly if it is SkipSafe, i.e. no choice at the end of a part is in doubt because of a token beyond an empty part; C27_ll1_partial: in particular without optional interior parts."
  },
  {
   "property": "C28",
   "status": "partial",
   "theorems": [
    "Teleparse.C28_false",
    "Teleparse.C28_accepted_partial"
   ],
   "note": "False as stated (C28_false), consequence of C19: an optional literal-less terminal makes a later part of the sequence with the same type conflict. C28_accepted_partial excludes exactly that shape."
  },
  {
   "property": "C29",
   "status": "partial",
   "theorems": [
    "Teleparse.C29_never",
    "Teleparse.C29_false",
    "Teleparse.C29_rejected_partial",
    "Teleparse.C29_program_partial"
   ],
   "note": "False as stated (C29_false; C29_never: the LeftRecursion error is never produced). C29_rejected_partial: left recursion in a productive grammar is rejected with some other error. C29_program_partial: in every program left recursion is refused by the compiler or rejected with some other error, productive or not (C128)."
  },
  {
   "property": "C30",
   "status": "proved",
   "theorems": [
    "Teleparse.C30_no_left_recursion"
   ],
   "note": ""
  },
  {
   "property": "C31",
   "status": "proved",
   "theorems": [
    "Teleparse.C31_token",
    "Teleparse.C31_end"
   ],
   "note": ""
  },
  {
   "property": "C32",
   "status": "proved",
   "theorems": [
    "Teleparse.C32_exact",
    "Teleparse.C32_functional",
    "Teleparse.C32_connected",
    "Teleparse.C32_terminates"
   ],
   "note": ""
  },
  {
   "property": "C33",
   "status": "proved",
   "theorems": [
    "Teleparse.C33_total",
    "Teleparse.C33_build_total",
    "Teleparse.C33_deterministic",
    "Teleparse.C33_visits",
    "Teleparse.C33_schema_total",
    "Teleparse.C33_schema_grammar"
   ],
   "note": ""
  },
  {
   "property": "C34",
   "status": "proved",
   "theorems": [
    "Teleparse.C34_loud",
    "Teleparse.C34_success",
    "Teleparse.C34_grammar",
    "Teleparse.C34_parse"
   ],
   "note": "C34_success is the statement (no Recover); C34_loud is more general; C34_grammar and C34_parse are consequences."
  },
  {
   "property": "C35",
   "status": "partial",
   "theorems": [
    "Teleparse.C35_produce_partial",
    "Teleparse.C35_parse_partial",
    "Teleparse.C35_false",
    "Teleparse.C35_false_enum",
    "Teleparse.C35_false_split",
    "Teleparse.C35_false_loop"
   ],
   "note": "False in general: C35_false (accepted although not LL(1), because of an optional interior part), C35_false_enum (enum deriving the empty sequence), C35_false_split (separator deriving the empty sequence), C35_false_loop (Loop not at the end); proved without these (and with Punct not at the end of a part before an optional part)."
  },
  {
   "property": "C36",
   "status": "partial",
   "theorems": [
    "Teleparse.C36_unique_partial",
    "Teleparse.C36_ll1_partial",
    "Teleparse.C36_tree_partial",
    "Teleparse.C36_prefix_partial",
    "Teleparse.C36_false"
   ],
   "note": "False in general: C36_false (accepted and ambiguous, because of an optional interior part); proved for accepted grammars that are SkipSafe (the accepted ones that are LL(1)), for all textbook LL(1) grammars, and types without Loop."
  },
  {
   "property": "C37",
   "status": "partial",
   "theorems": [
    "Teleparse.C37_partial",
    "Teleparse.C37_recoverFree_partial",
    "Teleparse.C37_end_partial",
    "Teleparse.C37_parse_partial",
    "Teleparse.C37_false"
   ],
   "note": "False as stated (C37_false): Recover fails without an error at the end of input, and an enclosing option or repetition hides it. C37_recoverFree_partial is the full statement for types without Recover; C37_partial for types in which no Recover is inside an option, repetition or Recover, and for all types if tokens are left after the parse; C37_end_partial: silent failures happen only at the end of input."
  },
  {
   "property": "C38",
   "status": "partial",
   "theorems": [
    "Teleparse.C38_produce_partial",
    "Teleparse.C38_productive_partial",
    "Teleparse.C38_parse_partial",
    "Teleparse.C38_false",
    "Teleparse.C38_false_needs",
    "Teleparse.C38_false_enum"
   ],
   "note": "False as stated: C38_false (a struct A = A word is accepted and never returns), C38_false_needs (A = \"x\" A, not left recursive, never returns on a number that can follow x elsewhere) and C38_false_enum (Plus over a pair containing an enum that derives the empty sequence loops forever, all productions productive). Proved for every accepted grammar in which no production is left recursive or needs itself (in particular if all are productive, C38_productive_partial), and none begins with an enum that derives the empty sequence and is followed by a token (C38_produce_partial, C38_parse_partial). The first condition holds for all programs that compile (C128)."
  },
  {
   "property": "C39",
   "status": "proved",
   "theorems": [
    "Teleparse.C39_tree",
    "Teleparse.C39_parse"
   ],
   "note": ""
  },
  {
   "property": "C40",
   "status": "proved",
   "theorems": [
    "Teleparse.C40_plus",
    "Teleparse.C40_split",
    "Teleparse.C40_punct"
   ],
   "note": ""
  },
  {
   "property": "C41",
   "status": "proved",
   "theorems": [
    "Teleparse.C41_empty_span",
    "Teleparse.C41_option",
    "Teleparse.C41_exists",
    "Teleparse.C41_test"
   ],
   "note": ""
  },
  {
   "property": "C42",
   "status": "partial",
   "theorems": [
    "Teleparse.C42_success_partial",
    "Teleparse.C42_end_partial",
    "Teleparse.C42_false"
   ],
   "note": "False as stated (C42_false): inverted span in a recovered tree. C42_success_partial: all successful parses; C42_end_partial: all results if the text ends with the last token."
  },
  {
   "property": "C43",
   "status": "partial",
   "theorems": [
    "Teleparse.C43_struct_partial",
    "Teleparse.C43_enum_partial",
    "Teleparse.C43_groups",
    "Teleparse.C43_false"
   ],
   "note": "False without the side condition Loud (C43_false), where a success need not be a sentence. C43_struct_partial/C43_enum_partial: all types in which no Recover is inside an option, repetition or Recover, and all types if tokens are left after the parse; every table and input."
  },
  {
   "property": "C44",
   "status": "partial",
   "theorems": [
    "Teleparse.C44_slice",
    "Teleparse.C44_false",
    "Teleparse.C44_tokens_partial"
   ],
   "note": "False as stated (C44_false): if the first part is an absent option the text starts at the end of the previous token. C44_slice: exactly the text of the node's span, for every result. C44_tokens_partial: from the first to the last token, on success, for types that begin with a token."
  },
  {
   "property": "C45",
   "status": "partial",
   "theorems": [
    "Teleparse.C45_steps",
    "Teleparse.C45_end",
    "Teleparse.C45_success_partial",
    "Teleparse.C45_covered",
    "Teleparse.C45_terminates",
    "Teleparse.C45_false",
    "Teleparse.C45_runs"
   ],
   "note": "C45_steps describes Loop completely; C45_end, C45_covered and C45_terminates are the full claims. That a success means a sequence of elements is false for elements that fail silently (C45_false) and proved for Loud types (C45_success_partial)."
  },
  {
   "property": "C46",
   "status": "partial",
   "theorems": [
    "Teleparse.C46_steps",
    "Teleparse.C46_tree",
    "Teleparse.C46_first_partial",
    "Teleparse.C46_terminates",
    "Teleparse.C46_false"
   ],
   "note": "C46_steps, C46_tree and C46_terminates are the full claims. That no tail is lost is false when a failing attempt consumed tokens (C46_false): the token at which it failed is skipped without an attempt there. C46_first_partial: every position is tried if failing attempts consume nothing. C133 has a repair."
  },
  {
   "property": "C47",
   "status": "proved",
   "theorems": [
    "Teleparse.C47_produce",
    "Teleparse.C47_tree",
    "Teleparse.C47_recorded"
   ],
   "note": ""
  },
  {
   "property": "C48",
   "status": "proved",
   "theorems": [
    "Teleparse.C48_grammar_error",
    "Teleparse.C48_parse",
    "Teleparse.C48_defined",
    "Teleparse.C48_resume",
    "Teleparse.C48_history"
   ],
   "note": ""
  },
  {
   "property": "C49",
   "status": "partial",
   "theorems": [
    "Teleparse.Macro.C49_partial",
    "Teleparse.Macro.C49_exact",
    "Teleparse.Macro.C49_scans_partial",
    "Teleparse.Macro.C49_unlexed",
    "Teleparse.Macro.C49_arms",
    "Teleparse.Macro.C49_false"
   ],
   "note": "False as stated (C49_false): a variant without rules and terminals declared before a variant with rules shifts the rules. C49_partial holds if no such variant precedes a variant with rules; C49_exact: the rules of all variants are right if and only if no such variant precedes one that has a rule; C49_unlexed and C49_arms hold in any order."
  },
  {
   "property": "C50",
   "status": "partial",
   "theorems": [
    "Teleparse.Macro.C50_accepts",
    "Teleparse.Macro.C50_partial",
    "Teleparse.Macro.C50_bare",
    "Teleparse.Macro.C50_empty_literal",
    "Teleparse.Macro.C50_size",
    "Teleparse.Macro.C50_false"
   ],
   "note": "False as stated (C50_false): after a terminal without literal duplicates are not checked. C50_partial covers duplicates with no such terminal before the second; the other rejections and the exact set of accepted declarations (C50_accepts) are proved in full."
  },
  {
   "property": "C51",
   "status": "proved",
   "theorems": [
    "Teleparse.C51_enumeration",
    "Teleparse.C51_id_fromId",
    "Teleparse.C51_fromId_id"
   ],
   "note": ""
  },
  {
   "property": "C52",
   "status": "proved",
   "theorems": [
    "Teleparse.C52_produce",
    "Teleparse.C52_parse",
    "Teleparse.C52_calls"
   ],
   "note": ""
  },
  {
   "property": "C53",
   "status": "partial",
   "theorems": [
    "Teleparse.C53_repair",
    "Teleparse.C53_sequence",
    "Teleparse.C53_grammar_partial",
    "Teleparse.C53_false"
   ],
   "note": "Proved in terms of the FOLLOW table for every table (C53_repair, C53_sequence). In terms of the grammar it is false (C53_false, consequence of C24) and proved for tokens that do not come beyond an empty part (C53_grammar_partial)."
  },
  {
   "property": "C54",
   "status": "partial",
   "theorems": [
    "Teleparse.C54_tuple",
    "Teleparse.C54_struct",
    "Teleparse.C54_errors",
    "Teleparse.C54_success_partial",
    "Teleparse.C54_false"
   ],
   "note": "False as stated (C54_false): Option can turn a failed Recover without errors into a recovered part without errors, and the sequence then succeeds. C54_tuple/C54_struct/C54_errors state exactly what happens; C54_success_partial is the claim when recovered parts carry errors."
  },
  {
   "property": "C55",
   "status": "proved",
   "theorems": [
    "Teleparse.C55_selected",
    "Teleparse.C55_unique",
    "Teleparse.C55_none"
   ],
   "note": ""
  },
  {
   "property": "C56",
   "status": "proved",
   "theorems": [
    "Teleparse.Macro.C56_terminals",
    "Teleparse.Macro.C56_named",
    "Teleparse.Macro.C56_extract"
   ],
   "note": ""
  },
  {
   "property": "C57",
   "status": "proved",
   "theorems": [
    "Teleparse.Macro.C57_numbering"
   ],
   "note": ""
  },
  {
   "property": "C58",
   "status": "proved",
   "theorems": [
    "Teleparse.Macro.C58_truthful",
    "Teleparse.Macro.C58_complete"
   ],
   "note": ""
  },
  {
   "property": "C59",
   "status": "partial",
   "theorems": [
    "Teleparse.C59_first_follow",
    "Teleparse.C59_first_first",
    "Teleparse.C59_false",
    "Teleparse.C59_seq_partial",
    "Teleparse.C59_two_partial"
   ],
   "note": "C59_false: for S = a b? b the error names a and b, though a cannot be empty and shares no token with b (metadata.rs keeps `cur` at the last part that cannot be empty). The other two errors are proved in full; for sequences: second named part is right, some earlier part that can be empty overlaps it, and which part is named first; sequences of two parts in full."
  },
  {
   "property": "C60",
   "status": "partial",
   "theorems": [
    "Teleparse.C60_first_first",
    "Teleparse.C60_seq",
    "Teleparse.C60_seq_partial",
    "Teleparse.C60_first_follow_sound",
    "Teleparse.C60_first_follow_partial"
   ],
   "note": "FIRST/FIRST in full. Sequences: exact description for all grammars (C60_seq), clean for grammars without the exception of C28. FIRST/FOLLOW: sound and non-empty for all grammars, exact where FOLLOW is (C24)."
  },
  {
   "property": "C61",
   "status": "proved",
   "theorems": [
    "Teleparse.C61_recorded",
    "Teleparse.C61_produce",
    "Teleparse.C61_unique"
   ],
   "note": ""
  },
  {
   "property": "C62",
   "status": "partial",
   "theorems": [
    "Teleparse.C62_token",
    "Teleparse.C62_end_partial",
    "Teleparse.C62_false"
   ],
   "note": "Tokens: proved for all grammars and inputs. End of input: false in general (C62_false: Recover whose second type can be empty and panics silently), proved if second types of Recover cannot be empty."
  },
  {
   "property": "C63",
   "status": "proved",
   "theorems": [
    "Teleparse.Syn.C63_implements",
    "Teleparse.Syn.C63_compiles",
    "Teleparse.Syn.C63_semantic",
    "Teleparse.Syn.C63_span",
    "Teleparse.Syn.C63_root"
   ],
   "note": ""
  },
  {
   "property": "C64",
   "status": "partial",
   "theorems": [
    "Teleparse.Syn.C64_accepts",
    "Teleparse.Syn.C64_partial",
    "Teleparse.Syn.C64_root",
    "Teleparse.Syn.C64_false"
   ],
   "note": "False as stated: unknown list attributes on fields and variants, such as sematic(X), and hook(f) are accepted and ignored (C64_false). Proved: exact acceptance condition (C64_accepts), rejection of non-list, unparsable and repeated attributes (C64_partial), and of unknown attributes on the type (C64_root)."
  },
  {
   "property": "C65",
   "status": "proved",
   "theorems": [
    "Teleparse.Syn.C65_truthful",
    "Teleparse.Syn.C65_complete"
   ],
   "note": ""
  },
  {
   "property": "C66",
   "status": "proved",
   "theorems": [
    "Teleparse.Syn.C66_first",
    "Teleparse.Syn.C66_accepts"
   ],
   "note": ""
  },
  {
   "property": "C67",
   "status": "proved",
   "theorems": [
    "Teleparse.C67_types_first_first",
    "Teleparse.C67_types_seq",
    "Teleparse.C67_types_first_follow",
    "Teleparse.C67_first_first",
    "Teleparse.C67_seq",
    "Teleparse.C67_first_follow",
    "Teleparse.C67_left_recursion"
   ],
   "note": ""
  },
  {
   "property": "C68",
   "status": "proved",
   "theorems": [
    "Teleparse.C68_lookahead",
    "Teleparse.C68_parse"
   ],
   "note": ""
  },
  {
   "property": "C69",
   "status": "proved",
   "theorems": [
    "Teleparse.C69_produce",
    "Teleparse.C69_parse",
    "Teleparse.C69_sentence_partial"
   ],
   "note": "C69_sentence_partial restates it for sentences of the grammar under the conditions of C35"
  },
  {
   "property": "C70",
   "status": "partial",
   "theorems": [
    "Teleparse.C70_produce_partial",
    "Teleparse.C70_parse_partial",
    "Teleparse.C70_false"
   ],
   "note": "False where Split, Punct or Recover drop all but the last error of a failing part (C70_false). Proved for all schemas in which such parts fail with at most one error, without absorbed silent failures, all types productive; no assumption on the tables. C132 proves it without these conditions for a parser with a repair."
  },
  {
   "property": "C71",
   "status": "proved",
   "theorems": [
    "Teleparse.C71_option",
    "Teleparse.C71_iter",
    "Teleparse.C71_sequence",
    "Teleparse.C71_documented"
   ],
   "note": ""
  },
  {
   "property": "C72",
   "status": "partial",
   "theorems": [
    "Teleparse.C72_split",
    "Teleparse.C72_punct",
    "Teleparse.C72_skipped_partial",
    "Teleparse.C72_false",
    "Teleparse.C72_follow_false"
   ],
   "note": "The steps, results, coverage by errors and stopping tokens are proved for all runs. False: tokens directly after a failed attempt are skipped even if an element can begin there (C72_false), and tokens missing from the computed FOLLOW are skipped (C72_follow_false)."
  },
  {
   "property": "C73",
   "status": "proved",
   "theorems": [
    "Teleparse.C73_between",
    "Teleparse.C73_order",
    "Teleparse.C73_fails",
    "Teleparse.C73_recorded"
   ],
   "note": ""
  },
  {
   "property": "C74",
   "status": "proved",
   "theorems": [
    "Teleparse.C74_produce",
    "Teleparse.C74_parse",
    "Teleparse.C74_root"
   ],
   "note": ""
  },
  {
   "property": "C75",
   "status": "proved",
   "theorems": [
    "Teleparse.C75_produce",
    "Teleparse.C75_parse",
    "Teleparse.C75_complete"
   ],
   "note": ""
  },
  {
   "property": "C76",
   "status": "proved",
   "theorems": [
    "Teleparse.C76_same",
    "Teleparse.C76_defined",
    "Teleparse.C76_unique",
    "Teleparse.C76_linear",
    "Teleparse.C76_text",
    "Teleparse.C76_returns",
    "Teleparse.C76_text_returns",
    "Teleparse.C76_no_return"
   ],
   "note": "Unconditional: whenever producing returns, for any schema and tables. C76_returns and C76_text_returns add that it does return under the conditions of C38; C76_no_return is an accepted type for which it does not."
  },
  {
   "property": "C77",
   "status": "partial",
   "theorems": [
    "Teleparse.C77_produce_partial",
    "Teleparse.C77_longest_partial",
    "Teleparse.C77_accepts_partial",
    "Teleparse.C77_matches_partial",
    "Teleparse.C77_stops_partial",
    "Teleparse.C77_false_punct",
    "Teleparse.C77_false_enum"
   ],
   "note": "Acceptance of exactly the sentences and the longest match, under the conditions of C35 (grammars without a choice in doubt because of an empty part, no separator that derives the empty sequence, no enum that can be empty and followed, Loop at most at the end) and, for the longest match, no Punct and no empty enum at the end of the root; false there (C77_false_punct, C77_false_enum, and the witnesses of C35)."
  },
  {
   "property": "C78",
   "status": "partial",
   "theorems": [
    "Teleparse.C78_accepted",
    "Teleparse.C78_first",
    "Teleparse.C78_jump",
    "Teleparse.C78_follow",
    "Teleparse.C78_context",
    "Teleparse.C78_alone_partial",
    "Teleparse.C78_sequence",
    "Teleparse.C78_false_punct"
   ],
   "note": "Acceptance of parts, FIRST, variants, FOLLOW, and the transfer from the part as root to the larger root (and the sequence of two calls) in full. The converse under the condition that the Punct lists in the part have the same FOLLOW tokens; false otherwise (C78_false_punct)."
  },
  {
   "property": "C79",
   "status": "partial",
   "theorems": [
    "Teleparse.C79_accepted",
    "Teleparse.C79_first",
    "Teleparse.C79_language",
    "Teleparse.C79_parse_partial",
    "Teleparse.C79_parse",
    "Teleparse.C79_unbox",
    "Teleparse.C79_false_punct"
   ],
   "note": "Acceptance, FIRST, sentences, parsing without Punct, and the removal of all boxes in full. Parsing with Punct under the condition that corresponding Punct lists have no fewer FOLLOW tokens; false otherwise (C79_false_punct)."
  },
  {
   "property": "C80",
   "status": "partial",
   "theorems": [
    "Teleparse.C80_reads_partial",
    "Teleparse.C80_distinct_partial",
    "Teleparse.C80_false",
    "Teleparse.C80_false_literal"
   ],
   "note": "False as stated: Option of a tuple that begins with an option or repetition and ends with a repetition is shown as if only its last part was optional (C80_false), and literals with brackets make names that cannot be read (C80_false_literal). Proved for all other productions (C80_reads_partial, C80_distinct_partial)."
  },
  {
   "property": "C81",
   "status": "partial",
   "theorems": [
    "Teleparse.Macro.C81_wf",
    "Teleparse.Macro.C81_total",
    "Teleparse.Macro.C81_unique",
    "Teleparse.Macro.C81_covered",
    "Teleparse.Macro.C81_token_partial",
    "Teleparse.Macro.C81_invalid_partial",
    "Teleparse.Macro.C81_false"
   ],
   "note": "Well-formedness, totality, uniqueness and coverage in full. That a token is the longest match of a rule written on its variant is false when a variant without rules and terminals precedes one with rules (C81_false, consequence of C49), and proved otherwise."
  },
  {
   "property": "C82",
   "status": "partial",
   "theorems": [
    "Teleparse.Macro.C82_emits_partial",
    "Teleparse.Macro.C82_dead",
    "Teleparse.Macro.C82_false",
    "Teleparse.Macro.C82_never",
    "Teleparse.Macro.C82_false_prefix",
    "Teleparse.Macro.C82_false_second"
   ],
   "note": "False as stated: a variant with a terminal without literal and no regex has no rules (C82_false); a literal is refused although the scanner would return it (C82_false_prefix, C82_false_second). Proved: literals of variants with rules are returned unless a longer match or another rule of no lower priority competes; refusals because of no match or a later match are right."
  },
  {
   "property": "C83",
   "status": "partial",
   "theorems": [
    "Teleparse.Macro.C83_scan_partial",
    "Teleparse.Macro.C83_extract",
    "Teleparse.Macro.C83_words_partial",
    "Teleparse.Macro.C83_parse_partial"
   ],
   "note": "Under the conditions of C81 (order of the variants) and C77 (accepted grammars without a choice in doubt, etc.)."
  },
  {
   "property": "C84",
   "status": "proved",
   "theorems": [
    "Teleparse.C84_success",
    "Teleparse.C84_reads",
    "Teleparse.C84_held",
    "Teleparse.C84_recovered_more"
   ],
   "note": ""
  },
  {
   "property": "C85",
   "status": "proved",
   "theorems": [
    "Teleparse.C85_inside",
    "Teleparse.C85_overlap",
    "Teleparse.C85_begins_at",
    "Teleparse.C85_ends_at",
    "Teleparse.C85_inside_each",
    "Teleparse.C85_overlap_each",
    "Teleparse.C85_apply",
    "Teleparse.C85_at",
    "Teleparse.C85_inside_inside",
    "Teleparse.C85_inside_overlap",
    "Teleparse.C85_cut",
    "Teleparse.C85_spans"
   ],
   "note": ""
  },
  {
   "property": "C86",
   "status": "proved",
   "theorems": [
    "Teleparse.C86_get",
    "Teleparse.C86_ext",
    "Teleparse.C86_iter",
    "Teleparse.C86_iter_mut",
    "Teleparse.C86_eq"
   ],
   "note": ""
  },
  {
   "property": "C87",
   "status": "partial",
   "theorems": [
    "Teleparse.Syn.C87_accepted",
    "Teleparse.Syn.C87_rejected",
    "Teleparse.Syn.C87_tuple_partial",
    "Teleparse.Syn.C87_false"
   ],
   "note": "Proved for tuple structs; false for structs with named fields, which are accepted and whose generated code never compiles (C87_false)."
  },
  {
   "property": "C88",
   "status": "partial",
   "theorems": [
    "Teleparse.C88_result_partial",
    "Teleparse.C88_recorded_partial",
    "Teleparse.C88_characters",
    "Teleparse.C88_false_split",
    "Teleparse.C88_false_recover"
   ],
   "note": "False for Split whose elements, and Recover whose second type, can be repaired: the pending error about skipped tokens is added after the errors of what follows them (C88_false_split, C88_false_recover). Proved for all other types, and for unrecognised characters in full."
  },
  {
   "property": "C89",
   "status": "partial",
   "theorems": [
    "Teleparse.C89_match_partial",
    "Teleparse.C89_lists",
    "Teleparse.C89_node_partial",
    "Teleparse.C89_scan",
    "Teleparse.C89_text_partial",
    "Teleparse.C89_false"
   ],
   "note": "Scanning the text of a node gives the tokens of the node in full (C89_scan). That parsing gives the node is proved for every node of an error-free parse (Loop, Recover and grammars with choices in doubt included) if the FOLLOW tables of Punct lists agree (ListsAgree; C89_lists gives a condition on the grammar) and no silent failure is absorbed or tokens are left; false for Punct lists, whose FOLLOW set depends on the root (C89_false)."
  },
  {
   "property": "C90",
   "status": "partial",
   "theorems": [
    "Teleparse.C90_found",
    "Teleparse.C90_unique",
    "Teleparse.C90_success_partial",
    "Teleparse.C90_parse_partial",
    "Teleparse.C90_false"
   ],
   "note": "That a predictive match is found, and its uniqueness, in full (C90_found, C90_unique). The other direction is proved if tokens are left after the parse, and otherwise for types in which no silent failure is absorbed; it is false at the end of input for other types (C90_false, consequence of C37)."
  },
  {
   "property": "C91",
   "status": "proved",
   "theorems": [
    "Teleparse.C91_prefix",
    "Teleparse.C91_items",
    "Teleparse.C91_text"
   ],
   "note": ""
  },
  {
   "property": "C92",
   "status": "partial",
   "theorems": [
    "Teleparse.Prog.C92_compiles",
    "Teleparse.Prog.C92_program",
    "Teleparse.Prog.C92_sound_partial",
    "Teleparse.Prog.C92_complete_partial",
    "Teleparse.Prog.C92_text_partial",
    "Teleparse.Prog.C92_false"
   ],
   "note": "C92_compiles and C92_program are unconditional for programs with distinct names. Acceptance of exactly the declared language is proved under the conditions of C83 and C35 (lexicon without blank variants before lexed ones, no ambiguous choice, Loop only at the end, no absorbed silent failure); false in general (C92_false)."
  },
  {
   "property": "C93",
   "status": "proved",
   "theorems": [
    "Teleparse.Prog.C93_total",
    "Teleparse.Prog.C93_pass",
    "Teleparse.Prog.C93_fail",
    "Teleparse.Prog.C93_iff"
   ],
   "note": ""
  },
  {
   "property": "C94",
   "status": "partial",
   "theorems": [
    "Teleparse.C94_accepted",
    "Teleparse.C94_first",
    "Teleparse.C94_follow",
    "Teleparse.C94_language",
    "Teleparse.C94_match",
    "Teleparse.C94_parse_partial",
    "Teleparse.C94_false"
   ],
   "note": "Acceptance, FIRST, FOLLOW, sentences and matches in full. That the input is parsed by the grown grammar is proved under the conditions of C35 for the grown grammar, for roots in which no silent failure is absorbed; it is false for accepted grammars in general (C94_false)."
  },
  {
   "property": "C95",
   "status": "proved",
   "theorems": [
    "Teleparse.C95_accepted",
    "Teleparse.C95_first",
    "Teleparse.C95_follow",
    "Teleparse.C95_jump",
    "Teleparse.C95_parse",
    "Teleparse.C95_root",
    "Teleparse.C95_conflict_false"
   ],
   "note": ""
  },
  {
   "property": "C96",
   "status": "partial",
   "theorems": [
    "Teleparse.Item.C96_syntax_accepted",
    "Teleparse.Item.C96_syntax_refused_partial",
    "Teleparse.Item.C96_syntax_root",
    "Teleparse.Item.C96_lexicon_accepted_partial",
    "Teleparse.Item.C96_lexicon_refused_partial",
    "Teleparse.Item.C96_lexicon_more",
    "Teleparse.Item.C96_derive_accepted",
    "Teleparse.Item.C96_derive_refused",
    "Teleparse.Item.C96_syntax_accepts",
    "Teleparse.Item.C96_lexicon_accepts",
    "Teleparse.Item.C96_syntax_false",
    "Teleparse.Item.C96_lexicon_false",
    "Teleparse.Item.C96_lexicon_false_more",
    "Teleparse.Item.C96_derive_false"
   ],
   "note": "derive_syntax keeps accepted declarations in full (C96_syntax_accepted); refused ones come with one message if the attributes on the item are right (C96_syntax_refused_partial), otherwise each attribute on a part gives one more (C96_syntax_root, C96_syntax_false). derive_lexicon writes the enum anew and drops other attributes and discriminants (C96_lexicon_false); refusals as above (C96_lexicon_refused_partial, C96_lexicon_more). Every refusal of derive(ToSpan) and derive(Node) repeats the declaration (C96_derive_refused, C96_derive_false). Which items are accepted is exact (C96_syntax_accepts, C96_lexicon_accepts)."
  },
  {
   "property": "C97",
   "status": "partial",
   "theorems": [
    "Teleparse.C97_starts",
    "Teleparse.C97_plus",
    "Teleparse.C97_star",
    "Teleparse.C97_loop",
    "Teleparse.C97_plus_back_partial",
    "Teleparse.C97_star_back_partial",
    "Teleparse.C97_loop_back_partial",
    "Teleparse.C97_silent"
   ],
   "note": "From calls to lists in full, for Plus, Star and Loop. The other direction is proved if separated lists (Punct) inside of T are not followed by more in the repetition than alone (C78_false_punct shows why). A Recover at the end of input ends the list or the calls silently (C97_silent)."
  },
  {
   "property": "C98",
   "status": "proved",
   "theorems": [
    "Teleparse.C98_returns",
    "Teleparse.C98_exact",
    "Teleparse.C98_unique",
    "Teleparse.C98_sentences",
    "Teleparse.C98_program"
   ],
   "note": ""
  },
  {
   "property": "C99",
   "status": "proved",
   "theorems": [
    "Teleparse.Book.C99_compiles",
    "Teleparse.Book.C99_recur",
    "Teleparse.Book.C99_simple",
    "Teleparse.Book.C99_returns"
   ],
   "note": ""
  },
  {
   "property": "C100",
   "status": "proved",
   "theorems": [
    "Teleparse.C100_results",
    "Teleparse.C100_determined",
    "Teleparse.C100_schedule",
    "Teleparse.C100_once",
    "Teleparse.C100_progress"
   ],
   "note": ""
  },
  {
   "property": "C101",
   "status": "proved",
   "theorems": [
    "Teleparse.Book.C101_unique",
    "Teleparse.Book.C101_defined",
    "Teleparse.Book.C101_recur",
    "Teleparse.Book.C101_simple"
   ],
   "note": ""
  },
  {
   "property": "C102",
   "status": "proved",
   "theorems": [
    "Teleparse.C102_bounds",
    "Teleparse.C102_spans",
    "Teleparse.C102_at_span",
    "Teleparse.C102_matches",
    "Teleparse.C102_mut"
   ],
   "note": ""
  },
  {
   "property": "C103",
   "status": "proved",
   "theorems": [
    "Teleparse.C103_fillable",
    "Teleparse.C103_produce",
    "Teleparse.C103_parse",
    "Teleparse.C103_success",
    "Teleparse.C103_reparse",
    "Teleparse.C103_gaps_needed"
   ],
   "note": ""
  },
  {
   "property": "C104",
   "status": "proved",
   "theorems": [
    "Teleparse.C104_records",
    "Teleparse.C104_records_produce",
    "Teleparse.C104_records_read",
    "Teleparse.C104_produce",
    "Teleparse.C104_parse",
    "Teleparse.C104_standing",
    "Teleparse.C104_places",
    "Teleparse.C104_fresh",
    "Teleparse.C104_drained_differs"
   ],
   "note": ""
  },
  {
   "property": "C105",
   "status": "proved",
   "theorems": [
    "Teleparse.C105_plain",
    "Teleparse.C105_produce",
    "Teleparse.C105_parse",
    "Teleparse.C105_needs_stop",
    "Teleparse.C105_needs_calm"
   ],
   "note": ""
  },
  {
   "property": "C106",
   "status": "proved",
   "theorems": [
    "Teleparse.C106_stops",
    "Teleparse.C106_produce",
    "Teleparse.C106_parse",
    "Teleparse.C106_needs_confined"
   ],
   "note": ""
  },
  {
   "property": "C107",
   "status": "proved",
   "theorems": [
    "Teleparse.C107_split",
    "Teleparse.C107_punct",
    "Teleparse.C107_parse_split",
    "Teleparse.C107_parse_punct",
    "Teleparse.C107_needs_read"
   ],
   "note": ""
  },
  {
   "property": "C108",
   "status": "proved",
   "theorems": [
    "Teleparse.C108_sound",
    "Teleparse.C108_more",
    "Teleparse.C108_linear",
    "Teleparse.C108_flat",
    "Teleparse.C108_parse",
    "Teleparse.C108_deep"
   ],
   "note": ""
  },
  {
   "property": "C109",
   "status": "proved",
   "theorems": [
    "Teleparse.C109_plus",
    "Teleparse.C109_star",
    "Teleparse.C109_star_default",
    "Teleparse.C109_toEnd",
    "Teleparse.C109_any",
    "Teleparse.C109_ended",
    "Teleparse.C109_goes_on",
    "Teleparse.C109_leaves",
    "Teleparse.C109_default"
   ],
   "note": ""
  },
  {
   "property": "C110",
   "status": "proved",
   "theorems": [
    "Teleparse.C110_terminates",
    "Teleparse.C110_follow",
    "Teleparse.C110_exact",
    "Teleparse.C110_rejects",
    "Teleparse.C110_conservative",
    "Teleparse.C110_parse"
   ],
   "note": ""
  },
  {
   "property": "C111",
   "status": "proved",
   "theorems": [
    "Teleparse.C111_all",
    "Teleparse.C111_exact",
    "Teleparse.C111_declared",
    "Teleparse.C111_recovered_more",
    "Teleparse.C111_silent_more"
   ],
   "note": ""
  },
  {
   "property": "C112",
   "status": "proved",
   "theorems": [
    "Teleparse.C112_conservative",
    "Teleparse.C112_lookUp",
    "Teleparse.C112_exact",
    "Teleparse.C112_parse",
    "Teleparse.C112_accepts",
    "Teleparse.C112_linear",
    "Teleparse.C112_left"
   ],
   "note": ""
  },
  {
   "property": "C113",
   "status": "proved",
   "theorems": [
    "Teleparse.C113_ops",
    "Teleparse.C113_characters",
    "Teleparse.C113_linear",
    "Teleparse.C113_text"
   ],
   "note": ""
  },
  {
   "property": "C114",
   "status": "proved",
   "theorems": [
    "Teleparse.C114_terminates",
    "Teleparse.C114_truthful",
    "Teleparse.C114_reports",
    "Teleparse.C114_accepts",
    "Teleparse.C114_conservative",
    "Teleparse.C114_swap_misses"
   ],
   "note": ""
  },
  {
   "property": "C115",
   "status": "proved",
   "theorems": [
    "Teleparse.C115_first",
    "Teleparse.C115_follow",
    "Teleparse.C115_register",
    "Teleparse.C115_build",
    "Teleparse.C115_schema",
    "Teleparse.C115_relations",
    "Teleparse.C115_tight"
   ],
   "note": ""
  },
  {
   "property": "C116",
   "status": "proved",
   "theorems": [
    "Teleparse.C116_ops",
    "Teleparse.C116_linear",
    "Teleparse.C116_text"
   ],
   "note": ""
  },
  {
   "property": "C117",
   "status": "proved",
   "theorems": [
    "Teleparse.C117_loud",
    "Teleparse.C117_sound",
    "Teleparse.C117_tree",
    "Teleparse.C117_same",
    "Teleparse.C117_found",
    "Teleparse.C117_parse",
    "Teleparse.C117_matches",
    "Teleparse.C117_accepts"
   ],
   "note": ""
  },
  {
   "property": "C118",
   "status": "proved",
   "theorems": [
    "Teleparse.C118_rejects",
    "Teleparse.C118_returns",
    "Teleparse.C118_accepts",
    "Teleparse.C118_tree",
    "Teleparse.C118_decides",
    "Teleparse.C118_loop"
   ],
   "note": ""
  },
  {
   "property": "C119",
   "status": "proved",
   "theorems": [
    "Teleparse.Macro.C119_accepts",
    "Teleparse.Macro.C119_same",
    "Teleparse.Macro.C119_rules",
    "Teleparse.Macro.C119_duplicate",
    "Teleparse.Macro.C119_wf",
    "Teleparse.Macro.C119_total",
    "Teleparse.Macro.C119_token",
    "Teleparse.Macro.C119_invalid",
    "Teleparse.Macro.C119_emits",
    "Teleparse.Macro.C119_scan"
   ],
   "note": ""
  },
  {
   "property": "C120",
   "status": "proved",
   "theorems": [
    "Teleparse.C120_compiles",
    "Teleparse.C120_rejects",
    "Teleparse.C120_text"
   ],
   "note": ""
  },
  {
   "property": "C121",
   "status": "proved",
   "theorems": [
    "Teleparse.C121_follow",
    "Teleparse.C121_accepts",
    "Teleparse.C121_rejects",
    "Teleparse.C121_ll1",
    "Teleparse.C121_tested"
   ],
   "note": ""
  },
  {
   "property": "C122",
   "status": "proved",
   "theorems": [
    "Teleparse.C122_inside",
    "Teleparse.C122_overlap",
    "Teleparse.C122_at_span",
    "Teleparse.C122_ends",
    "Teleparse.C122_begins",
    "Teleparse.C122_apply"
   ],
   "note": ""
  },
  {
   "property": "C123",
   "status": "proved",
   "theorems": [
    "Teleparse.C123_span",
    "Teleparse.C123_wellformed",
    "Teleparse.C123_reversed_false",
    "Teleparse.C123_token",
    "Teleparse.C123_set",
    "Teleparse.C123_cell",
    "Teleparse.C123_terminals",
    "Teleparse.C123_literals",
    "Teleparse.C123_node",
    "Teleparse.C123_display_false",
    "Teleparse.C123_display_escape_false"
   ],
   "note": ""
  },
  {
   "property": "C124",
   "status": "proved",
   "theorems": [
    "Teleparse.C124_same",
    "Teleparse.C124_defined",
    "Teleparse.C124_bound",
    "Teleparse.C124_quadratic",
    "Teleparse.C124_returns",
    "Teleparse.C124_plain",
    "Teleparse.C124_nested"
   ],
   "note": "C124_returns adds that parsing returns under the conditions of C38."
  },
  {
   "property": "C125",
   "status": "proved",
   "theorems": [
    "Teleparse.C125_terminates",
    "Teleparse.C125_true",
    "Teleparse.C125_accepts",
    "Teleparse.C125_same",
    "Teleparse.C125_lists",
    "Teleparse.C125_text_first_first",
    "Teleparse.C125_text_seq",
    "Teleparse.C125_text_first_follow",
    "Teleparse.C125_text_left_recursion"
   ],
   "note": ""
  },
  {
   "property": "C126",
   "status": "partial",
   "theorems": [
    "Teleparse.C126_exact_tables",
    "Teleparse.C126_parse_partial",
    "Teleparse.C126_false"
   ],
   "note": "False for the present code where C70 or C35 are (C126_false). Proved with the exact tables of C112 (C126_exact_tables) and for the present tables under the conditions of C35 and C70 (C126_parse_partial). C132 proves it without these conditions for a parser with a repair."
  },
  {
   "property": "C127",
   "status": "proved",
   "theorems": [
    "Teleparse.C127_literal",
    "Teleparse.C127_split",
    "Teleparse.C127_punct"
   ],
   "note": ""
  },
  {
   "property": "C128",
   "status": "proved",
   "theorems": [
    "Teleparse.C128_search",
    "Teleparse.C128_first",
    "Teleparse.C128_no_left",
    "Teleparse.C128_ll1",
    "Teleparse.C128_rejected",
    "Teleparse.C128_linear",
    "Teleparse.C128_book"
   ],
   "note": ""
  },
  {
   "property": "C129",
   "status": "proved",
   "theorems": [
    "Teleparse.C129_size",
    "Teleparse.C129_boxed",
    "Teleparse.C129_infers",
    "Teleparse.C129_metadata",
    "Teleparse.C129_produce",
    "Teleparse.C129_cost",
    "Teleparse.C129_parse",
    "Teleparse.C129_compiles",
    "Teleparse.C129_book"
   ],
   "note": ""
  },
  {
   "property": "C130",
   "status": "proved",
   "theorems": [
    "Teleparse.C130_order",
    "Teleparse.C130_metadata",
    "Teleparse.C130_orders",
    "Teleparse.C130_text",
    "Teleparse.C130_parse",
    "Teleparse.C130_root"
   ],
   "note": ""
  },
  {
   "property": "C131",
   "status": "proved",
   "theorems": [
    "Teleparse.C131_limits",
    "Teleparse.C131_never",
    "Teleparse.C131_parse"
   ],
   "note": ""
  },
  {
   "property": "C132",
   "status": "proved",
   "theorems": [
    "Teleparse.C132_produce",
    "Teleparse.C132_loud",
    "Teleparse.C132_same",
    "Teleparse.C132_same_rev",
    "Teleparse.C132_alarm",
    "Teleparse.C132_exact",
    "Teleparse.C132_parse",
    "Teleparse.C132_accepts"
   ],
   "note": ""
  },
  {
   "property": "C133",
   "status": "proved",
   "theorems": [
    "Teleparse.C133_steps",
    "Teleparse.C133_found",
    "Teleparse.C133_same",
    "Teleparse.C133_clean",
    "Teleparse.C133_accepts",
    "Teleparse.C133_terminates",
    "Teleparse.C133_false"
   ],
   "note": ""
  }
 ]
}