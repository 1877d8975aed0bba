{
 "C11": [
  "partial",
  "False as stated (C11_false): an empty span strictly inside a token. C11_overlap_exact states what is returned for every span; C11_overlap_partial is the property for non-empty spans."
 ],
 "C15": [
  "proved",
  "C15_over32 documents a latent wrong shift for lexicons that do not compile."
 ],
 "C17": [
  "partial",
  "False as stated (C17_false): panics when lo is past the end and lo < hi. C17_panic_iff characterises the panics; C17_get_partial is the property under its hypothesis."
 ],
 "C19": [
  "partial",
  "False as stated (C19_false): a literal-less terminal survives clear. C19_clear_exact characterises what stays; C19_clear_partial is the property for sets without such a terminal."
 ],
 "C24": [
  "partial",
  "False as stated (C24_false): FOLLOW is not propagated past nullable middle parts of a sequence. C24_lacks_partial: in every grammar the only tokens that can be missing are those that come beyond an empty part; C24_complete_partial: complete when only the first and last part of a sequence can be empty."
 ],
 "C27": [
  "partial",
  "False as stated (C27_false), consequence of C24. C27_computed: no overlap with the FOLLOW sets that were computed. C27_exact_partial: an accepted grammar is textbook LL(1) exactly if it is SkipSafe, i.e. no choice at the end of a part is in doubt because of a token beyond an empty part; C27_ll1_partial: in particular without optional interior parts."
 ],
 "C28": [
  "partial",
  "False as stated (C28_false), consequence of C19: an optional literal-less terminal makes a later part of the sequence with the same type conflict. C28_accepted_partial excludes exactly that shape."
 ],
 "C29": [
  "partial",
  "False as stated (C29_false; C29_never: the LeftRecursion error is never produced). C29_rejected_partial: left recursion in a productive grammar is rejected with some other error. C29_program_partial: in every program left recursion is refused by the compiler or rejected with some other error, productive or not (C128)."
 ],
 "C06": [
  "partial",
  "The claim is false: Info::invalid_tokens is never written. C06_never_filled proves it stays empty in every reachable state, C06_false gives a parse that skips a token without recording it."
 ],
 "C54": [
  "partial",
  "False as stated (C54_false): Option can turn a failed Recover without errors into a recovered part without errors, and the sequence then succeeds. C54_tuple/C54_struct/C54_errors state exactly what happens; C54_success_partial is the claim when recovered parts carry errors."
 ],
 "C44": [
  "partial",
  "False as stated (C44_false): if the first part is an absent option the text starts at the end of the previous token. C44_slice: exactly the text of the node's span, for every result. C44_tokens_partial: from the first to the last token, on success, for types that begin with a token."
 ],
 "C53": [
  "partial",
  "Proved in terms of the FOLLOW table for every table (C53_repair, C53_sequence). In terms of the grammar it is false (C53_false, consequence of C24) and proved for tokens that do not come beyond an empty part (C53_grammar_partial)."
 ],
 "C37": [
  "partial",
  "False as stated (C37_false): Recover fails without an error at the end of input, and an enclosing option or repetition hides it. C37_recoverFree_partial is the full statement for types without Recover; C37_partial for types in which no Recover is inside an option, repetition or Recover, and for all types if tokens are left after the parse; C37_end_partial: silent failures happen only at the end of input."
 ],
 "C42": [
  "partial",
  "False as stated (C42_false): inverted span in a recovered tree. C42_success_partial: all successful parses; C42_end_partial: all results if the text ends with the last token."
 ],
 "C43": [
  "partial",
  "False without the side condition Loud (C43_false), where a success need not be a sentence. C43_struct_partial/C43_enum_partial: all types in which no Recover is inside an option, repetition or Recover, and all types if tokens are left after the parse; every table and input."
 ],
 "C34": [
  "proved",
  "C34_success is the statement (no Recover); C34_loud is more general; C34_grammar and C34_parse are consequences."
 ],
 "C38": [
  "partial",
  "False as stated: C38_false (a struct A = A word is accepted and never returns), C38_false_needs (A = \"x\" A, not left recursive, never returns on a number that can follow x elsewhere) and C38_false_enum (Plus over a pair containing an enum that derives the empty sequence loops forever, all productions productive). Proved for every accepted grammar in which no production is left recursive or needs itself (in particular if all are productive, C38_productive_partial), and none begins with an enum that derives the empty sequence and is followed by a token (C38_produce_partial, C38_parse_partial). The first condition holds for all programs that compile (C128)."
 ],
 "C45": [
  "partial",
  "C45_steps describes Loop completely; C45_end, C45_covered and C45_terminates are the full claims. That a success means a sequence of elements is false for elements that fail silently (C45_false) and proved for Loud types (C45_success_partial)."
 ],
 "C46": [
  "partial",
  "C46_steps, C46_tree and C46_terminates are the full claims. That no tail is lost is false when a failing attempt consumed tokens (C46_false): the token at which it failed is skipped without an attempt there. C46_first_partial: every position is tried if failing attempts consume nothing. C133 has a repair."
 ],
 "C49": [
  "partial",
  "False as stated (C49_false): a variant without rules and terminals declared before a variant with rules shifts the rules. C49_partial holds if no such variant precedes a variant with rules; C49_exact: the rules of all variants are right if and only if no such variant precedes one that has a rule; C49_unlexed and C49_arms hold in any order."
 ],
 "C50": [
  "partial",
  "False as stated (C50_false): after a terminal without literal duplicates are not checked. C50_partial covers duplicates with no such terminal before the second; the other rejections and the exact set of accepted declarations (C50_accepts) are proved in full."
 ],
 "C35": [
  "partial",
  "False in general: C35_false (accepted although not LL(1), because of an optional interior part), C35_false_enum (enum deriving the empty sequence), C35_false_split (separator deriving the empty sequence), C35_false_loop (Loop not at the end); proved without these (and with Punct not at the end of a part before an optional part)."
 ],
 "C36": [
  "partial",
  "False in general: C36_false (accepted and ambiguous, because of an optional interior part); proved for accepted grammars that are SkipSafe (the accepted ones that are LL(1)), for all textbook LL(1) grammars, and types without Loop."
 ],
 "C59": [
  "partial",
  "C59_false: for S = a b? b the error names a and b, though a cannot be empty and shares no token with b (metadata.rs keeps `cur` at the last part that cannot be empty). The other two errors are proved in full; for sequences: second named part is right, some earlier part that can be empty overlaps it, and which part is named first; sequences of two parts in full."
 ],
 "C60": [
  "partial",
  "FIRST/FIRST in full. Sequences: exact description for all grammars (C60_seq), clean for grammars without the exception of C28. FIRST/FOLLOW: sound and non-empty for all grammars, exact where FOLLOW is (C24)."
 ],
 "C62": [
  "partial",
  "Tokens: proved for all grammars and inputs. End of input: false in general (C62_false: Recover whose second type can be empty and panics silently), proved if second types of Recover cannot be empty."
 ],
 "C64": [
  "partial",
  "False as stated: unknown list attributes on fields and variants, such as sematic(X), and hook(f) are accepted and ignored (C64_false). Proved: exact acceptance condition (C64_accepts), rejection of non-list, unparsable and repeated attributes (C64_partial), and of unknown attributes on the type (C64_root)."
 ],
 "C69": [
  "proved",
  "C69_sentence_partial restates it for sentences of the grammar under the conditions of C35"
 ],
 "C70": [
  "partial",
  "False where Split, Punct or Recover drop all but the last error of a failing part (C70_false). Proved for all schemas in which such parts fail with at most one error, without absorbed silent failures, all types productive; no assumption on the tables. C132 proves it without these conditions for a parser with a repair."
 ],
 "C72": [
  "partial",
  "The steps, results, coverage by errors and stopping tokens are proved for all runs. False: tokens directly after a failed attempt are skipped even if an element can begin there (C72_false), and tokens missing from the computed FOLLOW are skipped (C72_follow_false)."
 ],
 "C76": [
  "proved",
  "Unconditional: whenever producing returns, for any schema and tables. C76_returns and C76_text_returns add that it does return under the conditions of C38; C76_no_return is an accepted type for which it does not."
 ],
 "C77": [
  "partial",
  "Acceptance of exactly the sentences and the longest match, under the conditions of C35 (grammars without a choice in doubt because of an empty part, no separator that derives the empty sequence, no enum that can be empty and followed, Loop at most at the end) and, for the longest match, no Punct and no empty enum at the end of the root; false there (C77_false_punct, C77_false_enum, and the witnesses of C35)."
 ],
 "C78": [
  "partial",
  "Acceptance of parts, FIRST, variants, FOLLOW, and the transfer from the part as root to the larger root (and the sequence of two calls) in full. The converse under the condition that the Punct lists in the part have the same FOLLOW tokens; false otherwise (C78_false_punct)."
 ],
 "C79": [
  "partial",
  "Acceptance, FIRST, sentences, parsing without Punct, and the removal of all boxes in full. Parsing with Punct under the condition that corresponding Punct lists have no fewer FOLLOW tokens; false otherwise (C79_false_punct)."
 ],
 "C80": [
  "partial",
  "False as stated: Option of a tuple that begins with an option or repetition and ends with a repetition is shown as if only its last part was optional (C80_false), and literals with brackets make names that cannot be read (C80_false_literal). Proved for all other productions (C80_reads_partial, C80_distinct_partial)."
 ],
 "C81": [
  "partial",
  "Well-formedness, totality, uniqueness and coverage in full. That a token is the longest match of a rule written on its variant is false when a variant without rules and terminals precedes one with rules (C81_false, consequence of C49), and proved otherwise."
 ],
 "C82": [
  "partial",
  "False as stated: a variant with a terminal without literal and no regex has no rules (C82_false); a literal is refused although the scanner would return it (C82_false_prefix, C82_false_second). Proved: literals of variants with rules are returned unless a longer match or another rule of no lower priority competes; refusals because of no match or a later match are right."
 ],
 "C83": [
  "partial",
  "Under the conditions of C81 (order of the variants) and C77 (accepted grammars without a choice in doubt, etc.)."
 ],
 "C87": [
  "partial",
  "Proved for tuple structs; false for structs with named fields, which are accepted and whose generated code never compiles (C87_false)."
 ],
 "C88": [
  "partial",
  "False for Split whose elements, and Recover whose second type, can be repaired: the pending error about skipped tokens is added after the errors of what follows them (C88_false_split, C88_false_recover). Proved for all other types, and for unrecognised characters in full."
 ],
 "C89": [
  "partial",
  "Scanning the text of a node gives the tokens of the node in full (C89_scan). That parsing gives the node is proved for every node of an error-free parse (Loop, Recover and grammars with choices in doubt included) if the FOLLOW tables of Punct lists agree (ListsAgree; C89_lists gives a condition on the grammar) and no silent failure is absorbed or tokens are left; false for Punct lists, whose FOLLOW set depends on the root (C89_false)."
 ],
 "C90": [
  "partial",
  "That a predictive match is found, and its uniqueness, in full (C90_found, C90_unique). The other direction is proved if tokens are left after the parse, and otherwise for types in which no silent failure is absorbed; it is false at the end of input for other types (C90_false, consequence of C37)."
 ],
 "C92": [
  "partial",
  "C92_compiles and C92_program are unconditional for programs with distinct names. Acceptance of exactly the declared language is proved under the conditions of C83 and C35 (lexicon without blank variants before lexed ones, no ambiguous choice, Loop only at the end, no absorbed silent failure); false in general (C92_false)."
 ],
 "C94": [
  "partial",
  "Acceptance, FIRST, FOLLOW, sentences and matches in full. That the input is parsed by the grown grammar is proved under the conditions of C35 for the grown grammar, for roots in which no silent failure is absorbed; it is false for accepted grammars in general (C94_false)."
 ],
 "C96": [
  "partial",
  "derive_syntax keeps accepted declarations in full (C96_syntax_accepted); refused ones come with one message if the attributes on the item are right (C96_syntax_refused_partial), otherwise each attribute on a part gives one more (C96_syntax_root, C96_syntax_false). derive_lexicon writes the enum anew and drops other attributes and discriminants (C96_lexicon_false); refusals as above (C96_lexicon_refused_partial, C96_lexicon_more). Every refusal of derive(ToSpan) and derive(Node) repeats the declaration (C96_derive_refused, C96_derive_false). Which items are accepted is exact (C96_syntax_accepts, C96_lexicon_accepts)."
 ],
 "C97": [
  "partial",
  "From calls to lists in full, for Plus, Star and Loop. The other direction is proved if separated lists (Punct) inside of T are not followed by more in the repetition than alone (C78_false_punct shows why). A Recover at the end of input ends the list or the calls silently (C97_silent)."
 ],
 "C124": [
  "proved",
  "C124_returns adds that parsing returns under the conditions of C38."
 ],
 "C126": [
  "partial",
  "False for the present code where C70 or C35 are (C126_false). Proved with the exact tables of C112 (C126_exact_tables) and for the present tables under the conditions of C35 and C70 (C126_parse_partial). C132 proves it without these conditions for a parser with a repair."
 ]
}