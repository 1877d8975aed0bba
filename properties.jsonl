{"id": "C01", "title": "Lexer::next yields every valid token once, in order, and reports invalid input once", "statement": "Calling Lexer::next until it returns no token yields exactly the tokens the underlying scanner recognises, in source order and each once. Unrecognised input met before a token (or before end of input) is reported with that call as one span, from the start of the first unrecognised piece to the end of the last one, and is reported once. After the end every further call returns (None, None).", "quantifier": "every sequence of scanner outcomes (token / unrecognised piece), of any length", "why_tests_cant": "a test fixes one source text; the merging of runs of invalid pieces has to hold for every interleaving of valid and invalid pieces", "anchors": ["packages/teleparse/src/lex/lexer.rs: LogosLexerWrapper::next, next_internal"]}
{"id": "C02", "title": "Peeking never consumes and consumption never loses, repeats or reorders a token", "statement": "For every sequence of peek_token / peek_token_src / current_span / consume_token calls on a Parser: the tokens returned by consume_token are exactly the first tokens of the non-extracted token stream, in order; peeking any number of times returns the token the next consume_token will return and changes neither the consumed tokens nor the remaining stream.", "quantifier": "every scanner output and every finite interleaving of peek and consume calls", "why_tests_cant": "the number of interleavings and inputs is unbounded", "anchors": ["packages/teleparse/src/parser/parser_impl.rs: peek_token, consume_token, try_read_next_token, peek_token_src, current_span"]}
{"id": "C03", "title": "Extracted tokens are set aside completely and never reach the syntax", "statement": "A token whose type has no terminal is never returned by peek_token/consume_token and never stored in Info::tokens; at every point Info::extracted_tokens is exactly the list, in source order, of such tokens among the input read so far, and once the end of input has been peeked it is all of them.", "quantifier": "every scanner output, every extract predicate, every sequence of parser operations", "why_tests_cant": "must hold whatever the mix of extracted tokens, invalid characters and ordinary tokens is", "anchors": ["packages/teleparse/src/parser/parser_impl.rs: try_read_next_token", "packages/teleparse/src/parser/info.rs: extracted_tokens", "packages/macros/src/lexicon.rs: extract_idents, should_extract"]}
{"id": "C04", "title": "Invalid characters are recorded exactly once, and stay consistent with the reported errors", "statement": "At every point Info::invalid_source is exactly the list of invalid spans the lexer has returned so far, and Info::errors contains exactly one UnexpectedCharacters error per such span, with the same span and in the same order; peeking repeatedly at end of input adds nothing.", "quantifier": "every scanner output and every sequence of parser operations, including whole parses", "why_tests_cant": "repeated peeking at end of input re-enters the lexer an unbounded number of times", "anchors": ["packages/teleparse/src/parser/parser_impl.rs: try_read_next_token", "packages/teleparse/src/parser/info.rs: invalid_source, errors"]}
{"id": "C05", "title": "Parsing conserves the token stream and keeps the token store sorted", "statement": "Whatever a syntax type does (success, recovery or failure), the consumed tokens followed by the tokens still to come are always the same list; hence every token is either recorded in Info::tokens or still available, none is dropped or duplicated. Info::tokens is at all times sorted by position with pairwise disjoint non-empty spans, which is the precondition of push_unchecked and of all span queries.", "quantifier": "every syntax type, every parse table, every token stream, every result (also failed and recovered parses)", "why_tests_cant": "error recovery skips tokens along unboundedly many paths", "anchors": ["packages/teleparse/src/parser/parser_impl.rs: consume_token", "packages/teleparse/src/lex/vec.rs: push_unchecked", "packages/teleparse/src/tp_impl/*.rs: produce", "packages/macros/src/syntax.rs: produce"]}
{"id": "C06", "title": "Tokens skipped during recovery are reported in Info::invalid_tokens", "statement": "Info::invalid_tokens holds the tokens that were unable to be parsed with the syntax: if recovery skips a token, it is listed there.", "quantifier": "every syntax type and every token stream", "why_tests_cant": "a test can only show one skipped token; the field's documentation promises it for all", "anchors": ["packages/teleparse/src/parser/info.rs: invalid_tokens", "packages/teleparse/src/tp_impl/recover.rs", "packages/teleparse/src/tp_impl/iter.rs: Loop", "packages/teleparse/src/tp_impl/split.rs", "packages/teleparse/src/tp_impl/punct.rs"]}
{"id": "C07", "title": "parse_token contract", "statement": "parse_token(ty) succeeds iff the next token has type ty, in which case exactly that token is consumed and returned; otherwise nothing is consumed and the result is a failure carrying one `Expecting ty` error at the span of the next token (or at end of input).", "quantifier": "every parser state and token type", "why_tests_cant": "quantifies over all parser states", "anchors": ["packages/teleparse/src/parser/parser_impl.rs: parse_token"]}
{"id": "C08", "title": "parse_token_lit contract", "statement": "parse_token_lit(ty, lit, follow) consumes a token only if the next token has type ty and text lit, and then succeeds with it. Otherwise it consumes nothing, and: if the next token (or end of input) is in follow it recovers with a zero-length token of type ty and one error naming (ty, lit); else it fails with exactly one error (UnexpectedEof at end of input, else naming (ty, lit)).", "quantifier": "every parser state, type, literal and follow set", "why_tests_cant": "quantifies over all parser states and follow sets", "anchors": ["packages/teleparse/src/parser/parser_impl.rs: parse_token_lit, expecting, unexpected_eof"]}
{"id": "C09", "title": "Parser positions: current_span, empty_span and remaining", "statement": "current_span is the span of the token the next consume returns, or (len,len) at the end; empty_span is a zero-length span at the end of the last consumed token, or 0, and no consumed token reaches past it; remaining is exactly the source text from the start of the next token. None of the three consumes anything.", "quantifier": "every reachable parser state", "why_tests_cant": "reachable states are unbounded", "anchors": ["packages/teleparse/src/parser/parser_impl.rs: remaining, current_span, empty_span"]}
{"id": "C10", "title": "TokenSlice::inside returns exactly the tokens lying inside a span", "statement": "For a sorted token store, inside(span) is the contiguous slice of exactly those tokens whose start is >= span.lo and whose end is <= span.hi, in order; it never panics and inside_bounds is None iff there is no such token.", "quantifier": "every sorted store of any length and every span (also empty and inverted spans)", "why_tests_cant": "binary-search boundary behaviour over all stores and spans", "anchors": ["packages/teleparse/src/lex/vec.rs: inside, inside_bounds, search_lo, search_hi"]}
{"id": "C11", "title": "TokenSlice::overlap returns exactly the tokens with non-empty intersection", "statement": "For a sorted token store, overlap(span) is the slice of exactly those tokens whose span has a non-empty intersection with the given span; overlap_bounds is None iff there is none, and the returned range never panics.", "quantifier": "every sorted store and every span (also empty and inverted spans)", "why_tests_cant": "binary-search boundary behaviour over all stores and spans; the shipped tests only try empty spans at token boundaries", "anchors": ["packages/teleparse/src/lex/vec.rs: overlap, overlap_bounds"]}
{"id": "C12", "title": "TokenSlice::at_span returns a token iff it is the only one inside the span", "statement": "For a sorted token store, at_span(span) is Some(t) iff t is the one and only token lying inside span, and None iff there is no such token or there are several; in particular querying the exact span of a stored token returns that token.", "quantifier": "every sorted store and every span", "why_tests_cant": "quantifies over all stores and spans", "anchors": ["packages/teleparse/src/lex/vec.rs: at_span, at"]}
{"id": "C13", "title": "begins_at_matches and ends_at_matches return the maximal matching run", "statement": "For a sorted store, begins_at_matches(pos, pred) is None iff no token starts at pos or that token fails pred; otherwise it is the longest contiguous run of tokens starting with the token at pos that all satisfy pred. ends_at_matches is the mirror image for the run ending with the token that ends at pos.", "quantifier": "every sorted store, position and predicate", "why_tests_cant": "maximality is a statement about all longer runs, for all stores", "anchors": ["packages/teleparse/src/lex/vec.rs: begins_at_matches_bounds, ends_at_matches_bounds"]}
{"id": "C14", "title": "Applying semantic types changes exactly the tokens inside the span, and only by adding", "statement": "apply_semantic(span, s) leaves the number, order, spans and types of stored tokens unchanged, adds exactly the members of s to the semantic set of every token inside span, and leaves all other tokens untouched. Applying is idempotent and the order of applications does not matter. types() of a stored token is its lexical type together with its semantic set.", "quantifier": "every sorted store, span and semantic set, every sequence of applications", "why_tests_cant": "order-independence ranges over all sequences of applications", "anchors": ["packages/teleparse/src/parser/parser_impl.rs: apply_semantic", "packages/teleparse/src/lex/vec.rs: inside_mut, apply_semantic"]}
{"id": "C15", "title": "Set<L> behaves as a finite set of token types for every lexicon that compiles", "statement": "For a lexicon with up to 32 variants (more do not compile, because the generated Map<T> = [T; N] must be Default): after insert(a) the set contains b iff it did or a=b; after remove(a) it contains b iff it did and a/=b; union is set union; contains_all is the superset relation; a new set is empty and is_empty holds iff nothing is contained.", "quantifier": "every number of variants 1..=32, every pair of variants, every set built with the API", "why_tests_cant": "the shipped tests use lexicons with 7 variants; the bit tricks differ per lexicon size", "anchors": ["packages/teleparse/src/lex/set.rs: Set", "packages/macros/src/lexicon.rs: to_bit, repr_ty"]}
{"id": "C16", "title": "Iterating a Set yields its members in declaration order, each once", "statement": "Iterating a Set<L> yields exactly the members of the set, in increasing declaration order and without repetition, and after it returns None it keeps returning None.", "quantifier": "every lexicon size and every set built with the API", "why_tests_cant": "skip loop over all subsets of all lexicons", "anchors": ["packages/teleparse/src/lex/set.rs: Iter", "packages/macros/src/lexicon.rs: next, first, from_id_unchecked"]}
{"id": "C17", "title": "Span::get returns the text of the span and never panics on spans of the source", "statement": "Span::get(input) is the part of the input from lo up to min(hi, len), and the empty string if hi <= lo; it does not panic for any span whose ends lie on character boundaries of the input (spans past the end are clipped).", "quantifier": "every input text and every span, also spans that are reversed or extend past the end", "why_tests_cant": "ranges over all texts and spans", "anchors": ["packages/teleparse/src/lex/span.rs: Span::get"]}
{"id": "C18", "title": "Terminal sets behave as sets of (type, text) pairs, and report change exactly", "statement": "insert, union, union-without-epsilon and the insertion and removal of epsilon on FIRST/FOLLOW sets have exactly the members of the mathematical result, where a terminal without literal stands for all texts of its type; the returned flag is true iff the set of members changed; intersects is true iff there is a common member.", "quantifier": "every pair of terminal sets over every lexicon", "why_tests_cant": "the literal/any-literal case analysis over arbitrary sets; the change flag drives termination of the grammar analysis", "anchors": ["packages/teleparse/src/syntax/lit_set.rs: LitSet", "packages/teleparse/src/syntax/term_set.rs: TerminalSet", "packages/teleparse/src/syntax/first/set.rs", "packages/teleparse/src/syntax/follow/set.rs"]}
{"id": "C19", "title": "clear empties a terminal set", "statement": "After clear() a LitSet, TerminalSet or FIRST set contains nothing.", "quantifier": "every set", "why_tests_cant": "the shipped test clears sets of literals only", "anchors": ["packages/teleparse/src/syntax/lit_set.rs: clear", "packages/teleparse/src/syntax/term_set.rs: clear", "packages/teleparse/src/syntax/first/set.rs: clear"]}
{"id": "C20", "title": "The predictive table returns a registered alternative for the looked-up token", "statement": "Jump::look_up(t, token) returns i only if i was registered for t with a FIRST set containing the token (epsilon at end of input); if exactly one registered FIRST set of t contains the token then its id is returned; if none does, None is returned.", "quantifier": "every sequence of registrations and every token", "why_tests_cant": "literal entries shadow wildcard entries, which must be harmless for every registration order without conflicts", "anchors": ["packages/teleparse/src/syntax/jump.rs", "packages/teleparse/src/syntax/first/set.rs: add_to_jump_table"]}
{"id": "C21", "title": "The computed FIRST sets are exactly the textbook FIRST sets", "statement": "For every grammar the FIRST set computed for a production contains epsilon iff the production derives the empty sequence, and contains a token iff the token can begin a sentential form derived from it.", "quantifier": "every grammar (any number of productions, recursive or not)", "why_tests_cant": "a least fixpoint over arbitrary recursive grammars", "anchors": ["packages/teleparse/src/syntax/first/builder.rs: FirstBuilder", "packages/teleparse/src/syntax/metadata.rs: add_sequence, add_union, add_terminal, add_epsilon"]}
{"id": "C22", "title": "Grammar analysis terminates and does not depend on the order of the productions", "statement": "Computing the FIRST and FOLLOW sets terminates for every grammar, and the sets have the same members whatever the order in which productions were registered (in particular whatever the order of type ids in the maps).", "quantifier": "every grammar and every permutation of its productions", "why_tests_cant": "termination and order independence are universally quantified", "anchors": ["packages/teleparse/src/syntax/first/builder.rs: build, process_rels", "packages/teleparse/src/syntax/follow/builder.rs: build", "packages/teleparse/src/syntax/metadata.rs: build"]}
{"id": "C23", "title": "The computed FOLLOW sets contain only tokens that can really follow", "statement": "Every token (or end of input) in the FOLLOW set computed for a production can directly follow that production in some sentential form derived from the root.", "quantifier": "every grammar", "why_tests_cant": "a least fixpoint over arbitrary recursive grammars", "anchors": ["packages/teleparse/src/syntax/follow/builder.rs: FollowBuilder"]}
{"id": "C24", "title": "The computed FOLLOW sets contain every token that can follow", "statement": "If a token (or end of input) can directly follow a production in a sentential form derived from the root, then it is in the FOLLOW set computed for that production.", "quantifier": "every grammar", "why_tests_cant": "needs closure over nullable symbols of any number between two symbols; tests use sequences in which this does not occur", "anchors": ["packages/teleparse/src/syntax/follow/builder.rs: build_sequence"]}
{"id": "C25", "title": "A FIRST/FIRST conflict is reported iff two alternatives of a reachable enum or option overlap", "statement": "Building the metadata of a root fails with FirstFirstConflict only if some reachable union production has two alternatives which share a FIRST terminal or are both nullable, and it never succeeds if such a union is reachable.", "quantifier": "every grammar", "why_tests_cant": "the check accumulates sets over any number of alternatives of any number of reachable productions", "anchors": ["packages/teleparse/src/syntax/metadata.rs: check_conflicts"]}
{"id": "C26", "title": "An optional part followed by an overlapping part of the same sequence is always rejected", "statement": "If a reachable sequence contains a nullable part which is followed, possibly after further nullable parts, by a part with a common FIRST terminal, then building the metadata fails.", "quantifier": "every grammar", "why_tests_cant": "accumulation over arbitrary runs of nullable parts", "anchors": ["packages/teleparse/src/syntax/metadata.rs: check_conflicts (Sequence)"]}
{"id": "C27", "title": "Every accepted grammar is LL(1)", "statement": "If building the metadata succeeds then the grammar reachable from the root satisfies the LL(1) conditions: alternatives have disjoint FIRST sets, at most one is nullable, and a nullable production has disjoint FIRST and FOLLOW sets (the textbook sets).", "quantifier": "every grammar", "why_tests_cant": "acceptance of all grammars by assert_ll1 cannot be sampled", "anchors": ["packages/teleparse/src/syntax/metadata.rs: MetadataBuilder::build", "packages/teleparse/src/parser/tree.rs: assert_ll1"]}
{"id": "C28", "title": "Every LL(1) grammar is accepted", "statement": "If the grammar satisfies the LL(1) conditions then building the metadata succeeds.", "quantifier": "every LL(1) grammar", "why_tests_cant": "absence of false alarms over all grammars", "anchors": ["packages/teleparse/src/syntax/metadata.rs: check_conflicts", "packages/teleparse/src/syntax/lit_set.rs: clear"]}
{"id": "C29", "title": "Left recursion is reported", "statement": "If a production reachable from the root is left recursive then building the metadata fails, and a grammar whose only defect is left recursion is rejected with GrammarError::LeftRecursion.", "quantifier": "every grammar", "why_tests_cant": "cycles of any length through any number of nullable symbols", "anchors": ["packages/teleparse/src/syntax/metadata.rs: check_left_recursive", "packages/teleparse/src/lib.rs: GrammarError::LeftRecursion"]}
{"id": "C30", "title": "An accepted grammar without unproductive symbols has no left recursion", "statement": "If building the metadata succeeds and every reachable production derives at least one finite token sequence, then no reachable production can derive a sentential form that starts with itself, so recursive descent never re-enters a production without consuming a token.", "quantifier": "every accepted grammar", "why_tests_cant": "a global property of all derivations", "anchors": ["packages/teleparse/src/syntax/metadata.rs: check_conflicts, check_left_recursive"]}
{"id": "C31", "title": "Table lookup for an accepted grammar is exact", "statement": "If the metadata was built, then for every reachable union production and every token, look_up returns Some(i) iff the token is in the FIRST set of alternative i, and at end of input iff alternative i is nullable.", "quantifier": "every accepted grammar and every token", "why_tests_cant": "registration is interleaved with the traversal of the whole grammar", "anchors": ["packages/teleparse/src/syntax/metadata.rs: build_jump", "packages/teleparse/src/syntax/jump.rs", "packages/teleparse/src/syntax/first/set.rs: add_to_jump_table"]}
{"id": "C32", "title": "Registration records every reachable production exactly once and terminates on recursive types", "statement": "Registering a root terminates also for mutually recursive types, and records exactly the productions reachable from it, each once and with its complete list of parts or alternatives in declaration order.", "quantifier": "every collection of (mutually recursive) syntax types", "why_tests_cant": "recursion through options, lists and user types of any shape", "anchors": ["packages/teleparse/src/syntax/ast.rs: register_sequence!, register_union!", "packages/teleparse/src/syntax/metadata.rs: visit", "packages/teleparse/src/tp_impl/option.rs, iter.rs, punct.rs, tuple.rs: register"]}
{"id": "C33", "title": "Metadata construction is total and deterministic", "statement": "Root::metadata terminates with either metadata or a grammar error for every collection of syntax types; the traversals (left recursion check, conflict check, jump construction) visit every reachable production and terminate on recursive grammars.", "quantifier": "every collection of syntax types", "why_tests_cant": "termination on all recursive grammars", "anchors": ["packages/teleparse/src/syntax/metadata.rs: build, build_for, check_conflicts, build_jump"]}
{"id": "C34", "title": "A successful parse yields a tree that matches the consumed tokens", "statement": "If producing a syntax type returns Success then the consumed tokens form a sentence of that type and the returned tree is the parse tree of exactly these tokens: every terminal of the tree is the corresponding token, options and repetitions mirror what was matched, quoted text is the source text.", "quantifier": "every syntax type without Recover, every parse table (even a wrong one) and every token stream", "why_tests_cant": "soundness for all inputs and all compositions of the utility types", "anchors": ["packages/teleparse/src/tp_impl/*.rs: produce", "packages/macros/src/syntax.rs: expand_struct_unnamed, expand_struct_named, expand_enum", "packages/macros/src/lexicon.rs: derive_terminal"]}
{"id": "C35", "title": "A sentence of an accepted grammar is parsed successfully, to its parse tree", "statement": "If the metadata of the root was built and the input is a sentence of the root type, then parsing returns Success with the parse tree of the input, consumes all of it and reports no error.", "quantifier": "every accepted grammar and every sentence", "why_tests_cant": "completeness for all sentences of all grammars", "anchors": ["packages/teleparse/src/tp_impl/*.rs: produce", "packages/macros/src/syntax.rs: expand_enum", "packages/teleparse/src/syntax/jump.rs: look_up_token", "packages/teleparse/src/syntax/follow/builder.rs"]}
{"id": "C36", "title": "Accepted grammars are unambiguous", "statement": "For an accepted grammar a token sequence has at most one parse tree per syntax type and at most one prefix of the input, compatible with what can follow, is a sentence of that type.", "quantifier": "every accepted grammar, every token sequence", "why_tests_cant": "quantifies over pairs of parse trees", "anchors": ["packages/teleparse/src/syntax/metadata.rs: build"]}
{"id": "C37", "title": "A parse that does not succeed reports at least one error", "statement": "If parsing fails or recovers, at least one error is reported: Root::parse returning no tree implies that Info::errors is non-empty, and a Recovered result always carries an error.", "quantifier": "every syntax type and every token stream", "why_tests_cant": "all failure paths of all compositions", "anchors": ["packages/teleparse/src/syntax/error.rs: Result", "packages/teleparse/src/tp_impl/*.rs", "packages/teleparse/src/parser/parser_impl.rs: parse_with_meta"]}
{"id": "C38", "title": "Parsing terminates on every input", "statement": "For every accepted grammar and every finite input, producing the root terminates: no loop of the utility types and no recursion runs forever, whatever errors the input contains.", "quantifier": "every accepted grammar and every finite token stream", "why_tests_cant": "non-termination cannot be observed by a test; the loops depend on FIRST sets and recovery", "anchors": ["packages/teleparse/src/tp_impl/iter.rs: ProduceIter, Loop", "packages/teleparse/src/tp_impl/split.rs", "packages/teleparse/src/tp_impl/punct.rs", "packages/teleparse/src/tp_impl/recover.rs"]}
{"id": "C39", "title": "Option, Exists, Star and Loop never fail", "statement": "Producing an Option, Exists, Star (Vec) or Loop always returns a value: it never fails, whatever the input is.", "quantifier": "every element type, parse table and token stream", "why_tests_cant": "for all element types", "anchors": ["packages/teleparse/src/tp_impl/option.rs: produce_option", "packages/teleparse/src/tp_impl/iter.rs: Star, Loop"]}
{"id": "C40", "title": "Shape of repetitions: Plus is never empty, Split has one separator less than elements, Punct at most as many", "statement": "A returned Plus/Nev has at least one element. A returned Split has at least one element and exactly one separator less than elements, also after recovery. A returned Punct has at least one element; after a Success it has as many separators as elements or one less.", "quantifier": "every element and separator type, every token stream, also recovered parses", "why_tests_cant": "recovery drops elements and separators along unboundedly many paths", "anchors": ["packages/teleparse/src/tp_impl/iter.rs: Plus", "packages/teleparse/src/tp_impl/split.rs", "packages/teleparse/src/tp_impl/punct.rs"]}
{"id": "C41", "title": "Option produces the subtree iff the lookahead can start it", "statement": "Option<T>/Exists<T> return an empty node without consuming anything iff the input is at its end or the next token is not in FIRST(T); otherwise they produce T and contain its tree unless T failed. The span of an empty node has zero length.", "quantifier": "every T, table and parser state", "why_tests_cant": "for all T and states", "anchors": ["packages/teleparse/src/tp_impl/option.rs: produce_option"]}
{"id": "C42", "title": "Spans of tree nodes are well-formed and nested", "statement": "In every tree returned by the parser each node's span satisfies lo <= hi, the spans of the parts of a sequence are in order, and every part lies inside its parent.", "quantifier": "every syntax type and input", "why_tests_cant": "must hold for all trees, including recovered ones", "anchors": ["packages/teleparse/src/lex/span.rs: ToSpan", "packages/macros/src/syntax.rs: ToSpan impls", "packages/teleparse/src/parser/parser_impl.rs: empty_span, current_span"]}
{"id": "C43", "title": "A field's semantic type is applied to exactly the tokens of that field", "statement": "After a successful parse of a struct or enum, the semantic types declared on a field or variant have been added to exactly the tokens consumed for that field, and to no other token.", "quantifier": "every struct/enum and every sentence of it", "why_tests_cant": "spans are used to find the tokens, for all shapes of fields (also empty ones)", "anchors": ["packages/macros/src/syntax.rs: apply_semantic_impl", "packages/teleparse/src/parser/parser_impl.rs: apply_semantic"]}
{"id": "C44", "title": "Quote and Parse see exactly the source text of the node", "statement": "On success Quote<T> stores, and Parse<T> passes to from_str, the source text from the start of the first to the end of the last token of T, and both accept, consume and report exactly what T does.", "quantifier": "every T, table and input", "why_tests_cant": "for all T", "anchors": ["packages/teleparse/src/tp_impl/string.rs", "packages/teleparse/src/parser/info.rs: get_src"]}
{"id": "C45", "title": "Loop consumes the input to its end or reports that it is stuck", "statement": "After Loop<T> returns, either the end of input has been reached or an UnexpectedNoAdvanceInLoop error is reported; a Success of Loop means the whole remaining input was a sequence of Ts; skipped tokens are covered by an UnexpectedTokens error. Loop terminates whenever each T terminates.", "quantifier": "every T, table and input", "why_tests_cant": "for all T and all error patterns", "anchors": ["packages/teleparse/src/tp_impl/iter.rs: Loop"]}
{"id": "C46", "title": "Recover resumes at the first place where R can be produced", "statement": "Recover<T,R> skips only tokens at which R could not be produced, never loses the tail if one is found, and always terminates when T and R do. It returns a tree iff a tail was produced; the head is absent iff T failed or could not start.", "quantifier": "every T, R, table and input", "why_tests_cant": "for all T, R and inputs", "anchors": ["packages/teleparse/src/tp_impl/recover.rs"]}
{"id": "C47", "title": "Error spans lie within the source", "statement": "Every error reported by the parser has a span inside the source text (hi <= length), whatever the input.", "quantifier": "every syntax type and input", "why_tests_cant": "for all recovery paths", "anchors": ["packages/teleparse/src/parser/parser_impl.rs: expecting, unexpected_eof, current_span", "packages/teleparse/src/tp_impl/*.rs"]}
{"id": "C48", "title": "Parser::parse reports grammar errors, trees and errors faithfully and resumes where it stopped", "statement": "Parser::parse returns Err iff the metadata of the root is an error; otherwise it returns the produced tree (None iff producing it failed) and appends exactly the errors of the result to Info::errors, never removing earlier ones. Parsing again continues with the first token not consumed.", "quantifier": "every root, source and number of successive parses", "why_tests_cant": "histories of successive parses are unbounded", "anchors": ["packages/teleparse/src/parser/parser_impl.rs: parse, parse_with_meta", "packages/teleparse/src/parser/tree.rs: Root::parse"]}
{"id": "C49", "title": "derive_lexicon gives every variant exactly the lexer rules written on it", "statement": "For every enum accepted by derive_lexicon, the generated lexer attaches to each variant exactly the regexes or literals declared on this variant, and variants without rules are never produced by the lexer, in whatever order variants are declared.", "quantifier": "every enum declaration, every order of variants with and without rules", "why_tests_cant": "orders of declarations are unbounded; the shipped tests put rule-less variants last", "anchors": ["packages/macros/src/lexicon.rs: lex_variant_idents, lex_variant_derived_attrs, DerivedLogos"]}
{"id": "C50", "title": "derive_lexicon rejects duplicate literals within a variant", "statement": "If two terminals of one variant have the same literal then derive_lexicon reports an error; it also rejects two terminals without literal, empty literals, empty enums and more than 128 variants.", "quantifier": "every enum declaration", "why_tests_cant": "all orders of terminals within a variant", "anchors": ["packages/macros/src/lexicon.rs: infer_literals, infer_literal_set"]}
{"id": "C51", "title": "Token type enumeration is a bijection with the ids", "statement": "first() followed by repeated next() visits every variant exactly once in declaration order; id and from_id_unchecked are inverse on it.", "quantifier": "every number of variants", "why_tests_cant": "all lexicon sizes", "anchors": ["packages/macros/src/lexicon.rs: id, from_id_unchecked, first, next"]}
{"id": "C52", "title": "The parser never slices the source out of bounds", "statement": "No operation of the parser indexes the source text outside its bounds or off a character boundary: token text lookup, Quote/Parse text, and remaining() never panic, provided the scanner's spans lie on character boundaries of the source.", "quantifier": "every source, scanner output within the source, syntax type and input, also recovered parses", "why_tests_cant": "absence of panics over all recovery paths", "anchors": ["packages/teleparse/src/lex/span.rs: get", "packages/teleparse/src/parser/parser_impl.rs: remaining, parse_token_lit, peek_token_src", "packages/teleparse/src/tp_impl/string.rs"]}
{"id": "C53", "title": "A missing literal is repaired without touching the input", "statement": "If a literal terminal is missing but the next token may follow it, the parser inserts it: it reports exactly one error, consumes nothing, and continues with the rest of the sequence at the same token.", "quantifier": "every sequence, table and input", "why_tests_cant": "for all contexts", "anchors": ["packages/teleparse/src/parser/parser_impl.rs: parse_token_lit", "packages/teleparse/src/tp_impl/tuple.rs", "packages/teleparse/src/syntax/error.rs: handle_result!"]}
{"id": "C54", "title": "Sequences collect the errors of their parts in order and stop at the first failing part", "statement": "Producing a tuple or struct produces its parts from left to right; it succeeds iff all parts succeed, recovers iff no part fails and some part recovers, and fails iff a part fails, in which case later parts are not attempted; its errors are the concatenation of the errors of the attempted parts in order.", "quantifier": "every tuple or struct and every input", "why_tests_cant": "for all sequences of results", "anchors": ["packages/teleparse/src/tp_impl/tuple.rs", "packages/teleparse/src/syntax/error.rs: handle_result!, From", "packages/macros/src/syntax.rs: expand_struct_unnamed, expand_struct_named"]}
{"id": "C55", "title": "An enum produces the alternative selected by the lookahead and nothing else", "statement": "Producing an enum of an accepted grammar tries only the alternative whose FIRST set contains the next token; if there is none it fails without consuming anything, with one error naming the FIRST set of the enum.", "quantifier": "every enum, accepted grammar and input", "why_tests_cant": "for all enums and inputs", "anchors": ["packages/macros/src/syntax.rs: expand_enum", "packages/teleparse/src/syntax/jump.rs"]}
{"id": "C56", "title": "Terminals and extracted token types follow the declaration", "statement": "For every enum accepted by derive_lexicon the generated terminal structs are exactly those declared with terminal(..), in order, each with the token type of its variant and its literal, and should_extract is true exactly for the variants without terminals.", "quantifier": "every enum declaration", "why_tests_cant": "the space of declarations is unbounded", "anchors": ["packages/macros/src/lexicon.rs: derive_terminal, extract_idents, should_extract"]}
{"id": "C57", "title": "Token types are numbered consecutively and fit the bit type", "statement": "For every enum accepted by derive_lexicon the variants are numbered from 0 in declaration order, the map type has exactly one entry per variant and the bit type has at least one bit per variant.", "quantifier": "every enum declaration", "why_tests_cant": "all numbers of variants", "anchors": ["packages/macros/src/lexicon.rs: repr_ty, variant_ordinals, enum_len"]}
{"id": "C58", "title": "derive_lexicon reports true errors only", "statement": "If derive_lexicon reports an error then the declaration has the flaw the message describes, at the variant, regex and literal it names; declarations without flaws are accepted.", "quantifier": "every declaration and every regex engine", "why_tests_cant": "combinations of flaws in one declaration are unbounded; only a few messages are exercised", "anchors": ["packages/macros/src/lexicon.rs: expand, parse_root_attributes, check_enum_precondition", "packages/macros/src/prelude.rs: checked_regex_rule"]}
{"id": "C59", "title": "A grammar error names the productions that conflict", "statement": "If Metadata::build returns a conflict error, then the productions it names conflict in the way the message says: for FirstFirstConflict two different alternatives of the named union can begin with the same token or can both be empty; for FirstFollowSeqConflict the first named part of the sequence can be empty and both named parts can begin with a common token; for FirstFollowConflict the named production can be empty and some token can both begin and follow it.", "quantifier": "every grammar and root", "why_tests_cant": "every shape of grammar can be rejected; tests compare a few messages", "anchors": ["packages/teleparse/src/syntax/metadata.rs: check_conflicts, check_self_first_follow_conflict", "packages/teleparse/src/lib.rs: GrammarError"]}
{"id": "C60", "title": "A grammar error lists exactly the conflicting terminals", "statement": "The list of terminals in a conflict error is not empty, sorted and without repetition, and contains exactly the terminals that cause the conflict: the name of a token type if all its tokens do, the quoted texts otherwise, and <empty> if both alternatives can be empty.", "quantifier": "every grammar and root, every naming of the token types", "why_tests_cant": "the sets are unbounded and mix bare types with texts", "anchors": ["packages/teleparse/src/syntax/term_set.rs: intersection_repr", "packages/teleparse/src/syntax/metadata.rs: check_conflicts"]}
{"id": "C61", "title": "Error::message never panics on a recorded error and shows exactly what is wrong", "statement": "For every error recorded in the Info of a parser, or returned by produce, Error::message called with the source does not panic; for unexpected characters or tokens it shows exactly the text at the span of the error, and for an expectation the sorted list of exactly the terminals in the expected set.", "quantifier": "every source, every sequence of lexer results, every sequence of API calls, every syntax tree type", "why_tests_cant": "spans of errors depend on the whole input; slicing panics only at particular byte positions", "anchors": ["packages/teleparse/src/syntax/error.rs: Error::message", "packages/teleparse/src/syntax/term_set.rs: to_repr"]}
{"id": "C62", "title": "Expected sets in errors are truthful", "statement": "Every error 'expecting ...' recorded by a parse begins at a token of the input (or at the end of input); the set named is exactly what can begin one of the types of the syntax tree (at a Punct: an element, or a token that can follow); and what is actually there is not in the set.", "quantifier": "every source and sequence of lexer results, every syntax tree type whose grammar is accepted, every parser state reachable through the API", "why_tests_cant": "errors arise in every combinator, after any amount of error recovery, and get merged and extended", "anchors": ["packages/teleparse/src/parser/parser_impl.rs: expecting", "packages/teleparse/src/tp_impl/split.rs", "packages/teleparse/src/tp_impl/punct.rs", "packages/teleparse/src/tp_impl/recover.rs", "packages/macros/src/syntax.rs: enum"]}
{"id": "C63", "title": "derive_syntax generates the declared production, parser and span", "statement": "For a struct or enum accepted by #[derive_syntax], the generated code registers the sequence (struct) or union (enum) of the field types in the order of declaration, parses the fields in that order, applies to each field exactly the token types written in its semantic(..), builds the variant whose alternative the jump table chose, takes the start of a struct from its first and the end from its last field, implements Root iff `root` is written, and adds the LL(1) test iff `root` is written without `no_test`. It compiles exactly if every semantic(..) names at least one token type and only existing ones.", "quantifier": "all declarations with distinct names, all lexicons, all parser states", "why_tests_cant": "tests fix a few declarations; an index or accessor that is off by one shows only for particular positions of attributes among the fields", "anchors": ["packages/macros/src/syntax.rs:5-354", "packages/macros/src/root.rs:5-51", "packages/teleparse/src/lex/set.rs:136-148"]}
{"id": "C64", "title": "derive_syntax rejects attributes it does not understand", "statement": "A #[teleparse(..)] attribute on a field, variant or type that is not one of the documented ones is a compile error, so a misspelt attribute cannot be silently ignored.", "quantifier": "all declarations and attributes", "why_tests_cant": "the set of wrong attributes is unbounded, and a test of one misspelling says nothing about the others", "anchors": ["packages/macros/src/syntax.rs:367-447"]}
{"id": "C65", "title": "Errors of derive_syntax are truthful", "statement": "When #[derive_syntax] rejects a declaration, what the message says (several attributes, duplicated semantic, discriminant, wrong number of fields in the named variant, no fields, no_test without root, ...) is true of the declaration, and a declaration with none of these faults is accepted.", "quantifier": "all declarations", "why_tests_cant": "declarations combine several faults; tests check one fault at a time and cannot show that no message is wrong", "anchors": ["packages/macros/src/syntax.rs:19-22", "packages/macros/src/syntax.rs:50-52", "packages/macros/src/syntax.rs:248-279", "packages/macros/src/syntax.rs:367-447"]}
{"id": "C66", "title": "derive(ToSpan) reports the span of the first field", "statement": "For a type with #[derive(ToSpan)], lo() and hi() are those of the first field (for an enum: the first field of the variant at hand), and the derive is rejected exactly for unions, unit structs and variants, and empty braces.", "quantifier": "all declarations and values", "why_tests_cant": "tests fix a few types and values", "anchors": ["packages/macros/src/to_span.rs:3-102"]}
{"id": "C67", "title": "A grammar error message names the offending type and its parts", "statement": "The text of a GrammarError is fixed wording around the name of the type with the conflict, the names of the parts in conflict in the order of the error, and the comma-separated list of the conflicting terminals; for left recursion, the types on the stack and then the current one.", "quantifier": "all names, stacks and lists of terminals", "why_tests_cant": "tests compare whole messages of a few grammars; swapped or repeated names can coincide there", "anchors": ["packages/teleparse/src/lib.rs:66-90", "packages/teleparse/src/syntax/metadata.rs"]}
{"id": "C68", "title": "The parser looks one token ahead and no further", "statement": "What produce() returns for a syntax type (tree, errors), which tokens it consumes and what is next depend only on the tokens it consumes and the next token: changing the source after the end of the next token changes nothing. The same holds for Root::parse with the returned tree, the stored tokens with their semantic types, and the syntax errors.", "quantifier": "all grammars, types, parser states, and pairs of sources that agree up to the end of the next token", "why_tests_cant": "a claim about pairs of inputs with arbitrary different continuations", "anchors": ["packages/teleparse/src/parser/parser_impl.rs", "packages/teleparse/src/tp_impl", "packages/book/src/syntax_analysis/ll1.md"]}
{"id": "C69", "title": "No false alarms", "statement": "If a syntax error is reported at a token, then no input that has the same tokens up to and including that token is parsed without syntax errors: for inputs that agree up to the end of a common run of tokens, one of which is parsed without syntax errors, every syntax error of the other begins after that run.", "quantifier": "all grammars (accepted or not LL(1)), types, parser states, and pairs of inputs with a common beginning", "why_tests_cant": "relates every erroneous input to all correct inputs sharing a prefix; error recovery could report an error late but at an early place", "anchors": ["packages/teleparse/src/tp_impl", "packages/teleparse/src/parser/parser_impl.rs"]}
{"id": "C70", "title": "The first syntax error is not reported late", "statement": "If a parse reports syntax errors, the tokens before the first of them are the beginning of some sentence of the grammar (and the first error begins exactly at a token or at the end of the source): no error in the input goes unnoticed until a later token.", "quantifier": "all grammars whose types all derive something (LL(1) or not), all inputs, all parser states", "why_tests_cant": "quantifies over all erroneous inputs and the existence of a correct continuation; a parser with error recovery can drop early errors in some nestings only", "anchors": ["packages/teleparse/src/tp_impl/split.rs", "packages/teleparse/src/tp_impl/punct.rs", "packages/teleparse/src/tp_impl/recover.rs", "packages/teleparse/src/parser/parser_impl.rs"]}
{"id": "C71", "title": "The LL(1) violations listed in the book are always rejected", "statement": "A grammar in which some optional type (Option, Exists) has a content that can be empty, in which some repetition (Plus, Star, Loop) has an element that can be empty, or in which a part of a tuple, struct or Recover can be empty and a later part, with nothing but possibly empty parts between them, can begin with the same token, is rejected: Root::parse returns the same grammar error for every input. In particular the examples Option<Option<T>>, Vec<Option<T>> and (Option<T>, T) of the book are rejected wherever they occur and whatever T is.", "quantifier": "all schemas, all root types, all positions of the offending type in the grammar, all T, all inputs", "why_tests_cant": "a test shows one grammar with one T; the claim is for every type and every place reachable from the root", "anchors": ["packages/book/src/tp/option.md", "packages/book/src/tp/iter.md", "packages/teleparse/src/syntax/metadata.rs", "packages/teleparse/src/tp_impl/option.rs", "packages/teleparse/src/tp_impl/iter.rs"]}
{"id": "C72", "title": "Split and Punct recover as documented", "statement": "Split<T, P> and Punct<T, P> fail iff their first element fails. After each element a separator is read wherever one can begin. When no element can be produced after a separator, an error is recorded (Punct: only if the next token is neither in FIRST(T) nor in FOLLOW), the list stops at a token in FOLLOW or the end of input, continues with a separator at a token in FIRST(P), and otherwise skips tokens until a token in FIRST(P), FIRST(T) or FOLLOW is found. Every skipped token is covered by a recorded error. The result has all elements found, their separators (Punct: all separators), and all errors.", "quantifier": "all accepted grammars, all element and separator types, all token sequences, all reachable parser states", "why_tests_cant": "recovery depends on the three sets, on where in the element a failure happens and on arbitrarily long runs of skipped tokens", "anchors": ["packages/book/src/tp/delimited.md", "packages/teleparse/src/tp_impl/split.rs", "packages/teleparse/src/tp_impl/punct.rs"]}
{"id": "C73", "title": "Errors lie between where a type begins and where it stops", "statement": "Every error of a produced type begins at or after the token at which the type began, does not end before it begins, does not begin after the token at which the type stopped and does not reach beyond the end of that token. So errors of what is parsed first do not begin after errors of what is parsed next. A type that fails before the end of input reports, as its last error, the token at which it stopped. No recorded error of a parser has its end before its beginning, and those about unrecognised characters are not empty.", "quantifier": "all types, all parse tables, all inputs, all reachable parser states", "why_tests_cant": "spans are merged and extended during recovery in every combinator; only an induction over all of them shows that no span gets inverted or reaches too far", "anchors": ["packages/teleparse/src/parser/parser_impl.rs", "packages/teleparse/src/tp_impl/split.rs", "packages/teleparse/src/tp_impl/punct.rs", "packages/teleparse/src/tp_impl/recover.rs", "packages/teleparse/src/tp_impl/iter.rs"]}
{"id": "C74", "title": "What is between the tokens does not matter", "statement": "If two inputs have the same words, that is the same sequence of types and texts of tokens that are not extracted, then parsing any root, or producing any type, from parsers in corresponding states has the same outcome on both: the same grammar error, or trees of the same shape with the same token types whose spans correspond (to the same tokens), the same syntax errors at corresponding places, and the same semantic types on the consumed tokens. Whitespace, comments (extracted tokens) and unrecognised characters are only visible in positions, in the texts of Quote and Parse of several tokens, in the extracted tokens and in the errors about unrecognised characters. The parsers correspond again afterwards, so this holds for any sequence of parses.", "quantifier": "all types, all parse tables, all pairs of inputs with the same words (also for lexicons that extract different types), all corresponding reachable parser states", "why_tests_cant": "relates two runs on any two inputs; several decisions of the parser compare positions (semantic types by span, progress of Loop, end of Punct), and a test with a few layouts cannot show that none depends on the layout", "anchors": ["packages/teleparse/src/parser/parser_impl.rs", "packages/teleparse/src/lex/vec.rs", "packages/teleparse/src/tp_impl/iter.rs", "packages/teleparse/src/tp_impl/punct.rs", "packages/macros/src/syntax.rs"]}
{"id": "C75", "title": "A syntax tree holds tokens of the input, each at most once, in order", "statement": "Every tree returned by produce() or Parser::parse, also a recovered one, consists of tokens that were consumed by this call, apart from terminals put in for missing literals, which have empty spans. Reading the tree from left to right (for lists with separators: merging elements and separators) gives each token at most once and in the order of the input. If the result is Success and the type contains no Exists, Quote or Parse (and no Recover inside an option, a repetition or the head of a Recover, because it can fail silently, C37), the tree holds every token that was consumed.", "quantifier": "every schema, table, syntax type, parser state and input", "why_tests_cant": "quantifies over all inputs and all paths of recovery: tests compare single trees, they cannot show that no recovery path keeps a token twice, in the wrong order, or one that was not consumed", "anchors": ["packages/teleparse/src/tp_impl", "packages/teleparse/src/parser/parser_impl.rs", "packages/macros/src/syntax.rs"]}
{"id": "C76", "title": "Parsing takes linear time", "statement": "For every type there is a constant K, depending on the types only, such that whenever producing it returns it has made at most K * (c + 1) calls of peek_token, consume_token and apply_semantic, where c is the number of tokens consumed: for any tables, any text and any state of the parser, with or without errors. So parsing a text takes a number of calls linear in its number of tokens. The number of calls is determined by the input, and counting does not change the result. (When producing returns is the subject of C38: for an accepted grammar under the conditions there it always does; without them there is an accepted grammar for which it never returns.)", "quantifier": "all schemas and types, any tables, all inputs, all parser states", "why_tests_cant": "a benchmark shows growth on chosen inputs for chosen grammars; that no grammar and no malformed input makes recovery rescan or retry more than a constant number of times per token needs an argument over all of them", "anchors": ["packages/teleparse/src/parser/parser_impl.rs", "packages/teleparse/src/tp_impl/iter.rs", "packages/teleparse/src/tp_impl/split.rs", "packages/teleparse/src/tp_impl/punct.rs", "packages/teleparse/src/tp_impl/recover.rs", "packages/macros/src/syntax.rs"]}
{"id": "C77", "title": "Parsing accepts exactly the language and takes the longest match", "statement": "Root::parse returns a tree without syntax errors and with nothing left over exactly for the sentences of the root type. If some first tokens of the input are a sentence and the token after them cannot come next in any longer sentence with this beginning, parsing returns the tree of those first tokens without an error and stops there. Conversely a token that parsing leaves over could not have been used: no input that agrees up to and including this token is a sentence.", "quantifier": "every accepted grammar and every input, sentence or not", "why_tests_cant": "an equivalence between a run and the existence of derivations, over all inputs and all continuations of an input", "anchors": ["packages/teleparse/src/tp_impl/*.rs: produce", "packages/teleparse/src/syntax/jump.rs: look_up_token", "packages/teleparse/src/parser/info.rs", "packages/macros/src/root.rs"]}
{"id": "C78", "title": "Parts of a root behave as roots", "statement": "Every type inside of an accepted root type is accepted as a root of its own. It has the same FIRST set, can be empty under the same conditions, and chooses the same variants of enums; its FOLLOW set as a root contains no token that it does not contain inside of the larger root. What the part produces as a root without an error it produces inside of the larger root: the same tree from the same state, leaving the same state. So parsing A and then B with two calls of Parser::parse gives, without syntax errors, what one call gives for the tuple (A, B). The converse holds if no Punct list in the part is followed by more tokens in the larger root.", "quantifier": "every accepted root type, every type reachable from it, every parser state", "why_tests_cant": "relates the analyses of two different root types over all pairs of types, and two runs over all inputs; a test compares one pair on one input", "anchors": ["packages/teleparse/src/syntax/metadata.rs", "packages/teleparse/src/syntax/first/builder.rs", "packages/teleparse/src/syntax/follow/builder.rs", "packages/teleparse/src/syntax/jump.rs", "packages/teleparse/src/parser/parser_impl.rs: parse", "packages/teleparse/src/tp_impl/punct.rs"]}
{"id": "C79", "title": "How a type is written does not matter", "statement": "Two root types that have the same form all the way down (up to Box, structs written as tuples with fields of the same types without semantic attributes, names of structs, enums and terminals, and several copies of a type) are interchangeable: both or none is accepted, types that correspond have the same FIRST sets and can be empty under the same conditions, and the roots have the same sentences. Where Parser::parse reports no syntax error for one of them it returns the same for the other and leaves the parser in the same state (tokens, semantic types, errors, rest of the input), except that Punct lists that were one type and are written as two different types may report an error. Removing all boxes never makes a difference to a parse without syntax errors.", "quantifier": "every two sets of type definitions with a relation between types of the same form, every parser state", "why_tests_cant": "quantifies over pairs of programs and over all inputs; a test compares two given programs on one input", "anchors": ["packages/teleparse/src/tp_impl/boxed.rs", "packages/teleparse/src/syntax/ast.rs: production_passthrough", "packages/teleparse/src/tp_impl/tuple.rs", "packages/macros/src/syntax.rs", "packages/teleparse/src/syntax/metadata.rs", "packages/teleparse/src/parser/parser_impl.rs: parse", "packages/teleparse/src/tp_impl/punct.rs"]}
{"id": "C80", "title": "The name of a type in a grammar error describes the type", "statement": "The name shown for a production (in GrammarError messages and stored in Metadata::names), read as an expression in extended Backus-Naur form ((..)?, (..)*, (..)+, lists with separators (..)[..]+, sequences separated by blanks), stands for exactly the sequences of user-defined types and terminals that the production registers; user-defined types are shown by their identifiers, terminals by their literal or identifier. So two productions with the same name stand for the same sequences.", "quantifier": "all productions built from any types, all names of user-defined types and terminals", "why_tests_cant": "types can be nested without bound, and the name of an option is computed by inspecting the text of the name of its content; a test checks the names of a few types", "anchors": ["packages/teleparse/src/tp_impl/option.rs:17-28", "packages/teleparse/src/tp_impl/iter.rs:16-18", "packages/teleparse/src/tp_impl/punct.rs:16-18", "packages/teleparse/src/tp_impl/tuple.rs:13-21", "packages/teleparse/src/syntax/ast.rs:11-13, 56-58", "packages/macros/src/lexicon.rs:405-408, 453-455", "packages/macros/src/syntax.rs:107-109, 196-198, 315-317"]}
{"id": "C81", "title": "The generated lexer splits the source into longest matches of the declared rules", "statement": "The lexer generated by derive_lexicon comes to the end of every source and returns non-empty pieces on character boundaries from left to right. Every byte belongs to a token, to a piece reported as unrecognised, or to text in between that an `ignore` pattern matches. The text of a token is matched by a rule written on the variant of its type, and no rule of the declaration matches more of the source from there on, nor the same with a higher priority; no rule matches at the beginning of an unrecognised piece. A source in which everything is recognised is split in one way only.", "quantifier": "all accepted lexicon declarations, all sources, every pair of regex engine and scanner that read patterns as the same sets of texts", "why_tests_cant": "it speaks about all declarations and all sources; it is also what all theorems about the parser assume about the lexer", "anchors": ["packages/macros/src/lexicon.rs:76-336", "packages/macros/src/prelude.rs:145-160", "packages/teleparse/src/lex/lexer.rs", "packages/book/src/lexical_analysis"]}
{"id": "C82", "title": "The literal of a terminal can be scanned, and is refused only if it cannot", "statement": "For every terminal with a literal in an accepted declaration, where the scanner comes to the literal it returns it as a token of the variant of the terminal, unless a rule matches more text or another rule of no lower priority matches the literal. A declaration is refused because of a literal (\"the terminal will never be matched\") only if the rules of the variant cannot match the literal.", "quantifier": "all declarations, all literals, all texts around them, every pair of regex engine and scanner that read patterns as the same sets of texts", "why_tests_cant": "the check is done with a different regex engine (leftmost-first) than the scanning (longest match); a test tries a few regexes", "anchors": ["packages/macros/src/lexicon.rs:117-269", "packages/book/src/lexical_analysis/regex_terminals_g.txtpp.md", "packages/book/src/lexical_analysis/inferred_regex_g.txtpp.md"]}
{"id": "C83", "title": "From the text to the tree", "statement": "Given accepted declarations of a lexicon and a grammar: for a source that the lexicon, as declared, splits into tokens and ignored text, the lexer returns these tokens; those of variants without terminals are set aside; and Root::parse returns a tree, without any error and with nothing left over, exactly if the remaining words are a sentence of the root type.", "quantifier": "all accepted lexicons and grammars, all sources that split", "why_tests_cant": "it combines macro expansion, scanning, grammar analysis and parsing for all declarations and texts", "anchors": ["packages/macros/src/lexicon.rs", "packages/teleparse/src/parser/parser_impl.rs", "packages/teleparse/src/parser/tree.rs"]}
{"id": "C84", "title": "The tokens found for the span of a node are those of the node", "statement": "After a successful parse of a type in which no Recover can be dropped silently, info().tokens.inside(node.span()) returns, for every node of the tree at any depth, exactly the tokens that node was parsed from, in order, at once and after any later parsing. In recovered trees, for every type, each token held by a node lies inside the node's span and is returned by inside(node.span()); other tokens (the skipped ones) can be returned too.", "quantifier": "all grammars, all tables, all token streams, all parser states, all nodes of the tree, all later states", "why_tests_cant": "the span of a node is computed from its parts by each combinator and the lookup is two binary searches over the store; tests look at a few trees", "anchors": ["packages/teleparse/src/lex/vec.rs:148-160", "packages/teleparse/src/lex/span.rs", "packages/teleparse/src/tp_impl"]}
{"id": "C85", "title": "Writable views of the token store", "statement": "inside_mut, overlap_mut, begins_at_matches_mut and ends_at_matches_mut give write access to exactly the tokens that the read-only query with the same arguments returns; the tokens before and after the view are not touched. On a store in order, changing every token of inside_mut(span) changes the tokens inside the span and no other; likewise overlap_mut for a non-empty span. The views returned by queries can be queried again: inside on the result of inside is inside of the intersection, inside on the result of overlap is inside on the store, and the tokens before a position, around it and after it make up the store.", "quantifier": "all stores, spans, positions, predicates and changes", "why_tests_cant": "the mutable and the shared versions are separate code, and the bounds come from binary searches; tests try a few spans", "anchors": ["packages/teleparse/src/lex/vec.rs"]}
{"id": "C86", "title": "Maps from token types are total", "statement": "A lex::Map has one entry for each token type: a new map has the default everywhere, what is written for a type is read back for that type and no other entry changes, two maps with equal entries are equal and the comparison says so exactly then, iter_zip visits each token type once in the order of declaration with its own entry (so the unchecked conversion from numbers is only used on numbers of token types), and iter_zip_mut writes each entry with its own type.", "quantifier": "all lexicons, all maps, all entries", "why_tests_cant": "the conversion from numbers to token types is unsafe, so a number out of range is undefined behaviour, for lexicons of any size", "anchors": ["packages/teleparse/src/lex/map.rs"]}
{"id": "C87", "title": "derive(Node) makes a wrapper around the node in the first field", "statement": "derive(Node) accepts exactly the structs whose first field has a type with generic arguments; the message for any other declaration names its first defect. For an accepted struct with Node<V> as its first field the generated code compiles; From<Node<V>> puts the node into the first field and defaults into the others, deref and into_inner return the value of the node, the span of the wrapper is the span of the node, and an assignment through deref_mut changes the value and nothing else.", "quantifier": "all struct declarations, all nodes, all values", "why_tests_cant": "it is about all declarations a user can write; the macro has one expansion test, which is not expanded", "anchors": ["packages/macros/src/node.rs", "packages/teleparse/src/tp_impl/node.rs"]}
{"id": "C88", "title": "Errors are reported in the order of the source", "statement": "The errors of a parsed type are ordered by where they begin, and so are the syntax errors recorded by a parser over any number of parses. The errors about unrecognised characters are in order among themselves.", "quantifier": "all types, all parse tables, all inputs, all sequences of parser calls", "why_tests_cant": "errors are collected by each combinator and pending errors are added when skipping ends, so the order depends on how recoveries nest", "anchors": ["packages/teleparse/src/tp_impl/split.rs:110-130", "packages/teleparse/src/tp_impl/punct.rs", "packages/teleparse/src/tp_impl/recover.rs", "packages/teleparse/src/parser/parser_impl.rs"]}
{"id": "C89", "title": "The text of a node parses to the node", "statement": "After a successful parse, the text of any node of the tree, scanned and parsed on its own with the type of the node as the root, gives the same node with positions counted from its beginning, without errors and with nothing left.", "quantifier": "all accepted grammars, all sources, all nodes of the tree", "why_tests_cant": "needs the scanner to find the same tokens in a part of the source and the tables of another root to make the same choices, for every node of every tree", "anchors": ["packages/teleparse/src/parser/tree.rs", "packages/teleparse/src/parser/parser_impl.rs", "packages/teleparse/src/tp_impl/punct.rs", "packages/teleparse/src/lex/span.rs"]}
{"id": "C90", "title": "Parsing without errors is predictive matching", "statement": "A parse returns a tree without an error exactly if the next tokens of the input are a predictive match of the type with this tree: a match in which every choice (variant of an enum, presence of an optional part, going on or stopping in a repetition, trailing separator) is the one the computed FIRST, FOLLOW and jump tables give for the next token. The parser then stops after the last token of the match. A predictive match is unique.", "quantifier": "all types (including Loop, Recover, and grammars with any choice in doubt), all tables, all inputs, all reachable parser states", "why_tests_cant": "both directions quantify over all grammars and inputs; a test sees one parse and cannot show that no error-free parse takes a choice against its tables", "anchors": ["packages/teleparse/src/parser/parser_impl.rs", "packages/teleparse/src/tp_impl/iter.rs", "packages/teleparse/src/tp_impl/option.rs", "packages/teleparse/src/tp_impl/punct.rs", "packages/teleparse/src/tp_impl/split.rs", "packages/teleparse/src/tp_impl/recover.rs", "packages/teleparse/src/tp_impl/tuple.rs", "packages/macros/src/syntax.rs"]}
{"id": "C91", "title": "What was not consumed does not matter", "statement": "If parsing returns a tree without a syntax error and leaves tokens over, then the text up to the end of the last consumed token, on its own, parses to the same tree, with the same consumed tokens and semantic types, nothing left over and no syntax error.", "quantifier": "all types (including Loop and Recover) with an accepted grammar, all inputs; scanned tokens or the text with the generated lexer; also where nothing is left over, for types in which no silent failure is absorbed", "why_tests_cant": "the parser looks at the token after the match before stopping, in every repetition, option, enum and trailing separator; that none of these choices needs that token is a claim about all grammars and all continuations", "anchors": ["packages/teleparse/src/syntax/metadata.rs", "packages/teleparse/src/parser/parser_impl.rs", "packages/teleparse/src/tp_impl/iter.rs", "packages/teleparse/src/tp_impl/option.rs", "packages/teleparse/src/tp_impl/punct.rs", "packages/teleparse/src/tp_impl/split.rs", "packages/macros/src/root.rs"]}
{"id": "C92", "title": "A program means what its declarations say", "statement": "A program made of one derive_lexicon enum and types with derive_syntax compiles exactly if every declaration is well formed, every field type is built from names of terminals and of types of the program, and every semantic(..) names token types of the lexicon. The generated code then behaves as the one meaning of the declarations: fields and variants in order, names resolved to the terminals and types of that name. Parsing a text with a type of the program gives a tree, no errors and nothing left exactly if the declared lexicon splits the text into tokens that belong to the language one reads off the declarations.", "quantifier": "all programs (lexicons, sets of mutually recursive types, nested tp types), all texts", "why_tests_cant": "it quantifies over all programs: macro output, name resolution, grammar analysis, lexer and parser have to fit together for declarations no test contains", "anchors": ["packages/macros/src/lexicon.rs", "packages/macros/src/syntax.rs", "packages/macros/src/root.rs", "packages/teleparse/src/parser/parser_impl.rs", "packages/teleparse/src/parser/tree.rs", "packages/teleparse/src/syntax/metadata.rs"]}
{"id": "C93", "title": "The generated LL(1) test decides about grammar errors", "statement": "assert_ll1, which the generated test calls for a root type, always ends. If it returns, parse of the type never returns a grammar error, for any source. If it panics, the message has the name of the type, and parse returns exactly the grammar error in the message for every source.", "quantifier": "all programs that compile, all root types, all sources", "why_tests_cant": "that one test run speaks for all sources is a claim about all sources", "anchors": ["packages/teleparse/src/parser/tree.rs", "packages/macros/src/root.rs", "packages/teleparse/src/parser/parser_impl.rs", "packages/teleparse/src/syntax/metadata.rs"]}
{"id": "C94", "title": "Growing a grammar keeps old inputs valid", "statement": "Adding variants to enums, anywhere in the list, and adding types, never invalidates what was there: if the grown grammar is accepted then the grammar was accepted before, what a type could begin with and be followed by stays, every sentence of a type stays a sentence, and an input that was parsed completely without errors is parsed completely without errors, with the same tree but for the numbers of the variants and the same semantic types.", "quantifier": "all grammars, all ways to add variants and types, all inputs", "why_tests_cant": "compatibility of a later version with all inputs of the former one speaks about pairs of grammars and all their inputs", "anchors": ["packages/teleparse/src/syntax/metadata.rs", "packages/teleparse/src/syntax/first/builder.rs", "packages/teleparse/src/syntax/follow/builder.rs", "packages/teleparse/src/syntax/jump.rs", "packages/macros/src/syntax.rs"]}
{"id": "C95", "title": "Names and the order of declarations do not matter", "statement": "Two programs that differ only in how token types, terminals and syntax types are numbered or named, in the order of the variants of their enums, and in types and token types that are not used, do the same: one is accepted iff the other is, FIRST and FOLLOW and the choice of variants agree, and from the same parser state every parse ends the same way: with the same tree (but for the numbers), the same errors at the same places expecting the same terminals, the same tokens consumed, extracted and left, with the same semantic types. Which of several conflicts is reported for a rejected grammar can differ.", "quantifier": "all grammars, all renumberings and reorderings, all parser states and inputs, with and without errors", "why_tests_cant": "speaks about pairs of programs and all their inputs; the maps keyed by TypeId and the bit sets of token types are ordered by exactly these numbers", "anchors": ["packages/teleparse/src/syntax/metadata.rs", "packages/teleparse/src/syntax/first/builder.rs", "packages/teleparse/src/syntax/follow/builder.rs", "packages/teleparse/src/syntax/jump.rs", "packages/teleparse/src/lex/set.rs", "packages/teleparse/src/lex/map.rs", "packages/teleparse/src/parser/parser_impl.rs", "packages/macros/src/syntax.rs"]}
{"id": "C96", "title": "The macros keep the declaration they are written on", "statement": "Each of the macros leaves the declaration it is written on in the program exactly once, as written but for the attributes of the crate: documentation comments, other attributes, fields, variants, discriminants. If it refuses the declaration, its message is the only one rustc shows about it: no attribute of the crate is left over for rustc to stumble on, and no name is defined twice. Which declarations are accepted depends on the parts as written and on the attributes of the crate only.", "quantifier": "all declarations with all attributes, accepted or refused, for derive_lexicon, derive_syntax, derive(ToSpan) and derive(Node)", "why_tests_cant": "the order in which attributes are taken and checks are made decides, for every combination of a mistake and other attributes; UI tests show a handful of combinations", "anchors": ["packages/macros/src/prelude.rs", "packages/macros/src/lib.rs", "packages/macros/src/lexicon.rs", "packages/macros/src/syntax.rs", "packages/macros/src/to_span.rs", "packages/macros/src/node.rs"]}
{"id": "C97", "title": "Parsing piece by piece", "statement": "A program that parses a file statement by statement, calling parser.parse::<T>() while tokens are left, gets what one call for Plus<T>, Star<T> or Loop<T> gives: as long as no syntax error is reported, every call reads at least one token and begins with a token of FIRST(T), the trees are the elements of the list in order, the list spans from the first to the last, and the parser is left in the same place. Conversely the elements of a list produced without an error are what the calls return.", "quantifier": "all grammars, all types T, all inputs, any number of calls, all parser states", "why_tests_cant": "the calls use the tables of the root T and the list those of the root Plus<T>; equality for every T, every number of elements and every state needs both to be compared by induction", "anchors": ["packages/teleparse/src/parser/parser_impl.rs", "packages/teleparse/src/tp_impl/iter.rs", "packages/teleparse/src/tp_impl/option.rs"]}
{"id": "C98", "title": "A check that makes a grammar trustworthy", "statement": "For a root type that passes a computable check on its declaration and its tables - the grammar is accepted, every production can be completed, no enum and no separator can be empty, an empty part does not hide a choice before it, Loop comes last, Recover is not inside of an optional part or a repetition - the parser does everything one expects: parse always returns; it returns a tree without a syntax error and with nothing left exactly if that tree is a match of the type with the input; there is never a second match; without Loop these are exactly the sentences of the grammar; and, from the declarations and the text, exactly the texts of the declared language are accepted.", "quantifier": "all schemas and roots that pass the check, all inputs, all reachable parser states", "why_tests_cant": "the check looks at the grammar once; that it is enough for every one of infinitely many inputs needs proof", "anchors": ["packages/teleparse/src/syntax/metadata.rs", "packages/teleparse/src/parser/parser_impl.rs", "packages/teleparse/src/tp_impl"]}
{"id": "C99", "title": "The examples of the book parse expressions", "statement": "The two example programs of the book (a hand-written recursive grammar and one with Split) compile, and E::parse of either returns a tree without an error and with nothing left exactly for the texts that are expressions: a word, a sum or a product of two expressions, or an expression in parentheses. So the two programs accept the same texts. On any other text both return as well, and never refuse the grammar.", "quantifier": "all texts, all scanners and regex engines that agree with each other and accept the lexicon", "why_tests_cant": "the tests of the book parse one text, (a+b)*(c+d), and look at nothing but that it does not fail to compile or panic", "anchors": ["packages/teleparse/tests/book_ex_recur.rs", "packages/teleparse/tests/book_ex_simple.rs", "packages/book/src/example_g.txtpp.md", "packages/book/src/example_simple_g.txtpp.md"]}
{"id": "C100", "title": "Threads and cached metadata cannot be observed", "statement": "Threads that parse at the same time, each with its own parser, get exactly the results each would get alone if the metadata of the root were computed anew for every call; so results do not depend on the order in which threads run, nor on what was parsed before. The metadata of a root is computed at most once in a run, and no thread waits for ever: a call that would return alone can always be completed by steps of that thread and of the one that computes the metadata.", "quantifier": "all schemas, any number of threads, all sequences of calls on all roots, all interleavings", "why_tests_cant": "a test runs one interleaving, and cannot choose it", "anchors": ["packages/macros/src/root.rs:5-28", "packages/teleparse/src/parser/parser_impl.rs:45-54", "packages/teleparse/src/syntax/metadata.rs"]}
{"id": "C101", "title": "The trees of the examples of the book group as usual", "statement": "The trees that the two example programs of the book return have the conventional grouping: computing bottom-up from the tree (folding the elements of Split from the left, or handing what is to the left to the rest in the recursive grammar) gives the value of the text under the conventional reading - products before sums, both from left to right, parentheses group - whatever words, sums and products are taken to mean. The conventional reading gives every expression exactly one value. So both programs, written in different ways, always agree.", "quantifier": "all texts, all meanings of words and operators, all scanners and regex engines that agree with each other", "why_tests_cant": "grouping of nested expressions of any depth and length is an induction over trees; the tests of the book parse one expression", "anchors": ["packages/teleparse/tests/book_ex_recur.rs", "packages/teleparse/tests/book_ex_simple.rs", "packages/teleparse/src/tp_impl/split.rs", "packages/teleparse/src/tp_impl/option.rs"]}
{"id": "C102", "title": "Queries of the token store never panic", "statement": "inside, overlap, at_span, begins_at_matches, ends_at_matches, the bounds they are computed from and the variants with write access return on every token store, every span or position and every predicate: no index, slice or subtraction in them goes wrong, `tokens[lo..hi]` does not panic for any bounds returned, and the result is always a contiguous part of the store. This does not depend on the tokens being in order, which push_unchecked and from_slice leave to the caller.", "quantifier": "all stores (sorted or not, overlapping, empty or backward spans), all spans, positions and predicates", "why_tests_cant": "The panics would depend on the relation between span, positions and the path of the binary search, for stores a test author would not write; there are unboundedly many.", "anchors": ["packages/teleparse/src/lex/vec.rs:105-351"]}
{"id": "C103", "title": "A tree returned with errors is the tree of a corrected input", "statement": "If every element of a list and every head of a Recover derives some text: whenever parsing returns a tree, also when it reports errors, there are words that match the type and have exactly the form of the tree: each token in the tree is a token of the input, each terminal with an empty span stands for a word that was put in, and the tokens among the words are tokens of the input in their order. If the type contains neither Punct nor Recover nothing is missing in the tree and there is at least one reported error for each word put in; with Punct or Recover elements of lists and heads can be missing in the tree and are filled in. On success nothing is corrected (except where a Recover failed in silence at the end of the input, see C117). If the root passes the check of C98, any text with the corrected words is parsed without a syntax error, to a tree of the same form.", "quantifier": "all schemas and types, all tables, all inputs, all states of a parser, all results with a tree; for the last part all roots that pass the check and all texts with the corrected words", "why_tests_cant": "Error recovery goes through arbitrary sequences of skipped and missing tokens in nested types; tests compare a few recovered trees with expected ones and say nothing about which inputs the trees of other wrong inputs stand for.", "anchors": ["packages/teleparse/src/tp_impl/split.rs:80-178", "packages/teleparse/src/tp_impl/punct.rs:99-222", "packages/teleparse/src/tp_impl/recover.rs:31-121", "packages/teleparse/src/tp_impl/iter.rs", "packages/teleparse/src/parser/parser_impl.rs"]}
{"id": "C104", "title": "What was parsed before does not matter", "statement": "What Parser::parse does depends only on the words that are not consumed yet. Two parsers that stand before the same words, whatever their sources, what they parsed before and what is in their records, give the same answer: the same grammar error, or trees of the same shape with corresponding spans, corresponding new syntax errors, corresponding new tokens with the same semantic types, and the same words left. A program may take or replace the errors, the invalid parts and the extracted tokens through info_mut: the answers are exactly the same and the same entries are added. It may also take tokens out of the token store; then only the positions of things missing at the very beginning are different, which are placed where the last token in the store ends.", "quantifier": "all schemas and types, all sources and scanner outcomes, all states reached by any use of the parser, all contents of the records, all stores made by removing tokens or changing semantic types", "why_tests_cant": "Tests parse from a new parser, or once more with the same parser; no finite set of histories and edits of the records shows that the parser never reads them.", "anchors": ["packages/teleparse/src/parser/parser_impl.rs:26-34", "packages/teleparse/src/parser/parser_impl.rs:45-86", "packages/teleparse/src/parser/parser_impl.rs:236-246", "packages/teleparse/src/parser/info.rs:5-19"]}
{"id": "C105", "title": "Stray tokens do not hide good elements", "statement": "Parsing a Loop<T> over an input that is made of matches of T and of runs of tokens that cannot begin a T, in any order, where the token after a match begins another match or cannot belong to the match: the tree has exactly the trees of the matches, in order; there is exactly one error for each run of stray tokens, from its first to its last token; stray tokens get no semantic types; nothing is left. The same holds for the rest of the input after any first steps of the loop, in which elements may have been repaired or may have failed: an error does not spread to the good elements after it. (Accepted grammars under the conditions of C35; elements before stray tokens do not end with Punct or an enum that can be empty.)", "quantifier": "all schemas and element types under the conditions, all inputs of this shape, all reachable parser states and all first steps", "why_tests_cant": "how many elements and stray tokens there are, in which order, and what went wrong before, is unbounded", "anchors": ["packages/teleparse/src/tp_impl/iter.rs"]}
{"id": "C106", "title": "A broken statement does not hide or damage the other ones", "statement": "Parsing a Loop<Recover<T, k>> where k is a terminal, and T is made of terminals that do not overlap with k and contains no Loop, Split, Punct or Recover: for every match of T in the input that is followed by a k, and that begins the input or comes after a k, and whatever all the other tokens before and after are: the tree has a Recover element with exactly the tree of this match and its terminator; no syntax error lies in it; its tokens are in the token store with the semantic types of the match. The reason is that Recover<T, k> stops right after the next k, whatever the tokens before it are, with a tree that has this k, and reports only errors between. (Accepted grammars under the conditions of C35.)", "quantifier": "all schemas, statement types and terminators under the conditions, all inputs and positions of the statement in it, all reachable parser states", "why_tests_cant": "how many other statements there are and in which of the unboundedly many ways they are broken is arbitrary", "anchors": ["packages/teleparse/src/tp_impl/recover.rs", "packages/teleparse/src/tp_impl/iter.rs"]}
{"id": "C107", "title": "Broken elements of a list do not hide or damage the other ones", "statement": "Parsing a Split<T, k> or Punct<T, k> where k is a terminal, and T is made of terminals that do not overlap with k and contains no Loop, Split, Punct or Recover: for every non-empty match of T in the input that comes after a k the list has read, and that is followed by a token that can come after an element (a separator, for example) or by the end, and whatever all the other tokens before and after are: the list has an element with exactly the tree of this match; for Split its separator has the corresponding index among the separators; no syntax error lies in it; its tokens are in the token store with the semantic types of the match. (Accepted grammars under the conditions of C35, or roots that pass the check of C98.)", "quantifier": "all schemas, element types and separators under the conditions, all inputs and positions of the element in it, all reachable parser states", "why_tests_cant": "how many other elements there are and in which of the unboundedly many ways they are broken is arbitrary", "anchors": ["packages/teleparse/src/tp_impl/split.rs", "packages/teleparse/src/tp_impl/punct.rs"]}
{"id": "C108", "title": "How deep the parser recurses", "statement": "For every parse that returns, with or without errors: the calls of Produce::produce inside of each other are at most |T| * (tokens + 1), where T is the list of the types written in the root and in the declarations and tokens is the number of tokens not parsed yet. If no type of the program contains itself, they are at most |T|, for every input. A stack that is larger does not change the result. For recursive types there is no limit: a list written as a recursive struct needs 3 calls per element, and inputs that are long enough overflow the stack.", "quantifier": "all schemas and roots, all metadata, all parser states and inputs", "why_tests_cant": "the bound is about inputs of every length and about every recursive program; a stack overflow shows only for the inputs tried", "anchors": ["packages/teleparse/src/syntax/ast.rs", "packages/teleparse/src/tp_impl/option.rs", "packages/teleparse/src/tp_impl/boxed.rs", "packages/macros/src/syntax.rs"]}
{"id": "C109", "title": "Plus and Star with any container", "statement": "Plus<V, T> and Star<V, T> for a container V: FromIterator that asks the iterator up to the first None: the same tokens are consumed, and the span and the errors are the same, as for Vec; the value is what V makes of the elements that the Vec has (V::default() for a Star without elements). For all other containers: the container gets the first element and then, one per question, an element where one can begin, None where none can begin, or None and its errors for an element that fails; elements it does not ask for are not consumed; the span ends with the last element given. Where no element can begin the iterator has ended for good, after an element that fails it has not.", "quantifier": "all containers (any code that calls next and returns a value), all schemas and element types, all parser states and inputs", "why_tests_cant": "V is any type of the user's with any FromIterator, and the elements can be broken in unboundedly many ways", "anchors": ["packages/teleparse/src/tp_impl/iter.rs:34-80", "packages/teleparse/src/tp_impl/iter.rs:158-207"]}
{"id": "C110", "title": "Two repairs make the grammar analysis exact", "statement": "Change two things in the analysis: FollowBuilder::build_sequence adds FIRST of every later part (if the parts between can be empty) instead of FIRST of the next part only, and LitSet::clear also empties Any. Then, for the productions registered from any types: the analysis terminates, FOLLOW is the textbook FOLLOW, and metadata is built exactly if the grammar is LL(1). Grammars accepted now that are LL(1) keep their FIRST sets and jump tables, and FOLLOW only grows. With this metadata the parser accepts every sentence of the root, provided that no enum that can be empty can be followed by a token, no separator of Split can be empty, and Loop is only at the end. So the two places are the only reasons why C24, C27 and C28 are false.", "quantifier": "all grammars, all schemas, all inputs", "why_tests_cant": "that a repair is enough is a statement about all grammars", "anchors": ["packages/teleparse/src/syntax/follow/builder.rs:58-73", "packages/teleparse/src/syntax/lit_set.rs:49-54", "packages/teleparse/src/syntax/metadata.rs:192-303"]}
{"id": "C111", "title": "The semantic types of a token are those of the fields it is in", "statement": "After a successful parse of a type in which no silent failure of a Recover is absorbed (or that leaves tokens unread), and in which Quote, Parse and Exists hide no declared field: a consumed token has the semantic type V if and only if it lies in the span of the value, at any depth of the tree, of a struct field or an enum variant declared with semantic(V). For every result with a tree, recovered ones too, and for any type: the tokens in the value of a field have all its semantic types. For every result, failures too: tokens consumed before are unchanged, and the new tokens have only semantic types that are declared somewhere in the type. In recovered results a token of an abandoned part may have more.", "quantifier": "all schemas (nested and recursive), types, tables, inputs and parser states", "why_tests_cant": "declarations nest without bound through structs, enums, lists and recovery, and only-if is about the absence of marks from all other fields", "anchors": ["packages/macros/src/syntax.rs:74-133", "packages/macros/src/syntax.rs:162-200", "packages/teleparse/src/parser/parser_impl.rs:248-253"]}
{"id": "C112", "title": "A third repair makes the parser exact for LL(1) grammars", "statement": "Change one thing more than in C110: JumpTable::look_up also falls back to the variant that can be empty if there is a token but the token selects no variant. Then, for any root type: metadata is built exactly if the grammar is LL(1); parsing succeeds with nothing left over exactly for the sentences of the grammar (types without Loop, without silent failures, and without a Split whose separator can be empty), and the tree is that of the sentence; and if every production derives some finite text, parsing ends on every input and takes a number of token operations linear in the number of consumed tokens. What look_up finds now it finds unchanged. So nothing has to be assumed about enums that can be empty, on which C35, C38 and C77 fail now.", "quantifier": "all schemas, LL(1) grammars and inputs", "why_tests_cant": "that a repair is enough, and that it breaks nothing, are statements about all grammars and all inputs", "anchors": ["packages/teleparse/src/syntax/jump.rs:111-115", "packages/macros/src/syntax.rs:322-349", "packages/teleparse/src/syntax/metadata.rs:192-303"]}
{"id": "C113", "title": "The number of reported errors is linear", "statement": "Producing any type reports at most one error for every call of peek_token or consume_token. So for every type there is a constant K that depends on the types only, such that parsing, whenever it returns, reports at most K * (c + 1) errors when it consumes c tokens, from any state of the parser and with any tables; and after parsing a whole text Info::errors has at most K * (N + 1) entries of all kinds, where N is the number of tokens of the text. In every state there are at most N + 1 errors about unexpected characters. Error recovery cannot flood the user with errors.", "quantifier": "all schemas, grammars, texts and parser states", "why_tests_cant": "a bound on the number of errors for all texts of all lengths cannot be sampled; a recovery that reports the same token again and again shows only on unlucky inputs", "anchors": ["packages/teleparse/src/parser/parser_impl.rs", "packages/teleparse/src/tp_impl/recover.rs", "packages/teleparse/src/tp_impl/iter.rs", "packages/teleparse/src/tp_impl/split.rs", "packages/teleparse/src/parser/info.rs"]}
{"id": "C114", "title": "A repair that reports left recursion exactly", "statement": "The check for left recursion never reports anything (C29). Replace it by a search along the parts a production can begin with, started at every registered production. Then building metadata still ends; GrammarError::LeftRecursion is reported exactly if some production that is reachable from the root is left recursive in the textbook sense; the reported stack is a true path of leftmost symbols that comes back to one of its productions; with the repairs of C110 a root is accepted exactly if its grammar is LL(1) and not left recursive; and if every production derives some finite text, no grammar is refused that was accepted without the search. The obvious smaller repair, exchanging the two tests at the beginning of the present check, is not enough: there is a left recursive grammar that it does not report.", "quantifier": "all grammars registered from types", "why_tests_cant": "that a search misses no cycle is a statement about all grammars; the smaller repair passes every simple test of left recursion and still misses cycles", "anchors": ["packages/teleparse/src/syntax/metadata.rs:55-190", "packages/teleparse/src/lib.rs:66-90"]}
{"id": "C115", "title": "The grammar analysis takes few rounds", "statement": "Building the metadata of a root type repeats its passes over the FIRST relations at most 2N+1 times and its passes over the FOLLOW relations at most N+1 times, where N is the number of productions the root registers; every recursion (registration, the three checks) is at most N+1 deep; and a pass looks at no more than two relations per production and part. There are grammars for which N passes are not enough.", "quantifier": "all grammars and all root types, accepted or not", "why_tests_cant": "the number of passes depends on the order in which facts reach the productions, which differs for every grammar; tests only see that the analysis returned for the grammars at hand", "anchors": ["packages/teleparse/src/syntax/first/builder.rs:73-98", "packages/teleparse/src/syntax/follow/builder.rs:76-100", "packages/teleparse/src/syntax/metadata.rs:55-331", "packages/teleparse/src/syntax/ast.rs:68-88"]}
{"id": "C116", "title": "The tree is no larger than the text, up to a constant", "statement": "The tree that parsing returns has fewer nodes than twice the calls of peek_token and consume_token made to build it, for every grammar and any tables. So there is a number K that depends on the types only such that the tree has at most K*(c+1) nodes, where c is the number of tokens consumed, even if the text is full of errors and tokens are skipped or missing; and for T::parse at most K*(N+1) where N is the number of tokens of the text. (Structs with a single field are not counted: they take no memory of their own.)", "quantifier": "all types, any tables, all texts, all states of the parser", "why_tests_cant": "an amplification of small inputs into large trees only shows for a grammar and a text that trigger it, in particular for recovery with empty parts", "anchors": ["packages/teleparse/src/parser/parser_impl.rs:45-128", "packages/teleparse/src/tp_impl/iter.rs:34-207", "packages/teleparse/src/tp_impl/split.rs:80-178", "packages/teleparse/src/tp_impl/punct.rs:99-222", "packages/teleparse/src/tp_impl/recover.rs:31-121", "packages/teleparse/src/tp_impl/option.rs:35-107"]}
{"id": "C117", "title": "A repaired Recover never fails in silence", "statement": "Change Recover so that, at the end of the input, it reports the missing tail when no error is pending. Then for every grammar, any tables and any text: a result that is no success always carries an error; a success always means that the consumed tokens match the type and the tree is the tree of this match; with the repairs of C110 and C112 the parser succeeds with nothing left over exactly on the sentences of the grammar (types without a Split whose separator can be empty, and without Loop; with a Loop at the end, exactly if the tokens are a match of the type). The change is as small as can be: the tree, the consumed tokens and the state of the parser are always the same as before, everything is the same if the parse leaves something of the input, and the repaired parser succeeds only where the present one does.", "quantifier": "all grammars and types (for the last but one claim: LL(1), without Loop, or with Loop as the last part and matches of the type instead of sentences, separators of Split not empty), all texts, all states of the parser", "why_tests_cant": "the silent failure is absorbed by any of eight surrounding types and is visible only through a tree that does not match the text; that a repair adds errors and changes nothing else is a statement about two programs on all inputs", "anchors": ["packages/teleparse/src/tp_impl/recover.rs:31-121", "packages/teleparse/src/tp_impl/split.rs:80-178", "packages/teleparse/src/tp_impl/punct.rs:99-222", "packages/teleparse/src/tp_impl/iter.rs:34-207", "packages/teleparse/src/tp_impl/option.rs:78-107"]}
{"id": "C118", "title": "With the proposed repairs together, Root::parse is an LL(1) parser", "statement": "Take the three repairs of the metadata (C110, C112) and the repair of Recover (C117) together. Then T::parse returns a grammar error, whatever the text, exactly when the grammar is not LL(1). If it is LL(1) and every production derives something, T::parse returns for every text. If it then returns without a syntax error, it returns a tree, and this is the tree of the tokens it consumed. And it returns a tree without a syntax error and with the whole text used exactly on the sentences of the grammar. If Loop is used as the last part, where it stands for any number of elements, exactly on the texts that the type matches, and the tree is that of the match.", "quantifier": "all grammars and types (for the last claim: without Loop or with Loop only as the last part, separators of Split not empty), all texts", "why_tests_cant": "the first and the last claim are equivalences with a textbook notion over all grammars and all texts; that the repairs do not get into each other's way shows only for the whole", "anchors": ["packages/teleparse/src/parser/tree.rs:23-25", "packages/teleparse/src/parser/parser_impl.rs:45-86", "packages/teleparse/src/syntax/metadata.rs:55-89", "packages/teleparse/src/tp_impl/recover.rs:31-121"]}
{"id": "C119", "title": "Three small repairs of derive_lexicon give the scanner that is declared", "statement": "Let derive_lexicon push the rules inferred from literals only if there are any, check literals for duplicates also after a terminal without a literal, and reject variants that declare literals and have no rules. Then every variant has exactly the rules written on it, in any order of declaration. A token is the longest piece that a rule written on its variant matches, and where the scanner reports unrecognised text no written rule matches. Where it comes to the literal of a terminal, it returns a token of the variant of the terminal, unless a longer match or a rule of no lower priority is declared. A text that the declaration splits into tokens and ignored text is scanned into these tokens. Only declarations with a duplicate literal or with literals without rules are newly rejected; the rest of the generated code is unchanged.", "quantifier": "all declarations, all texts, all regex/logos engines that agree on the language of the patterns", "why_tests_cant": "the claims are about all declarations and all orders of their variants, and about the absence of any other difference between the two versions of the macro", "anchors": ["packages/macros/src/lexicon.rs:125-203", "packages/macros/src/lexicon.rs:216-269", "packages/macros/src/lexicon.rs:279-336"]}
{"id": "C120", "title": "With all proposed repairs, a program parses exactly the texts its declarations describe", "statement": "Take the repaired derive_lexicon (C119) and the repaired Root::parse (C118). For a lexicon and types that compile, T::parse reports an error in the grammar, whatever the text, exactly when the grammar of T is not LL(1). If it is LL(1) and every production derives something, then for every text that the lexicon, as declared, splits into tokens and ignored text, T::parse returns, and it returns a tree without any error and with nothing left exactly when the tokens are of the language that the declarations of T describe.", "quantifier": "all programs (for the last claim: T without Loop or with Loop only as the last part, separators of Split not empty), all texts, all regex/logos engines that agree on the language of the patterns", "why_tests_cant": "the claim relates the declarations, read as a description of texts, to the result of running the generated code, for all declarations and all texts", "anchors": ["packages/macros/src/lexicon.rs:5-336", "packages/macros/src/root.rs:5-31", "packages/teleparse/src/parser/tree.rs:23-25", "packages/teleparse/src/parser/parser_impl.rs:45-86"]}
{"id": "C121", "title": "Exactly which grammars are accepted", "statement": "The grammar of a type is accepted if and only if, for all productions that the type reaches: no two variants of an enum or option can begin with the same token or can both be empty; no two parts of a sequence can begin with the same token if the first of them and all between them can be empty; nothing that can be empty begins with a token that is next to it; and no part of a sequence can begin with a token of a type of which an earlier part, that can be empty, accepts every text. The FOLLOW sets contain exactly what is next: the beginning of the part directly after, and what is next to the whole if all after the part can be empty. An LL(1) grammar is accepted if and only if it meets the last condition; a grammar that meets the other three is LL(1) if and only if no choice at the end of a part is in doubt because of a token beyond an empty part.", "quantifier": "all types of finitely many productions", "why_tests_cant": "an equivalence between the outcome of an iterative analysis and a condition on derivations, for all grammars", "anchors": ["packages/teleparse/src/syntax/metadata.rs:55-303", "packages/teleparse/src/syntax/follow/builder.rs:49-185"]}
{"id": "C122", "title": "Queries of the token store take logarithmic time", "statement": "inside looks at no more than 2 log n + 4 of the n tokens of a store, overlap at no more than 2 log n + 6, at_span at no more than 2 log n + 5; ends_at_matches and begins_at_matches look at log n + 3 tokens besides those that they return; applying a semantic type to a span looks at 2 log n + 4 tokens besides those that it changes.", "quantifier": "all stores, ordered or not, all spans, positions and predicates", "why_tests_cant": "an upper bound for stores of every size; tests do not count steps", "anchors": ["packages/teleparse/src/lex/vec.rs:112-352"]}
{"id": "C123", "title": "Debug texts identify what they describe", "statement": "If two spans, tokens, cells of the token store, sets of token types, terminal sets or nodes print the same Debug text, they are the same: spans up to those without text at the same position, sets by what they contain, nodes by their span and the text of their value. Literals in terminal sets may contain any characters. (The Display text of terminal sets does not identify them.)", "quantifier": "all spans, tokens, cells, sets, literals and values; all lexicons", "why_tests_cant": "injectivity of a printing function over all pairs of values", "anchors": ["packages/teleparse/src/lex/span.rs:55-63", "packages/teleparse/src/lex/token.rs:18-22", "packages/teleparse/src/lex/set.rs:18-26", "packages/teleparse/src/lex/vec.rs:370-374", "packages/teleparse/src/syntax/term_set.rs:26-74", "packages/teleparse/src/tp_impl/node.rs:28-33"]}
{"id": "C124", "title": "What semantic types cost", "statement": "Marking tokens with semantic types during a parse that returns looks at no more tokens of the token store than a quadratic function of the number of tokens of the text, for every type, any tables and every text; more exactly, at most the number of parser operations times the size of the store plus a logarithm. It is not linear: there is an accepted grammar for which k+1 tokens cost at least k(k+1)/2 looks.", "quantifier": "every grammar, every text, every number of tokens", "why_tests_cant": "a test measures single texts; neither an upper bound for all texts nor the growth can be read from them", "anchors": ["packages/teleparse/src/parser/parser_impl.rs:248-253", "packages/teleparse/src/lex/vec.rs:156-161", "packages/teleparse/src/lex/vec.rs:208-230", "packages/macros/src/syntax.rs:75-92"]}
{"id": "C125", "title": "A repair after which every grammar error is true and complete", "statement": "The check of a sequence names the wrong part and may list terminals that do not conflict (C59, C60). Let it keep the parts that can be empty instead of the union of their FIRST sets, together with the repairs of C110 and C114. Then building metadata still ends; a root is accepted exactly if its grammar is LL(1) and not left recursive, with the same metadata as before this change; and every error is true in the grammar: two alternatives that overlap, two parts of a sequence of which the first can be empty, has only parts that can be empty between it and the second, and shares a first token with it, a type that can be empty with a token that begins and follows it, or a cycle of leftmost symbols. The list in the message is not empty and has exactly the terminals that the error is about, and the whole text is constant wording around the names of these types and this list.", "quantifier": "all grammars registered from types, all names", "why_tests_cant": "that every message about every grammar is true is not a matter of examples: the present wrong messages need sequences of three parts", "anchors": ["packages/teleparse/src/syntax/metadata.rs:192-303", "packages/teleparse/src/lib.rs:66-90", "packages/teleparse/src/syntax/term_set.rs"]}
{"id": "C126", "title": "The first error is exactly at the first token that cannot be there", "statement": "If Root::parse reports syntax errors, let ts be the tokens (without comments) that begin before the first error. No error begins before the first one, the first one begins where a token begins or at the end of the source, ts is the beginning of a sentence of the root, and ts together with the token at the error is not the beginning of any sentence; if the error is at the end of the source, ts itself is not a sentence. So a user who looks at the first error looks at the first wrong token: everything before it can stay, and the token itself cannot stay whatever comes after it.", "quantifier": "all inputs and all grammars whose terminals can be written down, in which every type derives something, with the exact tables of C112 (or the present tables under the conditions of C35); what Split, Punct and Recover try out fails with one error", "why_tests_cant": "that no continuation of any length makes the token at the error correct is a statement about infinitely many inputs for each input", "anchors": ["packages/teleparse/src/parser/parser_impl.rs", "packages/teleparse/src/tp_impl", "packages/teleparse/src/syntax/metadata.rs"]}
{"id": "C127", "title": "With exact tables, recovery follows the grammar", "statement": "With the FIRST and FOLLOW tables of C112 in place of the present ones: a literal that is not the next token is put in, with one error that expects it, exactly if the next token (or the end) can follow the literal in a sentential form of the root, and otherwise fails with one error; in both cases no token is taken. The gaps after separators of Split and Punct end exactly at the tokens that can follow the list in a sentential form of the root. So the repairs that C53 and C72 promise, but the present tables miss behind parts that can be empty, all happen.", "quantifier": "all grammars, all literals, all lists, all reached parser states, all inputs", "why_tests_cant": "the condition is about all sentential forms of all grammars", "anchors": ["packages/teleparse/src/parser/parser_impl.rs:130-163", "packages/teleparse/src/tp_impl/split.rs", "packages/teleparse/src/tp_impl/punct.rs", "packages/teleparse/src/syntax/follow/builder.rs"]}
{"id": "C128", "title": "Left recursion never gets through", "statement": "The lexicon of a type is taken from its first field or variant; a program in which the search for a lexicon comes back to where it began is refused by the compiler (the book's note on recursion). In every program that is not refused for this reason: every type can begin with a token; if the grammar is accepted, no type reachable from the root is left recursive, even if it derives no finite text; so a left-recursive grammar is always stopped, by the compiler or by a GrammarError of Root::metadata; and parsing with an accepted grammar takes linear time (and ends) unless a type needs itself or begins with an enum that can be empty and is followed by a token.", "quantifier": "all programs (sets of types), all roots, all inputs", "why_tests_cant": "the claim is about all grammars, and about derivations of any length", "anchors": ["packages/macros/src/syntax.rs:105", "packages/macros/src/syntax.rs:194", "packages/macros/src/syntax.rs:313", "packages/teleparse/src/tp_impl/tuple.rs:7-12", "packages/teleparse/src/syntax/metadata.rs", "packages/book/src/syntax_analysis/recursion.md"]}
{"id": "C129", "title": "Boxes make types finite and change nothing else", "statement": "A program with a type that contains itself without a pointer in between is refused by the compiler (the book's note on recursion). Putting boxes around fields, or taking them away where the types stay finite, changes nothing else: the lexicons are found or not as before, Root::metadata has the same result (tables or error), and every type produces the same trees, errors and parser states with the same number of operations, also on inputs with errors. If every field is in a Box, all types are finite, so every grammar can be written as a program that compiles if the search for the lexicons ends.", "quantifier": "all pairs of programs that differ in boxes around fields, all roots, tables, parser states and inputs", "why_tests_cant": "quantifies over all programs, all placements of boxes, and all inputs", "anchors": ["packages/teleparse/src/tp_impl/boxed.rs", "packages/teleparse/src/syntax/ast.rs:46-65", "packages/teleparse/src/tp_impl/option.rs:38", "packages/teleparse/src/tp_impl/recover.rs:8-14", "packages/book/src/syntax_analysis/recursion.md:15-38"]}
{"id": "C130", "title": "The order of type ids cannot be observed", "statement": "The analysis keeps productions in maps ordered by TypeId, an order that Rust does not specify and that can change with every build of the program. For every such order Root::metadata ends with the same result: the same grammar error with the same text, or FIRST and FOLLOW sets with the same members and tables with the same entries. Parser::parse then returns the same tree or none from every parser, records the same errors with the same texts, and leaves the same parser.", "quantifier": "all orders of type ids, all programs, roots, parser states and inputs", "why_tests_cant": "a test runs with the one order of type ids that its build has", "anchors": ["packages/teleparse/src/syntax/metadata.rs:16-20", "packages/teleparse/src/syntax/metadata.rs:55-89", "packages/teleparse/src/syntax/follow/builder.rs:76-100"]}
{"id": "C131", "title": "Whether parsing hangs can be found out", "statement": "For every type, any tables and any state of the parser there is a number P, computed from the types and linear in the number of tokens left, such that producing the type returns if and only if it returns with at most P calls of Produce::produce inside of each other and at most P rounds of every loop of the utility types (Plus, Star, Loop, Split, Punct, Recover), and then with the same result. So a run that needs more never returns, whatever stack and time it is given; and whether T::parse returns on a given text is decidable, although there are accepted grammars for which it does not (C38).", "quantifier": "all schemas and types, any tables, all texts, all parser states", "why_tests_cant": "a test that times out does not show that the parser would never return; that nothing beyond a limit can return is a statement about all longer runs", "anchors": ["packages/teleparse/src/tp_impl/iter.rs:34-207", "packages/teleparse/src/tp_impl/split.rs:80-178", "packages/teleparse/src/tp_impl/punct.rs:99-222", "packages/teleparse/src/tp_impl/recover.rs:31-121", "packages/teleparse/src/parser/parser_impl.rs:45-128"]}
{"id": "C132", "title": "Keeping the first error of a failed part puts the first error exactly where it belongs", "statement": "When an element of Split or Punct, or the head or the tail of Recover, fails with several errors, the code keeps the last of them, and so the first error of a parse can be reported at a token after the first one that is wrong (C70). With a small repair - keep the error that begins first, and report the missing tail of Recover at the end of the input (C117) - this does not happen: for every schema whose reachable types derive something, any tables and every text, if producing the root reports an error, the tokens before the first error are the beginning of a sentence. No condition on Recover or on the failures of list elements is left. A failure always comes with an error. Producing returns for the same inputs as before, with the same tree, the same tokens consumed and the same semantics applied, and is silent only if the code is. No error is reported before the first token that differs from an input without errors. And with the repaired FIRST and FOLLOW sets (C112), for grammars without Loop except at the end and without empty separators of Split, a sentence is parsed without errors and with its tree (and, without Loop, nothing else is parsed without errors and without tokens left), and if there is an error the first error is exactly at the first token that cannot continue the tokens before it to a sentence (or at the end of the input), where C126 needs conditions on Recover and on list elements.", "quantifier": "all schemas with productive types, any tables (grammars need not be LL(1)), all texts, all parser states", "why_tests_cant": "that no input makes the first error late is a statement about all grammars and all texts; the failing case needs an element that fails with several errors", "anchors": ["packages/teleparse/src/tp_impl/split.rs:139-147", "packages/teleparse/src/tp_impl/punct.rs:185-193", "packages/teleparse/src/tp_impl/recover.rs:45-48", "packages/teleparse/src/tp_impl/recover.rs:66-73", "packages/teleparse/src/tp_impl/recover.rs:86-93"]}
{"id": "C133", "title": "Recover that tries again where an attempt stopped loses no tail there", "statement": "When an attempt at the tail of Recover fails after it consumed tokens, the code skips the token at which it failed without trying the tail there, and so a tail can be lost (C46). With a small repair - skip a token only if the attempt consumed nothing, otherwise try again at once - this does not happen: Recover<t, u> produces t if it can begin; then a token is skipped only if u cannot begin with it or an attempt at it failed there, and after an attempt that failed further on the search goes on at the place where it failed; it returns a tree iff u was produced, made of the trees of both. In particular, if the first attempt at u fails having consumed tokens and u can begin and be produced where it stopped, a tree is returned and the input is consumed to the end of that u. If failing attempts at u consume nothing, the result and the tokens consumed are those of the code. If failures of both parts come with errors, a success means that t and u were produced one after the other without errors, and the repaired Recover succeeds exactly where the code does, with the same tree. The repaired Recover returns, without a crash, if both parts return on every stream. Positions inside the tokens that a failed attempt consumed are not tried again, and so there are inputs on which the code finds a tail and the repaired search does not (C133_false).", "quantifier": "all schemas with metadata, all head and tail types, all texts, all reachable parser states", "why_tests_cant": "that no token is passed without an attempt, and that trying again without skipping cannot loop forever, are statements about all types and all inputs", "anchors": ["packages/teleparse/src/tp_impl/recover.rs:56-102", "packages/teleparse/src/tp_impl/recover.rs:86-101"]}
