# teleparse: formal model and proofs — design

Subject: `/repo` (Pistonite/teleparse): `packages/teleparse/src` (lexing support, LL(1) grammar
analysis, parser, utility syntax types) and the parts of `packages/macros/src` that decide what code
is generated for `derive_lexicon` and `derive_syntax`.

## Trusted base

* Lean 4's kernel. No axioms of our own, no `sorry`/`admit`, no `native_decide`/`bv_decide`. Every
  theorem depends at most on `propext`, `Classical.choice`, `Quot.sound`.
* That the definitions in `lean/Verif/Model/` say what the Rust code does. Each definition cites file
  and lines; the simplifications are listed below and repeated at the definition.
* That the specification (`lean/Verif/Spec/`) says what the English property says.

## What is modelled

| Rust | Lean |
|---|---|
| `lex/span.rs`, `lex/token.rs` | `Model/Lex.lean` |
| `lex/set.rs` + generated `to_bit/id/next/first` | `Model/Set.lean` (bit vectors of the widths the macro picks) |
| `lex/vec.rs` | `Model/TokenVec.lean` (binary search loop of std included), `Model/TokenMut.lean`, `Model/TokenCost.lean` (counting) |
| `lex/lexer.rs` | `Model/Lexer.lean` (logos itself is an abstract list of outcomes) |
| `syntax/lit_set.rs`, `term_set.rs`, `first/set.rs`, `follow/set.rs`, `lex/map.rs` | `Model/Sets.lean`, `Model/Map.lean` |
| `syntax/first/builder.rs`, `follow/builder.rs` | `Model/First.lean`, `Model/Follow.lean` |
| `syntax/metadata.rs`, `syntax/jump.rs`, `syntax/ast.rs` | `Model/Metadata.lean`, `Model/Jump.lean`; `Model/TypeId.lean` (maps in the order of type ids) |
| `parser/*.rs`, `syntax/error.rs` | `Model/Parser.lean` |
| `tp_impl/*.rs`, code generated by `macros/src/syntax.rs` and `derive_terminal` | `Model/Produce.lean` |
| `Plus`, `Star` and `ProduceIter` of `tp_impl/iter.rs` with any `V: FromIterator` | `Model/Collect.lean` |
| none (a proposed change of `syntax/follow/builder.rs`, `syntax/lit_set.rs` and `syntax/jump.rs`, used by C110 and C112 only; a proposed change of the check in `syntax/metadata.rs`, used by C114 and C125 only; a proposed change of `tp_impl/recover.rs`, used by C117 only; all of them but C114, used by C118 only; a proposed change of `macros/src/lexicon.rs`, used by C119 only; all of them but C114, used by C120 only) | `Model/Repair.lean`, `Model/RepairLeft.lean`, `Model/RepairRecover.lean`, `Model/RepairAll.lean`, `Model/RepairLexicon.lean`, `Model/RepairProgram.lean`, `Model/RepairBlame.lean` (the sequence check of `syntax/metadata.rs`, used by C125 only) |
| `tp_impl/*.rs` `register`, registered productions of user types | `Model/Syntax.lean` |
| `macros/src/lexicon.rs` (variant classification, rule attachment, literal checks) | `Model/LexiconMacro.lean` |
| whole programs: field types as written, name resolution by rustc (terminal structs and types by name), the generated code of all types run together, `Root::assert_ll1` | `Model/Program.lean` |
| `macros/src/syntax.rs`, `macros/src/to_span.rs`: from the parsed declaration to the generated code, and what that code does after name resolution | `Model/SyntaxMacro.lean` |
| which programs rustc accepts as far as recursion is concerned (`L` of the productions, sizes of types) | `Model/Infer.lean`, `Model/Sized.lean` |
| `macros/src/node.rs`, `tp_impl/node.rs` | `Model/NodeMacro.lean` |
| `macros/src/prelude.rs`, `macros/src/lib.rs`: what the macros give back | `Model/MacroItem.lean` |
| `Production::debug` of all productions | `Model/Names.lean` |
| `Debug` of `Span`, `Token`, `Cell`, `Set`, `TerminalSet`, `Node`; `Display` of `TerminalSet` | `Model/Debug.lean` (not the form with `#`; of `str`, only ASCII characters are escaped) |
| `syntax/error.rs` `message`, `term_set.rs` `to_repr`, `intersection_repr`, texts of `GrammarError` | `Model/Message.lean` |

The parser operations are collected in a record `Ops σ n`, of which the real parser state and an abstract
token stream (`View`) are instances. `produce` is generic over it, and the simulation of the one by the other
is a theorem (C02, C05).

## What is not modelled

* logos: the scanner is an arbitrary list of outcomes (token / unrecognised piece). Facts about it
  that a theorem needs (spans increase, are non-empty, lie in the source) are explicit hypotheses. For C81–C83
  they are derived from a description of the two crates (`Spec/Scanning.lean`): `Logos.Agrees` (both crates read
  a regex as the same set of texts; `Regex::find` returns a leftmost match; patterns match whole characters) and
  `Lexicon.Scan` (longest match, then priority; skipped text; an unrecognised piece ends on a character
  boundary). Look-around such as `^` or `\b`, which logos does not accept, has no meaning in this description.
* `usize` overflow, memory, `Deref` implementations, derived `Debug` implementations. The names of token types in messages are a
  parameter (`name`); so are the names of productions in C67 (`pname`), which C80 describes.
* `TypeId` is a structural key of the production; `BTreeMap`/`BTreeSet` are association lists without
  duplicates. Iteration order is therefore not that of Rust; that it does not matter, not even for
  which of several conflicts is reported first, is a theorem (C22).
* rustc: names are resolved (C92), the associated types `L` are searched (C128) and types must have finite size (C129); all other
  checks are not modelled. `V` in `Plus<V, T>` and `Star<V, T>` is taken to be a collection on the heap for C129.
* syn/quote parsing of the macro input; only the decisions taken on the parsed attributes. The regex engine
  used by `derive_lexicon` to check literals is a parameter (any function from regex and text to the length
  matched). `quote!` repetitions are assumed to zip the repeated lists.
* Containers `V: FromIterator` of `Plus` and `Star`: in `Model/Produce.lean` they are `Vec`s. `Model/Collect.lean` has them
  with any container; C109 proves that it makes no difference for those that read their iterator to its first `None`, as
  the collections of std do, and says what happens with the others.
* `OnceLock` itself: its documented behaviour is a part of the model of C100 (one cell for each root; the first thread
  that finds it empty runs the closure, others wait). A thread that panics is one that makes no further step.
* Loops are functions with fuel returning `Option` (`none` = fuel exhausted); termination is proved by
  exhibiting fuel, and results are independent of the fuel.

## The tests of the repository on the model

`Conform/` transcribes the tests of the repository and runs them on the model: tp_impl/*.rs (`Iter`, `Lists`),
lex/{vec,token,set}.rs (`Tokens`), syntax/{lit_set,term_set}.rs (`Sets`), tests/{first_follow, semantic, lexer,
book_*, doc_lex_term_regex}.rs and tests/ui (`Grammars`). The test sources go through the model of both macros, the
grammar analysis, the parser and the error messages of `GrammarError`. All of them give the result the authors of the
code expect, including trees, spans, error lists, `remaining()`, later calls with the same parser, and the texts of
grammar errors. This is evidence that the model is faithful; it is no part of a proof.
The results of `logos` are written by hand. Not transcribed: tests that only check that code compiles, and
tests/expand (snapshots of generated code, against which Model/LexiconMacro and Model/SyntaxMacro were read).

## Properties

The statement of each property is in `properties.jsonl`. "False as stated" means that the negation is
proved with a concrete witness and a `_partial` theorem states what does hold.

| id | modelled as / proof |
|---|---|
| C01 | `lexAll` of an arbitrary outcome list against an independent fold; induction on the list |
| C02 | operations on the concrete parser state simulate a pure stream; invariant over operation sequences |
| C03 | invariant on parser states: extracted = filter of the prefix read |
| C04 | invariant on parser states |
| C05 | fuel induction over `produce`: consumed ++ remaining is constant; sortedness from scanner order |
| C06 | false as stated: nothing ever writes the field; proof: invariant `invalidTokens = []` |
| C07, C08 | case analysis over all states |
| C09 | invariant over reachable states |
| C10–C13 | loop invariant of the binary search on sorted lists; index arithmetic. C11 false as stated for empty spans strictly inside a token; exact law proved |
| C14 | list map; order independence of or-ing bit sets |
| C15 | bit vectors of the width the macro picks; proved for up to 32 variants. More variants do not compile (`Map<T> = [T; N]` needs `Default`, which std has for N ≤ 32), so the wrong shift above 32 (`C15_over32`: the literal `1` is an `i32`) is latent |
| C16 | induction on the skip loop |
| C17 | byte lists with a boundary predicate; false as stated when `lo` is past the end and `lo < hi` |
| C18 | membership lemmas on list-backed sets |
| C19 | false as stated: `Any` survives `clear` |
| C20 | invariant over registrations |
| C21 | computed table = least fixpoint = inductive relation; two directions |
| C22 | measure (finite universe of terminals); order independence is a corollary of C21/C23 exactness |
| C23 | invariant of the fixpoint loop |
| C24 | false as stated: only adjacent pairs get FIRST; `_partial`: what can be missing comes from beyond an empty part (`Beyond`, `EndsWith`); complete when no interior symbol of a sequence is nullable |
| C25, C26 | traversal visits all reachable productions; per-node equivalence |
| C27 | false as stated (follows C24); `_partial` with the computed FOLLOW; an accepted grammar is LL(1) exactly if it is `SkipSafe` |
| C28 | false as stated (C19); `_partial`: under absence of a literal-less nullable part before a non-nullable part |
| C29 | false as stated: the check never returns an error. That left recursion is rejected: `C29_rejected_partial` for productive grammars, `C29_program_partial` for all programs (rejected or refused by the compiler, C128) |
| C30 | global argument on left cycles using disjointness and sequence checks |
| C31 | C20 + C25 |
| C32, C33 | DFS with visited set, measure = unvisited productions |
| C34 | fuel induction, inductive specification of trees |
| C35 | false as stated (four counterexamples); `_partial` for `SkipSafe` grammars, under side conditions on enums, `Split`, `Punct`, `Loop` |
| C36 | false as stated; `_partial` for `SkipSafe` grammars by induction on matches |
| C37 | false as stated (Recover at end of input); `_partial` without Recover |
| C38 | false as stated (`C38_false`: left recursive types; `C38_false_needs`: types that need themselves, because of repaired literals; `C38_false_enum`: a nullable enum at the beginning of the element of a loop); `_partial` for grammars without such types: no production is left recursive (`LeftDerives`), none has itself as a part that cannot be left out (`Needs`), and none derives a form that begins with a nullable enum followed by a token (`Proof/Terminates.lean`: `Weak`, `Post`; `Proof/Ends.lean`). `C38_productive_partial`: the first two hold if every production is productive |
| C39–C41 | combinator-level theorems for arbitrary element parsers |
| C42 | proved for Success; false as stated for recovered trees |
| C43 | C10/C14 + spans of trees |
| C44–C46 | combinator-level theorems |
| C47 | fuel induction over `produce` |
| C48 | definitional plus invariants over histories |
| C49, C50 | list functions; both false as stated, `_partial` with side conditions; `C49_exact`: the order condition is necessary and sufficient (induction with a queue of rule sets that wait for a name) |
| C51 | arithmetic |
| C52 | fuel induction, boundary predicate |
| C53–C55 | combinator-level theorems |
| C56–C58 | `derive_lexicon` as an `Except` function over the parsed declaration; induction over variants and attributes |
| C59 | false as stated for sequences; invariant of the loop over the parts (`Remembered`, `Blamed`) |
| C60 | lists of terminals as sorted lists; membership in the two sets combined with exactness of FIRST and soundness of FOLLOW |
| C61 | C47 and C17 for the text; `to_repr` lists exactly the members of the set |
| C62 | induction over the combinators on the stream view (`TellP`): every creation of an expectation is guarded, merging and extending keep start and set; a silent panic is at the end of input; jump tables are exact (C31) |
| C63 | `derive_syntax` as an `Except` function to generated code (accessors, arms, names), whose meaning after name resolution is proved equal to `Schema.rule` and `produceStep` of the user-defined type the declaration stands for; induction over the fields with the accessor at each position |
| C64 | false as stated; exact acceptance condition |
| C65 | case analysis of every error exit |
| C66 | generated accessors evaluated on values of the declared type |
| C67 | rendered messages of `Model/Message` as fixed words around the arguments; `C67_types_*`: the whole text for types, `Schema.errorText` with the names of C80 and the exact lists of C60 |
| C68 | relation between two runs on streams with a common beginning (`Loc`), closed under the combinators (`Core`); spans in trees lie on edges of tokens consumed or next (`Run.near`), so texts are the same |
| C69 | relation `Al` between a run and a run without errors on streams with a common beginning: in step until the first one passes the common part, then all new errors are late (`Run.late`); recorded errors never disappear completely (`Run.back`). `C69_sentence_partial` adds C35 |
| C70 | `Run.viable`: a part without errors passed tokens that derive from its production (or, at the end of input, begin such a derivation); the first error ends this, later errors are late (`Run.late`) and error positions stay (`Run.keep`). False where several errors of a failing part are reduced to the last one |
| C71 | `C71_option`, `C71_iter`, `C71_sequence`: the textbook notions `Nullable` and `FirstOf` on the grammar of the root contradict the correctness of the jump table (`metadata_jump`) and of the sequence check (`accepted_seq`), so building the metadata returns an error (`C33_schema_total`) and `Root::parse` returns it for all inputs; `C71_documented` instantiates them with the examples of the book |
| C72 | `Spec/Delimited.lean` describes the steps of a list (`DelimSteps`: separator, search, next separator or end), the search (`SplitGap`, `PunctGap`: misses and skipped tokens) and the result, in terms of FIRST, FOLLOW and what the parts do. `C72_split`, `C72_punct`: every run is such a sequence of steps, every skipped token is covered by an error, every miss is reported (unless the input ends). `C72_skipped_partial`: skipped tokens are in none of the three sets, except directly after a failed attempt. `C72_false`: such a token is skipped although an element begins there; `C72_follow_false`: a token that can follow the list is skipped because FOLLOW lacks it (C24) |
| C73 | `C73_between`, `C73_order`, `C73_fails`, `C73_recorded`: induction over all runs of all combinators (`Run`), with arbitrary tables; the recorded errors by induction over the calls of the parser, those about characters from the spans of the lexer |
| C74 | `Spec/Layout.lean`: corresponding positions (`SamePlace`: where the store ends at the beginning, end, begin and end of the i-th token), trees, errors and parsers up to these. `C74_produce`, `C74_parse`, `C74_root`: a relation between two runs on streams with the same words (`Proof/LayoutStep.lean`), through every combinator; positions are compared by the code in three places (semantic types, progress of `Loop`, end of `Punct`), which agree because the order of corresponding positions is the same |
| C75 | `Spec/Tokens.lean`: `Tree.Reads`, the tokens of a tree from left to right. `C75_produce`, `C75_parse`: induction over the big-step description of `produce` (`Proof/Tokens.lean`), for all results with a tree; `C75_complete`: by induction on the match given by C34 |
| C76 | `Spec/Cost.lean`: a stream with a counter (`Ops.counted`). `C76_same`, `C76_defined`, `C76_unique`: the counter changes nothing. `C76_linear`, `C76_text`: whenever producing returns, for any schema and any tables (`Proof/CostRun.lean`). A type that returns never calls itself at the same place, and a loop that goes round without consuming never ends; so the types written in the schema have a rank at every place, given by the run itself (how many of them end with less fuel there), and a call that consumes nothing costs at most a constant depending on this rank; a consumed token pays for the rest. `C76_returns`, `C76_text_returns`: under the conditions of C38 it does return (`Proof/Cost.lean`: budgets and ranks, `Proof/CostStep.lean`: every combinator, `Proof/CostAll.lean`: induction on fuel; here the rank comes from the grammar). `C76_no_return`: without the conditions the call may never return |
| C77 | `C77_produce_partial`: the induction of C35 with a weaker assumption on the next token (`Okw`: it can follow the part, or the part ends calmly and the token cannot go on after the tokens matched so far), carried through every combinator together with the words already derived. `C77_longest_partial`, `C77_accepts_partial` (with C34); `C77_stops_partial`: C35 for the other input and C68. `C77_false_punct`, `C77_false_enum`: a `Punct` or an empty enum at the end insists on the next token |
| C78 | The grammar registered for the part is a subset of the one for the root with equal expansions (`SubGrammar`, `subGrammar_of_reach`), so FIRST, nullability and conflicts agree and FOLLOW is monotone (`build_part`): `C78_accepted`, `C78_first`, `C78_jump`, `C78_follow`. `C78_context`: the run is transferred step by step between two metadata that agree on FIRST and jumps (`Agree.produce`); an error-free run consults FOLLOW only in `Punct`, and there only for a token that is in it. `C78_sequence` for two calls of `Parser::parse`, `C78_alone_partial`, `C78_false_punct` |
| C79 | `Interchange S S' R` (`Spec/Interchange.lean`): `R` is a bisimulation between types of two schemas. The registered grammars correspond (`Bisim`, `bisim_of_interchange`), so FIRST, nullability, sentences and conflicts agree; FOLLOW of a production is covered by the productions corresponding to it: `C79_accepted`, `C79_first`, `C79_language`. Runs are transferred with the lemmas of C78 (`AgreeX.produce`): `C79_parse` (no `Punct`), `C79_parse_partial` (`Punct` with no fewer FOLLOW tokens), `C79_unbox` (all boxes removed, no condition), `C79_false_punct` |
| C80 | `Model/Names.lean`: `Production::debug` with the inspection of the text in `OptionProd::debug`. `Spec/Names.lean`: a reader of expressions (a machine with a stack of open brackets that computes the set of sequences, `readName`), and the sequences a production stands for by replacing productions without a name by their rules (`Stands`). `C80_reads_partial`: induction on the production; a name and its optional form are read correctly in every state of the reader (`Proof/Names.lean`, `adds_debug`) |
| C81 | `Lexicon.Scan`: the runs of a longest-match scanner with the generated rules. `C81_wf` (the outcomes are well formed, which is the hypothesis `ItemsWF` of the parser theorems), `C81_total`, `C81_unique`, `C81_covered`: induction on the run with the invariant that the rest of the source is valid UTF-8. `C81_token_partial`, `C81_invalid_partial`: a token has the longest match among the rules as written; false as stated because of C49 (`C81_false`) |
| C82 | Case analysis of the first step of a run: `C82_emits_partial`. `C82_never`: two of the three refusals of literals are right. False as stated: `C82_false` (a variant with a terminal without literal and no `regex` is accepted and never scanned), `C82_false_prefix`, `C82_false_second` (refused although it would be scanned). `expand`'s `Regex::find` is related to the scanner by `Logos.Agrees` |
| C83 | Composition of C49, C56, C81 and C77: `Decl.Splits` (the declaration alone splits the text), `C83_scan_partial`, `C83_extract`, `C83_words_partial`, `C83_parse_partial` |
| C84 | Nodes at any depth are `Tree.Node` (over the parts of a tree), types at any depth `Inner`. `C84_success` (derivation of each node, C10 for the lookup), `C84_reads` (the tokens that can be read in the node are the ones found), `C84_held` (all results, also recovered: induction over the relational description, `Run.bnd`), `C84_recovered_more` (witness: skipped tokens are found too, so equality is for successes only) |
| C85 | `Model/TokenMut.lean`: the `_mut` queries as functions that take the change and return the store. `C85_inside`, `C85_overlap`, `C85_begins_at`, `C85_ends_at`: any store, the part written to is the part returned by the read-only query (`WritesPart`). `C85_inside_each`, `C85_overlap_each`: with C10/C11 for stores in order. `C85_inside_inside`, `C85_inside_overlap`, `C85_cut`, `C85_spans`: queries on views |
| C86 | `Model/Map.lean`: a vector of entries and the loops over it; `from_id_unchecked` has an explicit error value. `C86_get`, `C86_ext`, `C86_iter`, `C86_iter_mut`, `C86_eq`: induction over the iteration |
| C87 | `Model/NodeMacro.lean`: declaration to generated code to what the code does, `none` for code rustc refuses. `C87_accepted`, `C87_tuple_partial`; false for named fields (`C87_false`) |
| C88 | Induction over the relational description of the parser with the bounds of C73: `C88_result_partial`, `C88_recorded_partial` (any number of parses), `C88_characters`. False for `Split` and `Recover` (`C88_false_split`, `C88_false_recover`) |
| C89 | `Cut` (items of a span, moved) is separate from scanner and parser. A predictive match (C90) moves with its tokens (`Chosen.cut`), contains one for every node (`Chosen.nodes`), stays one when what follows is left out (`Chosen.shift`), a scan can be cut at token ends (`Scan.cut`), and the part as a root finds the match (C90, C78): `C89_scan`, `C89_match_partial`, `C89_node_partial`, `C89_text_partial`; the side condition `ListsAgree` is about `Punct` only (`C89_lists`). False in general (`C89_false`) |
| C90 | `Spec/Chosen.lean`: rules for matches with the guards of each choice, no errors, no parser state. Both directions by induction: over the rules (`Chosen.done`), and over the fuel of the parser (`chosen_of_produce`). `C90_found`, `C90_unique`, `C90_success_partial`, `C90_parse_partial` (types without absorbed silent failures, or tokens left after the parse); false at the end of input for silent failures (`C90_false`) |
| C91 | the match found (C90) is cut from the source (`Chosen.cut`), the lookahead behind it is replaced by the end of input (`Chosen.shift`: every choice looks only at tokens that can begin or follow something, and none needs a token behind the match to stop), and found again (C90). `C91_prefix` (any scan of the shortened text to the consumed tokens), `C91_items`, `C91_text` (with the generated lexer) |
| C92 | `Spec/Program.lean`: what a type as written means (`Means`, by name), what a declaration means (`DefMeans`), and the declared language (`Sent`), all read off the declarations without macros, grammars or tables. The output of the macros with types as written is related to C56 and C63 by renaming (`ProgramMap.lean`); the declared language to matches by induction both ways (`sent_of_parses`, `sent_matches`). `C92_compiles`, `C92_program` (meaning exists, is unique, and is what the code does), `C92_sound_partial`, `C92_complete_partial`, `C92_text_partial` (text and declarations only); false for accepted grammars in general (`C92_false`) |
| C93 | `Program.assertLl1` over the same metadata as `parse`; `C93_total`, `C93_pass`, `C93_fail`, `C93_iff`. When the test is generated: `C63_root` |
| C94 | `Grown S S' emb pos` (`Spec/Growth.lean`): types renumbered by `emb`, variants by `pos`, more of both. The rules of the old grammar are simulated by those of the new one (`Sim`), so FIRST, FOLLOW, reachability and sentences only grow and conflicts stay conflicts: `C94_accepted`, `C94_first`, `C94_follow`, `C94_language`. Matches stay matches, by induction on them (`C94_match`, with `Tree.renumber`), and are found by C35: `C94_parse_partial`; false for accepted grammars that are not LL(1) (`C94_false`) |
| C95 | `Relabelled S S' r` (`Spec/Relabel.lean`): token types, terminals and types renumbered injectively, variants permuted, more types and token types allowed. The two grammars simulate each other (`Into`, `Proof/RelabelGrammar.lean`), so they have the same sets, conflicts and tables (`C95_accepted`, `C95_first`, `C95_follow`, `C95_jump`); every syntax type then does the same on related states (`Proof/RelabelStep.lean`, `RelabelLoop.lean`, `Relabel.lean`: one lemma for each function of `Model/Produce.lean`), and so does the parser (`Proof/RelabelParser.lean`): `C95_parse`, `C95_root`, with all errors. The reported conflict can differ (`C95_conflict_false`) |
| C96 | items with all attributes, the order in which the macros take them, and the pieces they give back (`Model/MacroItem.lean`); `complaints` is what rustc says about the pieces; `Fine` is which items are accepted, as written. False as stated: `derive_lexicon` drops other attributes and discriminants; attributes of parts are left over when the attributes of the item are wrong; `derive(ToSpan)`/`derive(Node)` repeat every declaration they refuse |
| C97 | `Calls` (`Spec/Calls.lean`): calls of `parse` one after the other. A type produced without an error while tokens are left begins with a token of its FIRST (`Proof/Quiet.lean`) and reads a token (`Proof/Idle.lean`) unless it can be empty, and elements of accepted repetitions cannot; results without errors carry over between roots (C78); then induction over the calls: `C97_starts`, `C97_plus`, `C97_star`, `C97_loop`, and back over the loop of the repetition: `C97_plus_back_partial`, `C97_star_back_partial`, `C97_loop_back_partial` |
| C98 | `Schema.plain` (`Spec/Plain.lean`) computes the side conditions of the partial theorems (C34, C35, C38, C77, C92) for one root; `Plain.good` (`Proof/Plain.lean`) shows that it implies them: closed lists of types and of ends of productions by iteration, `gapCheck` for the empty parts (compares FIRST sets where `skipCheck` only looks for choices). Then `C98_returns`, `C98_exact`, `C98_unique`, `C98_sentences`, `C98_program`, all without further conditions on the grammar; roots that pass and roots that do not are shown beside them. The check is part of the specification, not of the code |
| C99 | The declarations of both examples as data (`Spec/Book.lean`), and expressions as an inductive predicate that has nothing to do with either grammar. Both roots pass the check of C98 (a finite computation), their declared languages are shown equal to the expressions by induction (`Proof/Book.lean`), the rest is `C98_program`: `C99_compiles`, `C99_recur`, `C99_simple`, `C99_returns`. The scanner is any one that agrees with the regex engine; one for `\w+` and `\s+` in ASCII is given as the example |
| C100 | `Model/Threads.lean`: threads with a parser each, one cell for each root (empty, being computed by a thread, full), and steps of `get_or_init` and `Parser::parse`, in any order. Specification: `Alone`, calls of `Parser.parse` one after the other with nothing kept. By an invariant over all runs: what is in a cell is the metadata of the root, and who computes it is about to parse that root. `C100_progress` needs that the computation ends (C33). |
| C101 | Specification `Spec/Value.lean`: the conventional reading as an inductive relation between tokens and values (a left-recursive grammar, which LL(1) parsing does not allow), over an arbitrary algebra; and the functions a user would write over the trees of both examples. That trees have the value of their tokens is by induction on trees, for every match of the types (`Parses`); with the exactness of C98 and C99 this is about `parse`. That a value is unique is proved on tokens alone. |
| C102 | `Model/TokenChecked.lean`: the queries with every index, slice and `usize` subtraction checked (`none` = panic), also the calls of the comparison in the binary search. Loop invariant of the search (`base + size ≤ len`) without any order on the store; `C102_bounds`, `C102_spans`, `C102_at_span`, `C102_matches`, `C102_mut`; each also says that the checked function agrees with the one of `Model/TokenVec.lean`, so that C10–C13 do not profit from reading a missing cell as 0 |
| C103 | A separate description of trees over words: `Form` (a tree whose leaves are tokens of the input or words put in), `FormOf` (the words match the type; no lookahead, tables, errors or positions) and `Tree.Has` (the tree has the form) in Spec/Corrected. `Fillable`: what `Punct` and `Recover` can leave out is matched by some words; it follows if every symbol of the grammar is productive (`C103_fillable`). | `C103_produce` by induction over the big-step description of `produce` (`Run`, Proof/Run): all results with a tree, any table, any state. `C103_parse` for whole parses, `C103_success` from C34, `C103_reparse` with C98: the corrected words are parsed without a syntax error to a tree of the same form. `C103_gaps_needed`: with `Punct` elements can really be missing (`a x 1 1 x b x`). |
| C104 | `Records`, `Parser.withRecords`, `Parser.withTokens`: what a program can do to `Info` through `info_mut` (replacing `source`, or putting tokens into the store that are not of the input, is left out: then positions mean nothing). `Parser.coming`: the words left. `Standing`: the tokens in the store and to come are in order and in the source; true for every parser in use, also after removing tokens (`C104_standing`). | `C104_records`, `C104_records_produce`, `C104_records_read`: putting records in front commutes with every operation (`under_closed`). `C104_produce`, `C104_parse`, `C104_fresh`: the relation of C74, where a layout now has the token store before the first token. `C104_places`: which positions can be different after an edit of the store; `C104_drained_differs`: they can. |
| C105 | `Spec/Stray.lean`: pieces of an input (matches with their trees, and runs of stray tokens), what should be in the tree, the errors and the token store for them, and first steps of a loop. `Proof/Stray.lean`: `LoopSteps` of C45 are also sufficient (`C45_runs`), by computing the loop on streams; pieces give steps by induction, elements by the completeness theorem of C77. `C105_needs_stop`, `C105_needs_calm` show why the side conditions are needed. |
| C106 | `Spec/Lines.lean`: tokens that are terminators, statements confined between terminators (their terminals are apart from the terminator and nothing in them skips tokens), spans outside a range. `Proof/Lines.lean`: `Recover` stops exactly after the next terminator (invariant over the big-step judgement of `Proof/Run.lean`), induction over the `LoopSteps` of C45, and the completeness theorem of C77 for the statement itself. `C106_needs_confined` shows that `Split` inside a statement can run over its terminator. |
| C107 | `Proof/Items.lean`: induction over the steps of C72 (`DelimSteps`), with the reach of `Split`/`Punct` recovery bounded by the next separator (an element confined as in C106 cannot run over it), the bounds of error spans (`Run.upTo`), and the completeness theorem of C77 for the element itself. `C107_parse_split`/`_punct` are the same for `parse` of roots that pass the check of C98. That the list got as far as the element is a hypothesis (`hread`), C72 says when lists end; `C107_needs_read` shows that a token too many after a complete element ends the list. |
| C108 | `Spec/Depth.lean` defines `produce` on a stack with room for a number of nested calls (`nested`, apart from the iterations of loops). `Proof/Depth.lean`: a call of a type inside of a call of the same type at the same place (same tokens to come, same position) would never return, because what `produce` does depends only on that (`same_closed`); so between two tokens at most every type written in the program can be on the stack (`C108_linear`, induction over the tokens to come and the types not yet on the stack). `C108_flat`: programs without recursion need a constant. `C108_deep` is the exact need of a recursive program. Counted are calls of `produce`, not bytes of stack; dropping the tree, which is recursive as well, is not modelled. |
| C109 | `Model/Collect.lean`: `V::from_iter` is any state machine that calls `next` and continues with the answer (`Collector`); `Chain` of `once` and `ProduceIter` as in std. `Proof/Collect.lean`: containers that read to the first `None` are simulated by the `Vec` of `Model/Produce.lean`, step by step in both directions (`C109_plus`, `C109_star`); `C109_any` gives the answers for all other containers (`Asks`), `C109_ended` when the iterator has ended for good, `C109_goes_on`, `C109_leaves`, `C109_default` are concrete runs. |
| C110 | `Model/Repair.lean` is not code of the repository: it is `MetadataBuilder::build` with two repairs (FIRST of every later part, not only of the next one; `clear` that clears). `Proof/Repair.lean`: the relations of the repaired builder define the textbook FOLLOW (`FollowX`), the repaired conflict check is exact, so accepted = LL(1); the completeness proof of C35 only needs what the tables say (`Tables`), so it holds for the repaired metadata too. |
| C111 | `Spec/Tags.lean`: `Tagged`, which values in a tree are those of declared fields or variants, at any depth; `Declares`, `TreeShows`. At least these types: induction over `Run`, with the invariant that the value ends before what is still to be read, so that later marks and tokens do not disturb it (`MGrown`). At most these: induction over `Parses`. Recovered parses can leave the marks of an abandoned part (`C111_recovered_more`), and so can a success in which a `Recover` fails silently (`C111_silent_more`). |
| C112 | `JumpTable.fixedLookUp` in `Model/Repair.lean` is not code of the repository either. The parser model is not copied: it gets tables in which the present look-up finds what the repaired one finds (`C112_lookUp`). `Proof/RepairEnum.lean`: LL(1) makes the fallback right wherever the enum can be empty (`Found.of_exact`), and an enum that can be empty never fails on the lookahead (`Ctx.of_exact`), so the proofs of C35, C38 and C76 apply; left recursion is excluded by LL(1) itself (`C112_left`). |
| C113 | `Proof/ErrCount.lean`: an invariant of `produce` with counted operations, by induction on the fuel: the number of errors in a result is at most the number of operations made (`produce_led`). The linear bounds follow from C76 without further conditions. Errors about characters: one for each maximal run of invalid items (C04), and runs are separated by tokens. |
| C114 | `leftSearch` and `checkLeftSwapped` in `Model/RepairLeft.lean` are not code of the repository. `Proof/RepairLeft.lean`: invariant of the search: from every production seen and not on the stack no infinite path begins (accessibility), so a search without error leaves no cycle; an error is a path, by induction. Leftmost steps are related to derivations as in C30. `C114_swap_misses` is the witness against the smaller repair. |
| C115 | the fuel of `buildFirst`/`buildFollow` counts rounds and that of the traversals depth. `Proof/Rounds.lean`: once epsilon is settled, a round that adds a token nowhere is the last one for it (the table is then a solution as far as that token goes), and between two such rounds the token is added to some production, so each token is settled after N rounds. `C115_tight`: a chain of N productions needs more than N |
| C116 | `Spec/Size.lean` counts the nodes of a tree. `Proof/Size.lean`: a ledger as in C113, where every operation pays for two nodes, kept through every `produce` and every loop by induction on the fuel; combined with the bound on operations of C76 |
| C117 | `Model/RepairRecover.lean` is not code of the repository: it is `Recover::produce` with one more branch, and `produce` calling it. The description of all results (`RunX` in `Proof/Run.lean`) covers both versions, with one rule more or less, so soundness (`RunX.sound`) and completeness (`Found.finds`) are proved once for both. `Proof/RecoverTwin.lean`: a relation between two runs, equal states and trees and at least as many errors, one lemma for each part of the model. `Proof/RecoverSame.lean`: with input left both are the same |
| C118 | `Model/RepairAll.lean` is `Root::parse` with the metadata of C112 and the `produce` of C117. The claims of C110, C112 and C117 put together for this function: it ends by C112 (linear time) and the relation between the two versions of `Recover`; errors of the result and errors about unrecognised characters are separated by `syntaxErrors` |
| C119 | `Model/RepairLexicon.lean` is `derive_lexicon` with three repairs. `expandFix_ok` says exactly when it accepts and what it generates, as `expand_ok` does for the present macro. The proofs of C81, C82 and C83 are about `Faithful` code, in which every variant has its rules; the present macro generates it in some orders of declaration, the repaired one always |
| C120 | `Model/RepairProgram.lean` runs the code of a program (C92) with the repairs of C118 and C119. The code is that of the specification `Declares` as for C92, since it does not depend on the rules of the scanner; the tokens are those of the declaration by C119; the result is as C118 says; and the sentences of the grammar are those of the declarations, because trees stand for both (`sent_of_parses`, `sent_matches`) |
| C121 | `Spec/Accepted.lean` states the conditions (`NextTo`, `Tested`) in terms of derivations. The sets are exact by C21 and the solution of the FOLLOW relations; what is compared with a part is followed through the loop over a sequence (`seqConflict_none'`, `seqConflict_bare`, `seqConflict_some`). It makes C24, C27 and C28 exact |
| C122 | `Model/TokenCost.lean` repeats the queries with a count of the tokens that are looked at; each theorem says that the results are those of `Model/TokenVec.lean` and bounds the count. The binary search halves its range in each round |
| C123 | `Model/Debug.lean`: the texts as lists of bytes. Reading back: a number ends at the first byte that is no digit, a name at the first byte that is not of an identifier, a quoted literal at the first quote that is not escaped (`run_split`, `debugSet_inj`, `goodQuote_debugText`). Equivalences, so nothing that does not matter is printed either. `C123_reversed_false`: spans that end before they begin; `C123_display_false`, `C123_display_escape_false`: the `Display` text of terminal sets |
| C124 | `Parser.opsMarked`: the parser with a counter for the tokens that `apply_semantic` looks at (C122). `C124_same`, `C124_defined`: relation closed under the primitives. `C124_bound`: the relation "looks ≤ operations × size of the store" between the run counted as in C76 (which counts `apply_semantic` too) and this one is closed under the primitives. `C124_quadratic` (whenever parsing returns), `C124_returns` (it does under the conditions of C38), `C124_plain` (for the programs that pass the check of C98). `C124_nested`: a family of texts with k(k+1)/2 looks, by induction on k |
| C125 | `blameSeq`, `blameBuild` in `Model/RepairBlame.lean` are not code of the repository; `GErr.text` (used by the present checks too) is the wording of lib.rs:68-83. `Spec/Blame.lean` says what each error claims (`GErr.Holds`), which terminals it is about (`GErr.About`), in terms of derivations only. `Proof/Blame.lean`: invariant of the loop: the pending parts are a suffix of the parts done and can all be empty; then as for C110 and C114. `C125_lists` from `TSet.intersectionRepr_lists` (C60) and the exact FOLLOW of C110 |
| C126 | C70 says that the error is not late. For not early: `Spec/FirstError.lean` (`Begins`, `Spellable`); if the tokens up to and with the one at the error were the beginning of a sentence, `begins_input` writes down an input with the same text up to there that is a sentence (`Derives.norm` replaces texts that cannot be tokens, `layFrom` puts the words one after the other), which is found (C112 or C35), so by C69 the error would be later. False in general: `C126_false` from C70 and C35 |
| C127 | `Proof/Literal.lean` runs a literal at a view in each case; the table lookups are the grammar relations by `fixedMetadata_follow` and `Tables.of_fixed`. `delim_split`/`delim_punct` (`Props/Delimited.lean`) are C72 with any meaning of the FOLLOW table. The witnesses of `C53_false` and `C72_follow_false` are shown to be repaired |
| C128 | `Model/Infer.lean`: which associated types `L` are asked for (`Schema.asks`); `Spec/Infer.lean`: no type asks for itself (`Schema.Infers`). Then the search is well founded (pigeonhole on the types), so every type reaches a terminal by first parts and has a FIRST token. All FIRST sets on a left-recursive cycle are equal; the cycle cannot consist of first parts only, so somewhere it goes through a later alternative (FIRST/FIRST conflict with the first one) or behind a part that can be empty (conflict in the sequence). C29, C38 and C76 refer to it |
| C129 | `Model/Sized.lean`: which user types are stored in a type without a pointer (`Ty.holds`), the program with all fields boxed; `Spec/Sized.lean`: no type stores itself (`Schema.Sized`), programs that differ only in boxes around fields (`SameButBoxes`, symmetric). Ids of productions do not see outer boxes, so the rules are equal; `produce` by induction on the fuel, with as much more fuel as there are boxes around a field, through the closed relation of `produce_mono`; for any operations, so also for the counted ones. With C128: which programs rustc accepts as far as recursion is concerned (`C129_compiles`, `C129_book`) |
| C130 | `Model/TypeId.lean`: `build` once more, with the productions sorted by an arbitrary numbering of the types wherever the code reads the map ordered by `TypeId` (`buildById`); the FOLLOW relations are pushed in that order. Look-ups are equal since there is one production per type; FOLLOW members by the order independence of C22; errors, conflicts and tables are then equal. Producing with tables of the same members: the relation of C95 with nothing renamed. Texts of errors by the uniqueness of sorted lists (C60, C61) |
| C131 | `nested` (C108) separates the calls inside of each other from the rounds of loops. `Proof/Halt.lean`: every round of a loop makes a call of the stream, so a run that returns needs no more rounds than it makes calls (a relation between runs with different limits, proved for each loop by induction and lifted through `produce`). With the bound on the depth (C108) and on the calls (C76) this gives `C131_limits`; `C131_never` adds that there is no panic (C52); `C131.decide` is the decision procedure, `C131_parse` the same for `T::parse` |
| C132 | `Model/RepairKeep.lean`, which is not code of the repository: `clip` keeps the error of a failed part that begins first, `produceKeep` is `produce` with it (and with the repair of C117). `Proof/Kept.lean` describes its results as `Proof/Run.lean` does for the code, with a rule for `clip` and with the fact that a part of a list fails with at most one error; from that `Run.loud` (a failure has an error) and `Run.viable` (the tokens before the first error), without `Loud` and `KeepsErrors` of `C70_produce_partial`. `Proof/KeptView.lean` carries it to the real stream. `Proof/KeptTwin.lean`: the code and the repaired parser run in step (`C132_same`, `C132_same_rev`), and so do the latter and the parser of C117, from which sentences are found, and only they (`C132_parse`, `C132_accepts`). `Proof/KeptAlarm.lean` is the argument of C69 for it (`C132_alarm`); together `C132_exact`, as in C126 but without `Loud` and `KeepsErrors` |
| C133 | `Model/RepairRetry.lean`, which is not code of the repository: the tail search of `Recover` that skips a token only if the failed attempt consumed nothing; the parts are produced as in the code (a `Recover` inside them is not repaired). `Spec/RepairRetry.lean`: `EachStop`, the search in which no token is skipped without an attempt. `Proof/RepairRetry.lean`: the loop does these steps (`retry_steps`), equals the loop of the code if failing attempts consume nothing (`retry_same`), and ends, since a retry happens only after tokens were consumed (`retry_halts`). `C133_found` is the claim that `C46_false` refutes for the code. `C133_clean`: an error is pending after a skipped token or a failed attempt (`retry_silent`); `C133_accepts`: hence the repair changes only parses with errors. `C133_false`: the repair is no improvement on every input, since an attempt at the token that the code skips may consume the beginning of a tail |

## Places in the code that can panic

Every index, slice, `unwrap`, assertion and subtraction outside of tests and doc comments, and why it does not panic.

| Place | Why it does not panic |
|---|---|
| lex/span.rs:51 (slice in `Span::get`) | `Span.get?` returns `none` for the panic; `C17_panic_iff` says when it happens (it can, for spans the user makes up: `C17_false`); for the spans the parser uses it does not, C52 |
| parser/parser_impl.rs:226 (slice in `remaining`) | `.crash` in the model; C52 |
| parser/parser_impl.rs:202 (`debug_assert!(self.peeked.is_none())`) | both callers (182, 195) test it just before; the model has the test at the same place (`Parser.fill`) |
| parser/tree.rs:30 (`assert_ll1`) | panics by design, exactly for grammar errors: C93 |
| lex/vec.rs:115 (`hi - 1`), 131, 142, 150, 158, 175, 186, 244, 261, 276, 298, 315, 331 (indexes and slices) | checked in `Model/TokenChecked.lean`; C102, for any store |
| lex/vec.rs:99, 102 (`transmute`) | `repr(transparent)` over the slice; identity in the model |
| lex/map.rs:47, 53 (index by id) | the length of the data is a part of `Map`; C86 |
| syntax/follow/builder.rs:71 (`yi[0]`, `yi[1]`) | elements of `windows(2)`; pairs in the model |
| syntax/error.rs (messages) | C61 |
| macros/lexicon.rs:36 (`unreachable!`) | the same value was matched in line 26 |
| macros/lexicon.rs:273, 274 (first and last variant) | an enum without variants was refused when the repr was determined: C57, C58 |
| macros/syntax.rs:164 (`field.ident.as_ref().unwrap()`) | fields of a struct with named fields have a name (syn) |
| macros/syntax.rs:178, 179 (first and last field) | a struct without fields was refused in line 157: C63, C65 |

## Where the code disagrees with a property

Each item has a theorem with a concrete witness (`_false`) and a `_partial` theorem for what holds.

1. Left recursion is never reported: `check_left_recursive` marks a type as seen before it looks at the stack (C29). Left-recursive types are stopped all the same, by the compiler or with another error (C128).
2. FOLLOW lacks tokens that come after an empty part in the middle of a sequence, so grammars that are not
   LL(1) are accepted and sentences of accepted grammars are rejected (C24, C27, C35, C36, C53).
3. `LitSet::clear` keeps `Any` (C19), so LL(1) grammars with `Ident? "+" Ident` are rejected (C28). Items 2 and 3 are
   the only causes: with both repaired exactly the LL(1) grammars are accepted (C110).
4. An enum with a variant that can be empty panics on a token outside every FIRST set (C35).
5. Parsing does not terminate for some accepted grammars (C38).
6. Literal `1` is an `i32` in `to_bit`: wrong above 32 variants, which do not compile anyway (C15).
7. `derive_lexicon` attaches rules to the wrong variant after a variant without rules and terminals (C49).
8. `TokenVec::overlaps` for an empty span strictly inside a token (C11).
9. `Recover` at the end of input panics without an error (C37, C43, C45, C54).
10. Recovered nodes can have spans with `hi < lo` (C42).
11. `Loop` accepts the empty input though it registers a production that cannot be empty, and it always reads to
    the end of the input (C35). `Root::parse` ignores tokens after the root.
12. The check for duplicate literals is skipped after a terminal without literal (C50).
13. `Split` with a separator that can be empty does not accept its own production (C35).
14. `Info::invalid_tokens` is never written (C06).
15. `Quote` of a node whose first part is an absent option also shows the text before the first token (C44).
16. `Recover<H, R>`: while skipping, a token at which `R` panicked is skipped without trying `R` at it (C46; C133 has a repair).
17. `derive(Node)` on structs with named fields generates code that does not compile (C87).
18. `FirstFollowSeqConflict` names the wrong part: `cur` is only updated at parts that cannot be empty (C59).
19. `Span::get` panics if `lo` is past the end and `lo < hi` (C17).
20. `Recover` whose second type can be empty records at the end of input that `<empty>` (among others) is expected there, after that type failed silently (C62).
21. `derive_syntax` accepts and ignores list attributes of any name on fields and variants, so a misspelt `semantic(..)` is silently dropped; so is `hook(..)` (C64).
22. `Split`, `Punct` and `Recover` keep only the last error of a part that failed with several (a missing literal before the failure is not reported), so the first error that is reported can be past tokens that no sentence begins with (C70).
23. After an element that was tried and failed, `Split` and `Punct` skip the next token without checking whether an element can begin there, unlike the book's "skip tokens until a token in FIRST(P), FIRST(T) or FOLLOW(self) is found" (`C72_false`); and because the computed FOLLOW is not complete (C24) they also skip tokens that can follow the list (`C72_follow_false`).
24. A root that ends with a `Punct` reports an error for the token after a trailing separator, and an enum that can be empty fails at a token it does not know, although what was read is a sentence and other types stop silently there (`C77_false_punct`, `C77_false_enum`).
25. Whether a `Punct` list with a trailing separator is read without an error depends on what surrounds it: `Punct<word, num>` reads `a 1` before `x` without an error inside of `(Punct<word, num>, "x")` and with an error as a root of its own (`C78_false_punct`).
26. A `Box` can change what is accepted: in `(Punct<word, num>, "x", Punct<word, num>)` both lists are one production with one FOLLOW set, and `a 1 x b 1 x` is read without an error up to the last `x`; with `Punct<Box<word>, num>` for the second list there are two FOLLOW sets and an error is reported (`C79_false_punct`).
27. `OptionProd::debug` takes a name that begins with `(` and ends with `)+` for a single repetition: `Option<(Plus<A>, Plus<B>)>` is shown as `( A )+ ( B )*` in grammar errors, and `Option<("(", Plus<A>)>` as `( ( A )*` (C80).
28. `derive_lexicon` accepts a variant with a terminal without literal and without `regex`, such as `terminal(Word, Kw = "a")`: it has no rule, so neither terminal is ever found in any source (C82).
29. `derive_lexicon` refuses `regex("key|keyboard")` with the literal `"keyboard"` ("matches a proper prefix ... will never be matched"), because `Regex::find` prefers the first alternative; logos takes the longest match and would return `keyboard` (C82).
30. `derive_lexicon` refuses `regex("a", "b")` with the literal `"a"` ("will never be matched"), because every regex of a variant has to match every literal (C82).
31. `Split` and `Recover` add the error about skipped tokens after the errors of the element, or second type, that comes after these tokens, so errors are not in the order of the source; `Punct` adds it before (`C88_false_split`, `C88_false_recover`).
32. The text of a node can fail to parse as the type of the node: what may come after a `Punct` list is taken from the whole grammar, so a separator can be accepted at the end of a list in a larger root and rejected in the part (`C89_false`).
33. An enum that gets one more variant can break inputs that do not use it although both grammars are accepted: `((A, E?), C?, B)` parses `a b` with `enum E = D` and not with `enum E = D | B`, as FOLLOW leaves out what is beyond `C?` (`C94_false`; consequence of the missing part of C27).
34. `derive_lexicon` drops attributes of others (documentation, lints, `derive(..)` below it) and discriminants from the enum it accepts, as it writes the enum anew (`C96_lexicon_false`). If it or `derive_syntax` finds a mistake in the attributes of the item, the attributes of variants or fields are left over and reported by rustc as unknown (`C96_syntax_false`, `C96_lexicon_false_more`), although the code means to take them early.
35. `derive(ToSpan)` and `derive(Node)` give the declaration back when they refuse it, as attribute macros have to; from a derive macro it is a second definition, so rustc also reports a duplicate name (`C96_derive_refused`).
36. There is no limit on the nesting of calls: a recursive type parses an input of `k + 1` tokens with `3 * k + 2` calls of `produce` inside of each other (`C108_deep`), so inputs that are long enough overflow the stack of the program instead of giving an error.
37. The iterator given to `V::from_iter` is not fused and not drained: a container that asks again after `None` gets the elements after one that failed (`C109_goes_on`), and one that stops early leaves elements in the input, which the grammar does not know of (`C109_leaves`). The value of an empty `Star` is `V::default()`, not `V::from_iter` of nothing (`C109_default`).
38. Semantic types on recursive syntax take quadratic time: every level marks all tokens below it again (C124, `C124_nested`).

## Layout

`Model/` the code, `Spec/` the specifications, `Proof/` helper lemmas, `Props/` the property theorems `Cnn_*`
with their examples (one file per area), `Conform/` the tests of the repository. `tools/manifest.py` collects the theorems into `MANIFEST.json`;
`seeded/LOG.jsonl` records the mutation tests.
