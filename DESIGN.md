# TameParse: model and proof design

The subject is the C++ parser generator in /repo (TameParse). Nothing was built or run: the model was
written by reading the sources. The model and the proofs are in Lean 4 under `lean/Verif`.

## Trusted base

* Lean 4.33.0's kernel (the gate replays every constant through it).
* Axioms: at most `propext`, `Classical.choice`, `Quot.sound` (Lean's standard three). No axiom is
  declared here, and no `sorry`, `native_decide` or `bv_decide` is used.
  `Verif/Audit.lean` prints the axioms of every theorem named in MANIFEST.json.
* The hand translation C++ -> Lean. Each definition carries the file and lines it models and says where
  it simplifies. Nothing mechanical ties the Lean text to the C++ text.
* The C++ standard library containers are modelled by what they guarantee: `std::set`/`std::map` as
  lists kept in order with unique keys (or functions/association lists where the order is not observable),
  `std::vector` as a list or array, `std::sort` as a function returning an ordered permutation,
  `std::lower_bound`/`binary_search` as their contract on sorted input (for the tables where the search is
  the point, the linear meaning of the contract is used).
* Not modelled: memory exhaustion, 32-bit overflow except where stated (symbols and identifiers are `Int` or
  `Nat`), exceptions, iostream errors, threads (the code has none).

## Conventions

* `lean/Verif/<Area>.lean`: definitions that follow the code, function by function, then helper lemmas.
* `lean/Verif/<Area>Spec.lean` or a `Spec` section: small specification that does not mention the helpers.
* `lean/Verif/<Area>Props.lean`: the theorems listed in MANIFEST.json, each with an `example` that shows
  its hypotheses can be met.
* Undefined behaviour and non-termination are outcomes of the model (`Option`, `Except` or explicit fuel),
  never silently defined away.
* When the code violates a property, the negation is proved on a concrete witness (`*_violated`) and the
  part that does hold is proved with the suffix `_partial`.

## Map of the model

| Lean files | C++ sources |
|---|---|
| `SymbolSet*` | Dfa/range.h, symbol_set.{h,cpp} |
| `SymbolMap*` | Dfa/symbol_map, remapped_symbol_map |
| `Ndfa*`, `Subset*`, `Merge`, `Compact*` | Dfa/ndfa.{h,cpp}, ndfa_transformations.cpp, state.h, transition.h, accept_action.h |
| `StateMachine*` | Dfa/state_machine.h; table writer in Compiler/output_stage.cpp 192-208, OutputStages/cplusplus.cpp 470-576 |
| `SymbolTable*`, `HardCoded*` | Dfa/symbol_table.h, symbol_translator.h, hard_coded_symbol_table.h |
| `Lexer*`, `Position*`, `Pipeline` | Dfa/basic_lexer.h, character_lexer.cpp, lexer.cpp, lexeme.h, position.h |
| `Builder`, `Frag`, `Regex*`, `Surrogates`, `LexerBuild` | Dfa/ndfa.h (builder), ndfa_regex.{h,cpp}, lexer.cpp |
| `Util*`, `Refcount*` | Util/stringreader.h, utf8reader.cpp, unicode.cpp, container.h, syntax_ptr.h |
| `Items`, `ItemSet*`, `GrammarIds*`, `First*` | ContextFree/item, standard_items, ebnf_items, guard, rule, item_set, grammar, terminal_dictionary |
| `Lr1Set*`, `ParserTables*`, `TablesOrder*`, `ParserStack*`, `Session*`, `Rewriters*` | Lr/lr1_item_set.h, parser_tables, parser_stack.h, parser.h (session), the rewriters, conflict.cpp |
| `Closure*` | ContextFree/item.cpp (closures), ebnf_items.cpp |
| `Lalr*`, `Lookahead*`, `Action*` | Lr/lalr_builder.cpp, lalr_machine.cpp, lr_state.h, lalr_state.cpp |
| `Attributes*`, `Stage` | Compiler/conflict_attribute_rewriter.cpp; lr_parser_stage.cpp 306-339 (order of the rewriters) |
| `Language*` | `Language/language_parser.cpp` (definitions), `ebnf_item`, `process::dequote_string`, `Compiler/language_stage.cpp`, `Data/rule_item_data`, `lexer_data` |
| `WeakLexer*`, `WeakFallback*`, `IgnoredUse*` | `Compiler/lexer_stage.cpp` (accept actions, symbols of definitions), `Lr/weak_symbols.cpp` (`add_symbols` on a DFA) |
| `PrecBlock*` | `Compiler/precedence_block_rewriter.cpp` |
| `PrecTree*`, `PrecGrammar*`, `PrecComplete*`, `PrecDecide*`, `PrecExample` | proofs about parsers with precedences |
| `Ast*` | `shift` and `reduce` of `Compiler/OutputStages/cplusplus.cpp` |
| `Names*`, `ClassProps` | names and classes in `Compiler/OutputStages/cplusplus.cpp`, names of items in `Compiler/output_stage.cpp` |
| `LexerStage*` | `Compiler/lexer_stage.cpp` (whole stage) |
| `Guard*` | `Lr/parser_state.h` 227-350 (guards, with `Parser`, `Lalr`) |
| `UnusedProps`, `AttrProps` | `Compiler/language_stage.cpp` (with `Language`) |
| `StringProps` | `Language/definition.tp` 15-41, `Language/process.cpp` (with `Language`, `Regex*`) |
| `DefinitionProps` | `Compiler/language_stage.cpp` (with `Language`) |
| `TextProps`, `TextExample` | none of their own: the stages joined |
| `WeakParserProps`, `WeakParserExample` | `Lr/weak_symbols.cpp`, `Lr/parser_state.h`, `Lr/parser.h` (with `Rewriters`, `Parser`, `Stage`) |
| `Files*` | `Language/language_parser.cpp`, `Compiler/parser_stage.cpp`, `Compiler/import_stage.cpp`, `Compiler/language_builder_stage.cpp`, `Compiler/language_stage.cpp` 90-117 |
| `Tool*` | `Compiler/test_stage.cpp`, `Compiler/std_console.cpp` (exit code), `parsetool/main.cpp` |
| `Written*`, `TablesAgree` | `Compiler/OutputStages/cplusplus.cpp` (tables and lexer in the source) |
| `ParserStage*`, `ConflictCount*`, `Clash*` | `Lr/conflict.cpp`, `Compiler/lr_parser_stage.cpp` (reports) |
| `ErrorProps`, `ErrorExample` | C84, C85: where errors are found, unambiguity |
| `GuardCheck`, `GuardCheckProps`, `GuardReportProps` | C86: reports about guards |
| `Follow`, `FollowProps`, `FollowExample` | C87: FOLLOW sets |
| `CaseProps`, `CaseTables`, `CaseExample`, `CaseStage` | C88: case-insensitive definitions |
| `Lr1Targets`, `Lr1TargetProps`, `Lr1Example` | C89: the LR(1) resolver |
| `NamedProps`, `NamedExample` | C90: named expressions of a language |
| `RegexCheck*` | C91: `check_regex` in Dfa/ndfa_regex.cpp and Compiler/lexer_stage.cpp |
| `UnicodeData*` | C92: Unicode/unicode.pl and the Unicode names in Dfa/ndfa_regex.cpp |
| `Spans*` | C93: the position functions that `Compiler/OutputStages/cplusplus.cpp` writes, and the lookahead that `Lr/parser.h` hands to `reduce` |
| `EscapeProps`, `DashProps` | C20: escapes with digits, and classes with a dash at the end, in Dfa/ndfa_regex.cpp |
| `Blocks*` | C94, C95: the objects of definition files in `Language/*.cpp`, their copies and positions |
| `Format*` | C96: `to_string` of syntax trees in `Language/formatter.cpp` |
| `Orders*` | C97: the comparison operators of `Dfa`, `Util`, `ContextFree`, `Lr` and `lexer_stage.cpp` |
| `Bootstrap*` | C98: `bootstrap.cpp`, the grammar and the readers |
| `Show*` | C99: `to_string` of items, item sets, rules, grammars, LR items, states, actions, machines, builders and conflicts in `Language/formatter.cpp` |
| `Json*` | C100: `Examples/JsonPrettyPrinter`: `json.tp`, `json_format.cpp` |
| `Console*` | C101: `Compiler/std_console.cpp` (`report_error`) |
| `Sound*`, `Complete*`, `Term*`, `IgnoreGrammarProps`, `IgnoreExample` | no new code: soundness, completeness and termination of the whole chain from grammar to parser |
| `Parser`, `CanReduceProps`, `FuelProps`, `IgnoreProps` | Lr/parser.h, parser_state.h |

Not modelled: the lexer and the tables of the parsers of language definitions (`Files` and `Bootstrap` start from the syntax tree); the parts of
Compiler and of code generation that the map does not name; the test program. Static data tables (Unicode case and category data) are parameters of
the model: the theorems hold for any table, and C92 is about the script that makes them.

## Per property: what is modelled, how it is proved

* **C01-C04** `symbol_set` is its sorted vector of half-open ranges; `|=`, `exclude`, `invert`, `==`, `<` and the
  search follow the code statement by statement. Invariant (sorted, non-empty ranges, gaps between them) kept by
  every operation, membership characterised for every symbol, canonical forms unique. The theorems quantify over
  histories of operations.
* **C05-C06** `symbol_map` and `remapped_symbol_map::deduplicate` with `add_set`. C05 is an invariant over any
  sequence of registrations. C06 is violated (see below); the partial theorem gives a checkable condition
  (`deduplicate_single_ranges_partial` shows it is met by all single-range maps).
* **C07-C09** NDFA as states with transition lists and accept lists. Closure equals the reflexive transitive closure
  of the epsilon edges; the subset construction is a worklist whose termination is proved by counting sets;
  simulation between subset states and sets of states.
* **C10-C12** merging symbols, `compact_dfa` (partition refinement) and the row tables, each by comparing successors
  state by state. Sorting functions are parameters with the contract of `std::sort`.
* **C13-C14** two-level symbol table with blocks allocated on demand and the encoded form. `symbol_table_correct_iff`
  says exactly which tables are right.
* **C15-C17** `dfa_stream` as a function of the remaining input with its queue of read symbols. Induction on the
  input, maximality by induction on prefixes.
* **C18-C19** position tracker as a fold with closed forms.
* **C20-C22, C55** the recursive-descent regex compiler (every escape, class, group, repetition, named expression)
  producing builder operations, these producing an NDFA. `Frag` gives a denotation to fragments with entry and exit
  states; the theorem is by induction over the compiler's run and says the language of the state equals the
  denotation of the parsed expression.
  `octal_escapes` and `hex_escapes` say how many digits of an escape are read, `octal_digit_violated` what becomes of `\8`.
* **C23-C24, C49-C50** readers and containers, by induction on texts.
* **C25** a heap of counted objects with fields; operations new, copy, assign, drop in any order.
* **C26-C27** item sets as words of bits.
* **C28-C30** identifiers as association lists, invariant over any operation sequence.
* **C31-C32** FIRST with its cache as state and the marker for sets being computed. Soundness by induction on the
  recursion with an invariant on the cache, against the derivation relation `Derives`; termination proved.
* **C33** item set as association list, refinement to per-item union.
* **C34, C48** action arrays: sort, lower bound, scan; copy and assignment. `action_order` says in which order the types of actions are visited.
* **C39-C41** stack storage with its collector and list of references, and the session's buffer of lookahead:
  refinement to independent lists for every interleaving of operations.
* **C42** `can_reduce` with an index into a row; reads beyond a row are an outcome. Answers are compared with an
  inductive relation that performs the reductions on a real stack.
* **C43-C47** rewriters and conflict search on action sets, exact description of every action in the result.
* **C38** the parser as it runs on tables. Two parses of streams that differ in ignored tokens are related
  step by step, including the guard checks, and their fuel is related by `parse_unique`. `ignored_no_effect_grammar` starts from the grammar: the
  symbols of the actions come from the items of the grammar (`act_sym`), so an ignored symbol that no rule uses has no other action, and no
  rewriter adds one as long as ignored symbols are not also weak symbols. FIRST sets may hold only items of the grammar.
* **C51** `create_closure` and the loop of `complete_parser` over the queue of states, with `add_state`, `add_transition`, the map of new
  states and the states for guards. The closure of an item is a parameter that has the property proved in C56 (`closOk_cache`). The loop
  invariant says that every state is queued, finished or being looked at, that states are distinct sorted lists, and that each transition leads
  to the items with the dot moved. `lr0_states_exact` characterises the result without reference to the order of the work;
  `lr0_states_terminate` bounds the work by the number of sets of items and of guards. Grammars with explicit empty items are excluded (C56).
* **C52** `complete_lookaheads`: the pass over all items that finds the spontaneous lookaheads and the propagation relation, and the loop that
  propagates. `propagation_exact` says for every relation that an item ends with what it had and what reaches it; termination by the number of
  (item, lookahead) pairs that are missing. `lookaheads_exact` says what that means for the grammar: the lookaheads of an item are those of the
  LR(1) items `Lr1`, an inductive relation that mentions neither propagation nor the order of the work. The lookahead `ε` is never added.
* **C57** `generate_closure` and `actions_for_state`. `Act` says what actions the automaton should have in terms of the transitions and of the
  LR(1) items (`Lr1c`: an item of the state or one that follows from it in closure steps). The work list of `generate_closure` is covered by the
  invariant that every step from an element of the set is in the set or comes from an element still in the list.
* **C35** `Forest` is the set of derivation trees, stated on the productions `Gram.prods` (an EBNF item is a nonterminal with its own
  productions) and independent of the automaton. `Read` says which tokens the leaves stand for. The invariant of the parser: the stack is a
  path of the automaton (`VStack`) whose symbols have trees for the tokens that were read. `Tab` says what the tables may contain: every
  action of a state comes from an LR(0) item of that state (`Allowed`), whatever its lookaheads are; `stage_allowed` shows that none of the
  rewriters breaks it. `SoundExample` builds closures, lookaheads, tables and parser for a grammar and applies the theorem to it.
* **C36** (partial, violated) `parse_complete` works on any tables that have the actions of the LR(1) items and put them first (`Det`): by induction on the
  derivation tree the parser shifts and reduces its way through any forest (`forest_run`). `Made` collects what is made from a grammar on the way to
  the tables; `det_of_no_conflicts` gets `Det` from the absence of reported conflicts. `parser_decides_partial` adds C35: the parser accepts exactly the
  sentences. Needs complete FIRST sets: `complete_violated` is a grammar with left recursion whose parser rejects a sentence. Missing beyond that:
  guards, and rewriters that remove or weaken actions.
* **C37** (partial, violated) `Red` is a reduction as it changes the states of the stack and `Stops` says that there are finitely many of them
  (accessibility). `path_stops` shows it for every stack the automaton can make: a state on the stack was reached with items whose lookaheads are real, so a
  sequence of reductions that never goes below some state can be prolonged to one that reads on, and a cycle of unit or empty reductions would contradict
  that the first action for a symbol is unique. `parse_ends` turns it into termination of the parser on every input, without undefined behaviour, and
  `parser_total_partial` adds C35 and C36: the parser decides the language. `pointer_total` is an instance. `terminates_violated`: the parser
  of `S -> S | a` does not come to an end. Missing: as C36.
* **C58** `rewrite_actions` of the conflict attributes. The statement (`Resolves`, `Drops`) says which actions go in terms of the actions of
  the state and the last attribute of the items that shift the token.
* **C59** (violated for names of other languages) `Language` is the path from the syntax tree of a language to the terminal dictionary and the grammar.
  `Means` is the meaning of a definition, on the syntax tree and on names only; `IsProd` says which productions count when there are `replace`
  and several blocks. `compileItem_spec` and `GInv` show that the rules are a translation of the productions by the final names (`trItem`), even though
  names get identifiers while rules are made; `yield_of_means` and `means_of_yield` go from the rules to the sentences and back.
  `foreign_terminal_violated`: a terminal written as `language.name` becomes the symbol -1. Not modelled: precedence blocks, positions, warnings.
* **C60** `Accept.less` is `operator<` of both classes of actions. `Before` is the order in words; `accept_priority` says that `highest` finds its first
  element whatever the order of the list. `symbol_order` goes through the six passes of the language stage with an invariant (`Ord`).
* **C61** (violated) `addSymbols` is `weak_symbols::add_symbols` on the accept actions of a DFA. `SInv` is the invariant of the loops over states and over
  weak symbols, and `SGrow` says that entries of `weakToStrong` never change. `weak_fallback_partial` needs symbols numbered by kind (`Agree`, which
  C60 gives for a language on its own). `weak_fallback_violated`: with inheritance the numbers follow the age of the blocks, and a weak symbol falls back
  to an identifier although there is a keyword. `split_symbol_violated`: a split symbol is unknown to the grammar, so where the grammar only expects
  the weak symbol the text is rejected.
* **C62** (violated for guards) `Occurs` says where terminals stand in a rule, other than in guards. `symbols_told_apart_partial` follows the ignored
  symbols through the language stage (`Ign`, `compile_used`) and the definitions through the lexer stage (`symbolsOf_spec`).
  `guarded_ignored_violated`: an ignored symbol that only occurs in a guard shares its symbol with other ignored ones.
* **C63** (partial) puts C59 and C35-C37 together; `pointerLang_total` is the statement for one language and every input, with all conditions checked.
* **C64** (partial) `Respects` is about trees only: a rule `E → … E` stands first in a rule `E → E t …` only if it goes before `t`, and the other way
  round. `precedence_tree_partial` proves it for what a parser accepts, for any grammar, with an invariant of the parser's stack (`PInv`): the
  entries of the stack are paths in the automaton, and a shift or reduction that is left in the table won against the others. For expressions with binary
  operators (`OpGram`), `tree_run` follows a tree that respects the precedences with contexts on both sides (`LSpine`, `RSpine`), `respecting_exists`
  builds such a tree for every sentence by putting operators in one by one, and so `precedence_exact_partial` is an equivalence and
  `precedence_decides_partial` gives the only tree. `PrecExample` is Examples/Test/Precedence.tp with parentheses. Missing: several blocks, weak symbols,
  guards, conflict attributes, unary operators (for the equivalence).
* **C65** `PrecBlock.prec` follows the constructor of `precedence_block_rewriter`. `At` names the last level that lists a token.
* **C66** (partial) `Ast.shift` and `Ast.reduce` are the functions that cplusplus.cpp writes, with the index computations and casts of the text; a cast
  to a wrong class is undefined behaviour. `Typed` says which trees of objects are well-formed, without reference to these functions. `buildAll_typed` goes by
  induction over the derivation (`Forest`, C35), `buildAll_injective` recovers the derivation from the objects. `parse_full` is an invariant of the
  parser: a leaf without a token (which `shift` would dereference) never gets on the stack, because guard actions are only made for terminals. Together
  they give `generated_tree` for all parsers made from grammars. Missing: `+` lists that repeat nothing, for which the generator reads
  past the end of a rule (`generated_plus_violated`), and list objects that are shared by copies of a parser state.
* **C67** (partial) `Names.lean` is the text of `get_identifier`, `class_name_for_item`, `name_for_item` and of the loop for the constants, with lists of characters.
  `identifier_valid` is about all names; it says what characters there are, and `identifier_reserved_violated` that names with `__` (which C++ reserves) come up.
  `class_names` is an invariant of the map of names: numbers are added until a name is new, `freshLoop_total` says that this ends. It does not look at the name of
  the parser class itself (`outer_class_violated`). The constants are numbered by a counter per name without looking whether the result is taken:
  `constant_names_violated`; `constant_names_partial` is for names of which none is another one with `_` and a number behind it (`Apart`). Rules of more than three items
  are named by the first one only (`long_rule_names_violated`); shorter ones by all (`short_rule_names`).
* **C68** (partial) `ClassOk` says what C++ asks for of the declarations, and of what the constructors initialise. Seven ways to break it are proved:
  `members_list_violated`, `members_etc_violated`, `members_kind_violated` (a member is declared with the class of another item),
  `members_twice_violated`, `constructors_violated`, `positions_violated`, `member_types_violated`. `class_members_partial` is for all nonterminals and EBNF items
  whose items have names that are `Fit` (different for different items, without numbers behind `_`, not ending in `_n`), without guards and attributes.
  It goes by `body_spec`, an invariant of the loop over the rules, and by telling names with numbers from each other (`Fit.variant`).
* **C69** (partial) `LexerStage.lean` is `lexer_stage::compile`: the loop over the definitions with its second builder for the ignored ones, the transformations
  in their order, and the tables. The automata of this model have numbers as accept actions, so `code` numbers those of the language compiler; the
  transformations only copy them. `automaton_language` is about the loop (invariant `Inv`: the automaton has a part for each definition and a group for the
  ignored ones, which is still open); `language_lexer_partial` goes through the transformations with the theorems for C06-C13, C15, C20 and C61. It leaves out
  what those theorems, C88 and C90 exclude (`Suitable`; `ex_suitable` shows that a
  small language meets it with all four choices of options, `final_below` that C13 is no problem for characters below 255). `unused_sound` is about the warning.
  `ignored_surrogates_violated`: the builder for the ignored definitions makes no surrogates, so that an ignored character above U+FFFF is never recognised.
* **C70** `parser_guards`. `Reads` is a relation between items, the trees for them, an input and what is left of it; its rule for a guard asks that the contents of the
  guard can be read at the same place. It is stated without the automaton, the tables or the parser. The proof has one invariant (`Path`: the stack is a path
  of the automaton and its items read the input so far) for the parser and for `check_guard`, which has a stack of states only; `Views` relates both kinds of
  stacks to a list of states and trees, so that `reduce_inv`, `guardPerform_inv`, `processGuard_inv` and `perform_token` are proved once. `checkLoop_spec` says what
  a found guard means (induction on the fuel, which also covers nested guards). `Reads.forest` shows that C70 is stronger than C35. `one_accepts` is the instance
  for `S → [=> a b] a T | a c`, `T → b | d`, whose parser does not accept `a d`.
* **C71** `unused_symbols_sound_partial`, `unused_symbols_complete_partial`. `Used` says that a rule of the grammar has the terminal, also within EBNF items but not within guards. Proved by
  following `m_UnusedSymbols` through the passes: symbols are only put in by definitions (`known_compile`) and only taken out by `useItems`. `guarded_unused_violated` and
  `inherited_unused_violated` are the two disagreements.
* **C72** `rule_attributes_partial`. `itemsOf` and `writtens` say which items and attributes a production has, directly on its syntax. The invariant (`AInv`, beside `GInv` of C59) is that the
  keys in the rules are below `m_NextKey` and that keys that were given out keep their attributes (`Adds`). `parens_violated`: what is written on `(a b)` makes no difference.
* **C73** `dequote_spells`, `string_round_trip`, `string_tokens_partial`, `character_tokens_partial`, `comment_tokens_partial`. `Spells` is the meaning of escape sequences as a relation. The expressions of definition.tp
  are given as `Re` terms whose text is compared with the file, and their automata are those of C20 (without surrogates: the runs of `[^"]` above U+FFFF are not covered by C20).
  `escaped_backslash_violated`, `comment_violated` and `spellings_violated` hold for all texts of their kind.
* **C74** `written_defined_partial`, `mentioned_defined_partial`, `definitions_source_partial`, `definition_symbols_partial`. `Written` and `Mentioned` are said on the syntax of the blocks, `Entry` on the
  finished stage. The invariant (`DInv`) is kept by every step that defines a symbol (`Adds`) and by compiling rules (`Keeps`). `replaced_ignored_violated` is the disagreement.
* **C75** `text_accepted_partial`, `tokens_unique`, `pointer_text`. `Tokens` says how a text is split, only by which definitions match which texts; it does not mention automata, symbols or tables, and
  splits a text in at most one way. The theorem joins C63 (parser), C69 (lexer) and C74 (definitions); its conditions are theirs. `pointer_text` has all the conditions for one language
  (`S = L "=" R | R`, `L = "*" R | id`, `R = L`, blanks ignored), for every text and every choice of the options of the lexer; `id = *id` is accepted.
* **C76** `weak_parser_complete_partial`, `weak_parser_sentences_partial`, `weak_parser_decides_partial`, `get_decides`. The automaton's own steps on the reading (`AutoRuns`, no tables) are simulated by
  the tables on the input (`Moves`: the first action for the next token, weak or not). That weak reductions on this way are not passed over is shown backwards from the end (`moves_accepted`): what is left
  of the run is also what `can_reduce` looks for (`CanRun`, `canReduceAct_run`). `weak_conflict_violated` and `weak_reading_violated` are the disagreements.
* **C77** `file_data`, `flags_exact`, `language_blocks`, `tests_written`, `imports_exact`, `imports_end`, `inherits_end`, `imported_language`, `imported_means_partial`. The syntax tree of a file (`TopSyntax`) is turned
  into definitions as language_parser.cpp does; the console is a parameter (`realPath`, `read`). `Loaded`, `Found` and `Twice` say what should be read, found and reported without the queue of the
  import stage; the invariant of its loop (`ImportInv`) relates the two. `inherits_end` is accessibility of the parent relation. `reference_violated`, `inheritance_violated` and `path_violated` are the
  disagreements. Missing in `imported_means_partial`: definitions that name another language and symbols that are defined twice.
* **C78** `exit_code`, `tests_exact`, `tests_end`, `tests_mean`, `tests_listed`, `test_names`, `text_answers`, `choice_exact`, `tool_code`, `tool_output`, `failed_reported`. The test stage with its three caches, the
  numbers of tests and the counts; `main` with the stages as parameters (their reports and products). `Wrong`, `Fails`, `Listed`, `Chosen` and `Ready` say what should come out without the loops; the
  invariants are `Inv` (what is cached has been reported) and `LoopInv`. `tests_end` says exactly when the stage does not crash. `text_answers` joins it to C75: for that the lexing theorem C69 now gives
  the run without changes of the initial state (`PlainRun`), which is unique. `name_violated` and `undefined_violated` are the disagreements.
* **C79** `generated_parser_partial`, `generated_lexer_partial`, `generated_from_build_partial`, `generated_decides_partial`, `standard_exact`, `standard_parser`, `standard_lexer_exact`. `Written`
  writes the text as the loops of the generator do; `WrittenRead` is a reader of C++ that knows nothing of the writer: characters to tokens (maximal munch, comments, directives, no leading zeros) and
  tokens to declarations, both as machines, and the objects that the declarations make. `WrittenLex` and `WrittenParse` prove how texts join (`Clean`, `Ends`, `Reads`), `WrittenProps` what the whole
  text declares. The rows that are read go on to the end of the array, so the tables are not equal but `Agree`; `TablesAgree` proves that parsers cannot tell. Not read: the text between the tables (the
  classes of the syntax tree), and the limits of `int`. `empty_arrays_violated` is the disagreement.
* **C80** `conflicts_exact_partial`, `kind_partial`, `compile_loud`, `stage_error_partial`, `quiet_decides_partial`, `written_decides_partial`, `places_conflict` (where its reductions are is reported
  just if details are asked for). `ParserStage` collects the items to shift and to reduce as
  conflict.cpp does and makes the reports of lr_parser_stage.cpp. `Torn` is a conflict of the automaton, in terms of its transitions (`tr`) and LR(1) items (`Lr1c`). `shiftItems_exact` and
  `reduceItems_exact` say what the two searches find, `strong_action` which actions can be in conflict. The kind of a conflict is decided by FIRST sets: `before_begins` is an induction over what
  begins a symbol, which needs `Headed` (no rule begins with something that can be empty); without it `kind_violated` is the disagreement. Missing: guards, precedences, weak symbols, attributes,
  the LR(1) resolver; which contexts are named in detail messages (`possible_reduce_states`).
* **C81** `warning_sound`, `warning_named_partial`, `warning_exact`, `clash_exact_partial`. `GuardOn`, `Clashing` and `BeforeGuard` say what a clash is in terms of the actions, `Needs` in terms of the automaton
  (`guardOn_iff` relates the two); the invariant of the loop is that a guard that was looked at had its items named. Which items may clash and the order of the map of tokens are parameters.
  `head_clash_violated` and `pair_clash_violated` are the disagreements.
* **C82** `guard_check_exact_partial`. `Begun` says with derivations of the grammar that a guard holds. One direction is C70 (`checkLoop_spec`, here turned into a derivation by `derives_of_read`).
  For the other `check_complete` goes backwards along a derivation (`forest_guard`): from every stack in the middle of reading the contents each check that ends finds the guard. `useEog_exact`
  says what asking for the end of the guard answers, `eog_wins` that it answers yes once the contents are read. Left out: guards inside guards, states with more than one action for a
  token, and that a check ends at all (it need not: C42). `far_check` is the instance for `[=> X c]` with `X -> a X | b`: the guard holds exactly before `a...a b c`.
* **C83** `guards_decide_partial`, `guarded_words_partial`. `Yields` are derivations that keep the guards, `Follows` says that the tokens are read and each guard holds where it stands (with `Begun`
  of C82, so with derivations only); the first theorem says the same with the parse trees of C70 (`Reads`). Sound by C70; complete by `yields_walk`, a walk along the derivation in which a
  guard that holds is found by C82 and a guard that does not belong to the derivation is not found because of `Clear.compete`. `Clear` is about the grammar and its states only and is checked for
  an instance by `decide`, except `compete`, which is about the language. Left out: guards inside guards, reductions that compete with guards, and that the parser ends.
  `far_decides`: the parser of `S -> [=> X c] P | Q`, where `P` and `Q` differ only in their last token, accepts exactly `a...a b c` and `a...a b d`.
* **C84** `read_viable`, `error_exact_partial`, `error_violated`, `unproductive_read`. `More` is one call of `process`; `read_viable` is about every state that the parser gets into, with any tables that
  the builder and the rewriters make (`Made`, so also with weak symbols, precedences and guards; the sentence it speaks of is one in which guards are not looked at). `stack_viable` completes
  the tokens of the stack downwards, item by item. The other half: `Local` steps depend on the next symbol only, so that the parser follows any sentence for as long as the input agrees with it
  (`local_follow`, which also passes over ignored tokens). `error_violated`: with incomplete FIRST sets (C32) a right token is called wrong. `unproductive_read`: the condition on symbols
  without sentences is needed, and the tool has no check for it.
* **C85** `unambiguous_partial`, `unambiguous_violated`. By C36 the parser makes each of the trees of a sentence, and it is a function. Violated by `S -> S | a`, where accepting and reducing are not
  compared (C46).
* **C86** `guards_written`, `ineffective_sound_partial`, `ineffective_exact_partial`, `check_total`, `false_report_violated`, `missed_report_violated`, `nested_report_violated`, `replaced_reported`.
  The statements speak of the text of the language: `Written` (a guard stands somewhere in a production), `Blank` (nothing but parentheses), and `Means` of C63 for what an alternative can read. The order
  of `m_Guards`, a map of items, is a parameter. `CInv` follows the set of guards through the whole stage; the invariants of C31 and C32 follow the cache of FIRST sets from guard to guard.
* **C87** `follow_sound_partial`, `follow_exact_partial`, `follow_answers`, `follow_complete_violated`, `follow_sound_violated`.
  The statements speak of derivations (`Derives` of C31) from any nonterminal that has rules, as the code has no start symbol. `Follows` describes the pairs of neighbours without caches;
  `derives_follows` and `follows_derives` connect it with derivations. The caches hold only such pairs (`FillSound`, `CacheDone`) after any list of questions (`asked`). The repeated pass over the dependencies ends
  because sets only grow (`follow_answers`). The empty item and nonterminals that the sets also contain are intended (Test/contextfree_followset.cpp) and not part of the statement.
* **C88** `insensitive_language_partial`, `insensitive_literal_partial`, `insensitive_keyword`, `keyword_denotes`, `insensitive_range_violated`, `insensitive_negated`, `insensitive_written_violated`.
  The induction over expressions (C20) is done for a mode, which says what set a builder uses for a set of characters and which characters may stand for another one; C20 and C21 are the mode in which only
  the character itself may. The tables are parameters in the general theorems and those of the source (`CaseTables`, copied entry by entry) in `CaseExample`. `keyword_denotes` connects this with C69, whose
  definitions may now be case-insensitive.
* **C89** `find_source_exact`, `find_source_total`, `resolved_apart_partial`, `resolved_empty_violated`, `resolved_deep_violated`, `resolved_length_violated`. The search for the source of a lookahead is modelled with
  the two tables it reads, and what it finds is said as paths of the propagation (`Fed`) that end in an item that makes the symbol (`Gave`). With C36's exact LR(1) items it follows that two rules that begin in the
  same state directly behind an item before their nonterminals cannot both be followed by the symbol. The three violations are what the search leaves out.
* **C90** `named_language_partial`, `named_definitions`, `named_meaning`, `named_self_reference_violated`, `named_circle_violated`. The syntax trees of C20 have a tree for a name with its definitions, each with its
  case options, and `langN` says what they denote for a pair of case tables. The induction of C20 carries along which of the two modes is on and that the stack of open alternatives comes back as it was. What the
  language stage leaves under a name is said by the written blocks (`writtenAs`). C69 takes these definitions too (`Denotes.named`; `word_denotes` is an example with inheritance and a replacement).
* **C91** `check_exact`, `check_partial`, `check_violated`, `well_written_partial`, `well_written_violated`, `literal_names_violated`, `reported_place`, `reports_iff`. The check with its stack of brackets, its iterator
  and its position tracker. `Wrong` says what an error is by inductive definitions of the text inside groups and classes, without the stack; its flag says whether a backslash quotes there. The errors are exactly
  those of the reading in which it does not, and of the right reading if no bracket is quoted. `well_written_partial` is about the syntax trees of C20 and C90.
* **C92** `category_partial`, `category_lines`, `category_violated`, `case_tables`, `similar_iff`, `names_exact`, `documented_names`, `undocumented_violated`, `unicode_expression_partial`. The script
  that makes the tables, the parser of the names, and the loop that collects the ranges of a category. `Gives` says what the file says about a character, also between the two lines of a range. `Reads` says
  which names are taken; that the words can be told apart by the way they begin makes the order of the tests immaterial. `case_tables` gives the hypothesis `Sorted` of C24 and C88, and `similar_iff` says in
  terms of the file which characters C88 takes for the same. `unicode_expression_partial` makes such a name an expression of C20.
* **C93** `positions_partial`, `empty_list_violated`, `absent_option_violated`, `nested_list_violated`. `Spans` runs the parser of C35 with trees that also have the lookahead of each reduction; without these it
  is the same parser (`parse_erase`). The invariant is that each reduction on the stack was made in front of the lexeme that follows it in the tree (`AllTimely`), which needs that an ignored token is never
  looked at by a reduction (C38). The positions follow by induction on the derivation tree of C35, for the object of every part of it; `begins` and `ends` say by which edge the result is determined. The objects
  for the contents of a list are not spoken of by themselves.
* **C94** `copy_agrees_partial`, `copy_iff`, `copy_units`, `copy_tests`, `copy_frees_violated`, `assign_violated`, `assign_self_violated`, `assign_agrees`, `assign_type_violated`, `mem_frees`, `deleted_twice_violated`. `Blocks` has the objects of a definition file with their copy constructors
  and assignments member by member. A member that a copy leaves out has the value `junk`; a pointer is null, to an object, or dangling; items of precedence blocks have an address, so that deleting one twice can
  be said (`frees`). `copy_agrees_partial`: a copy agrees with its original apart from the types of nonterminals and items, the flags of lexer blocks, and the positions of grammars and tests. `copy_iff` says for
  which files the copy is equal: those without lexemes and nonterminals whose grammars and tests have no position.
* **C95** `children_inside_partial`, `first_child`, `children_final_violated`, `items_inside_partial`, `items_start_violated`, `place_addChild`, `File.Made.place_of`. Parts that lie inside leave the position alone, by induction on the
  parts; this is the case for what the language parser makes, where the position comes from the syntax tree. Guards are made without a position (language_parser.cpp 372) and get that of their only part
  (`first_child`). A part that ends later or begins earlier is treated wrongly.
* **C96** `print_partial`, `print_violated`, `label_item`. The text is shown to be the label followed by lines (`printAll_lines`), each after a newline; if no label has a newline, the text determines the lines (`glue_inj`), and
  the lines determine the children, since exactly the first line of a child begins with `+` (`underAll_inj`).
* **C97** `range_order`, `range_le`, `transition_order`, `lexeme_order`, `item_order`, `rule_order`, `lr0_order`, `lr0_eq`, `lr1_order`, `lr1_eq`, `lr1_le`, `state_order`, `state_eq_exact`, `state_items_partial`,
  `action_order`, `itemId_order`, `conflict_order`, `accept_order`, `accept_eq_partial`, `node_order_partial`, and the `_violated` ones. The operators are written as in the code, as chains of `if`; each is shown to compare tuples or
  lists in order of their members, and these comparisons are orders if those of the members are. Violated are the order of syntax tree nodes, that of accept actions of different classes, the `==` of accept
  actions, the `<=` and `>` of transitions and the `>` of LR(1) items. Symbol sets, item sets and containers are in C04, C27 and C50, positions in C17.
* **C98** `reads_partial`, `reads_safe`, `reads_iff`, `trees_fit`, `starts_violated`, `inherits_violated`, `reference_violated`. The readers of bootstrap.cpp work on a tree of nodes; a missing child or lexeme is a
  `crash`, NULL is `null`. The grammar of the bootstrapper is given as data, and `Fits` says which trees its parser makes; for all of these there is no crash. For the trees of written definitions what is read
  is computed, and it compiles to the same state as the definition of C59, although the definitions differ (the bootstrapper puts parentheses around every sequence). Start symbols come backwards;
  inheritance and references to other languages are in the grammar but give NULL, and by `reads_iff` nothing else
  of the grammar does.
* **C99** `grammar_text`, `grammar_eq`, `machine_text`, `builder_text`, `written_state`, `full_text_partial`, `full_eq`, `machine_full_partial`, `builder_full_partial`, `nodes_eq`, `nodes_full_eq`, `conflict_eq` (files `ShowGrammar`, `ShowMachine`, `ShowClosure`, `ShowLines`): the text of a grammar is the lines of its rules with empty lines between
  nonterminals, and says which rules each nonterminal has and in which order; the text of a machine says its states, items, lookahead and transitions, and that of a builder its states,
  items, lookahead and what actions show (`Act.shown`). With closures the texts say the items and the closures if nothing is called `empty` and no nonterminal
  begins with a dash (the closure is separated by a line `--`). What `generate_closure` gives is a parameter.
* **C99** `item_text`, `rule_text_partial`, `set_text`, `lr0_text`, `lr1_text_partial`, `state_text`, `action_text_partial`, `conflict_text`, `written_clear`, `written_noEmpty`, `priority_violated`,
  `divert_violated`, `lr1_violated`. Text is a list of characters. By mutual induction over items, rules and
  alternatives: if two texts followed by anything that may follow are the same, so are the items and what follows. `Clear` is what names must satisfy, and `written_clear` proves it for names as definitions
  write them (a string that ends in a backslash before a quotation mark is left out). Not shown are priorities of guards, the states of divert and ignore actions and dots outside the rule. The lookahead of an LR(1)
  item is put in square brackets, so a lookahead called `empty` is printed as the empty item (`lr1_violated`); without such a name the text says which item it is.
* **C100** `format_tokens`, `format_error`, `format_total`, `format_text`, `format_layout`, `format_again`, `format_texts`, `json_number`, `stage_gram`, `definitions_match`, `comma_violated`. The parser is the one that the model of the generator makes of the grammar of json.tp (`Json.ex`), so
  this puts C37, C66 and C85 together with a program that uses the tree. `Matches` says what the definitions of json.tp match, `Scans` divides a text into tokens by the longest match, with no reference to the
  automata (C20, C55 and C90 are about these). `stage_gram` and `definitions_match` say that these are the grammar and the definitions that the language stage makes of the blocks of json.tp: a text matches a
  symbol just if the automaton compiled from one of its expressions, with the named expressions in it, accepts it (without surrogates; `definitions` has the blocks as the parser of definitions would give them). The symbols in quotation marks are weak for the language stage; no other symbol matches their texts
  (`matches_unique`), so they have no strong symbols and the model of the parser has no weak ones. `format_texts` goes from the text of the input to the text of the output. By induction over the typed tree: each part of the output has its tokens whatever follows it, if what follows cannot continue a number (`Follow`). `format_text` says where the newlines and spaces are, from the tokens from left to right and without the tree (`lay`); so what is written for the text that was written is the same text (`format_again`). Violated is that the lexer
  reads JSON: the dot of json.tp 26 is not quoted, so `[1,2]` is an array of one number. Not modelled: what `wcout` cannot write, and the positions in the error messages.
* **C101** `run_eq`, `message_iff_partial`, `err_read_partial`, `err_empty`, `detail_violated`, `file_violated`, `severity_violated`. `report_error` writes to two texts; `run_eq` says what is in them and links the exit
  code to C78. Messages are read from the left up to the first colon before a space, and from there to the left again for column and line, so names like `C:x` are no obstacle (`Whole`). Violated: with
  `suppress-warnings` the details of a warning are still written, without the warning; a name of a file with a colon and a space can be taken for a description; a message can look like an error if both streams go to the
  same place. Not modelled: what the streams cannot write, and overflow of line numbers.
* **C56** `closure`, `cache_closure` and the cache of the grammar, with the flag `m_CachingClosure` as a parameter.
  The closure is stated on its own as reachability (`Gen`). The recursion is a depth-first search with the
  postcondition `Post`; the step from the cached closure of the fake item to the closure of an item is `sub_post`.
  Termination by the number of flags that are not set and the elements that are missing.
* **C53-C54** the tables written into generated lexers, and the pipeline from an NDFA to lexemes.

## Disagreements between code and intended behaviour

Each is proved on a witness (theorem in brackets) unless marked "read only".

1. `symbol_map`/`deduplicate`: `add_set` fills gaps past the end of the range being added, so unrelated symbols are
   added to sets (C06, C07: `deduplicate_splits_without_loss_violated`, `unique_symbols_preserve_automaton_violated`).
2. `symbol_set::exclude` with an empty range and `invert` with negative symbols break the canonical form (C02, C03).
3. `compact_dfa`: the lowest accepting state joins the group of non-accepting ones; `(aa)+` becomes empty (C11).
4. `symbol_table`: two ranges that meet at a block boundary lose symbols; large symbols alias (C13).
5. `to_hard_coded_table`: symbols from 256 up in partly used blocks are lost; negative allocation (C14).
6. `char` streams: byte 0xFD reads as the end of input (C15).
7. Position offsets are not advanced by CR, VT, FF, NEL, LS, PS (C19).
8. Regular expressions: `a*b*` accepts `ba`; `(ab*)?` accepts `b`; `(a|b*)` accepts `ba`; `[]` accepts the empty
   string; alternatives at the top level outside state 0 begin in state 0; self-referring names do not end (C20).
9. Surrogates: ranges with more than one high surrogate (C22).
10. `utf8reader` classifies the lead byte by the old content of its output variable (C23).
11. `unicode::convert` of ranges starting inside a table entry (C24).
12. `syntax_ptr` assignment `p = p->q` uses freed memory (C25). `container::operator=` has the same order (read only).
13. `item_set` comparison depends on capacity (C27).
14. `grammar`: naming a nonterminal overwrites the identifier of an item with that number (C28, C29).
15. `terminal_dictionary`: adding a name twice, and endless `name_for_symbol` (C30).
16. FIRST: unsound for EBNF bodies that begin with something that can be empty; incomplete for left recursion, for an
    empty rule before others, and dependent on the order of queries (C31, C32).
17. Parser stack: copies are not linked both ways; destroying an older reference frees or recycles entries of newer
    ones; depth 1 never returns from the first push (C39, C40).
18. `can_reduce` reads past rows and does not end on cyclic grammars (C42).
19. `weak_symbols.cpp` 286 compares a count with `< 0` (C43).
20. `find_conflicts` ignores accept actions (C46).
21. `container` comparisons compare an object with itself (C50).
22. Generated lexers: end offset not written (C53).
23. `cache_closure` on an explicit empty item caches the item of the fake rule `$ -> empty`, so the item is never
    advanced and a bogus item appears (C56: `closure_empty_violated`). The language compiler never makes such rules.
24. Conflict attributes do not reach the weak equivalents of their token (C58: `attributes_weak_violated`).
25. A grammar with a left recursive rule behind another symbol gets a parser that rejects sentences, without any conflict being reported
    (C36: `complete_violated`; `S -> A List`, `A -> x`, `List -> List item | ε`). Cause: FIRST sets of left recursive items (C32).
26. No conflict is reported for `S -> S | a`, and its parser does not come to an end on `a` (C37: `terminates_violated`). Cause: accepting and
    reducing at the end of the input is not counted as a conflict (C46), and the reduction comes first in the tables.
27. A terminal of another language (`language.name`) becomes the symbol -1 without an error, like every name that is not defined
    (C59: `foreign_terminal_violated`). The language in front of a nonterminal is ignored (read only).
28. `weak_symbols::add_symbols` takes the strong symbol with the lowest number for the one that the lexer prefers (weak_symbols.cpp 117-118); with
    inherited languages it is not (C61: `weak_fallback_violated`). Symbols that it splits are not treated as weak and the grammar does not know
    them (C61: `split_symbol_violated`).
29. `process_rule_symbols` does not look into guards: an ignored symbol that is only used in a guard is merged with other ignored symbols, and
    symbols only used in guards are reported as unused (C62: `guarded_ignored_violated`).
30. precedence_block.h says that the first level has the highest precedence; in the code (and Examples/Test/Precedence.tp) later levels go before
    earlier ones (C65). Several precedence blocks make separate rewriters whose levels are not compared with each other.
31. For `()+` cplusplus.cpp reads the first item of a rule that has none (C66).
32. The C++ output stage numbers constants without looking whether the numbered name is taken (C67); a parser called `A_n` has the name of the class of a symbol `A` (C67);
    names that begin with a symbol character contain `__` (C67).
33. The members of a class are merged over its rules by name although different items can have the same name (C68): `a* | b a+` gives a class that does not compile. Rules that differ
    only in guards give the same constructor twice, and two rules without members give two declarations of `m_Position`.
34. Ignored definitions that the grammar does not use are built without surrogates (C69): `get_cons()` has `m_GenerateSurrogates = false`, whereas all other definitions
    are built by `ndfa_regex` with surrogates. Characters above U+FFFF are not ignored then.
35. A symbol that only occurs in guards is reported as unused (C71): `process_rule_symbols` does not look into guards. A symbol whose rules were all replaced by a language that
    inherits them is not reported, since the set of unused symbols is copied from the inherited language.
36. Attributes of a sequence in parentheses without alternatives are dropped without a message (C72): `definition_for` only uses them for `|`.
37. The expressions for strings, regular expressions and comments in definition.tp do not know that backslashes are escaped and that `*` can be repeated (C73): `"\\"` goes on
    to the next quote and `/***/` or `/* ... **/` to the next `*/`. `'x'` and `"x"` in a grammar are two terminals for the same text, of which the lexer reports one.
38. A definition that is replaced keeps the marks of the old one (C74): an ignored symbol that is replaced by a keyword is still in the set of ignored symbols, so the parser never
    sees it (language_stage.cpp 264-278, 355-368).
39. Conflicts on weak symbols are not reported (C76): a reduction on a weak symbol becomes a weak reduction where the state also has an action for a strong symbol, and weak reductions are not
    counted as conflicts (conflict.cpp 130-142). For `S → A w | x w c | A id`, `A → x` the sentence `x w c` is rejected without a report. And because the counts of weak actions are never
    removed (weak_symbols.cpp 286 tests `< 0`), `b c w` is rejected for `S → a X w | a Y q | b X z | b Y id`, `X → c`, `Y → c`, though `w` could only be read as `id` there.
40. Files and languages (C77): a file with a lexeme definition `a = Base.b` is parsed, but the reference cannot be turned into a definition (language_parser.cpp, `add_lexeme_definition`), so that the
    whole file has no data; when it is imported nothing is reported and its languages are missing. `language A : B` with `language B : A` is compiled for ever (a TODO in language_stage.cpp notes it).
    boost_console's `real_path` is relative to the working directory, while `open_file` also looks in the directory of the input file: `dir/x.tp` and `dir/y.tp` that import each other are reported as
    ambiguous.
41. Tests (C78): the dots after the name of a test are `wstring(54 - finalName.size(), L'.')` (test_stage.cpp 315-319), whose length wraps around for names longer than 54 characters: a
    `std::length_error` ends the tool. A test of a nonterminal that is not defined is reported, but `get_parser` returns the stage all the same (a TODO notes it), and its null tables are used.
42. Generated tables (C79): for a grammar without guards or without weak symbols the source declares `static int s_EndGuardStates[] = { };` or `... s_WeakToStrong[] = { };`
    (cplusplus.cpp 746-770, 799-823). Standard C++ has no arrays without elements; gcc and clang accept them as an extension. The same holds for a lexer without transitions.
43. Conflicts (C80): a conflict has items to shift if any item of the closure is before something with the token in its FIRST set (conflict.cpp 157-169), also if the token comes after empty
    rules. For `S -> A a b | B a c` with empty `A` and `B` the state shifts nothing and two rules can be reduced before `a`. This is reported as a shift/reduce conflict, a warning, and not as a
    reduce/reduce conflict, an error by default. The tool writes the parser with exit code 0; `a c` is rejected.
44. Clashing guards (C81): `warn_clashing_guards` looks for uses of the guards among the items of the kernel (lr_parser_stage.cpp 149-159). Guards are mostly written at the beginning of rules, where
    the items are in the closure only; these clashes are never reported. For `S -> [=> a] a c | [=> a b] a b` the parser follows the first guard and rejects `a b` without any warning or
    conflict. With three guards that clash in pairs one pair is not reported (lr_parser_stage.cpp 126-136).
45. For a grammar with incomplete FIRST sets the parser reports an error at a token that continues a sentence (`error_violated`, C84). For `S = S | a` no conflict is reported, although the grammar is
    ambiguous (`unambiguous_violated`, C85). Symbols that have no sentence are not reported (`unproductive_read`).
46. The guards `[=> a? b | c]` and `[=> (a? b)+]` are rejected as without effect although none of their alternatives can be empty (`false_report_violated`, C86): the FIRST set of an EBNF item
    takes over the empty string from the first item of a sequence. `[=> A]` with `A = | B c` and `B = ` is not reported although `A` can be empty (`missed_report_violated`), nor is `[=> [=>]]`
    (`nested_report_violated`). A guard is still reported in a language that replaces the only production it stands in (`replaced_reported`).
47. FOLLOW sets do not take into account that a repetition goes round: for `S = (b A)+ c` the set of `A` lacks `b` (`follow_complete_violated`, C87). For `S = A (a? b)+ c` the set of `A` contains `c`, which
    never comes after it (`follow_sound_violated`), because of the FIRST set of the repetition. The parser generator does not use these sets.
48. Case-insensitive classes: `[m-}]` accepts `[` (`insensitive_range_violated`, C88), because the conversion of a range that begins inside an entry of the table and goes on behind it is wrong (C24).
    `[^a]` accepts `a`, as `A` in another case (`insensitive_negated`). The conversion is not symmetric: a literal `ς` accepts `Σ`, but a literal `Σ` does not accept `ς` (`insensitive_written_violated`).
49. With `enable-lr1-resolver`, a real conflict is given up without a report and a sentence is lost (C89): for `S → A x c | B x d; A → ε; B → ε` (`resolved_empty_violated`), because only the items a state is made
    from are looked at; for `S → a C x c | a D x d; C → A; D → B; A → e; B → e` (`resolved_deep_violated`), because the item that makes the lookahead is not before `A`; and for
    `S → a A x c | a e B x d; A → e e; B → e` (`resolved_length_violated`), because states at different depths of one stack count as different.
50. A named expression that refers to itself, directly or by others, is followed without end when it is used (`named_circle_violated`, C90); neither the language stage nor `check_expression` (lexer_stage.cpp
    178-186) reports it.
51. In the search for the closing bracket (ndfa_regex.cpp 545-575) a backslash does not quote: `(\()` and `[\](]` draw an error although they are right and are compiled as written, and the open group
    in `(\)` draws none (`check_violated`, `well_written_violated`, C91). `check_expression` (ndfa_regex.cpp 898-911) does not know the names that `define_expression_literal` defines
    (`literal_names_violated`); the lexer stage defines none.
52. unicode.pl does not look at the names `<..., First>` and `<..., Last>` by which UnicodeData.txt writes ranges (Unicode Standard Annex 44, section 4.2.3), so only the two ends of these get into the tables
    (`category_violated`, C92): unicode_data.h has `{ 19968, 19969 }, { 40907, 40908 }` for the CJK ideographs and `{ 44032, 44033 }, { 55203, 55204 }` for Hangul, and `{u-letter}` matches none of the characters
    between. `u-letter-` and runs of modifiers such as `u-letter-uppercaselowercase` are taken without an error, the latter as the first of them (`undocumented_violated`).
53. The reduction for the empty rule of a `*` list makes a list whose position is not set (cplusplus.cpp 1623), so whatever begins or ends with an empty list has the position (0, 0, 0) (`empty_list_violated`,
    C93). Something that ends with an option that is not there has as its `final_pos` the beginning of the next lexeme, or (-1, -1, -1) at the end of the input (`absent_option_violated`). The position
    functions of a list leave out members of the kind of the list, so that `(a* b)*` begins with its first `b` (`nested_list_violated`).
54. `\8` and `\9` in an expression match the character 0 followed by the digit (`octal_digit_violated`, C20): the case for digits (ndfa_regex.cpp 490-493) goes back to the backslash and then finds no octal digit.
55. In a class the character after a dash is always the end of a range, also if it is the closing bracket: `[+-]?[0-9]+` is one class up to the
    second bracket and matches "A?" (`dash_class_matches`, `dash_violated`; C20, C91). The grammars of the repository quote the dash, but `check_regex` ends the
    class at the first bracket and reports nothing.
56. `ebnf_item::operator=` (ebnf_item.cpp 64-87) and `nonterminal_definition::operator=` (54-74) do not copy the type, `lexer_block::operator=` (55-74) not the flags, and `grammar_block` (52-65) and
    `test_block` (45-63) not the position; the copy constructors call these, so the members of the copy are uninitialised (`copy_iff`, C94). `precedence_block` has no copy constructor, and the destructor of
    the copy deletes the items of the original (39-49, `copy_frees_violated`). `toplevel_block::operator=` (90-111) deletes the old blocks without clearing the pointers (`assign_violated`), and
    `grammar_block::operator=` has no test for self-assignment (`assign_self_violated`). The tools share definition files by containers, so only `clone()` would make such copies.
57. `ebnf_item::add_child` sets the end of the position to itself where the end of the part is meant (ebnf_item.cpp 106, `children_final_violated`, C95), and `production_definition::add_item` sets the start of the
    position to the end of the item (76-91, `items_start_violated`).
58. The formatter writes the content of a lexeme without escapes (formatter.cpp 532, 535), so a lexeme with a newline can be shown as a lexeme and a child (`print_violated`, C96).
59. `astnode::operator<` is no order (astnode.cpp 67-68): of the nodes of a terminal and a nonterminal each is less than the other (`node_violated`, C97). `language_accept_action::operator<` says that an action of a
    language is less important than any other, against its comment, and the other can be less important at the same time (lexer_stage.cpp 73-74, `accept_violated`); its `==` leaves out whether the action is
    weak (`accept_eq_violated`). `transition::operator<=` (transition.cpp 52-54) holds in both directions for some pairs (`transition_le_violated`), and every LR(1) item is greater than itself (lr_item.h 229,
    `lr1_gt_violated`). LR states are compared in the order in which their items were added, not as sets as the comment in lr_state.h 116 says (`state_items_violated`).
    A split weak symbol gets an accept action of the other class, but the state is cleared before (weak_symbols.cpp 143-144), so the two are not compared.
60. The bootstrapper reverses the start symbols of a parser (bootstrap.cpp 525-530, `starts_violated`, C98); the finished parser keeps them in order (language_parser.cpp 153-156). It accepts
    `language A : B` and `x = L.y` and then returns no definition (557-562, 728-730, `inherits_violated`, `reference_violated`).
61. The formatter does not print the priority of a guard (formatter.cpp 62-71, `priority_violated`, C99) or the state a divert action goes to (349-351, `divert_violated`). A lookahead called
    `empty` behind an LR(1) item is printed as the empty item is (77, 247-261, `lr1_violated`).
62. json.tp 26 has an unquoted dot in `frac = /.{digit}+/`: any character with a digit after it continues a number, so the example reads `[1,2]` as an array of one number and accepts `[1 2]`
    (`comma_violated`, C100). It also takes numbers with leading zeros, which json.org (json.tp 3) does not.
63. With `suppress-warnings`, the details of a suppressed warning are written without it, so they look like details of an earlier report (std_console.cpp 71-74, where a comment says so; `detail_violated`, C101).
64. Read only: `session` `next()` at the end of the input erases past its buffer (example in `SessionProps`); copies of
    static tables are never freed; the header of
    `precedence_rewriter` says "final terminal item" while rules with two operators have no precedence;
    `process_guard` can pass a NULL lexeme to `shift` at the end of input.

