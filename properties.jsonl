{"id": "C01", "title": "Symbol-set union is set union", "statement": "Adding a range (or a whole symbol set) to a symbol set built from non-empty ranges yields a set whose members are exactly the old members plus the members of what was added; the stored ranges stay sorted, non-empty and pairwise non-adjacent.", "quantifier": "for every sequence of union operations on non-empty ranges and every symbol", "why_tests_cant": "Which stored ranges are merged depends on the relative position of arbitrarily many existing ranges; tests sample a handful of layouts.", "anchors": ["TameParse/Dfa/symbol_set.cpp: operator|=(range), operator|=(symbol_set)", "TameParse/Dfa/range.h: range::can_merge, range::merge"]}
{"id": "C02", "title": "Symbol-set exclusion is set difference", "statement": "Excluding a non-empty range or a whole symbol set removes exactly the excluded symbols and nothing else, and leaves the set in canonical form; intersecting two sets of ordinary symbols keeps exactly the common symbols.", "quantifier": "for every canonical symbol set, every excluded range or set, and every symbol", "why_tests_cant": "The exclusion may trim, split or delete any number of stored ranges; only induction over the stored ranges covers all layouts.", "anchors": ["TameParse/Dfa/symbol_set.cpp: exclude", "TameParse/Dfa/symbol_set.h: operator&="]}
{"id": "C03", "title": "Symbol-set complement", "statement": "Inverting a set of ordinary (non-negative) symbols gives a set holding exactly the ordinary symbols below the maximum symbol that were not in the original; inverting twice gives back the original set.", "quantifier": "for every canonical set of symbols in [0, max) and every symbol", "why_tests_cant": "Quantifies over all sets and all 2^31 symbols.", "anchors": ["TameParse/Dfa/symbol_set.cpp: invert, operator~"]}
{"id": "C04", "title": "Symbol-set equality and ordering are extensional", "statement": "Two symbol sets built from non-empty ranges compare equal exactly when they contain the same symbols, and the < used to key containers is a strict total order on sets up to that equality (so no two different character classes ever collide as map keys and equal ones always share an entry).", "quantifier": "for all pairs and triples of canonical symbol sets", "why_tests_cant": "Extensionality relates a structural comparison to membership of every symbol.", "anchors": ["TameParse/Dfa/symbol_set.cpp: operator==, operator<, operator<="]}
{"id": "C05", "title": "Symbol-map identifiers are stable and faithful", "statement": "Asking a symbol map for the identifier of a symbol set returns the same identifier forever, different sets get different identifiers, identifiers are consecutive from zero, and looking an identifier up returns the set it was issued for.", "quantifier": "for every sequence of registrations and lookups", "why_tests_cant": "History property: any interleaving of registrations.", "anchors": ["TameParse/Dfa/symbol_map.cpp: identifier_for_symbols, find_, operator[]"]}
{"id": "C06", "title": "Overlapping character classes are split without loss", "statement": "After overlap removal the new symbol sets are pairwise disjoint, every original set is the exact union of the new sets it is mapped to, and a new set is listed for an original set only if it is a subset of it.", "quantifier": "for every symbol map whose sets are built from non-empty ranges, and every symbol", "why_tests_cant": "The number of pieces is exponential in overlap patterns; correctness is a statement about every symbol of every class.", "anchors": ["TameParse/Dfa/remapped_symbol_map.cpp: deduplicate, add_set, split", "TameParse/Dfa/remapped_symbol_map.h: new_symbols"]}
{"id": "C07", "title": "Removing overlaps does not change what an automaton accepts", "statement": "Rewriting an NDFA to use unique (non-overlapping) symbol sets preserves, for every input string, the set of reachable states and hence the accept actions available.", "quantifier": "for every NDFA and every input string", "why_tests_cant": "Infinite set of automata and strings.", "anchors": ["TameParse/Dfa/ndfa_transformations.cpp: to_ndfa_with_unique_symbols"]}
{"id": "C08", "title": "Epsilon closure is exact", "statement": "The closure of a state contains exactly the states reachable from it by empty transitions.", "quantifier": "for every NDFA and every state, including cyclic empty transitions", "why_tests_cant": "Arbitrary graph shapes including cycles.", "anchors": ["TameParse/Dfa/ndfa.cpp: closure"]}
{"id": "C09", "title": "Subset construction preserves language and actions", "statement": "The DFA produced from an NDFA (with non-overlapping symbol sets) is deterministic and, for every input string, reaches a state whose accept actions are exactly those of all NDFA states reachable on that string, unless a proper prefix of the string already reaches an eager accept action (then, by design, no state is reached); the construction terminates.", "quantifier": "for every NDFA with non-overlapping symbol sets, every start state and every input string", "why_tests_cant": "Statement about all automata and all strings; worklist termination for all graphs.", "anchors": ["TameParse/Dfa/ndfa_transformations.cpp: to_dfa", "TameParse/Dfa/ndfa.cpp: verify_is_dfa"]}
{"id": "C10", "title": "Merging symbol sets preserves a DFA", "statement": "Combining the symbol sets that always lead to the same place yields a DFA with the same states and accept actions and, for every state and every symbol, the same successor state.", "quantifier": "for every DFA with non-overlapping symbol sets, every state and symbol", "why_tests_cant": "All DFAs, all symbols.", "anchors": ["TameParse/Dfa/ndfa_transformations.cpp: to_ndfa_with_merged_symbols"]}
{"id": "C11", "title": "DFA minimisation preserves language and actions", "statement": "The compact DFA produced from a DFA accepts exactly the same strings with the same accept actions.", "quantifier": "for every DFA and every input string", "why_tests_cant": "All DFAs and all strings.", "anchors": ["TameParse/Dfa/ndfa_transformations.cpp: to_compact_dfa"]}
{"id": "C12", "title": "State-machine tables agree with the DFA", "statement": "The flat and the compact row representations of a state machine both return, for every state and every symbol-set identifier, exactly the successor given by the DFA transitions (or \"no transition\").", "quantifier": "for every DFA, every state and every symbol-set identifier", "why_tests_cant": "The sorted-row binary search must be right for every row content.", "anchors": ["TameParse/Dfa/state_machine.h: state_machine_flat_table, state_machine_compact_table, state_machine"]}
{"id": "C13", "title": "Character translation table is exact", "statement": "Looking a character up in the translation table gives the identifier of the symbol set containing it, or \"unknown\" if there is none.", "quantifier": "for every list of disjoint ranges added in order and every character", "why_tests_cant": "Two/four level trie with lazily allocated nodes and defaults: correctness depends on the order and alignment of arbitrary ranges.", "anchors": ["TameParse/Dfa/symbol_table.h: symbol_level::add_range, lookup", "TameParse/Dfa/symbol_translator.h"]}
{"id": "C14", "title": "Generated (hard-coded) translation table equals the in-memory one", "statement": "The table written into generated lexers gives the same answer as the in-memory translation table for every character.", "quantifier": "for every translation table and every character", "why_tests_cant": "All table contents, all characters.", "anchors": ["TameParse/Dfa/symbol_table.h: to_hard_coded_table", "TameParse/Dfa/hard_coded_symbol_table.h: hcst_lookup_sym"]}
{"id": "C15", "title": "Lexing is lossless and makes progress", "statement": "Concatenating the contents of the lexemes produced by a lexer gives back the input exactly, every lexeme is non-empty, and the lexer reaches the end of any finite input.", "quantifier": "for every state machine whose start state is not accepting and every input string", "why_tests_cant": "Backtracking over an unread buffer must be right for all machines and inputs.", "anchors": ["TameParse/Dfa/basic_lexer.h: dfa_stream::operator>>"]}
{"id": "C16", "title": "Lexing is longest-match with fixed priority", "statement": "Each lexeme is the longest prefix of the remaining input accepted by the machine, tagged with the highest-priority accept symbol of the state reached; if no non-empty prefix is accepted, exactly one character is returned tagged as an error.", "quantifier": "for every state machine and every input string", "why_tests_cant": "Needs the maximality claim over all prefixes of all inputs.", "anchors": ["TameParse/Dfa/basic_lexer.h: dfa_stream::operator>>, fill_accept", "TameParse/Dfa/accept_action.h: operator<"]}
{"id": "C17", "title": "Lexeme positions are the positions of their first character", "statement": "The position attached to each lexeme equals the position obtained by advancing a fresh position tracker over all input consumed before it, however the input is split into lexemes.", "quantifier": "for every state machine and every input", "why_tests_cant": "Position state is carried across lexemes including the CR/LF flag.", "anchors": ["TameParse/Dfa/basic_lexer.h: dfa_stream::operator>>", "TameParse/Dfa/position.h: position_tracker"]}
{"id": "C18", "title": "Line numbers count line breaks", "statement": "After reading any text the line number equals the number of line breaks in it, where CR LF counts as one break and LF, CR, VT, FF, NEL, LS and PS each count as one; the column is the number of characters since the last break, however the text is split between updates.", "quantifier": "for every text and every way of splitting it", "why_tests_cant": "CR LF straddling an update boundary, arbitrarily long texts.", "anchors": ["TameParse/Dfa/position.h: position_tracker::update_position"]}
{"id": "C19", "title": "Offsets count characters", "statement": "After reading any text the offset equals the number of characters read.", "quantifier": "for every text", "why_tests_cant": "All texts.", "anchors": ["TameParse/Dfa/position.h: position_tracker::update_position"]}
{"id": "C20", "title": "Compiled regular expressions accept exactly their language", "statement": "The NDFA built for a regular expression accepts exactly the strings the expression denotes (concatenation, alternation, ?, *, +, groups, character classes).", "quantifier": "for every regular expression and every string", "why_tests_cant": "All expressions and all strings.", "anchors": ["TameParse/Dfa/ndfa_regex.cpp: compile", "TameParse/Dfa/ndfa.h: builder", "TameParse/Dfa/ndfa.cpp: builder::*"]}
{"id": "C21", "title": "Literals match exactly themselves", "statement": "Adding a literal string to a lexer accepts exactly that string with the given symbol.", "quantifier": "for every literal and every input string", "why_tests_cant": "All literals and inputs.", "anchors": ["TameParse/Dfa/ndfa_regex.cpp: add_literal", "TameParse/Dfa/ndfa.cpp: builder::operator>>"]}
{"id": "C22", "title": "Surrogate-pair encoding of character ranges is exact", "statement": "A transition on a range of code points above 0xffff is taken exactly by the UTF-16 encodings of the code points in the range.", "quantifier": "for every range within 0x10000..0x110000 and every pair of 16-bit units", "why_tests_cant": "About a million code points and all ranges of them.", "anchors": ["TameParse/Dfa/ndfa.cpp: builder::add_with_surrogates, add_surrogate_transition, surrogate_pair"]}
{"id": "C23", "title": "UTF-8 reader decodes UTF-8", "statement": "Reading a valid UTF-8 byte stream yields the UTF-16 (or code point) sequence it encodes.", "quantifier": "for every valid byte stream and every initial content of the output variable", "why_tests_cant": "All code points and all sequences of them.", "anchors": ["TameParse/Util/utf8reader.cpp: get, good"]}
{"id": "C24", "title": "Case-folding a range of characters", "statement": "Converting a range of characters to upper (lower) case yields exactly the characters that map to some member of the range, with unmapped characters kept.", "quantifier": "for every well-formed case table and every range", "why_tests_cant": "Ranges may straddle any number of table entries.", "anchors": ["TameParse/Util/unicode.cpp: convert_range, to_upper, to_lower"]}
{"id": "C25", "title": "Shared pointers free exactly once and never dangle", "statement": "Under any sequence of creating, copying, assigning and destroying syntax pointers, an object stays alive while some pointer refers to it, is deleted when the last one goes, and is deleted at most once.", "quantifier": "for every sequence of operations, including self-assignment and aliasing", "why_tests_cant": "History property over unbounded operation sequences.", "anchors": ["TameParse/Util/syntax_ptr.h: syntax_ptr", "TameParse/Util/container.h: container"]}
{"id": "C26", "title": "Item sets behave as finite sets", "statement": "Insert, erase, merge, membership, size, emptiness and iteration of item sets agree with finite-set semantics; merge and insert report a change exactly when the set grew; iteration lists each member once in increasing order.", "quantifier": "for every sequence of operations on non-negative item identifiers", "why_tests_cant": "Bit-packed representation with growth; identifiers unbounded.", "anchors": ["TameParse/ContextFree/item_set.h: item_set", "TameParse/ContextFree/item_set.cpp: insert, erase, merge, contains, next_item_id"]}
{"id": "C27", "title": "Item-set comparison is extensional", "statement": "Two item sets compare equal exactly when they have the same members.", "quantifier": "for every pair of item sets reachable by inserts, erases and merges", "why_tests_cant": "Depends on the history (capacity) of each set.", "anchors": ["TameParse/ContextFree/item_set.h: operator==, operator<"]}
{"id": "C28", "title": "Grammar identifiers are stable and faithful", "statement": "The identifier a grammar issues for an item or a rule never changes, different items (rules) get different identifiers, and looking an identifier up returns the item (rule) it was issued for.", "quantifier": "for every sequence of registrations and lookups", "why_tests_cant": "History property.", "anchors": ["TameParse/ContextFree/grammar.cpp: identifier_for_item, item_with_identifier, identifier_for_rule, rule_with_identifier"]}
{"id": "C29", "title": "Nonterminal names get distinct identifiers", "statement": "Different nonterminal names get different identifiers and the same name always gets the same identifier, whatever items were registered before or in between.", "quantifier": "for every interleaving of name registrations and item registrations", "why_tests_cant": "History property.", "anchors": ["TameParse/ContextFree/grammar.cpp: id_for_nonterminal, get_nonterminal"]}
{"id": "C30", "title": "Terminal dictionary is a bijection between names and symbols", "statement": "Each added name gets a fresh symbol, looking up a name returns its symbol and vice versa, and splitting a symbol produces fresh symbols that report the original as parent and its name.", "quantifier": "for every sequence of additions and splits", "why_tests_cant": "History property.", "anchors": ["TameParse/ContextFree/terminal_dictionary.cpp: add_symbol, split", "TameParse/ContextFree/terminal_dictionary.h"]}
{"id": "C31", "title": "FIRST sets are sound", "statement": "Every terminal reported in the FIRST set of a symbol begins some sentential form derivable from that symbol, and the empty symbol is reported only for symbols that derive the empty string.", "quantifier": "for every grammar and every symbol, in every query order", "why_tests_cant": "Recursive memoised computation; all grammars and query orders.", "anchors": ["TameParse/ContextFree/grammar.cpp: first", "TameParse/ContextFree/standard_items.cpp: nonterminal::first", "TameParse/ContextFree/ebnf_items.cpp: first"]}
{"id": "C32", "title": "FIRST sets are complete", "statement": "Every terminal that can begin a string derived from a symbol is in the reported FIRST set of that symbol, and the empty symbol is reported for every symbol that derives the empty string.", "quantifier": "for every grammar and every symbol, in every query order", "why_tests_cant": "All grammars, including left-recursive and mutually recursive ones.", "anchors": ["TameParse/ContextFree/grammar.cpp: first", "TameParse/ContextFree/standard_items.cpp: nonterminal::first", "TameParse/ContextFree/ebnf_items.cpp: first"]}
{"id": "C33", "title": "LR(1) item sets merge lookahead", "statement": "Inserting an LR(1) item into an item set keeps one entry per LR(0) item, whose lookahead is the union of everything inserted for it; insertion reports a change exactly when something new was added.", "quantifier": "for every sequence of insertions", "why_tests_cant": "History property.", "anchors": ["TameParse/Lr/lr1_item_set.h: insert"]}
{"id": "C34", "title": "Parser action lookup finds exactly the actions for a symbol in priority order", "statement": "For every state and symbol, searching the generated action table visits exactly the actions the builder produced for that symbol, guards first, then weak reductions, then shifts, then reductions.", "quantifier": "for every action set, state and symbol", "why_tests_cant": "Binary search plus scan over arbitrary tables.", "anchors": ["TameParse/Lr/parser_tables.cpp: parser_tables, compare_actions, action_score", "TameParse/Lr/parser_tables.h: find_action"]}
{"id": "C35", "title": "Generated parsers only accept sentences of the grammar", "statement": "If the parser built for a grammar accepts a token sequence, then that sequence (without ignored tokens, and with weak tokens possibly read as their strong equivalents) is derivable from the start symbol, and the tree built by the reductions is a derivation tree of the grammar for exactly those tokens in order.", "quantifier": "for every grammar (with EBNF items and guards) whose rules use neither an explicit empty item nor the end-of-input items, every choice of weak symbols, precedences, conflict attributes and LR(1) resolution, and every token sequence", "why_tests_cant": "All grammars and all inputs.", "anchors": ["TameParse/Lr/lalr_builder.cpp: complete_parser, create_closure, actions_for_state", "TameParse/Lr/lalr_machine.cpp", "TameParse/Lr/parser_tables.cpp", "TameParse/Lr/parser_state.h: process_generic, perform_generic", "TameParse/Lr/ast_parser.h"]}
{"id": "C36", "title": "Generated parsers accept every sentence of a conflict-free grammar", "statement": "If no conflicts are reported for a grammar, the parser accepts every token sequence derivable from the start symbol.", "quantifier": "for every grammar without reported conflicts and every derivable token sequence", "why_tests_cant": "All grammars and inputs.", "anchors": ["TameParse/Lr/lalr_builder.cpp", "TameParse/Lr/parser_state.h", "TameParse/ContextFree/grammar.cpp: first"]}
{"id": "C37", "title": "Parsing always terminates", "statement": "Running the parser on a finite input reaches accept or reject after finitely many steps when no conflicts were reported for the grammar.", "quantifier": "for every grammar without reported conflicts and every finite input", "why_tests_cant": "Termination over all grammars and inputs.", "anchors": ["TameParse/Lr/parser_state.h: process_generic", "TameParse/Lr/conflict.cpp: find_conflicts"]}
{"id": "C38", "title": "Ignored tokens have no effect", "statement": "Inserting or removing ignored tokens anywhere in the input does not change whether it is accepted nor the tree produced, when the ignored symbols are not used by the grammar.", "quantifier": "for every grammar, every input and every placement of ignored tokens", "why_tests_cant": "All inputs and placements.", "anchors": ["TameParse/Lr/ignored_symbols.cpp: rewrite_actions", "TameParse/Lr/parser_state.h: process_generic"]}
{"id": "C39", "title": "Parser stack references are persistent", "statement": "Every live reference to the parser stack sees exactly the stack obtained from its own pushes, pops, copies and assignments, unaffected by other references and by garbage collection or growth of the shared storage.", "quantifier": "for every interleaving of push, pop, copy, assign on any number of references", "why_tests_cant": "Garbage collection can trigger at any push.", "anchors": ["TameParse/Lr/parser_stack.h: parser_stack, internal_stack::collect, get_new, grow_stack"]}
{"id": "C40", "title": "Parser stack references can be destroyed in any order", "statement": "The shared storage is freed exactly when the last reference is destroyed, whatever the order in which references are created, copied and destroyed.", "quantifier": "for every interleaving of copy and destroy", "why_tests_cant": "History property; order of destruction.", "anchors": ["TameParse/Lr/parser_stack.h: parser_stack(const parser_stack&), ~parser_stack"]}
{"id": "C41", "title": "Parser states sharing a session read independently", "statement": "Each parser state reads the token stream in order, skipping and repeating nothing, no matter how other states created by copying it advance, look ahead or are destroyed.", "quantifier": "for every interleaving of look, next, copy and destroy on any number of states", "why_tests_cant": "The shared lookahead buffer is trimmed at the slowest reader.", "anchors": ["TameParse/Lr/parser_state.h: look, next, trim_lookahead, state, ~state"]}
{"id": "C42", "title": "Checking whether a symbol can be reduced stays inside the tables", "statement": "The test whether a lookahead symbol would eventually be shifted only inspects table entries that exist, and answers true exactly if replaying the reductions from the current stack reaches a shift (or accept) of that symbol.", "quantifier": "for all tables, stacks and symbols", "why_tests_cant": "Depends on every chain of reductions.", "anchors": ["TameParse/Lr/parser_state.h: can_reduce, fake_reduce"]}
{"id": "C43", "title": "Weak symbols fall back to their strong equivalent", "statement": "After rewriting, actions on strong and non-terminal symbols are unchanged, reductions on weak symbols become weak reductions, and every weak symbol with no action other than weak reductions receives the actions of its strong equivalent (shifts becoming shift-as-strong).", "quantifier": "for every action set and every strong/weak map", "why_tests_cant": "All action sets.", "anchors": ["TameParse/Lr/weak_symbols.cpp: rewrite_actions"]}
{"id": "C44", "title": "Ignored-symbol rewriting", "statement": "After rewriting, every ignored symbol without a shift action in the state has an ignore action, reductions on ignored symbols are weak, and every other action is unchanged.", "quantifier": "for every action set and set of ignored symbols", "why_tests_cant": "All action sets.", "anchors": ["TameParse/Lr/ignored_symbols.cpp: rewrite_actions"]}
{"id": "C45", "title": "Precedence resolves shift/reduce conflicts as declared", "statement": "For a token with exactly one shift and one reduce, both with declared precedence, the higher precedence wins, ties are resolved by associativity (left: reduce, right: shift, otherwise left in conflict), and no other action is ever removed.", "quantifier": "for every action set and every precedence assignment", "why_tests_cant": "All action sets.", "anchors": ["TameParse/Lr/precedence_rewriter.cpp: rewrite_actions, precedence_item_index"]}
{"id": "C46", "title": "Every nondeterminism is reported as a conflict", "statement": "If a state has two different strong actions for the same lookahead symbol, a conflict is reported for that state and symbol.", "quantifier": "for every grammar, state and symbol", "why_tests_cant": "All grammars.", "anchors": ["TameParse/Lr/conflict.cpp: find_conflicts"]}
{"id": "C47", "title": "LR(1) conflict resolution only weakens reductions", "statement": "The LR(1) rewriter never removes an action for a symbol: each action is kept, or a reduce becomes a weak reduce of the same rule, and at least one strong reduce remains for each symbol that had one.", "quantifier": "for every action set", "why_tests_cant": "All action sets and conflict patterns.", "anchors": ["TameParse/Lr/lr1_rewriter.cpp: rewrite_actions"]}
{"id": "C48", "title": "Copied parser tables behave identically", "statement": "A copy of parser tables (constructed or assigned) answers every query exactly as the original.", "quantifier": "for all tables and queries", "why_tests_cant": "All tables.", "anchors": ["TameParse/Lr/parser_tables.cpp: parser_tables(const parser_tables&), operator="]}
{"id": "C49", "title": "String reader yields the string", "statement": "Reading a string reader until it reports it is not good yields exactly the characters of the string and then the end marker forever.", "quantifier": "for every string and number of reads", "why_tests_cant": "All strings.", "anchors": ["TameParse/Util/stringreader.h: get, good"]}
{"id": "C50", "title": "Ordered containers of reference-counted values use a consistent order", "statement": "For container comparisons, a <= b holds exactly when b < a does not, and a >= b exactly when a < b does not.", "quantifier": "for all pairs of contained values", "why_tests_cant": "All pairs.", "anchors": ["TameParse/Util/container.h: operator<=, operator>="]}
{"id": "C51", "title": "Kernel/transition structure of the LALR automaton", "statement": "Every state reachable in the generated automaton consists of exactly the LR(0) items obtained from the closure of its predecessor by moving the dot over the transition symbol; there is one transition per symbol; identical item sets share one state; the construction terminates.", "quantifier": "for every grammar", "why_tests_cant": "All grammars.", "anchors": ["TameParse/Lr/lalr_builder.cpp: complete_parser, create_closure", "TameParse/Lr/lalr_machine.cpp: add_state, add_transition"]}
{"id": "C52", "title": "Lookahead propagation reaches a fixed point", "statement": "On completion every lookahead symbol spontaneously generated or propagated to an item is in that item lookahead set, nothing else is, and the iteration terminates.", "quantifier": "for every automaton and propagation relation", "why_tests_cant": "Worklist fixpoint over all graphs.", "anchors": ["TameParse/Lr/lalr_builder.cpp: complete_lookaheads", "TameParse/Lr/lalr_machine.cpp: add_lookahead"]}
{"id": "C53", "title": "State tables of generated lexers agree with the DFA", "statement": "The state table written into a generated lexer returns, for every state and every symbol set, the successor state of the DFA (or 'no transition'), and the lookup never reads outside the table.", "quantifier": "for every DFA, every state and every symbol set", "why_tests_cant": "The defect shows as a read past the end of a static array for the last states only; whether a test notices depends on what the linker put after the table, and there are unboundedly many DFAs.", "anchors": ["TameParse/Compiler/OutputStages/cplusplus.cpp: source_lexer_state_machine", "TameParse/Dfa/state_machine.h: state_machine_tables", "TameParse/Dfa/basic_lexer.h: dfa_stream::operator>> (run_unsafe)"]}
{"id": "C54", "title": "A compiled lexer splits its input by longest match in the language of its expressions", "statement": "The lexer compiled from an automaton (overlap removal, subset construction, table generation, symbol translation) reads any input to the end and cuts it into lexemes; each lexeme is the longest prefix of the remaining input accepted by the automaton, tagged with the smallest symbol the automaton accepts it with, and a character that starts no accepted prefix is returned alone as an error.", "quantifier": "for every automaton, every input and both table formats", "why_tests_cant": "The claim composes five transformations and ranges over all automata and all inputs.", "anchors": ["TameParse/Dfa/lexer.cpp: lexer::compile", "TameParse/Dfa/basic_lexer.h: dfa_lexer_base, dfa_stream::operator>>", "TameParse/Dfa/ndfa_transformations.cpp: to_ndfa_with_unique_symbols, to_dfa", "TameParse/Dfa/state_machine.h: state_machine"]}
{"id": "C55", "title": "A lexer built from expressions splits the input by the expressions", "statement": "The automaton built by adding a list of regular expressions with symbols accepts a string with a symbol exactly when an expression with that symbol denotes the string; the tables compiled from it split every input by longest match, ties going to the smallest symbol.", "quantifier": "for all lists of expressions and symbols, all inputs", "why_tests_cant": "The expressions share state 0 and one symbol map; interference between them only shows for particular combinations of expressions and inputs, of which there are infinitely many.", "anchors": ["TameParse/Dfa/lexer.cpp:101-131", "TameParse/Dfa/ndfa_regex.h:101-106", "TameParse/Dfa/ndfa_regex.cpp:161-200"]}
{"id": "C56", "title": "Cached closures are exactly the LR(1) closures", "statement": "cache_closure returns, and the LR(1) items it adds to an empty set are exactly the closure of the given item: an element (item, lookahead) is added if and only if it can be generated from the given item in one or more closure steps. This holds whatever calls are already in progress (m_CachingClosure) and leaves every set in the cache the exact closure of its item.", "quantifier": "for every finite grammar whose rules do not use the empty or end-of-input item explicitly, every LR(1) item, every state of the cache reached by such calls and every combination of flags", "why_tests_cant": "The cache is filled recursively while other closures are in progress; whether a set stored halfway is complete depends on the order and nesting of all earlier calls.", "anchors": ["TameParse/ContextFree/item.cpp: fill_follow, insert_closure_item, cache_closure", "TameParse/ContextFree/standard_items.cpp: nonterminal::closure, empty_item::closure", "TameParse/ContextFree/ebnf_items.cpp: closure"]}
{"id": "C57", "title": "The actions of a state are those of the LALR automaton", "statement": "generate_closure returns and gives exactly the LR(1) closure of the items of the state, and actions_for_state has an action if and only if the LALR automaton has it: a shift or goto for a transition, a reduce or accept for a finished item of the closure with its lookahead, and a guard action for each initial symbol of a guard that can come next or is a lookahead.", "quantifier": "for every grammar with finitely many rules that do not use the empty item explicitly, every list of start symbols, every state and every action", "why_tests_cant": "The closure of a state with several items is merged in a work list whose entries are pushed with unmerged lookaheads; an action lost or added this way shows only for grammars where two items of a state generate the same rule with different lookaheads.", "anchors": ["TameParse/Lr/lalr_builder.cpp: generate_closure", "TameParse/Lr/lalr_builder.cpp: add_guard", "TameParse/Lr/lalr_builder.cpp: actions_for_state"]}
{"id": "C58", "title": "Conflict attributes decide the conflicts on their token", "statement": "In a state with a shift/reduce conflict on a token, an attribute given to an occurrence of the token that the state can shift decides the conflict: [shift] leaves no reduction, [reduce] no shift, [conflict=weak] makes the reduction weak. Conflicts between several reductions are only touched by [reduce], other actions never change, and the weak equivalents of the token are treated in the same way.", "quantifier": "for every state, every set of actions and every assignment of attributes to items", "why_tests_cant": "Tests look at single grammars; the rule is about every combination of actions, attributes and weak symbols.", "anchors": ["TameParse/Compiler/conflict_attribute_rewriter.cpp: rewrite_actions", "TameParse/Compiler/lr_parser_stage.cpp: compile", "TameParse/Lr/weak_symbols.cpp: rewrite_actions"]}
{"id": "C59", "title": "The grammar of a language means what the language definition says", "statement": "When a language is compiled without a symbol being defined twice and its definition refers to no other language by name, then for every nonterminal that has a production the grammar derives from the identifier of that nonterminal exactly the sentences that the definition means: sequences, alternatives in parentheses, `*`, `+`, `?`, guards that read nothing, implicit symbols, and the productions of `=`, `|=` and `replace` over the whole chain of inherited languages, with each terminal standing for the symbol of its name.", "quantifier": "for all chains of language blocks with any lexer and grammar blocks, all nonterminals with a production, and all sequences of terminal names", "why_tests_cant": "Definitions nest EBNF operators to any depth and chains of inherited blocks are of any length; whether two definitions that are equal as items share an identifier depends on everything compiled before.", "anchors": ["TameParse/Language/language_parser.cpp:191-502", "TameParse/Compiler/language_stage.cpp:90-840", "TameParse/Compiler/language_stage.cpp:866-886", "TameParse/ContextFree/grammar.cpp"]}
{"id": "C60", "title": "Which symbol the lexer reports for a text that several definitions match", "statement": "Among the accept actions of a language, the one that fill_accept reports is the greatest one of a strict total order: weak symbols come before others, then keywords before lexer symbols before ignored ones, then the lower symbol. In a language that inherits from no other and only has plain definitions, the numbers of the strong symbols agree with this order of kinds.", "quantifier": "for all lists of accept actions of definitions in any order; for all language blocks with plain definitions and all pairs of strong definitions in them", "why_tests_cant": "The operator that orders actions is evaluated on lists in whatever order the subset construction makes them; tests see a few lists in one order.", "anchors": ["TameParse/Compiler/lexer_stage.cpp:43-107", "TameParse/Dfa/basic_lexer.h:157-174", "TameParse/Dfa/accept_action.cpp:67-69", "TameParse/Compiler/language_stage.cpp:214-394"]}
{"id": "C61", "title": "A weak symbol falls back to the strong symbol that the lexer would report without it", "statement": "When a text matches weak and strong symbols, the lexer reports a weak symbol or one that was split from it, and the map of weak symbols gives it as its strong symbol just the one that the lexer would report if there were no weak symbols. Every symbol has at most one strong symbol, and nothing is split if each weak symbol has one partner.", "quantifier": "for all DFAs with accept actions of definitions, all sets of weak symbols and all terminal dictionaries without split symbols", "why_tests_cant": "add_symbols goes through the states once and changes the actions, the dictionary and the map as it goes; what a state ends with depends on the states before it and their number is not bounded.", "anchors": ["TameParse/Lr/weak_symbols.cpp:74-169", "TameParse/Compiler/lexer_stage.cpp:501-520", "TameParse/ContextFree/terminal_dictionary.cpp"]}
{"id": "C62", "title": "The symbols that a grammar uses are told apart by its lexer", "statement": "When a rule of the grammar of a language contains a terminal, then the lexer reports the symbol of this terminal for the texts of its definitions and for no others, although ignored definitions that the grammar does not use share one symbol.", "quantifier": "for all chains of language blocks, all rules of the grammar, all terminals that occur in them at any depth, and all orders of the definitions", "why_tests_cant": "Terminals occur inside EBNF items of any depth and the set of used symbols is collected over chains of inherited languages; a missing place only shows with an ignored symbol that occurs nowhere else.", "anchors": ["TameParse/Compiler/language_stage.cpp:65-87", "TameParse/Compiler/language_stage.cpp:447-455", "TameParse/Compiler/lexer_stage.cpp:290-404"]}
{"id": "C63", "title": "The parser made from a language definition decides the language of the definition", "statement": "For a language whose grammar has no conflicts, the parser made from its definition comes to an end for every sequence of tokens, and it accepts exactly those that are, without the ignored tokens, sentences in the sense of the definition, each token standing for the name of its symbol.", "quantifier": "for all chains of language blocks with the stated conditions, all tables made from their grammar, and all sequences of tokens", "why_tests_cant": "It is about all inputs of all lengths and about all languages in the stated class; tests run a few sentences through a few parsers.", "anchors": ["TameParse/Language/language_parser.cpp:191-502", "TameParse/Compiler/language_stage.cpp:90-840", "TameParse/Lr/lalr_builder.cpp", "TameParse/Lr/parser_tables.cpp", "TameParse/Lr/parser.h"]}
{"id": "C64", "title": "Parsers with precedences make the tree that the precedences say", "statement": "For a language with a precedence block for which no conflicts are reported, the tree that the parser makes has an operation inside another one only where the precedences and associativities allow that. For expressions with binary operators, the parser accepts every sentence of the (ambiguous) grammar, the tree it makes is the only derivation tree that is as the precedences say, and it makes no other trees.", "quantifier": "for all grammars and blocks with the stated conditions, all tables made from them, all sequences of tokens and all trees", "why_tests_cant": "Precedences are applied by removing actions from the tables of single states; that the trees come out right, and that no sentence is lost, is about all inputs and all nestings of operators.", "anchors": ["TameParse/Lr/precedence_rewriter.cpp:36-164", "TameParse/Compiler/precedence_block_rewriter.cpp:37-129", "TameParse/Lr/lalr_builder.cpp", "TameParse/Lr/parser.h", "Examples/Test/Precedence.tp"]}
{"id": "C65", "title": "The precedence of a token is the last level of the block that lists it", "statement": "The rewriter made from a precedence block gives a token as its precedence the number, from 1, of the last level that has it in it, and the associativity of this level, and gives tokens in no level and other items none. Only terminals without a source language whose names the terminal dictionary has count as listed.", "quantifier": "for all blocks, all terminal dictionaries and all tokens", "why_tests_cant": "Blocks can have any number of levels and tokens can be repeated; the comments of the classes state the opposite order.", "anchors": ["TameParse/Compiler/precedence_block_rewriter.cpp:37-129", "TameParse/Language/precedence_block.h"]}
{"id": "C66", "title": "Generated parsers make well-formed syntax trees", "statement": "When a parser written by the C++ output stage accepts an input, its shift and reduce functions have made one object for the start symbol whose parts are as the grammar says: an object of the class of its item with the number of one of its rules and a member for each item of the rule apart from guards; a list object with a content object for each repetition. No pointer is cast to a class that the object does not have, the lexemes in the tree are those that were read, in order, and without guards two different derivations give two different trees.", "quantifier": "for all grammars, all tables made from them, all sequences of tokens that are accepted", "why_tests_cant": "Casts are unchecked, so a wrong index into the reduce list is undefined behaviour that may go unnoticed; lists of any length and all nestings of EBNF items have to be covered, while tests look at few generated parsers.", "anchors": ["TameParse/Compiler/OutputStages/cplusplus.cpp:1480-1659", "TameParse/Compiler/output_stage.cpp:440-524", "TameParse/Util/syntax_ptr.h:132-154", "TameParse/Lr/parser.h:303-366"]}
{"id": "C67", "title": "Names in generated parsers do not clash", "statement": "Every name that the C++ output stage makes from a name of the grammar is an identifier of C++. The class names for the items of a grammar are different for different items, whatever the symbols are called, and differ from the names that are in use already; no class has the name of another one's content class. The constants for the symbols have different names.", "quantifier": "for all names of symbols, all lists of items (terminals, nonterminals, nested EBNF items) and all sets of names in use", "why_tests_cant": "Clashes depend on spelling: `a-b`, `a_b` and `a_b_1`, or symbols called like a numbered variant of another one. Grammars in tests have ordinary names; a clash gives a generated file that does not compile, or worse, one where a symbol stands for another.", "anchors": ["TameParse/Compiler/OutputStages/cplusplus.cpp:80-164", "TameParse/Compiler/OutputStages/cplusplus.cpp:167-212", "TameParse/Compiler/OutputStages/cplusplus.cpp:310-397", "TameParse/Compiler/output_stage.cpp:290-437"]}
{"id": "C68", "title": "Generated classes are well-formed", "statement": "The class that the C++ output stage writes for a nonterminal or an EBNF item has members with different names, none of them the name of a class it uses; at most one position; constructors with different parameters; and each constructor initialises different members, with objects of the class that the member is declared with.", "quantifier": "for all nonterminals and EBNF items and all their rules", "why_tests_cant": "The members of all rules are merged by name, so whether they fit depends on combinations of rules (`a* | b a+`, `[=> a] b | b`, two rules of guards only) that no example grammar has.", "anchors": ["TameParse/Compiler/OutputStages/cplusplus.cpp:990-1160", "TameParse/Compiler/OutputStages/cplusplus.cpp:1190-1311", "TameParse/Compiler/output_stage.cpp:440-524"]}
{"id": "C69", "title": "The lexer of a language definition", "statement": "The lexer that the language compiler makes from the lexer definitions of a language splits every input into the longest pieces that some definition means, and reports each with the symbol of the most important definition for it: weak before strong, literal symbols before keywords before lexer symbols before ignored ones, then the lower symbol number. Ignored definitions that the grammar does not use are reported with the symbol of the first of them. If the compiler warns that a symbol cannot be generated, no text is lexed as that symbol.", "quantifier": "for all lists of lexer definitions (literals and regular expressions), all inputs of UTF-16 units, with and without the two optimisations of the automaton", "why_tests_cant": "The result depends on how the definitions overlap, and goes through seven transformations of an automaton in which the accept actions only have to be kept in the right places; tests look at a few languages and a few texts.", "anchors": ["TameParse/Compiler/lexer_stage.cpp:272-562", "TameParse/Compiler/lexer_stage.cpp:43-107", "TameParse/Dfa/ndfa.h:200-379", "TameParse/Dfa/basic_lexer.h:157-191"]}
{"id": "C70", "title": "Guards hold where they are passed", "statement": "When the parser accepts an input, the input can be read as the start symbol such that at every place where a guard [=> ...] was passed, the contents of the guard can be read from the input that follows that place (with ignored tokens skipped, weak tokens standing for strong ones, and guards within the guard holding in the same way). So no input is accepted whose only derivations go through a guard that does not hold.", "quantifier": "for all grammars with guards (also nested ones), all token lists, and every run of the parser that ends with acceptance", "why_tests_cant": "Checking a guard runs a second parser ahead of the first, with its own stack, its own end-of-guard lookahead and nested checks, and the states of both come from one automaton; that the two agree for all grammars and inputs cannot be tested by examples.", "anchors": ["TameParse/Lr/parser_state.h:227-350", "TameParse/Lr/parser_state.h:112-217", "TameParse/Lr/parser_state.h:511-610", "TameParse/Lr/lalr_builder.cpp:160-210", "TameParse/Lr/lalr_builder.cpp:425-460"]}
{"id": "C71", "title": "Warnings about unused symbols", "statement": "A lexer symbol is reported as unused exactly if it is defined in a block that is not ignored and no rule of the language reads it. Violated twice: a symbol that only occurs in guards is reported although the grammar needs it, and a symbol whose only rules were replaced by a language that inherits the definition is not reported.", "quantifier": "for all languages and chains of inherited languages", "why_tests_cant": "The set of unused symbols is built and reduced in several passes over blocks and rules and is copied along the chain of languages; tests only see single grammars.", "anchors": ["TameParse/Compiler/language_stage.cpp:65-87", "TameParse/Compiler/language_stage.cpp:447-455", "TameParse/Compiler/language_stage.cpp:550-566", "TameParse/Compiler/language_stage.cpp:866-886"]}
{"id": "C72", "title": "Attributes of rule items", "statement": "The rules of a nonterminal are its productions, and the attributes (names, conflict attributes, permission of guards to clash) of the items of a rule are, in order, those that are written on the items of the production. Violated by attributes on a sequence in parentheses without alternatives, which are lost without an error.", "quantifier": "for all languages without references to other languages and without duplicate lexer definitions, all their nonterminals and productions", "why_tests_cant": "Attributes are stored by keys that are given out while rules are built recursively, with keys of items in subexpressions in between; that no later key overwrites an earlier one for every nesting is an invariant over the whole compilation.", "anchors": ["TameParse/Compiler/language_stage.cpp:398-444", "TameParse/Compiler/language_stage.cpp:664-840", "TameParse/Compiler/Data/rule_item_data.cpp:35-104", "TameParse/Language/language_parser.cpp:232-424"]}
{"id": "C73", "title": "Strings and comments of definitions", "statement": "A string or character of a language definition stands for the text that is spelled between its quotes, every text can be written as a string, and a string or comment ends at the first quote or */ that is not part of an escape sequence. Violated: a string that ends with an escaped backslash is read on to the next quote, a comment that ends with **/ is read on to the next */, and two spellings of the same text are two terminals.", "quantifier": "for all texts (lists of characters), all strings, and all comments", "why_tests_cant": "The expressions of the tokens and the function that removes the quotes are two descriptions of the same thing that must agree on infinitely many texts; the tests use strings without unusual endings.", "anchors": ["TameParse/Language/definition.tp:15-41", "TameParse/Language/process.cpp:34-70", "TameParse/Compiler/language_stage.cpp:339-347", "TameParse/Compiler/language_stage.cpp:629-652"]}
{"id": "C74", "title": "Definitions and symbols of a language", "statement": "If a language definition is compiled without errors then every written lexer definition and every terminal that the grammar mentions has a lexer item with its own text, kind and flags, every lexer item comes from one of them, two names have different symbols, and a symbol is ignored or weak exactly if a definition of its name is. Violated if a definition is replaced: an ignored symbol that is replaced by a keyword stays ignored.", "quantifier": "for all languages and chains of inherited languages that have no replacements and are compiled without errors, all their definitions and all the items of their rules", "why_tests_cant": "The items are made in six passes over all blocks of all inherited languages and once more while rules are compiled, each time with symbols that depend on everything before; tests look at single small definitions.", "anchors": ["TameParse/Compiler/language_stage.cpp:214-394", "TameParse/Compiler/language_stage.cpp:569-661"]}
{"id": "C75", "title": "From a language definition to accepted texts", "statement": "The lexer and the parser that are made from the definition of a language end for every text, and together they accept a text exactly if it is split by the definitions of the language (always the longest text that some definition matches, ignored texts left out) into names that are a sentence of the written grammar.", "quantifier": "for all languages without errors, replacements, guards and weak reductions whose tables have no conflicts and whose automaton satisfies the conditions of the lexer stages, all options of the lexer stage, and all texts of UTF-16 units", "why_tests_cant": "The statement is about infinitely many texts and joins every stage (definitions, symbols, automata, translation table, LALR tables, parser); the tests of the project only run each stage on a few inputs.", "anchors": ["TameParse/Compiler/language_stage.cpp:34-886", "TameParse/Compiler/lexer_stage.cpp:178-420", "TameParse/Compiler/lr_parser_stage.cpp:34-420", "TameParse/Lr/parser_state.h:352-700", "TameParse/Dfa/lexer.h:38-115"]}
{"id": "C76", "title": "Parsers of languages with weak symbols", "statement": "If no conflicts are reported for a language with weak symbols then the parser accepts every sentence, and every input that becomes a sentence when some weak tokens are read as their strong symbols, provided that the states in which such a token comes next have no action for the weak symbol itself; the tree has the tokens as they are read. If no state has actions for a weak symbol and its strong symbol, then exactly the inputs that can be read as a sentence are accepted. Violated in two ways: conflicts on weak symbols are not reported, so that a sentence can be rejected, and a weak token that can only be meant as its strong symbol is rejected where another context of the same state uses the weak symbol.", "quantifier": "for all grammars without guards (with complete FIRST sets), all sets of weak symbols whose strong symbols are not weak, all ignored symbols, all inputs and all readings of them", "why_tests_cant": "Weak reductions are looked up ahead on a copy of the stack, and copies of actions depend on everything else in the state; a test shows one input of one grammar, and in the rejected inputs the grammar has to merge two contexts in one LALR state.", "anchors": ["TameParse/Lr/weak_symbols.cpp:192-341", "TameParse/Lr/conflict.cpp:94-236", "TameParse/Lr/parser_state.h:352-610", "TameParse/Lr/parser.h:398-430"]}
{"id": "C77", "title": "Files and languages that a definition file brings in", "statement": "The files that are read are exactly the root file and those imported, directly or not, by files that can be used, each once; a file that cannot be opened or parsed is reported exactly if it is one of them; a language is reported as ambiguous exactly if these files define it twice; and a language name is found exactly if one of the files defines it. A language is compiled from the blocks of its ancestors, oldest first, followed by its own, and the grammar made from them derives from each nonterminal what these definitions mean. Compilation ends exactly for languages whose chain of ancestors is finite. Violated in three ways: a file in which a lexeme refers to another language is dropped without a report, languages that inherit from each other are compiled for ever, and a file that is imported from a file in another directory is read twice, so that its languages are reported as ambiguous.", "quantifier": "for all consoles (any assignment of contents and real paths to names, with real paths idempotent and names of one file read alike), all root files and all syntax trees of files", "why_tests_cant": "What is reported depends on the graph of imports, the order in which files are reached and the names by which they are reached; a test fixes one directory. A run that does not end cannot be observed by a test at all.", "anchors": ["TameParse/Language/language_parser.cpp:526-872", "TameParse/Compiler/parser_stage.cpp:47-84", "TameParse/Compiler/import_stage.cpp:41-129", "TameParse/Compiler/language_stage.cpp:90-117", "parsetool/boost_console.cpp:284-359"]}
{"id": "C78", "title": "Exit code, tests and choice of the command line tool", "statement": "The tool returns 0 exactly if no report was an error or worse. With --run-tests the exit code is not 0 exactly if there are no test blocks, the language of one is missing or has errors, or a test fails: its file is missing, or its text is accepted though it should not match, or rejected though it should; for a language whose lexer and parser are as C75 says, this is decided by what the definition means. The results are listed by names that differ within a block. Output is written exactly if no stage has reported an error, and it is for the language, class name and start symbols of the command line, or of the only parser block, or for the only language. Violated: a test whose name is longer than 54 characters ends the tool with an exception even if it passes, and a test of an undefined nonterminal uses a null pointer.", "quantifier": "for all files of blocks and tests, all outcomes of the stages, all parsers and texts, all options", "why_tests_cant": "The exit code is the only thing that scripts look at; that it is 0 just in the right cases is a statement about all combinations of stages, options and test results. The crashes need names of a length that no example has, or a wrong test.", "anchors": ["TameParse/Compiler/test_stage.cpp:68-393", "TameParse/Compiler/std_console.cpp:66-84", "parsetool/main.cpp:44-384"]}
{"id": "C79", "title": "The generated source holds the tables it was made from", "statement": "The text that the generator writes for the parser tables and for the lexer, read by the rules of C++, declares objects with the same contents: the constructor gets the numbers of states, rules, guards and weak symbols, the pointers into the action arrays reach the rows of the states, and every question a parser asks of the tables (rows, searches, rules, guards, strong symbols) has the same answer, so that the generated parser does the same as the parser in memory with every input; for a grammar as in C36 the compiled text accepts just the sentences. The lexer gets the symbol table (C14), the transitions, the starts of the rows (C53) and the accepted symbols. Violated for standard C++: the text declares arrays without elements whenever the grammar has no guards or no weak symbols, which compilers accept only as an extension; which texts standard C++ accepts is proved exactly.", "quantifier": "for all tables, class names, symbol tables, state machines and inputs", "why_tests_cant": "Tests compile one or two generated parsers. A comma, a position or a sign that is wrong for one table size, or a number with another count of digits, shows only for tables of that shape.", "anchors": ["TameParse/Compiler/OutputStages/cplusplus.cpp:414-585", "TameParse/Compiler/OutputStages/cplusplus.cpp:601-834", "TameParse/Lr/lr_action.h:61-107", "TameParse/Lr/parser_tables.cpp:241-256"]}
{"id": "C80", "title": "Which conflicts the parser stage reports, and how severe they are", "statement": "The conflicts that are found are just those of the LALR automaton: the tokens that it can shift and reduce at, or that two rules can be reduced at. The stage reports an error exactly if a start symbol is undefined or there is none, or if the automaton has a conflict and none are allowed, or if it has to choose between two rules before a token that it cannot shift and such conflicts are not allowed. If no conflicts are allowed and the tool writes a parser, the parser accepts just the sentences. Violated: a conflict between two rules can be reported as a shift/reduce conflict, with a warning only, when an item before the empty rules has the token in its FIRST set (`S -> A a b | B a c`, `A -> e`, `B -> e`); the tool then ends with exit code 0 and the parser rejects sentences.", "quantifier": "for all grammars without guards, precedences, weak symbols and conflict attributes (for the kind of a conflict: in which no rule begins with something that can be empty), all options and inputs", "why_tests_cant": "The tests look at a few conflicts of small grammars. That no conflict is missed, that none is reported that is not there, and that the severity is right in every state needs the relation of three searches (shifts through FIRST sets, reductions through closures, actions) for all automata.", "anchors": ["TameParse/Lr/conflict.cpp:94-245", "TameParse/Compiler/lr_parser_stage.cpp:276-304", "TameParse/Compiler/lr_parser_stage.cpp:340-448", "TameParse/Compiler/lr_parser_stage.cpp:466-504"]}
{"id": "C81", "title": "Which clashing guards the parser stage warns about", "statement": "The parser stage warns about a state exactly if two different guards have to be looked at for the same token there and an item of its kernel that is not marked as allowed to clash is before one of them. Every warning is about a real clash, names only items before clashing guards and at least one that may not clash; every item of the kernel before a clashing guard is named in some warning unless it may clash. Violated: guards at the beginning of rules are not in the kernel, so their clashes are never reported (`S -> [=> a] a c | [=> a b] a b`: no warning, no conflict, and `a b` is rejected); and a pair of guards that were both named with others before is not reported.", "quantifier": "for all states, actions, kernels, marks and orders of the tokens; for the automaton: all grammars without precedences, weak symbols, conflict attributes and LR(1) resolver", "why_tests_cant": "The tests of the project have no clashing guards at all, and which items are named depends on the order of the tokens and on the guards seen before.", "anchors": ["TameParse/Compiler/lr_parser_stage.cpp:90-211", "TameParse/Lr/lalr_builder.cpp:425-460"]}
{"id": "C82", "title": "What checking a guard answers", "statement": "Checking a guard [=> ...] at a place of the input gives the identifier of that guard exactly if some beginning of the input that follows (ignored tokens left out) is a sentence of the contents of the guard, and a negative number otherwise: no guard that holds is missed, none that does not hold is found, and no other guard's identifier is given. This is so for guards without guards inside, if every state reached from the state of the guard has at most one action for a token and for the end of the guard.", "quantifier": "for all grammars without precedences, weak symbols, conflict attributes and LR(1) resolver, all guards in them, all inputs and places, all stacks of the parser, and every check that ends", "why_tests_cant": "The end of a guard is not in the input: after every token the check asks whether reductions with the end of guard symbol would reach the end, on a copy of part of the stack. That the shortest beginning is found for every derivation is a statement about all stacks and all inputs.", "anchors": ["TameParse/Lr/parser_state.h:227-350", "TameParse/Lr/parser_state.h:353-505", "TameParse/Lr/lalr_builder.cpp:160-210", "TameParse/Lr/lalr_builder.cpp:425-460"]}
{"id": "C83", "title": "A parser with guards decides its language", "statement": "Whenever the parser of a grammar with guards ends, it has accepted the input exactly if the input (ignored tokens left out) is a sentence of the grammar in which every guard holds at its place, that is, what follows the guard begins with a sentence of the contents of the guard. This is so if guards have no guards inside, no state has two guards or two other actions for a symbol, and where a guard competes with a shift, the guard does not hold on any input for which the shift would be right.", "quantifier": "for all grammars without precedences, weak symbols, conflict attributes and LR(1) resolver that have these properties, and all inputs on which the parser ends", "why_tests_cant": "A guard is checked at a place where the parser has not yet decided which rules it is in, with the first token of the guard as the only reason to check it; the check looks arbitrarily far ahead. That no check turns the parser away from a sentence, for any grammar and input, is not seen from finitely many inputs.", "anchors": ["TameParse/Lr/parser_state.h:227-350", "TameParse/Lr/parser_state.h:511-610", "TameParse/Lr/parser_state.h:615-701", "TameParse/Lr/parser.h:297-430", "TameParse/Lr/lalr_builder.cpp:160-210", "TameParse/Lr/lalr_builder.cpp:425-460"]}
{"id": "C84", "title": "Errors are found at the first wrong token", "statement": "When the parser rejects its input, the tokens that it has read (ignored tokens left out) are the beginning of some sentence, and if there is a next token, then no sentence begins with the tokens read and this token: the place where it stops is exactly the place of the error. The first half holds at any time while the parser runs, whatever conflicts there are and however they were resolved: it never reads past an error.", "quantifier": "for all grammars in which every symbol has a sentence and all inputs; the second half for grammars without guards, precedences, weak symbols, conflict attributes and LR(1) resolver for which no conflict is reported and FIRST sets are complete", "why_tests_cant": "The error position is the only thing that a user sees of an error. LALR parsers make reductions on merged lookaheads before they notice an error, and ignored tokens may come between; that no such reduction lets a wrong token through, or takes a right one for wrong, has to hold in every state and for every input that is not a sentence.", "anchors": ["TameParse/Lr/parser_state.h:511-610", "TameParse/Lr/parser.h:692-710", "TameParse/Lr/lalr_builder.cpp:230-546", "TameParse/Lr/ignored_symbols.cpp:61-120"]}
{"id": "C85", "title": "A grammar for which no conflict is reported is unambiguous", "statement": "If the parser generator reports no conflict for a grammar, then every sentence has exactly one derivation tree.", "quantifier": "for all grammars without guards, precedences, weak symbols, conflict attributes and LR(1) resolver whose FIRST sets are complete, and all sentences", "why_tests_cant": "Ambiguity is undecidable in general, and an ambiguous sentence may be arbitrarily long; that the absence of reports is a proof of unambiguity depends on every action of every state having been compared.", "anchors": ["TameParse/Lr/conflict.cpp:94-245", "TameParse/Lr/lalr_builder.cpp:230-546", "TameParse/Lr/parser_state.h:511-610"]}
{"id": "C86", "title": "Guards that have no effect are reported", "statement": "A guard is reported as without effect exactly if it holds something and one of its alternatives can be empty (it would always be accepted), and as empty exactly if there is nothing in it and the option allow-empty-guards is not set. The guards looked at are all that are written in the language and in those it inherits from, however deep inside other items.", "quantifier": "for all languages without references to other languages, all orders in which the guards are looked at, and both values of the option; for the converse, all languages in whose guards no item is left recursive, no sequence inside an EBNF item begins with an item that can be empty and goes on, and no guard is inside another one", "why_tests_cant": "Whether an item can be empty depends on all rules reachable from it, and the FIRST sets that decide it are kept between the guards, so that the answer for one guard could depend on those looked at before it. A false report rejects a correct language, and a missed one makes a rule silently unreachable.", "anchors": ["TameParse/Compiler/language_stage.cpp:506-537", "TameParse/Compiler/language_stage.cpp:783-803", "TameParse/Compiler/language_stage.cpp:866-886", "TameParse/ContextFree/grammar.cpp:238-280"]}
{"id": "C87", "title": "FOLLOW sets hold what can come after a symbol", "statement": "The FOLLOW set of a symbol contains a terminal exactly if the terminal can come directly after the symbol in something derived from a nonterminal of the grammar, whatever FIRST and FOLLOW sets were asked for before; the set of a terminal is empty.", "quantifier": "for all grammars, all symbols and all sequences of earlier questions; soundness for grammars with sound FIRST sets of EBNF items and in which all EBNF items but alternatives have one rule, exactness for those without left recursion and symbols that do not end a repetition", "why_tests_cant": "The set depends on all rules in which the symbol occurs, through chains of nonterminals that end a rule, and on two caches that are filled in the order of the questions; the tests ask for the symbols of one small grammar.", "anchors": ["TameParse/ContextFree/grammar.cpp: follow, fill_follow", "TameParse/ContextFree/item_set.cpp: merge", "TameParse/ContextFree/ebnf_items.cpp"]}
{"id": "C88", "title": "Case-insensitive definitions match the texts that differ only in case", "statement": "A definition that is marked as case-insensitive matches a text exactly if the text can be made from a text that the definition matches as written by putting other cases of its characters in their place, where the other cases of a character are those that the tables for upper and lower case give.", "quantifier": "for all literals and all well-formed regular expressions, all automata they are added to, all sorted case tables and all input strings; for the tables of the source in particular all ASCII keywords", "why_tests_cant": "The tests try a few words. The set of texts is exponential in the length of the word, and for character classes the conversion goes wrong only for ranges that begin inside an entry of a table with more than 600 entries.", "anchors": ["TameParse/Dfa/ndfa.cpp: ndfa::builder::operator>>", "TameParse/Dfa/ndfa_regex.cpp: add_literal, add_regex", "TameParse/Util/unicode.cpp: to_lower, to_upper, convert_range", "TameParse/Compiler/lexer_stage.cpp: compile", "TameParse/Unicode/unicode_data.h: s_UppercaseMap, s_LowercaseMap"]}
{"id": "C89", "title": "The LR(1) resolver gives up a conflict only where the stack decides it", "statement": "If the LR(1) resolver turns a reduce/reduce conflict into weak reductions, then no two of the reductions are right for the same stack and the same next token, so that no sentence is lost.", "quantifier": "for all grammars, all states and all lookahead symbols, with the states that the resolver finds through the recorded lookaheads", "why_tests_cant": "The resolver looks at the states in which a lookahead was made. Whether these say enough depends on the whole automaton, and the cases in which they do not (empty rules, rules that begin other rules, rules of different lengths) show up as a sentence that is rejected without any conflict being reported.", "anchors": ["TameParse/Lr/lr1_rewriter.cpp: rewrite_actions", "TameParse/Lr/lalr_builder.cpp: find_lookahead_source, complete_lookaheads", "TameParse/Compiler/lr_parser_stage.cpp: compile"]}
{"id": "C90", "title": "Named expressions mean any of their definitions", "statement": "In an expression of a language, `{name}` matches what any of the definitions of the name in the lexer-symbols blocks matches: those written in the language and in the languages it inherits from, from the last one on that replaces the others. The case of letters is ignored in a definition if its block says so, and is as around the name if the block says nothing.", "quantifier": "for all languages with any number of lexer-symbols blocks and inherited languages, all names and nesting depths of named expressions, all expressions that C20 and C88 speak about, and all pairs of case tables", "why_tests_cant": "The builder is shared by the definitions that refer to each other, and its case options and its stack of open alternatives must be right again after each name, for every nesting and every number of definitions.", "anchors": ["TameParse/Compiler/lexer_stage.cpp: ndfa_lexer_compiler::compile_expression", "TameParse/Compiler/language_stage.cpp: compile", "TameParse/Compiler/Data/lexer_data.cpp: add_expression, remove_expression, get_expressions", "TameParse/Dfa/ndfa.cpp: push, begin_or, pop"]}
{"id": "C91", "title": "Errors in regular expressions are found where they are", "statement": "Checking a regular expression reports an error exactly at the places where a group, a class or a name begins that is never closed, and where a name begins that means nothing; a character after a backslash opens and closes nothing. The lexer stage reports these errors for all expressions of a language, at the line and column of the file where they are.", "quantifier": "for all texts of regular expressions, all sets of known names, all nesting depths of groups, and all files in which the definitions are written", "why_tests_cant": "Which bracket closes which depends on everything between them; the check and the compiler read the same text by different rules, and only a proof over all texts shows where the two readings part.", "anchors": ["TameParse/Dfa/ndfa_regex.cpp: check_regex, check, check_expression", "TameParse/Compiler/lexer_stage.cpp: check_regex, ndfa_lexer_compiler::check_expression, compile", "TameParse/Dfa/position.h: update_position"]}
{"id": "C92", "title": "Unicode names stand for the characters of their categories", "statement": "In an expression, `{u-...}` (also `uni-` and `unicode-`) with a documented name stands for exactly the characters to which UnicodeData.txt gives that category, and no other name is taken. The tables for upper and lower case that are made from the file map each character as the file says and all others to themselves, and are sorted as the conversion needs them.", "quantifier": "for all files in the format of UnicodeData.txt with any number of lines, all names, all orders in which the script writes the blocks, and all characters", "why_tests_cant": "The tables have thousands of ranges for over a million characters; no test compares them with the file, and the characters that the script loses lie between the ends of ranges that are themselves right.", "anchors": ["TameParse/Unicode/unicode.pl", "TameParse/Dfa/ndfa_regex.cpp: unicode_for_expression, match_prefix, compile_expression", "TameParse/Util/unicode.h: unicode::range, block, map_entry"]}
{"id": "C93", "title": "Objects of the syntax tree know where they are", "statement": "Each object that a generated parser makes for a symbol stands for consecutive lexemes of the input. Its `pos` is where the first of them begins, or where the next lexeme begins if it has none, and its `final_pos` is where the last of them ends.", "quantifier": "for all grammars without guards and without lists directly in lists of the same kind, with any ignored and weak symbols, all inputs that the generated parser accepts, all positions of lexemes, and every symbol in the tree", "why_tests_cant": "The position of an object without members is that of the lookahead at the moment of a reduction, and ignored tokens come in between; this has to be right after any sequence of shifts and reductions, and no test looks at the positions in a tree.", "anchors": ["TameParse/Compiler/OutputStages/cplusplus.cpp: source_ast_position_functions, source_ast_class_constructors, source_reduce_actions", "TameParse/Lr/parser.h: standard_actions::reduce", "TameParse/Dfa/lexeme.cpp: final_pos"]}
{"id": "C94", "title": "Copies of definitions say what the originals say", "statement": "A copy of a definition file, of any of its blocks, or of an item of a rule is equal to the original and owns what it refers to: nothing is deleted by the destructors of both, assigning one block to another leaves no pointer to a deleted object, and assigning an object to itself changes nothing.", "quantifier": "for all definition files made by adding blocks, with any languages, imports, lexer blocks, grammars, precedence blocks, parsers and tests, and items nested to any depth", "why_tests_cant": "The bootstrap language tests use definitions where they are made; a member that is left out by a copy keeps whatever was in memory, which is often the value wanted.", "anchors": ["TameParse/Language/definition_file.cpp", "TameParse/Language/toplevel_block.cpp: operator=", "TameParse/Language/ebnf_item.cpp: operator=", "TameParse/Language/nonterminal_definition.cpp: operator=", "TameParse/Language/grammar_block.cpp: operator=", "TameParse/Language/lexer_block.cpp: operator=", "TameParse/Language/precedence_block.cpp", "TameParse/Language/test_block.cpp: operator="]}
{"id": "C95", "title": "The position of a definition covers its parts", "statement": "When parts are added to an item or a production of a definition file, its position afterwards goes from the first beginning to the last end of its own position and those of its parts.", "quantifier": "for all items and productions, all numbers of parts and all positions", "why_tests_cant": "No test adds parts to an item whose position they leave, and no test looks at the positions of items.", "anchors": ["TameParse/Language/ebnf_item.cpp: add_child", "TameParse/Language/production_definition.cpp: add_item"]}
{"id": "C96", "title": "The text that shows a syntax tree determines it", "statement": "The formatter shows two syntax trees by the same text only if they have the same shape and the same labels in the same places.", "quantifier": "for all syntax trees of any depth and width, all names of items and symbols, and all contents of lexemes", "why_tests_cant": "It speaks of all pairs of trees; a test sees one text at a time, and a text that is ambiguous looks like any other.", "anchors": ["TameParse/Language/formatter.cpp: to_string(const astnode&)", "TameParse/Util/astnode.h"]}
{"id": "C97", "title": "Comparison operators are orders", "statement": "The `<` of every value that is kept in a sorted set or map, or in a container that can be, is irreflexive and transitive, and leaves only equal values in neither order. `==`, `<=`, `>` and `>=` of a type agree with its `<`.", "quantifier": "for all ranges, transitions, lexemes, items, rules, LR(0) and LR(1) items, states, actions, conflicts, accept actions and nodes of syntax trees, with any members and any depth", "why_tests_cant": "A comparison that is no order makes a set lose or repeat elements only for certain triples of values and orders of insertion; the tests compare a few pairs.", "anchors": ["TameParse/Dfa/range.h", "TameParse/Dfa/transition.cpp", "TameParse/Dfa/lexeme.cpp: operator<", "TameParse/Util/astnode.cpp: operator<", "TameParse/ContextFree/rule.cpp: operator<", "TameParse/Lr/lr_item.cpp", "TameParse/Lr/lr_item.h", "TameParse/Lr/lr_state.h", "TameParse/Lr/lr_action.h", "TameParse/Lr/lalr_builder.h: lr_item_id", "TameParse/Lr/conflict.cpp: operator<", "TameParse/Compiler/lexer_stage.cpp: language_accept_action"]}
{"id": "C98", "title": "The bootstrapper reads definitions as the finished parser does", "statement": "Whatever file the grammar that is built into the bootstrapper accepts, it reads from the syntax tree without using a child or a lexeme that is not there, and the languages and parsers that come out are the ones that the finished parser of definitions makes of the same text: the same symbols, rules, identifiers, attributes and errors.", "quantifier": "for all syntax trees of the bootstrapper's grammar; for all files of languages and parsers that this grammar can express, with items nested to any depth, and all states of the compiler that a language starts from", "why_tests_cant": "The two readers make different definitions of the same text, so comparing them fails, and the tests compare only the outcome for the one definition of the language itself.", "anchors": ["TameParse/Language/bootstrap.cpp: create_grammar", "TameParse/Language/bootstrap.cpp: get_definition", "TameParse/Language/bootstrap.cpp: get_parser_block", "TameParse/Language/bootstrap.cpp: get_language_defn", "TameParse/Language/bootstrap.cpp: get_lexer_block", "TameParse/Language/bootstrap.cpp: get_grammar_block", "TameParse/Language/bootstrap.cpp: get_ebnf_item", "TameParse/Language/language_parser.cpp", "TameParse/Compiler/language_stage.cpp: compile_item"]}
{"id": "C99", "title": "What the formatter prints of items, states, conflicts, grammars and machines says which they are", "statement": "Two grammar items, item sets, LR(0) items, LR(1) items, states, parser actions, conflicts, grammars or machines that the formatter prints alike are the same: no nesting of alternatives, options, repetitions and guards, no place of the dot, no lookahead and no name is printed as another one.", "quantifier": "for all items nested to any depth, all rules and dots, all sets, lookaheads, states, actions, conflicts, grammars and machines over any names written as definitions write them (identifiers, nonterminals, strings without a quotation mark inside, characters), no two of them the same", "why_tests_cant": "The text is read by people who look for conflicts; that no two of infinitely many nested items share a text cannot be seen from samples, and the tests do not look at the text.", "anchors": ["TameParse/Language/formatter.cpp: to_string", "TameParse/Language/definition.tp", "TameParse/ContextFree/ebnf_items.cpp: get_rule", "TameParse/Lr/lr_action.h: action_type"]}
{"id": "C100", "title": "The JSON example writes the tokens it has read", "statement": "For an input that is an object of the grammar of the JSON example, the parser that TameParse makes of json.tp accepts, the syntax tree is walked without using a member that is not there, and the text that is written divides into the tokens of the input again, with the same contents and in the same order; any other input is a syntax error. Newlines and indentation follow from the tokens before them. What is written does not depend on the whitespace of the input, formatting it again changes nothing, and the program always comes to an end.", "quantifier": "for all inputs of any length whose lexemes have contents that the definitions of json.tp match, nested to any depth", "why_tests_cant": "That no two neighbouring tokens of the output run together and that no null member is used depends on every combination of values and nesting; the example has no tests of its output, and the tests in json.tp have no arrays.", "anchors": ["Examples/JsonPrettyPrinter/json.tp", "Examples/JsonPrettyPrinter/json_format.cpp: main, pretty_print, indent", "TameParse/Parse/parser.h: parse"]}
{"id": "C101", "title": "Messages of the console can be read again", "statement": "Every report that is not suppressed is written once and in order, messages and information to the output and the others to the error stream, and only then can it set the exit code. From what is on the error stream one can read which files, lines, columns, severities and descriptions the reports had (and identifiers, if they are shown), for names of files without a colon before a space, identifiers without a closing bracket and texts without newlines. Nothing is written there just if all reports are suppressed, and errors never are.", "quantifier": "for all sequences of reports of any length, all names, descriptions, positions and settings of the options", "why_tests_cant": "Whether two different sequences of reports can have the same text is a question about all pairs of sequences; the tests do not look at the text of reports at all.", "anchors": ["TameParse/Compiler/std_console.cpp: report_error, verbose_stream, get_option", "TameParse/Compiler/error.h: error"]}
