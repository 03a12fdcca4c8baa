{
 "claims": [
  {
   "property": "C01",
   "status": "proved",
   "theorems": [
    "TameParse.SymSet.symbol_set_union_is_union",
    "TameParse.SymSet.symbol_set_history_correct"
   ],
   "note": "Holds for every history of operations built from non-empty ranges."
  },
  {
   "property": "C02",
   "status": "proved",
   "theorems": [
    "TameParse.SymSet.symbol_set_exclude_is_difference",
    "TameParse.SymSet.symbol_set_history_correct",
    "TameParse.SymSet.exclude_empty_range_breaks_canonical_form"
   ],
   "note": "Excluded range must be non-empty; the third theorem shows the precondition is needed."
  },
  {
   "property": "C03",
   "status": "proved",
   "theorems": [
    "TameParse.SymSet.symbol_set_complement",
    "TameParse.SymSet.symbol_set_history_correct",
    "TameParse.SymSet.invert_negative_symbol_yields_inverted_range"
   ],
   "note": "For symbols in [0, 0x7fffffff); negative symbols break the complement (third theorem)."
  },
  {
   "property": "C04",
   "status": "proved",
   "theorems": [
    "TameParse.SymSet.symbol_set_order_extensional",
    "TameParse.SymSet.symbol_set_lookup"
   ],
   "note": "Equality, order and lookup of canonical sets."
  },
  {
   "property": "C05",
   "status": "proved",
   "theorems": [
    "TameParse.symbol_map_identifiers_stable"
   ],
   "note": "Any sequence of registrations before and after."
  },
  {
   "property": "C06",
   "status": "partial",
   "theorems": [
    "TameParse.deduplicate_splits_without_loss_violated",
    "TameParse.deduplicate_splits_without_loss_partial",
    "TameParse.deduplicate_single_ranges_partial"
   ],
   "note": "Violated by the code: add_set fills gaps past the end of the range being added. Proved for maps where no range ends inside a gap between earlier ranges after meeting one of them, and for all maps of single-range sets."
  },
  {
   "property": "C07",
   "status": "partial",
   "theorems": [
    "TameParse.Ndfa.unique_symbols_preserve_automaton_violated",
    "TameParse.Ndfa.unique_symbols_preserve_automaton_partial"
   ],
   "note": "Violated through the add_set defect (C06). Proved for every automaton whose symbol sets meet the C06 condition."
  },
  {
   "property": "C08",
   "status": "proved",
   "theorems": [
    "TameParse.Ndfa.closure_exact",
    "TameParse.Ndfa.built_wf"
   ],
   "note": "Includes termination. built_wf shows the hypothesis holds for every automaton built with the public operations."
  },
  {
   "property": "C09",
   "status": "proved",
   "theorems": [
    "TameParse.Ndfa.subset_construction_correct"
   ],
   "note": "Includes termination, determinism, verify_is_dfa and the effect of eager actions."
  },
  {
   "property": "C10",
   "status": "proved",
   "theorems": [
    "TameParse.Ndfa.merged_symbols_preserve_dfa",
    "TameParse.Ndfa.merged_symbols_nondeterministic_violated"
   ],
   "note": "Proved for every DFA (the only use in the code). The doc comment also promises the result for NDFAs; the second theorem refutes that part."
  },
  {
   "property": "C100",
   "status": "partial",
   "theorems": [
    "TameParse.Json.format_tokens",
    "TameParse.Json.format_error",
    "TameParse.Json.format_total",
    "TameParse.Json.format_text",
    "TameParse.Json.format_layout",
    "TameParse.Json.format_again",
    "TameParse.Json.format_texts",
    "TameParse.Json.matches_unique",
    "TameParse.Json.json_number",
    "TameParse.Json.stage_gram",
    "TameParse.Json.definitions_errors",
    "TameParse.Json.definitions_symbols",
    "TameParse.Json.texts",
    "TameParse.Json.definitions_match",
    "TameParse.Json.comma_violated"
   ],
   "note": "Proved for all inputs in terms of the tokens that json.tp defines. Violated is that these are the tokens of JSON: the dot in the definition of fractions is not quoted, so two numbers with a comma between them are one number."
  },
  {
   "property": "C101",
   "status": "partial",
   "theorems": [
    "TameParse.Console.run_eq",
    "TameParse.Console.message_iff_partial",
    "TameParse.Console.err_read_partial",
    "TameParse.Console.err_empty",
    "TameParse.Console.detail_violated",
    "TameParse.Console.file_violated",
    "TameParse.Console.severity_violated"
   ],
   "note": "Proved for all reports whose texts can be told apart (Legible). Violated (with witnesses): details of suppressed warnings are written without them, names of files with a colon before a space can be taken for descriptions, and messages can look like errors if the streams are not told apart."
  },
  {
   "property": "C11",
   "status": "partial",
   "theorems": [
    "TameParse.Ndfa.compact_dfa_preserves_language_violated",
    "TameParse.Ndfa.compact_dfa_preserves_language_partial"
   ],
   "note": "Violated: the lowest accepting state joins the non-accepting group (off by one) and (aa)+ becomes the empty language. Proved, with termination, when that state differs in its outgoing symbol sets from every non-accepting state."
  },
  {
   "property": "C12",
   "status": "proved",
   "theorems": [
    "TameParse.Ndfa.state_machine_rows_agree",
    "TameParse.Ndfa.state_machine_runs_dfa"
   ],
   "note": "Flat and compact tables, any sorting function, symbol translator as a parameter."
  },
  {
   "property": "C13",
   "status": "partial",
   "theorems": [
    "TameParse.Node.symbol_table_correct_iff",
    "TameParse.Node.lookup_sound",
    "TameParse.SymbolMap.symbol_translator_correct_partial",
    "TameParse.SymbolMap.symbol_translator_correct_violated",
    "TameParse.SymbolMap.symbol_translator_alias_violated"
   ],
   "note": "Violated for ranges meeting at a block boundary and for symbols that do not fit in the table. The first theorem is an exact characterisation of the correct tables; lookup_sound holds always."
  },
  {
   "property": "C14",
   "status": "partial",
   "theorems": [
    "TameParse.Node.hard_coded_table_agrees_partial",
    "TameParse.Node.hard_coded_table_high_symbols_violated",
    "TameParse.Node.hard_coded_table_size_violated"
   ],
   "note": "Violated: every symbol from 256 up in a partly used block is lost, and a range ending at a block boundary makes the generator allocate a negative size. Proved for symbols below 256 when generation succeeds."
  },
  {
   "property": "C15",
   "status": "partial",
   "theorems": [
    "TameParse.LexMachine.lexing_lossless",
    "TameParse.LexMachine.lexing_reaches_end",
    "TameParse.LexMachine.lexing_lossless_char_violated",
    "TameParse.LexMachine.char_symbols"
   ],
   "note": "Holds for every machine and every symbol stream without the value -3. Violated for char streams: byte 0xFD reads as the end of the input."
  },
  {
   "property": "C16",
   "status": "proved",
   "theorems": [
    "TameParse.LexMachine.lexing_longest_match",
    "TameParse.LexMachine.accept_priority",
    "TameParse.LexMachine.next_spec"
   ],
   "note": "For every machine, stream position and initial state."
  },
  {
   "property": "C17",
   "status": "proved",
   "theorems": [
    "TameParse.LexMachine.lexeme_positions"
   ],
   "note": "Also across changes of the initial state between lexemes."
  },
  {
   "property": "C18",
   "status": "proved",
   "theorems": [
    "TameParse.Tracker.lines_and_columns",
    "TameParse.final_pos_correct",
    "TameParse.position_order"
   ],
   "note": "Counters are natural numbers."
  },
  {
   "property": "C19",
   "status": "partial",
   "theorems": [
    "TameParse.Tracker.offset_counts_characters_partial",
    "TameParse.Tracker.offset_closed_form",
    "TameParse.Tracker.offset_counts_characters_violated"
   ],
   "note": "Violated by every text with CR, VT, FF, NEL, LS or PS; exact value of the offset proved for all texts."
  },
  {
   "property": "C20",
   "status": "partial",
   "theorems": [
    "TameParse.Regex.regex_language_partial",
    "TameParse.Regex.regex_alone_partial",
    "TameParse.Regex.star_star_violated",
    "TameParse.Regex.option_star_violated",
    "TameParse.Regex.alternative_star_violated",
    "TameParse.Regex.empty_class_violated",
    "TameParse.Regex.alternative_start_violated",
    "TameParse.Regex.self_reference_violated",
    "TameParse.Regex.octal_escapes",
    "TameParse.Regex.hex_escapes",
    "TameParse.Regex.octal_digit_violated",
    "TameParse.Regex.dash_class",
    "TameParse.Regex.dash_class_matches",
    "TameParse.Regex.dash_violated"
   ],
   "note": "Violated: a*b* accepts \"ba\", (ab*)? accepts \"b\", (a|b*) accepts \"ba\", [] accepts the empty string, top-level alternatives outside state 0 start in state 0, self-referring definitions do not terminate. Proved for every expression (all escapes, classes, groups, options, repetitions, alternatives, named expressions, literals and categories) that does not put repetitions next to each other in these ways, case sensitive."
  },
  {
   "property": "C21",
   "status": "proved",
   "theorems": [
    "TameParse.Regex.literal_language",
    "TameParse.Regex.literal_empty"
   ],
   "note": "Case sensitive; code points above 0xffff as UTF-16."
  },
  {
   "property": "C22",
   "status": "partial",
   "theorems": [
    "TameParse.Regex.surrogates_exact_partial",
    "TameParse.Regex.surrogates_several",
    "TameParse.Regex.surrogates_clipped",
    "TameParse.Regex.surrogates_violated"
   ],
   "note": "Violated by every range with more than one high surrogate (exact description of what is accepted instead); proved for every range within one."
  },
  {
   "property": "C23",
   "status": "partial",
   "theorems": [
    "TameParse.Utf8.utf8_ascii_partial",
    "TameParse.Utf8.utf8_primed_partial",
    "TameParse.Utf8.utf8_violated",
    "TameParse.Utf8.utf8_four_bytes_violated",
    "TameParse.Utf8.utf8_sound"
   ],
   "note": "Violated by every text with a character that is not ASCII: the lead byte is classified by the old content of the output variable. Proved for ASCII texts, and for two and three byte characters when that variable happens to hold the right bits."
  },
  {
   "property": "C24",
   "status": "partial",
   "theorems": [
    "TameParse.CaseMap.convert_range_exact_partial",
    "TameParse.CaseMap.convert_exact_partial",
    "TameParse.CaseMap.convert_range_violated"
   ],
   "note": "Violated by ranges that start inside a table entry and go past its end. Proved for all other ranges, every table and whole sets."
  },
  {
   "property": "C25",
   "status": "partial",
   "theorems": [
    "TameParse.PtrHeap.refcount_exact_partial",
    "TameParse.PtrHeap.assign_roots_allowed",
    "TameParse.PtrHeap.assign_field_violated",
    "TameParse.PtrHeap.list_head_violated"
   ],
   "note": "Violated by p = p->q when p is the last pointer to the object. Proved for every program whose assignments do not let go of the object that holds their source or target, including self-assignment, aliasing and cycles."
  },
  {
   "property": "C26",
   "status": "proved",
   "theorems": [
    "TameParse.ItemSet.item_set_exact"
   ],
   "note": ""
  },
  {
   "property": "C27",
   "status": "partial",
   "theorems": [
    "TameParse.ItemSet.comparison_extensional_partial",
    "TameParse.ItemSet.comparison_violated",
    "TameParse.ItemSet.eq_members",
    "TameParse.ItemSet.lt_strict"
   ],
   "note": "Violated after an erase: the comparison looks at the capacity of the sets. Proved for sets that only grow."
  },
  {
   "property": "C28",
   "status": "partial",
   "theorems": [
    "TameParse.GrammarIds.rule_ids_exact",
    "TameParse.GrammarIds.item_ids_partial",
    "TameParse.GrammarIds.nonterminal_ids_violated"
   ],
   "note": "Proved for rules without restriction. For items violated: naming a nonterminal overwrites the identifier of an item registered under the same number. Proved when explicit nonterminals have numbers that were issued before."
  },
  {
   "property": "C29",
   "status": "partial",
   "theorems": [
    "TameParse.GrammarIds.nonterminal_ids_partial",
    "TameParse.GrammarIds.nonterminal_ids_violated"
   ],
   "note": "Violated when a nonterminal was registered under the number the next name gets: two names then share an identifier. Proved otherwise."
  },
  {
   "property": "C30",
   "status": "partial",
   "theorems": [
    "TameParse.TerminalDict.terminal_dictionary_partial",
    "TameParse.TerminalDict.terminal_dictionary_violated",
    "TameParse.TerminalDict.terminal_dictionary_loop_violated"
   ],
   "note": "Violated when a name is added twice; splitting symbols that were never added can make name_for_symbol loop. Proved when names are added once, explicit values are unused and only added symbols are split."
  },
  {
   "property": "C31",
   "status": "partial",
   "theorems": [
    "TameParse.Gram.first_sound_partial",
    "TameParse.Gram.firstForRule_sound_partial",
    "TameParse.Gram.first_answers",
    "TameParse.Gram.first_sound_violated"
   ],
   "note": "Violated by EBNF repetitions and alternatives whose body begins with something that can be empty, such as (a? b)+. Proved for all grammars without such bodies, in every query order; every query terminates."
  },
  {
   "property": "C32",
   "status": "partial",
   "theorems": [
    "TameParse.Gram.first_complete_partial",
    "TameParse.Gram.first_complete_violated",
    "TameParse.Gram.first_complete_empty_violated",
    "TameParse.Gram.first_complete_ebnf_violated",
    "TameParse.Gram.first_order_violated"
   ],
   "note": "Violated by left recursion (List -> List item | empty lacks item; sets depend on the query order), by an empty rule before a rule that begins with something that can be empty, and by EBNF bodies of the same kind. Proved for the other grammars."
  },
  {
   "property": "C33",
   "status": "proved",
   "theorems": [
    "TameParse.Lr1Set.lr1_item_set_exact",
    "TameParse.Lr1Set.insert_spec"
   ],
   "note": ""
  },
  {
   "property": "C34",
   "status": "proved",
   "theorems": [
    "TameParse.ParserTables.action_lookup_exact",
    "TameParse.ParserTables.action_order",
    "TameParse.ParserTables.end_of_guard_exact",
    "TameParse.ParserTables.strong_for_weak_exact",
    "TameParse.ParserTables.count_exact"
   ],
   "note": "For any std::sort. Assumes fewer than 2^24 states and rules (the width of the field) and that the grammar returns the rules it numbered (C28)."
  },
  {
   "property": "C35",
   "status": "proved",
   "theorems": [
    "TameParse.Sound.parser_sound",
    "TameParse.Sound.parse_sound",
    "TameParse.Sound.accepted_derives",
    "TameParse.Sound.read_eq",
    "TameParse.Sound.Forest.derives",
    "TameParse.Sound.pointer_sound",
    "TameParse.Sound.no_divert"
   ],
   "note": "The states are those of C51 with the actions of C57 after any choice of the rewriters, in the tables of C33. Guards stand for no tokens. Each weak symbol has one strong symbol, numbers of items are distinct, table fields fit in 24 bits."
  },
  {
   "property": "C36",
   "status": "partial",
   "theorems": [
    "TameParse.Sound.parser_complete_partial",
    "TameParse.Sound.parser_decides_partial",
    "TameParse.Sound.parse_complete",
    "TameParse.Sound.forest_of_derives",
    "TameParse.Sound.pointer_decides",
    "TameParse.Sound.complete_violated"
   ],
   "note": "Violated as stated: FIRST sets of left recursive items are incomplete, so sentences are rejected without a reported conflict. Proved for grammars with complete FIRST sets (C32), no guards, no precedences, attributes, weak symbols or LR(1) resolution, and no state that both accepts and reduces at the end of input (not reported as a conflict, C46)."
  },
  {
   "property": "C37",
   "status": "partial",
   "theorems": [
    "TameParse.Sound.parser_terminates_partial",
    "TameParse.Sound.parser_total_partial",
    "TameParse.Sound.parse_ends",
    "TameParse.Sound.path_stops",
    "TameParse.Sound.pointer_total",
    "TameParse.Sound.terminates_violated"
   ],
   "note": "Violated as stated: the parser of S -> S | a loops although no conflict is reported, because a reduction beside accept is not counted. Proved with that case excluded, for grammars without guards with complete and sound FIRST sets and languages without precedence, weak symbols and attributes."
  },
  {
   "property": "C38",
   "status": "proved",
   "theorems": [
    "TameParse.Sound.ignored_no_effect_grammar",
    "TameParse.Parser.ignored_no_effect_built",
    "TameParse.Parser.ignored_no_effect",
    "TameParse.Sound.pointer_ignored"
   ],
   "note": "For every grammar with FIRST sets that hold only its items, every choice of rewriters, guards and weak symbols; ignored symbols are terminals that no rule uses and that are not also weak symbols. Inputs that differ in ignored tokens end in the same way with the same stack of trees, or both run forever, or both are undefined."
  },
  {
   "property": "C39",
   "status": "proved",
   "theorems": [
    "TameParse.ParserStack.stack_persistent",
    "TameParse.ParserStack.stack_persistent_all",
    "TameParse.ParserStack.depth_one_endless"
   ],
   "note": "For initial depths of at least 2 (the default is 64; with 1 the first push never returns, proved). Any interleaving of push, pop, copy and assign, and destruction of the newest reference; for other destruction orders see C40."
  },
  {
   "property": "C40",
   "status": "partial",
   "theorems": [
    "TameParse.ParserStack.freed_iff_no_reference_partial",
    "TameParse.ParserStack.freed_early_violated",
    "TameParse.ParserStack.entries_reused_violated"
   ],
   "note": "Violated: the copy constructor never links the old root back to the new one, so destroying an older reference unlinks the newer ones: the storage is freed under them, or their entries are collected and reused. Proved when the newest reference is destroyed first."
  },
  {
   "property": "C41",
   "status": "proved",
   "theorems": [
    "TameParse.Session.sessions_independent",
    "TameParse.Session.session_freed",
    "TameParse.Session.next_trims"
   ],
   "note": "The states' parser stacks are C39/C40. A state may call next only when the token has been looked at, as its comment demands (at the end of the input next erases past the buffer)."
  },
  {
   "property": "C42",
   "status": "partial",
   "theorems": [
    "TameParse.Parser.can_reduce_partial",
    "TameParse.Parser.can_reduce_in_bounds_partial",
    "TameParse.Parser.can_reduce_outside_violated",
    "TameParse.Parser.can_reduce_endless_violated"
   ],
   "note": "Whenever can_reduce answers, the answer is right. Violated: after a reduction the end of the first row is still the one compared with, so entries after the end of another row are read (in bounds if every row has an entry for a greater symbol); and with a cyclic grammar there is no answer."
  },
  {
   "property": "C43",
   "status": "partial",
   "theorems": [
    "TameParse.Rewriters.weak_rewrite_partial",
    "TameParse.Rewriters.weak_rewrite_exact",
    "TameParse.Rewriters.weak_rewrite_none",
    "TameParse.Rewriters.weak_adds_only",
    "TameParse.Rewriters.weak_gets_strong_violated"
   ],
   "note": "The exact effect of the rewriter is proved. As stated the property fails: the count of actions of a weak symbol is compared with < 0 and never drops below 0 (weak_symbols.cpp 286), so a weak symbol that has only reductions never receives the actions of its strong equivalent. A state with no strong symbol that has weak equivalents is left alone, as documented."
  },
  {
   "property": "C44",
   "status": "proved",
   "theorems": [
    "TameParse.Rewriters.ignored_rewrite_exact",
    "TameParse.Rewriters.ignored_has_action"
   ],
   "note": ""
  },
  {
   "property": "C45",
   "status": "proved",
   "theorems": [
    "TameParse.Rewriters.precedence_exact"
   ],
   "note": "The action set is assumed to have no duplicates, as std::set does. The precedence of a rule is that of its only operator, as in the code; the header says 'final terminal item'."
  },
  {
   "property": "C46",
   "status": "partial",
   "theorems": [
    "TameParse.Rewriters.conflicts_reported_partial",
    "TameParse.Rewriters.accept_conflict_unreported_violated"
   ],
   "note": "A report is given for exactly the symbols with two different shifts or strong reductions, provided that the items involved are found (a parameter). Accept actions are left out by the code, so an accept/reduce conflict (S -> S | a) is not reported."
  },
  {
   "property": "C47",
   "status": "proved",
   "theorems": [
    "TameParse.Rewriters.lr1_exact",
    "TameParse.Rewriters.lr1_keeps",
    "TameParse.Rewriters.lr1_adds_nothing",
    "TameParse.Rewriters.lr1_one_strong",
    "TameParse.Rewriters.lr1_targets_disjoint"
   ],
   "note": "For every assignment of target states; what the source assigns is the subject of C89."
  },
  {
   "property": "C48",
   "status": "proved",
   "theorems": [
    "TameParse.ParserTables.copy_exact",
    "TameParse.ParserTables.assign_exact",
    "TameParse.ParserTables.build_wellFormed"
   ],
   "note": "Arrays at least as long as the counts say, which the constructed tables are. A copy of static tables is never freed (m_DeleteTables is copied); memory is not part of the model."
  },
  {
   "property": "C49",
   "status": "proved",
   "theorems": [
    "TameParse.StringReader.string_reader_exact"
   ],
   "note": ""
  },
  {
   "property": "C50",
   "status": "partial",
   "theorems": [
    "TameParse.Container.container_order_partial",
    "TameParse.Container.container_order_violated",
    "TameParse.Container.container_order_always"
   ],
   "note": "Violated: both operators compare the object with itself and are always true. Proved: > is the converse of <, and equal objects compare correctly."
  },
  {
   "property": "C51",
   "status": "proved",
   "theorems": [
    "TameParse.Lalr.lr0_states_exact",
    "TameParse.Lalr.lr0_states_terminate",
    "TameParse.Lalr.createClosure_exact",
    "TameParse.Lalr.closOk_cache"
   ],
   "note": "For grammars whose items are finite in number and none of which is an explicit empty item, with the closures of C56."
  },
  {
   "property": "C52",
   "status": "proved",
   "theorems": [
    "TameParse.Lalr.propagation_exact",
    "TameParse.Lalr.propagation_terminates",
    "TameParse.Lalr.lookaheads_exact",
    "TameParse.Lalr.lookaheads_terminate",
    "TameParse.Lalr.selfOk_cache"
   ],
   "note": "The loop is exact and ends for every machine and every propagation relation; for the machines of C51 the lookaheads it leaves are those of the LR(1) items (closure and goto with lookahead, merged over states with the same kernel)."
  },
  {
   "property": "C53",
   "status": "partial",
   "theorems": [
    "TameParse.Ndfa.generated_tables_agree_violated",
    "TameParse.Ndfa.generated_tables_agree_partial"
   ],
   "note": "Violated: the end offset is not written, so the last state with transitions (and any later one) is looked up past the table. Proved for every state before the last one with transitions."
  },
  {
   "property": "C54",
   "status": "partial",
   "theorems": [
    "TameParse.Ndfa.compiled_lexer_splits_partial",
    "TameParse.Ndfa.compiled_lexer_correct_partial"
   ],
   "note": "Conditional on the cases in which overlap removal (C06) and the symbol table (C13) are right."
  },
  {
   "property": "C55",
   "status": "partial",
   "theorems": [
    "TameParse.Regex.lexer_language_partial",
    "TameParse.Regex.lexer_end_to_end_partial"
   ],
   "note": "From expression texts to lexemes. Conditional on C20's class of expressions; the tables also on the conditions of C54."
  },
  {
   "property": "C56",
   "status": "proved",
   "theorems": [
    "TameParse.Closure.closure_exact",
    "TameParse.Closure.closure_terminates",
    "TameParse.Closure.cacheClosure_post",
    "TameParse.Closure.closure_empty_violated"
   ],
   "note": "closure_exact is for any combination of flags; closure_terminates for flags shared by equal items. closure_empty_violated shows why explicit empty items are excluded: the cache then has the wrong item."
  },
  {
   "property": "C57",
   "status": "proved",
   "theorems": [
    "TameParse.Lalr.generateClosure_exact",
    "TameParse.Lalr.generateClosure_terminates",
    "TameParse.Lalr.actions_exact",
    "TameParse.Lalr.actions_shape"
   ],
   "note": "For the machines of C51 with the lookaheads of C52; the initial symbols of a guard (guard::initial) are a parameter."
  },
  {
   "property": "C58",
   "status": "partial",
   "theorems": [
    "TameParse.Rewriters.attributes_exact",
    "TameParse.Rewriters.attributes_resolve_partial",
    "TameParse.Rewriters.attributes_weak_violated"
   ],
   "note": "Exact for the tokens of the grammar. Violated for weak equivalents: the weak copies of the actions are made first and the attributes then find no item that shifts the weak token."
  },
  {
   "property": "C59",
   "status": "proved",
   "theorems": [
    "TameParse.Language.language_means",
    "TameParse.Language.Example.foreign_terminal_violated"
   ],
   "note": "Stated for definitions that refer to no other language and for languages in which no symbol is defined twice; the first condition is needed (foreign_terminal_violated). Precedence blocks are not part of the model."
  },
  {
   "property": "C60",
   "status": "proved",
   "theorems": [
    "TameParse.WeakLexer.accept_priority",
    "TameParse.WeakLexer.symbol_order"
   ],
   "note": "symbol_order is stated for one language block without add and replace, as the property says."
  },
  {
   "property": "C61",
   "status": "partial",
   "theorems": [
    "TameParse.WeakLexer.weak_fallback_partial",
    "TameParse.WeakLexer.strong_unique",
    "TameParse.WeakLexer.no_split",
    "TameParse.WeakLexer.Example.weak_fallback_violated",
    "TameParse.WeakLexer.Example.split_symbol_violated"
   ],
   "note": "Violated: with inherited languages the strong symbol with the lowest number need not be the one that the lexer prefers, and split symbols are unknown to the grammar. Proved when the numbers of the strong symbols of a state follow their kinds."
  },
  {
   "property": "C62",
   "status": "partial",
   "theorems": [
    "TameParse.WeakLexer.symbols_told_apart_partial",
    "TameParse.WeakLexer.IgnoredExample.guarded_ignored_violated"
   ],
   "note": "Violated for terminals in guards; proved for terminals that occur outside of guards."
  },
  {
   "property": "C63",
   "status": "partial",
   "theorems": [
    "TameParse.Sound.language_parser_partial",
    "TameParse.Sound.pointerLang_total"
   ],
   "note": "For grammars without guards, weak symbols that clash, precedences and conflict attributes, and with FIRST sets that are sound and complete (C32)."
  },
  {
   "property": "C64",
   "status": "partial",
   "theorems": [
    "TameParse.Sound.precedence_tree_partial",
    "TameParse.Sound.precedence_exact_partial",
    "TameParse.Sound.precedence_decides_partial",
    "TameParse.Sound.expr_exact",
    "TameParse.Sound.expr_decides"
   ],
   "note": "For one precedence block and no weak symbols, guards, conflict attributes or LR(1) resolver. The equivalence is for expressions with binary operators and complete FIRST sets (C32); that trees respect the precedences is for all grammars."
  },
  {
   "property": "C65",
   "status": "proved",
   "theorems": [
    "TameParse.PrecBlock.block_exact",
    "TameParse.PrecBlock.block_listed",
    "TameParse.PrecBlock.block_level"
   ],
   "note": ""
  },
  {
   "property": "C66",
   "status": "partial",
   "theorems": [
    "TameParse.Ast.generated_tree",
    "TameParse.Ast.generated_tree_partial",
    "TameParse.Ast.buildAll_typed",
    "TameParse.Ast.buildAll_injective",
    "TameParse.Ast.parse_full",
    "TameParse.Ast.listEx_tree",
    "TameParse.Ast.generated_plus_violated"
   ],
   "note": "For grammars in which no + list repeats nothing (for these the generator itself reads outside a vector). Objects are values, so the sharing of list objects between copied parser states is not covered."
  },
  {
   "property": "C67",
   "status": "partial",
   "theorems": [
    "TameParse.Names.identifier_valid",
    "TameParse.Names.symbol_names",
    "TameParse.Names.class_names",
    "TameParse.Names.constant_names_partial",
    "TameParse.Names.identifier_reserved_violated",
    "TameParse.Names.outer_class_violated",
    "TameParse.Names.constant_names_violated",
    "TameParse.Names.short_rule_names",
    "TameParse.Names.long_rule_names_violated"
   ],
   "note": "Class names for all symbols. Constants only for names of which none is another one with _ and a number; the clash otherwise is proved, as are the clash with the name of the parser and reserved identifiers."
  },
  {
   "property": "C68",
   "status": "partial",
   "theorems": [
    "TameParse.Names.class_members_partial",
    "TameParse.Names.body_spec",
    "TameParse.Names.members_list_violated",
    "TameParse.Names.members_etc_violated",
    "TameParse.Names.members_kind_violated",
    "TameParse.Names.members_twice_violated",
    "TameParse.Names.constructors_violated",
    "TameParse.Names.positions_violated",
    "TameParse.Names.member_types_violated"
   ],
   "note": "For items with fitting names, without guards and names in attributes; seven witnesses show that these conditions are needed."
  },
  {
   "property": "C69",
   "status": "partial",
   "theorems": [
    "TameParse.LexerStage.language_lexer_partial",
    "TameParse.LexerStage.language_lexer_accepts_partial",
    "TameParse.LexerStage.automaton_language",
    "TameParse.LexerStage.unused_sound",
    "TameParse.LexerStage.ignored_surrogates_violated"
   ],
   "note": "With the conditions of C07, C11, C13, C20, C61, C88 and C90. That ignored definitions are built without surrogates is proved as a violation."
  },
  {
   "property": "C70",
   "status": "proved",
   "theorems": [
    "TameParse.Guards.parser_guards",
    "TameParse.Guards.checkLoop_spec",
    "TameParse.Guards.Reads.forest",
    "TameParse.Guards.one_accepts"
   ],
   "note": "For all tables that the model makes from a grammar (as in C35); what is proved is that passed guards hold, not that every guard that holds is passed."
  },
  {
   "property": "C71",
   "status": "partial",
   "theorems": [
    "TameParse.Unused.unused_symbols_sound_partial",
    "TameParse.Unused.unused_symbols_complete_partial",
    "TameParse.Unused.UnusedExample.guarded_unused_violated",
    "TameParse.Unused.UnusedExample.inherited_unused_violated"
   ],
   "note": "Violated by symbols in guards and by inherited rules that are replaced (both witnesses). Reported symbols are read by no rule outside guards; definitions that are not reported are read by a rule of the language or of one that it inherits from."
  },
  {
   "property": "C72",
   "status": "partial",
   "theorems": [
    "TameParse.Attrs.rule_attributes_partial",
    "TameParse.Attrs.setLast_attributes",
    "TameParse.Attrs.AttrExample.parens_violated"
   ],
   "note": "Violated by attributes on sequences in parentheses. Attributes of items inside EBNF items and guards are not modelled (equal items are one item for the grammar)."
  },
  {
   "property": "C73",
   "status": "partial",
   "theorems": [
    "TameParse.Strings.dequote_spells",
    "TameParse.Strings.string_round_trip",
    "TameParse.Strings.string_tokens_partial",
    "TameParse.Strings.character_tokens_partial",
    "TameParse.Strings.comment_tokens_partial",
    "TameParse.Strings.spells_total",
    "TameParse.Strings.escaped_backslash_violated",
    "TameParse.Strings.comment_violated",
    "TameParse.Strings.spellings_violated"
   ],
   "note": "Violated by strings that end with a backslash, comments that end with **/, and two spellings of one text. The automata are proved without surrogates."
  },
  {
   "property": "C74",
   "status": "partial",
   "theorems": [
    "TameParse.Definitions.written_defined_partial",
    "TameParse.Definitions.mentioned_defined_partial",
    "TameParse.Definitions.definitions_source_partial",
    "TameParse.Definitions.definition_symbols_partial",
    "TameParse.Definitions.DefinitionExample.replaced_ignored_violated"
   ],
   "note": "Violated by replaced definitions (witness). Missing: what holds for languages with replacements."
  },
  {
   "property": "C75",
   "status": "partial",
   "theorems": [
    "TameParse.Text.text_accepted_partial",
    "TameParse.Text.tokens_unique",
    "TameParse.Text.pointer_text",
    "TameParse.Text.ex_tokens",
    "TameParse.Text.ex_sentence"
   ],
   "note": "With the conditions of C63, C69 and C74, and no production reads an ignored symbol. pointer_text has them all for one language, all texts and all options."
  },
  {
   "property": "C76",
   "status": "partial",
   "theorems": [
    "TameParse.Sound.weak_parser_complete_partial",
    "TameParse.Sound.weak_parser_sentences_partial",
    "TameParse.Sound.weak_parser_decides_partial",
    "TameParse.Sound.get_decides",
    "TameParse.Sound.merged_sentences",
    "TameParse.Sound.weak_conflict_violated",
    "TameParse.Sound.weak_reading_violated"
   ],
   "note": "Violated (witnesses): conflicts on weak symbols are not reported; readings are rejected in merged states. Proved under the condition that weak reductions are the only actions for their tokens. Missing: guards, precedences and conflict attributes."
  },
  {
   "property": "C77",
   "status": "partial",
   "theorems": [
    "TameParse.Files.file_data",
    "TameParse.Files.flags_exact",
    "TameParse.Files.language_blocks",
    "TameParse.Files.tests_written",
    "TameParse.Files.imports_exact",
    "TameParse.Files.imports_end",
    "TameParse.Files.inherits_end",
    "TameParse.Files.imported_language",
    "TameParse.Files.imported_means_partial",
    "TameParse.Files.reference_violated",
    "TameParse.Files.inheritance_violated",
    "TameParse.Files.path_violated"
   ],
   "note": "Violated (witnesses): files with lexeme references are dropped silently, circular inheritance never ends, files in other directories are read twice. Proved for all consoles that read the names of one file alike. Missing in the meaning: definitions naming other languages and symbols defined twice."
  },
  {
   "property": "C78",
   "status": "partial",
   "theorems": [
    "TameParse.Tool.exit_code",
    "TameParse.Tool.tests_exact",
    "TameParse.Tool.tests_end",
    "TameParse.Tool.tests_mean",
    "TameParse.Tool.tests_listed",
    "TameParse.Tool.test_names",
    "TameParse.Tool.text_answers",
    "TameParse.Tool.pointer_tests",
    "TameParse.Tool.choice_exact",
    "TameParse.Tool.tool_code",
    "TameParse.Tool.tool_output",
    "TameParse.Tool.name_violated",
    "TameParse.Tool.undefined_violated",
    "TameParse.Tool.failed_reported"
   ],
   "note": "Violated (witnesses): names longer than 54 characters and undefined nonterminals crash the test stage; tests_end says exactly when it does not. All else is proved. The stages that the tool runs are parameters."
  },
  {
   "property": "C79",
   "status": "partial",
   "theorems": [
    "TameParse.Parser.Agree.parses",
    "TameParse.Written.generated_parser_partial",
    "TameParse.Written.generated_lexer_partial",
    "TameParse.Written.generated_from_build_partial",
    "TameParse.Written.generated_decides_partial",
    "TameParse.Written.name_identifier",
    "TameParse.Written.standard_exact",
    "TameParse.Written.standard_parser",
    "TameParse.Written.standard_lexer_exact",
    "TameParse.Written.empty_arrays_violated",
    "TameParse.Written.standard_violated"
   ],
   "note": "Violated for standard C++ (witness): empty arrays, exactly when standard_exact says. For compilers that accept them everything is proved. The rest of the generated source is not read."
  },
  {
   "property": "C80",
   "status": "partial",
   "theorems": [
    "TameParse.ParserStage.conflicts_exact_partial",
    "TameParse.ParserStage.shiftItems_exact",
    "TameParse.ParserStage.reduceItems_exact",
    "TameParse.ParserStage.kind_partial",
    "TameParse.ParserStage.compile_loud",
    "TameParse.ParserStage.stage_error_partial",
    "TameParse.ParserStage.quiet_decides_partial",
    "TameParse.ParserStage.written_decides_partial",
    "TameParse.ParserStage.kind_violated",
    "TameParse.ParserStage.places_conflict"
   ],
   "note": "Violated for the kind of a conflict (witness). Which conflicts are found is exact for grammars without guards and rewriters; kinds and errors are exact if no rule begins with something that can be empty."
  },
  {
   "property": "C81",
   "status": "partial",
   "theorems": [
    "TameParse.ParserStage.warning_sound",
    "TameParse.ParserStage.warning_named_partial",
    "TameParse.ParserStage.warning_exact",
    "TameParse.ParserStage.guardOn_iff",
    "TameParse.ParserStage.clash_exact_partial",
    "TameParse.ParserStage.head_clash_violated",
    "TameParse.ParserStage.pair_clash_violated"
   ],
   "note": "Violated for guards at the beginning of rules and for pairs of guards that were named before (witnesses); exact for what is in the kernel of a state."
  },
  {
   "property": "C82",
   "status": "partial",
   "theorems": [
    "TameParse.Guards.guard_check_exact_partial",
    "TameParse.Guards.far_check"
   ],
   "note": "For guards without guards inside, one action for a token in the states of the guard, and checks that end."
  },
  {
   "property": "C83",
   "status": "partial",
   "theorems": [
    "TameParse.Guards.guards_decide_partial",
    "TameParse.Guards.guarded_words_partial",
    "TameParse.Guards.far_decides"
   ],
   "note": "For guards without guards inside, where a guard competes only with shifts that are wrong whenever it holds, and inputs on which the parser ends."
  },
  {
   "property": "C84",
   "status": "partial",
   "theorems": [
    "TameParse.Sound.read_viable",
    "TameParse.Sound.error_exact_partial",
    "TameParse.Sound.error_violated",
    "TameParse.Sound.unproductive_read",
    "TameParse.Sound.Ex.error"
   ],
   "note": "That what has been read is the beginning of a sentence is proved for all tables; that the next token is wrong for grammars as in C36. Violated where FIRST sets are incomplete."
  },
  {
   "property": "C85",
   "status": "partial",
   "theorems": [
    "TameParse.Sound.unambiguous_partial",
    "TameParse.Sound.unambiguous_violated",
    "TameParse.Sound.Ex.unambiguous"
   ],
   "note": "For grammars as in C36. Violated where a state both accepts and reduces, which is not reported as a conflict."
  },
  {
   "property": "C86",
   "status": "partial",
   "theorems": [
    "TameParse.GuardCheck.guards_written",
    "TameParse.GuardCheck.ineffective_sound_partial",
    "TameParse.GuardCheck.ineffective_exact_partial",
    "TameParse.GuardCheck.check_total",
    "TameParse.GuardCheck.ReportExample.false_report_violated",
    "TameParse.GuardCheck.ReportExample.missed_report_violated",
    "TameParse.GuardCheck.ReportExample.nested_report_violated",
    "TameParse.GuardCheck.ReportExample.replaced_reported"
   ],
   "note": "Which guards are looked at is proved for all languages without references to others; the reports under the conditions that make FIRST sets right (C31, C32). Violated in both directions otherwise."
  },
  {
   "property": "C87",
   "status": "partial",
   "theorems": [
    "TameParse.Gram.follow_sound_partial",
    "TameParse.Gram.follow_exact_partial",
    "TameParse.Gram.follow_answers",
    "TameParse.Gram.FollowExample.follow_complete_violated",
    "TameParse.Gram.FollowExample.follow_sound_violated"
   ],
   "note": "Violated for symbols that end a repetition, and through FIRST sets of repetitions whose body begins with something that can be empty. Proved sound for grammars without the latter, and exact for grammars without left recursion and symbols that do not end a repetition."
  },
  {
   "property": "C88",
   "status": "partial",
   "theorems": [
    "TameParse.Regex.insensitive_language_partial",
    "TameParse.Regex.insensitive_literal_partial",
    "TameParse.Regex.insensitive_keyword",
    "TameParse.LexerStage.keyword_denotes",
    "TameParse.Regex.insensitive_range_violated",
    "TameParse.Regex.insensitive_negated",
    "TameParse.Regex.insensitive_written_violated"
   ],
   "note": "For the expressions of C20, and sets of characters without a run that begins inside an entry of a table and goes on behind it (violated for these). The tables are not symmetric, proved as a violation."
  },
  {
   "property": "C89",
   "status": "partial",
   "theorems": [
    "TameParse.Lalr.find_source_exact",
    "TameParse.Lalr.find_source_total",
    "TameParse.Lalr.resolved_apart_partial",
    "TameParse.Sound.resolved_empty_violated",
    "TameParse.Sound.resolved_deep_violated",
    "TameParse.Sound.resolved_length_violated"
   ],
   "note": "Proved for two rules with symbols that begin in the same state, directly behind items before their nonterminals. Violated for empty rules, for rules that begin another rule, and for rules of different lengths."
  },
  {
   "property": "C90",
   "status": "partial",
   "theorems": [
    "TameParse.Regex.named_language_partial",
    "TameParse.NamedExprs.named_definitions",
    "TameParse.NamedExprs.named_meaning",
    "TameParse.Regex.named_self_reference_violated",
    "TameParse.NamedExprs.Ex.named_circle_violated"
   ],
   "note": "For the expressions of C20 and C88, and definitions that do not refer to each other in a circle (violated for these)."
  },
  {
   "property": "C91",
   "status": "partial",
   "theorems": [
    "TameParse.RegexCheck.check_exact",
    "TameParse.RegexCheck.check_partial",
    "TameParse.RegexCheck.check_violated",
    "TameParse.RegexCheck.well_written_partial",
    "TameParse.RegexCheck.well_written_violated",
    "TameParse.RegexCheck.literal_names_violated",
    "TameParse.RegexCheck.reported_place",
    "TameParse.RegexCheck.reports_iff",
    "TameParse.Regex.dash_violated"
   ],
   "note": "For expressions in which no bracket is quoted (violated for others); check_exact says for all expressions what is reported. Names of literal expressions are reported wrongly."
  },
  {
   "property": "C92",
   "status": "partial",
   "theorems": [
    "TameParse.UnicodeData.category_partial",
    "TameParse.UnicodeData.category_lines",
    "TameParse.UnicodeData.category_violated",
    "TameParse.UnicodeData.case_tables",
    "TameParse.UnicodeData.similar_iff",
    "TameParse.UnicodeData.names_exact",
    "TameParse.UnicodeData.documented_names",
    "TameParse.UnicodeData.undocumented_violated",
    "TameParse.UnicodeData.unicode_expression_partial"
   ],
   "note": "For files that write no characters as ranges (violated for these; category_lines says what is matched). Undocumented names are taken; names_exact says which."
  },
  {
   "property": "C93",
   "status": "partial",
   "theorems": [
    "TameParse.Spans.positions_partial",
    "TameParse.Spans.parse_erase",
    "TameParse.Spans.empty_list_violated",
    "TameParse.Spans.absent_option_violated",
    "TameParse.Spans.nested_list_violated"
   ],
   "note": "For grammars without guards and without lists directly in lists of the same kind. Violated where an object begins or ends with an empty list or ends with an absent option; positions_partial says what is returned there."
  },
  {
   "property": "C94",
   "status": "partial",
   "theorems": [
    "TameParse.Blocks.copy_agrees_partial",
    "TameParse.Blocks.copy_units",
    "TameParse.Blocks.copy_tests",
    "TameParse.Blocks.copy_iff",
    "TameParse.Blocks.copy_frees_violated",
    "TameParse.Blocks.assign_violated",
    "TameParse.Blocks.assign_self_violated",
    "TameParse.Blocks.assign_agrees",
    "TameParse.Blocks.assign_type_violated",
    "TameParse.Blocks.mem_frees",
    "TameParse.Blocks.deleted_twice_violated"
   ],
   "note": "Violated: copies lose types, flags and positions, and delete precedence items twice. copy_agrees_partial says what a copy keeps; copy_iff which files are copied exactly."
  },
  {
   "property": "C95",
   "status": "partial",
   "theorems": [
    "TameParse.Blocks.place_addChild",
    "TameParse.Blocks.children_inside_partial",
    "TameParse.Blocks.first_child",
    "TameParse.Blocks.children_final_violated",
    "TameParse.Blocks.items_inside_partial",
    "TameParse.Blocks.items_start_violated",
    "TameParse.Blocks.File.Made.place_of"
   ],
   "note": "Holds for parts inside the position of the whole, and for the first part of an item without a position. Violated for parts that leave it."
  },
  {
   "property": "C96",
   "status": "partial",
   "theorems": [
    "TameParse.Format.print_partial",
    "TameParse.Format.print_violated",
    "TameParse.Format.label_item"
   ],
   "note": "For labels without newlines; violated by lexemes that contain one."
  },
  {
   "property": "C97",
   "status": "partial",
   "theorems": [
    "TameParse.Orders.range_order",
    "TameParse.Orders.range_le",
    "TameParse.Orders.transition_order",
    "TameParse.Orders.transition_le_violated",
    "TameParse.Orders.lexeme_order",
    "TameParse.Orders.item_order",
    "TameParse.Orders.rule_order",
    "TameParse.Orders.lr0_order",
    "TameParse.Orders.lr0_eq",
    "TameParse.Orders.lr1_order",
    "TameParse.Orders.lr1_eq",
    "TameParse.Orders.lr1_le",
    "TameParse.Orders.lr1_gt_violated",
    "TameParse.Orders.state_order",
    "TameParse.Orders.state_eq_exact",
    "TameParse.Orders.state_items_partial",
    "TameParse.Orders.state_items_violated",
    "TameParse.Orders.action_order",
    "TameParse.Orders.itemId_order",
    "TameParse.Orders.conflict_order",
    "TameParse.Orders.accept_order",
    "TameParse.Orders.accept_violated",
    "TameParse.Orders.accept_eq_partial",
    "TameParse.Orders.accept_eq_violated",
    "TameParse.Orders.node_violated",
    "TameParse.Orders.node_order_partial"
   ],
   "note": "Violated by nodes of syntax trees (proved for trees without lexemes), accept actions of different classes (proved for those of a language), the == of accept actions, <= and > of transitions and > of LR(1) items. All other comparisons are proved."
  },
  {
   "property": "C98",
   "status": "partial",
   "theorems": [
    "TameParse.Bootstrap.reads_partial",
    "TameParse.Bootstrap.reads_safe",
    "TameParse.Bootstrap.reads_iff",
    "TameParse.Bootstrap.trees_fit",
    "TameParse.Bootstrap.starts_violated",
    "TameParse.Bootstrap.inherits_violated",
    "TameParse.Bootstrap.reference_violated"
   ],
   "note": "Violated by the order of start symbols and by definitions that inherit or refer to other languages, which are accepted and give no definition. Proved for all others; that the parser makes the trees of its grammar is not derived from the tables."
  },
  {
   "property": "C99",
   "status": "partial",
   "theorems": [
    "TameParse.Show.item_text",
    "TameParse.Show.rule_text_partial",
    "TameParse.Show.set_text",
    "TameParse.Show.lr0_text",
    "TameParse.Show.lr1_text_partial",
    "TameParse.Show.state_text",
    "TameParse.Show.action_text_partial",
    "TameParse.Show.conflict_text",
    "TameParse.Show.written_clear",
    "TameParse.Show.written_noEmpty",
    "TameParse.Show.priority_violated",
    "TameParse.Show.divert_violated",
    "TameParse.Show.lr1_violated",
    "TameParse.Show.grammar_text",
    "TameParse.Show.grammar_eq",
    "TameParse.Show.machine_text",
    "TameParse.Show.builder_text",
    "TameParse.Show.written_state",
    "TameParse.Show.full_text_partial",
    "TameParse.Show.full_eq",
    "TameParse.Show.machine_full_partial",
    "TameParse.Show.builder_full_partial",
    "TameParse.Show.nodes_eq",
    "TameParse.Show.nodes_full_eq",
    "TameParse.Show.conflict_eq"
   ],
   "note": "Violated by priorities of guards and by the states of divert actions, which are not printed, and by a lookahead called empty. Proved otherwise for guards without a priority and EBNF items with one rule (alternatives: any number)."
  }
 ]
}