import Verif.SymbolSetProps
import Verif.SymbolMapProps
import Verif.NdfaProps
import Verif.StateMachineProps
import Verif.CompactProps
import Verif.SymbolTableProps
import Verif.HardCodedProps
import Verif.PositionProps
import Verif.LexerProps
import Verif.Pipeline
import Verif.RegexProps
import Verif.LexerBuild
import Verif.UtilProps
import Verif.RefcountProps
import Verif.ItemSetProps
import Verif.GrammarIdsProps
import Verif.FirstProps
import Verif.Lr1SetProps
import Verif.ParserTablesProps
import Verif.ParserStackProps
import Verif.SessionProps
import Verif.RewritersProps
import Verif.CanReduceProps
import Verif.FuelProps
import Verif.IgnoreProps
import Verif.ClosureProps
import Verif.LalrProps
import Verif.LookaheadProps
import Verif.ActionProps
import Verif.AttributesProps
import Verif.SoundGrammarProps
import Verif.SoundExample
import Verif.IgnoreGrammarProps
import Verif.IgnoreExample
import Verif.CompleteGrammarProps
import Verif.CompleteExample
import Verif.TermProps
import Verif.TermGrammarProps
import Verif.TermExample
import Verif.LanguageGrammarProps
import Verif.WeakFallbackProps
import Verif.IgnoredUseProps
import Verif.LanguageParserProps
import Verif.PrecTreeProps
import Verif.PrecGrammarProps
import Verif.PrecCompleteProps
import Verif.PrecDecideProps
import Verif.PrecBlock
import Verif.PrecBlockProps
import Verif.PrecExample
import Verif.AstParseProps
import Verif.Names
import Verif.NamesProps
import Verif.ClassProps
import Verif.LexerStageProps
import Verif.GuardExample
import Verif.UnusedProps
import Verif.AttrProps
import Verif.StringProps
import Verif.DivertProps
import Verif.DefinitionProps
import Verif.TextProps
import Verif.TextExample
import Verif.WeakParserProps
import Verif.WeakParserExample
import Verif.FilesProps
import Verif.FilesExample
import Verif.ToolProps
import Verif.ToolExample
import Verif.WrittenExample
import Verif.ParserStageExample
import Verif.ClashExample
import Verif.GuardExactProps
import Verif.GuardExactExample
import Verif.GuardDecideProps
import Verif.GuardDecideExample
import Verif.ErrorProps
import Verif.ErrorExample
import Verif.GuardReportProps
import Verif.FollowProps
import Verif.FollowExample
import Verif.CaseProps
import Verif.CaseExample
import Verif.CaseStage
import Verif.Lr1Example
import Verif.NamedExample
import Verif.RegexCheckExample
import Verif.UnicodeDataProps
import Verif.SpansExample
import Verif.EscapeProps
import Verif.DashProps
import Verif.BlocksProps
import Verif.FormatProps
import Verif.OrdersProps
import Verif.BootstrapProps
import Verif.ShowProps
import Verif.BootstrapNull
import Verif.JsonFormatProps
import Verif.JsonExprs
import Verif.ConsoleProps
import Verif.ShowGrammarProps
import Verif.ShowMachineProps
import Verif.ShowClosureProps
import Verif.ConflictCountProps
import Verif.ShowLinesProps
import Verif.TablesOrderProps
import Verif.BlocksFreeProps
import Verif.ToolReportProps
/- Axioms of every theorem named in MANIFEST.json (expected: propext, Classical.choice, Quot.sound). -/
#print axioms TameParse.SymSet.symbol_set_union_is_union
#print axioms TameParse.SymSet.symbol_set_history_correct
#print axioms TameParse.SymSet.symbol_set_exclude_is_difference
#print axioms TameParse.SymSet.exclude_empty_range_breaks_canonical_form
#print axioms TameParse.SymSet.symbol_set_complement
#print axioms TameParse.SymSet.invert_negative_symbol_yields_inverted_range
#print axioms TameParse.SymSet.symbol_set_order_extensional
#print axioms TameParse.SymSet.symbol_set_lookup
#print axioms TameParse.symbol_map_identifiers_stable
#print axioms TameParse.deduplicate_splits_without_loss_violated
#print axioms TameParse.deduplicate_splits_without_loss_partial
#print axioms TameParse.deduplicate_single_ranges_partial
#print axioms TameParse.Ndfa.unique_symbols_preserve_automaton_violated
#print axioms TameParse.Ndfa.unique_symbols_preserve_automaton_partial
#print axioms TameParse.Ndfa.closure_exact
#print axioms TameParse.Ndfa.built_wf
#print axioms TameParse.Ndfa.subset_construction_correct
#print axioms TameParse.Ndfa.merged_symbols_preserve_dfa
#print axioms TameParse.Ndfa.merged_symbols_nondeterministic_violated
#print axioms TameParse.Json.format_tokens
#print axioms TameParse.Json.format_error
#print axioms TameParse.Json.format_total
#print axioms TameParse.Json.format_text
#print axioms TameParse.Json.format_layout
#print axioms TameParse.Json.format_again
#print axioms TameParse.Json.format_texts
#print axioms TameParse.Json.matches_unique
#print axioms TameParse.Json.json_number
#print axioms TameParse.Json.stage_gram
#print axioms TameParse.Json.definitions_errors
#print axioms TameParse.Json.definitions_symbols
#print axioms TameParse.Json.texts
#print axioms TameParse.Json.definitions_match
#print axioms TameParse.Json.comma_violated
#print axioms TameParse.Console.run_eq
#print axioms TameParse.Console.message_iff_partial
#print axioms TameParse.Console.err_read_partial
#print axioms TameParse.Console.err_empty
#print axioms TameParse.Console.detail_violated
#print axioms TameParse.Console.file_violated
#print axioms TameParse.Console.severity_violated
#print axioms TameParse.Ndfa.compact_dfa_preserves_language_violated
#print axioms TameParse.Ndfa.compact_dfa_preserves_language_partial
#print axioms TameParse.Ndfa.state_machine_rows_agree
#print axioms TameParse.Ndfa.state_machine_runs_dfa
#print axioms TameParse.Node.symbol_table_correct_iff
#print axioms TameParse.Node.lookup_sound
#print axioms TameParse.SymbolMap.symbol_translator_correct_partial
#print axioms TameParse.SymbolMap.symbol_translator_correct_violated
#print axioms TameParse.SymbolMap.symbol_translator_alias_violated
#print axioms TameParse.Node.hard_coded_table_agrees_partial
#print axioms TameParse.Node.hard_coded_table_high_symbols_violated
#print axioms TameParse.Node.hard_coded_table_size_violated
#print axioms TameParse.LexMachine.lexing_lossless
#print axioms TameParse.LexMachine.lexing_reaches_end
#print axioms TameParse.LexMachine.lexing_lossless_char_violated
#print axioms TameParse.LexMachine.char_symbols
#print axioms TameParse.LexMachine.lexing_longest_match
#print axioms TameParse.LexMachine.accept_priority
#print axioms TameParse.LexMachine.next_spec
#print axioms TameParse.LexMachine.lexeme_positions
#print axioms TameParse.Tracker.lines_and_columns
#print axioms TameParse.final_pos_correct
#print axioms TameParse.position_order
#print axioms TameParse.Tracker.offset_counts_characters_partial
#print axioms TameParse.Tracker.offset_closed_form
#print axioms TameParse.Tracker.offset_counts_characters_violated
#print axioms TameParse.Regex.regex_language_partial
#print axioms TameParse.Regex.regex_alone_partial
#print axioms TameParse.Regex.star_star_violated
#print axioms TameParse.Regex.option_star_violated
#print axioms TameParse.Regex.alternative_star_violated
#print axioms TameParse.Regex.empty_class_violated
#print axioms TameParse.Regex.alternative_start_violated
#print axioms TameParse.Regex.self_reference_violated
#print axioms TameParse.Regex.octal_escapes
#print axioms TameParse.Regex.hex_escapes
#print axioms TameParse.Regex.octal_digit_violated
#print axioms TameParse.Regex.dash_class
#print axioms TameParse.Regex.dash_class_matches
#print axioms TameParse.Regex.dash_violated
#print axioms TameParse.Regex.literal_language
#print axioms TameParse.Regex.literal_empty
#print axioms TameParse.Regex.surrogates_exact_partial
#print axioms TameParse.Regex.surrogates_several
#print axioms TameParse.Regex.surrogates_clipped
#print axioms TameParse.Regex.surrogates_violated
#print axioms TameParse.Utf8.utf8_ascii_partial
#print axioms TameParse.Utf8.utf8_primed_partial
#print axioms TameParse.Utf8.utf8_violated
#print axioms TameParse.Utf8.utf8_four_bytes_violated
#print axioms TameParse.Utf8.utf8_sound
#print axioms TameParse.CaseMap.convert_range_exact_partial
#print axioms TameParse.CaseMap.convert_exact_partial
#print axioms TameParse.CaseMap.convert_range_violated
#print axioms TameParse.PtrHeap.refcount_exact_partial
#print axioms TameParse.PtrHeap.assign_roots_allowed
#print axioms TameParse.PtrHeap.assign_field_violated
#print axioms TameParse.PtrHeap.list_head_violated
#print axioms TameParse.ItemSet.item_set_exact
#print axioms TameParse.ItemSet.comparison_extensional_partial
#print axioms TameParse.ItemSet.comparison_violated
#print axioms TameParse.ItemSet.eq_members
#print axioms TameParse.ItemSet.lt_strict
#print axioms TameParse.GrammarIds.rule_ids_exact
#print axioms TameParse.GrammarIds.item_ids_partial
#print axioms TameParse.GrammarIds.nonterminal_ids_violated
#print axioms TameParse.GrammarIds.nonterminal_ids_partial
#print axioms TameParse.TerminalDict.terminal_dictionary_partial
#print axioms TameParse.TerminalDict.terminal_dictionary_violated
#print axioms TameParse.TerminalDict.terminal_dictionary_loop_violated
#print axioms TameParse.Gram.first_sound_partial
#print axioms TameParse.Gram.firstForRule_sound_partial
#print axioms TameParse.Gram.first_answers
#print axioms TameParse.Gram.first_sound_violated
#print axioms TameParse.Gram.first_complete_partial
#print axioms TameParse.Gram.first_complete_violated
#print axioms TameParse.Gram.first_complete_empty_violated
#print axioms TameParse.Gram.first_complete_ebnf_violated
#print axioms TameParse.Gram.first_order_violated
#print axioms TameParse.Lr1Set.lr1_item_set_exact
#print axioms TameParse.Lr1Set.insert_spec
#print axioms TameParse.ParserTables.action_lookup_exact
#print axioms TameParse.ParserTables.action_order
#print axioms TameParse.ParserTables.end_of_guard_exact
#print axioms TameParse.ParserTables.strong_for_weak_exact
#print axioms TameParse.ParserTables.count_exact
#print axioms TameParse.Sound.parser_sound
#print axioms TameParse.Sound.parse_sound
#print axioms TameParse.Sound.accepted_derives
#print axioms TameParse.Sound.read_eq
#print axioms TameParse.Sound.Forest.derives
#print axioms TameParse.Sound.pointer_sound
#print axioms TameParse.Sound.no_divert
#print axioms TameParse.Sound.parser_complete_partial
#print axioms TameParse.Sound.parser_decides_partial
#print axioms TameParse.Sound.parse_complete
#print axioms TameParse.Sound.forest_of_derives
#print axioms TameParse.Sound.pointer_decides
#print axioms TameParse.Sound.complete_violated
#print axioms TameParse.Sound.parser_terminates_partial
#print axioms TameParse.Sound.parser_total_partial
#print axioms TameParse.Sound.parse_ends
#print axioms TameParse.Sound.path_stops
#print axioms TameParse.Sound.pointer_total
#print axioms TameParse.Sound.terminates_violated
#print axioms TameParse.Sound.ignored_no_effect_grammar
#print axioms TameParse.Parser.ignored_no_effect_built
#print axioms TameParse.Parser.ignored_no_effect
#print axioms TameParse.Sound.pointer_ignored
#print axioms TameParse.ParserStack.stack_persistent
#print axioms TameParse.ParserStack.stack_persistent_all
#print axioms TameParse.ParserStack.depth_one_endless
#print axioms TameParse.ParserStack.freed_iff_no_reference_partial
#print axioms TameParse.ParserStack.freed_early_violated
#print axioms TameParse.ParserStack.entries_reused_violated
#print axioms TameParse.Session.sessions_independent
#print axioms TameParse.Session.session_freed
#print axioms TameParse.Session.next_trims
#print axioms TameParse.Parser.can_reduce_partial
#print axioms TameParse.Parser.can_reduce_in_bounds_partial
#print axioms TameParse.Parser.can_reduce_outside_violated
#print axioms TameParse.Parser.can_reduce_endless_violated
#print axioms TameParse.Rewriters.weak_rewrite_partial
#print axioms TameParse.Rewriters.weak_rewrite_exact
#print axioms TameParse.Rewriters.weak_rewrite_none
#print axioms TameParse.Rewriters.weak_adds_only
#print axioms TameParse.Rewriters.weak_gets_strong_violated
#print axioms TameParse.Rewriters.ignored_rewrite_exact
#print axioms TameParse.Rewriters.ignored_has_action
#print axioms TameParse.Rewriters.precedence_exact
#print axioms TameParse.Rewriters.conflicts_reported_partial
#print axioms TameParse.Rewriters.accept_conflict_unreported_violated
#print axioms TameParse.Rewriters.lr1_exact
#print axioms TameParse.Rewriters.lr1_keeps
#print axioms TameParse.Rewriters.lr1_adds_nothing
#print axioms TameParse.Rewriters.lr1_one_strong
#print axioms TameParse.Rewriters.lr1_targets_disjoint
#print axioms TameParse.ParserTables.copy_exact
#print axioms TameParse.ParserTables.assign_exact
#print axioms TameParse.ParserTables.build_wellFormed
#print axioms TameParse.StringReader.string_reader_exact
#print axioms TameParse.Container.container_order_partial
#print axioms TameParse.Container.container_order_violated
#print axioms TameParse.Container.container_order_always
#print axioms TameParse.Lalr.lr0_states_exact
#print axioms TameParse.Lalr.lr0_states_terminate
#print axioms TameParse.Lalr.createClosure_exact
#print axioms TameParse.Lalr.closOk_cache
#print axioms TameParse.Lalr.propagation_exact
#print axioms TameParse.Lalr.propagation_terminates
#print axioms TameParse.Lalr.lookaheads_exact
#print axioms TameParse.Lalr.lookaheads_terminate
#print axioms TameParse.Lalr.selfOk_cache
#print axioms TameParse.Ndfa.generated_tables_agree_violated
#print axioms TameParse.Ndfa.generated_tables_agree_partial
#print axioms TameParse.Ndfa.compiled_lexer_splits_partial
#print axioms TameParse.Ndfa.compiled_lexer_correct_partial
#print axioms TameParse.Regex.lexer_language_partial
#print axioms TameParse.Regex.lexer_end_to_end_partial
#print axioms TameParse.Closure.closure_exact
#print axioms TameParse.Closure.closure_terminates
#print axioms TameParse.Closure.cacheClosure_post
#print axioms TameParse.Closure.closure_empty_violated
#print axioms TameParse.Lalr.generateClosure_exact
#print axioms TameParse.Lalr.generateClosure_terminates
#print axioms TameParse.Lalr.actions_exact
#print axioms TameParse.Lalr.actions_shape
#print axioms TameParse.Rewriters.attributes_exact
#print axioms TameParse.Rewriters.attributes_resolve_partial
#print axioms TameParse.Rewriters.attributes_weak_violated
#print axioms TameParse.Language.language_means
#print axioms TameParse.Language.Example.foreign_terminal_violated
#print axioms TameParse.WeakLexer.accept_priority
#print axioms TameParse.WeakLexer.symbol_order
#print axioms TameParse.WeakLexer.weak_fallback_partial
#print axioms TameParse.WeakLexer.strong_unique
#print axioms TameParse.WeakLexer.no_split
#print axioms TameParse.WeakLexer.Example.weak_fallback_violated
#print axioms TameParse.WeakLexer.Example.split_symbol_violated
#print axioms TameParse.WeakLexer.symbols_told_apart_partial
#print axioms TameParse.WeakLexer.IgnoredExample.guarded_ignored_violated
#print axioms TameParse.Sound.language_parser_partial
#print axioms TameParse.Sound.pointerLang_total
#print axioms TameParse.Sound.precedence_tree_partial
#print axioms TameParse.Sound.precedence_exact_partial
#print axioms TameParse.Sound.precedence_decides_partial
#print axioms TameParse.Sound.expr_exact
#print axioms TameParse.Sound.expr_decides
#print axioms TameParse.PrecBlock.block_exact
#print axioms TameParse.PrecBlock.block_listed
#print axioms TameParse.PrecBlock.block_level
#print axioms TameParse.Ast.generated_tree
#print axioms TameParse.Ast.generated_tree_partial
#print axioms TameParse.Ast.buildAll_typed
#print axioms TameParse.Ast.buildAll_injective
#print axioms TameParse.Ast.parse_full
#print axioms TameParse.Ast.listEx_tree
#print axioms TameParse.Ast.generated_plus_violated
#print axioms TameParse.Names.identifier_valid
#print axioms TameParse.Names.symbol_names
#print axioms TameParse.Names.class_names
#print axioms TameParse.Names.constant_names_partial
#print axioms TameParse.Names.identifier_reserved_violated
#print axioms TameParse.Names.outer_class_violated
#print axioms TameParse.Names.constant_names_violated
#print axioms TameParse.Names.short_rule_names
#print axioms TameParse.Names.long_rule_names_violated
#print axioms TameParse.Names.class_members_partial
#print axioms TameParse.Names.body_spec
#print axioms TameParse.Names.members_list_violated
#print axioms TameParse.Names.members_etc_violated
#print axioms TameParse.Names.members_kind_violated
#print axioms TameParse.Names.members_twice_violated
#print axioms TameParse.Names.constructors_violated
#print axioms TameParse.Names.positions_violated
#print axioms TameParse.Names.member_types_violated
#print axioms TameParse.LexerStage.language_lexer_partial
#print axioms TameParse.LexerStage.language_lexer_accepts_partial
#print axioms TameParse.LexerStage.automaton_language
#print axioms TameParse.LexerStage.unused_sound
#print axioms TameParse.LexerStage.ignored_surrogates_violated
#print axioms TameParse.Guards.parser_guards
#print axioms TameParse.Guards.checkLoop_spec
#print axioms TameParse.Guards.Reads.forest
#print axioms TameParse.Guards.one_accepts
#print axioms TameParse.Unused.unused_symbols_sound_partial
#print axioms TameParse.Unused.unused_symbols_complete_partial
#print axioms TameParse.Unused.UnusedExample.guarded_unused_violated
#print axioms TameParse.Unused.UnusedExample.inherited_unused_violated
#print axioms TameParse.Attrs.rule_attributes_partial
#print axioms TameParse.Attrs.setLast_attributes
#print axioms TameParse.Attrs.AttrExample.parens_violated
#print axioms TameParse.Strings.dequote_spells
#print axioms TameParse.Strings.string_round_trip
#print axioms TameParse.Strings.string_tokens_partial
#print axioms TameParse.Strings.character_tokens_partial
#print axioms TameParse.Strings.comment_tokens_partial
#print axioms TameParse.Strings.spells_total
#print axioms TameParse.Strings.escaped_backslash_violated
#print axioms TameParse.Strings.comment_violated
#print axioms TameParse.Strings.spellings_violated
#print axioms TameParse.Definitions.written_defined_partial
#print axioms TameParse.Definitions.mentioned_defined_partial
#print axioms TameParse.Definitions.definitions_source_partial
#print axioms TameParse.Definitions.definition_symbols_partial
#print axioms TameParse.Definitions.DefinitionExample.replaced_ignored_violated
#print axioms TameParse.Text.text_accepted_partial
#print axioms TameParse.Text.tokens_unique
#print axioms TameParse.Text.pointer_text
#print axioms TameParse.Text.ex_tokens
#print axioms TameParse.Text.ex_sentence
#print axioms TameParse.Sound.weak_parser_complete_partial
#print axioms TameParse.Sound.weak_parser_sentences_partial
#print axioms TameParse.Sound.weak_parser_decides_partial
#print axioms TameParse.Sound.get_decides
#print axioms TameParse.Sound.merged_sentences
#print axioms TameParse.Sound.weak_conflict_violated
#print axioms TameParse.Sound.weak_reading_violated
#print axioms TameParse.Files.file_data
#print axioms TameParse.Files.flags_exact
#print axioms TameParse.Files.language_blocks
#print axioms TameParse.Files.tests_written
#print axioms TameParse.Files.imports_exact
#print axioms TameParse.Files.imports_end
#print axioms TameParse.Files.inherits_end
#print axioms TameParse.Files.imported_language
#print axioms TameParse.Files.imported_means_partial
#print axioms TameParse.Files.reference_violated
#print axioms TameParse.Files.inheritance_violated
#print axioms TameParse.Files.path_violated
#print axioms TameParse.Tool.exit_code
#print axioms TameParse.Tool.tests_exact
#print axioms TameParse.Tool.tests_end
#print axioms TameParse.Tool.tests_mean
#print axioms TameParse.Tool.tests_listed
#print axioms TameParse.Tool.test_names
#print axioms TameParse.Tool.text_answers
#print axioms TameParse.Tool.pointer_tests
#print axioms TameParse.Tool.choice_exact
#print axioms TameParse.Tool.tool_code
#print axioms TameParse.Tool.tool_output
#print axioms TameParse.Tool.name_violated
#print axioms TameParse.Tool.undefined_violated
#print axioms TameParse.Tool.failed_reported
#print axioms TameParse.Parser.Agree.parses
#print axioms TameParse.Written.generated_parser_partial
#print axioms TameParse.Written.generated_lexer_partial
#print axioms TameParse.Written.generated_from_build_partial
#print axioms TameParse.Written.generated_decides_partial
#print axioms TameParse.Written.name_identifier
#print axioms TameParse.Written.standard_exact
#print axioms TameParse.Written.standard_parser
#print axioms TameParse.Written.standard_lexer_exact
#print axioms TameParse.Written.empty_arrays_violated
#print axioms TameParse.Written.standard_violated
#print axioms TameParse.ParserStage.conflicts_exact_partial
#print axioms TameParse.ParserStage.shiftItems_exact
#print axioms TameParse.ParserStage.reduceItems_exact
#print axioms TameParse.ParserStage.kind_partial
#print axioms TameParse.ParserStage.compile_loud
#print axioms TameParse.ParserStage.stage_error_partial
#print axioms TameParse.ParserStage.quiet_decides_partial
#print axioms TameParse.ParserStage.written_decides_partial
#print axioms TameParse.ParserStage.kind_violated
#print axioms TameParse.ParserStage.places_conflict
#print axioms TameParse.ParserStage.warning_sound
#print axioms TameParse.ParserStage.warning_named_partial
#print axioms TameParse.ParserStage.warning_exact
#print axioms TameParse.ParserStage.guardOn_iff
#print axioms TameParse.ParserStage.clash_exact_partial
#print axioms TameParse.ParserStage.head_clash_violated
#print axioms TameParse.ParserStage.pair_clash_violated
#print axioms TameParse.Guards.guard_check_exact_partial
#print axioms TameParse.Guards.far_check
#print axioms TameParse.Guards.guards_decide_partial
#print axioms TameParse.Guards.guarded_words_partial
#print axioms TameParse.Guards.far_decides
#print axioms TameParse.Sound.read_viable
#print axioms TameParse.Sound.error_exact_partial
#print axioms TameParse.Sound.error_violated
#print axioms TameParse.Sound.unproductive_read
#print axioms TameParse.Sound.Ex.error
#print axioms TameParse.Sound.unambiguous_partial
#print axioms TameParse.Sound.unambiguous_violated
#print axioms TameParse.Sound.Ex.unambiguous
#print axioms TameParse.GuardCheck.guards_written
#print axioms TameParse.GuardCheck.ineffective_sound_partial
#print axioms TameParse.GuardCheck.ineffective_exact_partial
#print axioms TameParse.GuardCheck.check_total
#print axioms TameParse.GuardCheck.ReportExample.false_report_violated
#print axioms TameParse.GuardCheck.ReportExample.missed_report_violated
#print axioms TameParse.GuardCheck.ReportExample.nested_report_violated
#print axioms TameParse.GuardCheck.ReportExample.replaced_reported
#print axioms TameParse.Gram.follow_sound_partial
#print axioms TameParse.Gram.follow_exact_partial
#print axioms TameParse.Gram.follow_answers
#print axioms TameParse.Gram.FollowExample.follow_complete_violated
#print axioms TameParse.Gram.FollowExample.follow_sound_violated
#print axioms TameParse.Regex.insensitive_language_partial
#print axioms TameParse.Regex.insensitive_literal_partial
#print axioms TameParse.Regex.insensitive_keyword
#print axioms TameParse.LexerStage.keyword_denotes
#print axioms TameParse.Regex.insensitive_range_violated
#print axioms TameParse.Regex.insensitive_negated
#print axioms TameParse.Regex.insensitive_written_violated
#print axioms TameParse.Lalr.find_source_exact
#print axioms TameParse.Lalr.find_source_total
#print axioms TameParse.Lalr.resolved_apart_partial
#print axioms TameParse.Sound.resolved_empty_violated
#print axioms TameParse.Sound.resolved_deep_violated
#print axioms TameParse.Sound.resolved_length_violated
#print axioms TameParse.Regex.named_language_partial
#print axioms TameParse.NamedExprs.named_definitions
#print axioms TameParse.NamedExprs.named_meaning
#print axioms TameParse.Regex.named_self_reference_violated
#print axioms TameParse.NamedExprs.Ex.named_circle_violated
#print axioms TameParse.RegexCheck.check_exact
#print axioms TameParse.RegexCheck.check_partial
#print axioms TameParse.RegexCheck.check_violated
#print axioms TameParse.RegexCheck.well_written_partial
#print axioms TameParse.RegexCheck.well_written_violated
#print axioms TameParse.RegexCheck.literal_names_violated
#print axioms TameParse.RegexCheck.reported_place
#print axioms TameParse.RegexCheck.reports_iff
#print axioms TameParse.UnicodeData.category_partial
#print axioms TameParse.UnicodeData.category_lines
#print axioms TameParse.UnicodeData.category_violated
#print axioms TameParse.UnicodeData.case_tables
#print axioms TameParse.UnicodeData.similar_iff
#print axioms TameParse.UnicodeData.names_exact
#print axioms TameParse.UnicodeData.documented_names
#print axioms TameParse.UnicodeData.undocumented_violated
#print axioms TameParse.UnicodeData.unicode_expression_partial
#print axioms TameParse.Spans.positions_partial
#print axioms TameParse.Spans.parse_erase
#print axioms TameParse.Spans.empty_list_violated
#print axioms TameParse.Spans.absent_option_violated
#print axioms TameParse.Spans.nested_list_violated
#print axioms TameParse.Blocks.copy_agrees_partial
#print axioms TameParse.Blocks.copy_units
#print axioms TameParse.Blocks.copy_tests
#print axioms TameParse.Blocks.copy_iff
#print axioms TameParse.Blocks.copy_frees_violated
#print axioms TameParse.Blocks.assign_violated
#print axioms TameParse.Blocks.assign_self_violated
#print axioms TameParse.Blocks.assign_agrees
#print axioms TameParse.Blocks.assign_type_violated
#print axioms TameParse.Blocks.mem_frees
#print axioms TameParse.Blocks.deleted_twice_violated
#print axioms TameParse.Blocks.place_addChild
#print axioms TameParse.Blocks.children_inside_partial
#print axioms TameParse.Blocks.first_child
#print axioms TameParse.Blocks.children_final_violated
#print axioms TameParse.Blocks.items_inside_partial
#print axioms TameParse.Blocks.items_start_violated
#print axioms TameParse.Blocks.File.Made.place_of
#print axioms TameParse.Format.print_partial
#print axioms TameParse.Format.print_violated
#print axioms TameParse.Format.label_item
#print axioms TameParse.Orders.range_order
#print axioms TameParse.Orders.range_le
#print axioms TameParse.Orders.transition_order
#print axioms TameParse.Orders.transition_le_violated
#print axioms TameParse.Orders.lexeme_order
#print axioms TameParse.Orders.item_order
#print axioms TameParse.Orders.rule_order
#print axioms TameParse.Orders.lr0_order
#print axioms TameParse.Orders.lr0_eq
#print axioms TameParse.Orders.lr1_order
#print axioms TameParse.Orders.lr1_eq
#print axioms TameParse.Orders.lr1_le
#print axioms TameParse.Orders.lr1_gt_violated
#print axioms TameParse.Orders.state_order
#print axioms TameParse.Orders.state_eq_exact
#print axioms TameParse.Orders.state_items_partial
#print axioms TameParse.Orders.state_items_violated
#print axioms TameParse.Orders.action_order
#print axioms TameParse.Orders.itemId_order
#print axioms TameParse.Orders.conflict_order
#print axioms TameParse.Orders.accept_order
#print axioms TameParse.Orders.accept_violated
#print axioms TameParse.Orders.accept_eq_partial
#print axioms TameParse.Orders.accept_eq_violated
#print axioms TameParse.Orders.node_violated
#print axioms TameParse.Orders.node_order_partial
#print axioms TameParse.Bootstrap.reads_partial
#print axioms TameParse.Bootstrap.reads_safe
#print axioms TameParse.Bootstrap.reads_iff
#print axioms TameParse.Bootstrap.trees_fit
#print axioms TameParse.Bootstrap.starts_violated
#print axioms TameParse.Bootstrap.inherits_violated
#print axioms TameParse.Bootstrap.reference_violated
#print axioms TameParse.Show.item_text
#print axioms TameParse.Show.rule_text_partial
#print axioms TameParse.Show.set_text
#print axioms TameParse.Show.lr0_text
#print axioms TameParse.Show.lr1_text_partial
#print axioms TameParse.Show.state_text
#print axioms TameParse.Show.action_text_partial
#print axioms TameParse.Show.conflict_text
#print axioms TameParse.Show.written_clear
#print axioms TameParse.Show.written_noEmpty
#print axioms TameParse.Show.priority_violated
#print axioms TameParse.Show.divert_violated
#print axioms TameParse.Show.lr1_violated
#print axioms TameParse.Show.grammar_text
#print axioms TameParse.Show.grammar_eq
#print axioms TameParse.Show.machine_text
#print axioms TameParse.Show.builder_text
#print axioms TameParse.Show.written_state
#print axioms TameParse.Show.full_text_partial
#print axioms TameParse.Show.full_eq
#print axioms TameParse.Show.machine_full_partial
#print axioms TameParse.Show.builder_full_partial
#print axioms TameParse.Show.nodes_eq
#print axioms TameParse.Show.nodes_full_eq
#print axioms TameParse.Show.conflict_eq
