import Verif.Leb128.Props
import Verif.Abi.LayoutProps
import Verif.Handles.Props
import Verif.Abi.ScalarProps
import Verif.Abi.StoreProps
import Verif.Abi.FrameProps
import Verif.Abi.LoadProps
import Verif.Abi.FlatProps
import Verif.Abi.CaseProps
import Verif.Abi.CanonProps
import Verif.Encoding.Props
import Verif.Binary.Props
import Verif.Runtime.Props
import Verif.Collections.Props
import Verif.Wat.LexProps
import Verif.Wat.NumProps
import Verif.Wat.ConstProps
import Verif.Wat.Number
import Verif.Wat.NumberLemmas
import Verif.Wat.NumberProps
import Verif.Wat.Items
import Verif.Wat.ItemsProps
import Verif.Wat.OwnRules
import Verif.Wat.OwnRulesProps
import Verif.Wat.FromString
import Verif.Wat.RuleOrder
import Verif.Wat.StateRule
import Verif.Wat.Messages
import Verif.Wit.Messages
import Verif.Wit.Faults
import Verif.Wat.ParseProps
import Verif.Wat.PrintProps
import Verif.Wit.LexProps
import Verif.Wit.ParseProps
import Verif.Wit.GrammarProps
import Verif.Wit.PrintProps
import Verif.Wat.Grammar
import Verif.Wat.GrammarSound
import Verif.Wat.GrammarComplete
import Verif.Wat.LexCut
import Verif.Wat.GrammarProps
import Verif.Wat.BalanceProps
import Verif.Wat.FloatProps
import Verif.Wast.Parse
import Verif.Wast.Grammar
import Verif.Wast.Ends
import Verif.Wast.GrammarSound
import Verif.Wast.GrammarComplete
import Verif.Wast.Props
import Verif.Wast.PrintProps
import Verif.Abi.HandleProps
import Verif.Abi.CanonHandles
import Verif.Abi.CanonDeliver
import Verif.Wat.Decode
import Verif.Wat.DecodeProps
import Verif.Runtime.LoadProps
import Verif.Abi.StringCopy
import Verif.Abi.StringCopyProps
import Verif.Handles.Limits
import Verif.Abi.FullMemory
import Verif.Abi.HandleLimits
import Verif.Handles.LedgerProps
import Verif.Handles.DtorProps
import Verif.Handles.AddProps
import Verif.Binary.AllocProps
import Verif.Abi.Limits
import Verif.Binary.PairProps
import Verif.Go.Ieee
import Verif.Go.Float
import Verif.Go.FloatLemmas
import Verif.Wat.GoLib
import Verif.Wat.HexFloatProps
import Verif.Wat.FloatConstProps
import Verif.Go.Reader
import Verif.Binary.Stream
import Verif.Binary.StreamProps
import Verif.Wat.DecodeStream
import Verif.Wat.DecodeStreamProps
import Verif.Go.Writer
import Verif.Leb128.Writer
import Verif.Leb128.WriterProps
import Verif.Leb128.Reader
import Verif.Leb128.ReaderProps
import Verif.Abi.ManyProps
import Verif.Abi.Typed
import Verif.Abi.SameUnique
import Verif.Abi.TypedProps
import Verif.Abi.LiftTame
import Verif.Abi.LiftLocal
import Verif.Abi.ReceiveProps
import Verif.Abi.HandleBooks
import Verif.Abi.HandleAnyProps
import Verif.Abi.LoadOwn
import Verif.Abi.LoadOwnProps
import Verif.Wat.FloatWords
import Verif.Wat.SemiProps
import Verif.Wat.Local
import Verif.Wat.ErrorPlace
import Verif.Wit.Local
import Verif.Wit.ErrorPlace
import Verif.Abi.SpillProps
import Verif.Wast.Local
import Verif.Wast.ErrorPlace
import Verif.Abi.AnyMemory
import Verif.Abi.GrowSpec
import Verif.Abi.GrowLemmas
import Verif.Abi.GrowProps
import Verif.Wit.Concat
import Verif.Wit.ConcatProps
import Verif.Abi.ExtendSpec
import Verif.Abi.ExtendProps
import Verif.Wit.Rename
import Verif.Wit.RenameProps
import Verif.Wat.Rename
import Verif.Wat.RenameProps
import Verif.Wat.Sections
import Verif.Wit.Items
import Verif.Wast.Modules
import Verif.Wast.Rename
import Verif.Binary.Extend
import Verif.Wit.Utf8Props
import Verif.Abi.StringReadProps
import Verif.Handles.RefusedProps
import Verif.Abi.MeansProps
import Verif.Abi.StoreMeansProps
import Verif.Abi.CoreProps
import Verif.Abi.FlatMeansProps
import Verif.Abi.BareSpec
import Verif.Abi.LowerInv
import Verif.Abi.IsolationSpec
import Verif.Abi.IsolationLemmas
import Verif.Abi.IsolationProps
import Verif.Abi.ConfineSpec
import Verif.Abi.ConfineLemmas
import Verif.Abi.ConfineProps
import Verif.Abi.ClosedProps
import Verif.Handles.HistorySpec
import Verif.Handles.HistoryLemmas
import Verif.Abi.HistorySpec
import Verif.Abi.HistoryLemmas
import Verif.Abi.HistoryProps
import Verif.Abi.ReceivedFits
import Verif.Abi.FitProps
import Verif.Abi.AlikeLemmas
import Verif.Abi.AlikeProps
import Verif.Abi.MeansOnce
import Verif.Abi.BlindSpec
import Verif.Abi.BlindLemmas
import Verif.Abi.BlindProps
import Verif.Abi.AskSpec
import Verif.Abi.AskLemmas
import Verif.Abi.AskProps
import Verif.Abi.Bare
import Verif.Abi.BareMirror
import Verif.Abi.BareLoad
import Verif.Abi.BareLower
import Verif.Abi.BareFlat
import Verif.Abi.BareProps
import Verif.Abi.BareCall
import Verif.Abi.BareSame
import Verif.Abi.BareCallProps
import Verif.Abi.CallMeansProps
import Verif.Abi.BoundSpec
import Verif.Abi.BoundLemmas
import Verif.Abi.BoundProps
import Verif.Binary.LanguageProps

/-!
# The axioms each property theorem depends on, printed at build time
-/

#print axioms Verif.Leb128.roundtrip
#print axioms Verif.Leb128.decoders_agree
#print axioms Verif.Leb128.truncated_is_error
#print axioms Verif.Leb128.inputs_covered
#print axioms Verif.Leb128.decodeSlice_accepts_truncated
#print axioms Verif.Leb128.decoders_never_panic
#print axioms Verif.Leb128.encode_shape
#print axioms Verif.Leb128.encode_minimal_partial
#print axioms Verif.Leb128.encode_prefix_free
#print axioms Verif.Leb128.empty_slice_is_zero
#print axioms Verif.Binary.read_returns
#print axioms Verif.Binary.header_needed
#print axioms Verif.Binary.header_missing
#print axioms Verif.Binary.short_input
#print axioms Verif.Binary.standard_read_partial
#print axioms Verif.Binary.read_module_iff
#print axioms Verif.Binary.locals_refused
#print axioms Verif.Binary.locals_misread
#print axioms Verif.Binary.unknown_between_partial
#print axioms Verif.Binary.unknown_transparent_partial
#print axioms Verif.Binary.unknown_not_transparent
#print axioms Verif.Binary.cut_refused
#print axioms Verif.Binary.paired_all_partial
#print axioms Verif.Binary.paired_partial
#print axioms Verif.Binary.code_missing
#print axioms Verif.Abi.alignTo_least
#print axioms Verif.Abi.alignTo_float
#print axioms Verif.Abi.size_aligned
#print axioms Verif.Abi.elements_aligned
#print axioms Verif.Abi.size_refines
#print axioms Verif.Abi.alignment_swallows_error
#print axioms Verif.Abi.record_fields_placed_partial
#print axioms Verif.Abi.storeFields_addrs
#print axioms Verif.Abi.loadFields_addrs
#print axioms Verif.Abi.fields_overlap
#print axioms Verif.Abi.discriminant_minimal_partial
#print axioms Verif.Abi.discriminant_too_many_cases
#print axioms Verif.Abi.specialised_as_expansion
#print axioms Verif.Abi.expansions
#print axioms Verif.Abi.code_equations
#print axioms Verif.Abi.lower_flatten
#print axioms Verif.Abi.lift_consumes
#print axioms Verif.Abi.liftSeq_consumes
#print axioms Verif.Abi.flattenFunc_limits
#print axioms Verif.Abi.flattenFunc_error
#print axioms Verif.Abi.flattenTypes_concat
#print axioms Verif.Abi.joined_kind_carries
#print axioms Verif.Abi.integers_in_memory_partial
#print axioms Verif.Abi.full_memory_store_refused
#print axioms Verif.Abi.store_load_partial
#print axioms Verif.Abi.store_succeeds_partial
#print axioms Verif.Abi.store_with_handle_fails
#print axioms Verif.Abi.flags_over_64
#print axioms Verif.Abi.store_frame_partial
#print axioms Verif.Abi.list_overflow_escapes
#print axioms Verif.Abi.store_refuses_partial
#print axioms Verif.Abi.store_refuses_unlaid
#print axioms Verif.Abi.store_wrap_panics
#print axioms Verif.Abi.lower_lift_handles_any_partial
#print axioms Verif.Abi.lower_lift_handles_partial
#print axioms Verif.Abi.lower_lift_partial
#print axioms Verif.Abi.lower_succeeds_partial
#print axioms Verif.Abi.borrow_home_not_lifted
#print axioms Verif.Abi.load_char
#print axioms Verif.Abi.lift_char
#print axioms Verif.Abi.load_char_any
#print axioms Verif.Abi.canonical_idem
#print axioms Verif.Abi.load_float
#print axioms Verif.Abi.store_float
#print axioms Verif.Abi.lift_float
#print axioms Verif.Abi.lower_float
#print axioms Verif.Abi.load_float_any
#print axioms Verif.Abi.store_float_any
#print axioms Verif.Abi.load_flags_partial
#print axioms Verif.Abi.lift_flags_partial
#print axioms Verif.Abi.lower_flags_over_64
#print axioms Verif.Abi.lift_flags_over_64
#print axioms Verif.Abi.tagged_code_units
#print axioms Verif.Abi.load_string_range_partial
#print axioms Verif.Abi.load_list_range_partial
#print axioms Verif.Abi.load_returns_partial
#print axioms Verif.Abi.string_wrap_panics
#print axioms Verif.Abi.string_length_bit_dropped
#print axioms Verif.Abi.list_wrap_panics
#print axioms Verif.Abi.load_spare_capacity
#print axioms Verif.Abi.load_list_elements
#print axioms Verif.Abi.load_unchanged
#print axioms Verif.Abi.store_checks_type_partial
#print axioms Verif.Abi.store_truncates
#print axioms Verif.Abi.store_takes_non_integer
#print axioms Verif.Abi.store_float_panics
#print axioms Verif.Abi.match_case
#print axioms Verif.Abi.loaded_label_selects
#print axioms Verif.Abi.load_terminates_partial
#print axioms Verif.Abi.cyclic_refines_diverges
#print axioms Verif.Handles.table_spec_partial
#print axioms Verif.Handles.table_never_panics_partial
#print axioms Verif.Handles.history_spec_partial
#print axioms Verif.Handles.ledger_spec_partial
#print axioms Verif.Handles.index_keeps_partial
#print axioms Verif.Handles.add_returns_live
#print axioms Verif.Handles.full_table_fails
#print axioms Verif.Handles.wrapped_index
#print axioms Verif.Handles.freed_reused_partial
#print axioms Verif.Handles.add_exact_partial
#print axioms Verif.Handles.add_fails_after_remove
#print axioms Verif.Handles.table_outgrows_live
#print axioms Verif.Handles.one_removal_breaks_add
#print axioms Verif.Handles.table_length_le_adds
#print axioms Verif.Handles.lent_stays_partial
#print axioms Verif.Handles.lent_live_partial
#print axioms Verif.Handles.exit_fails_iff_partial
#print axioms Verif.Handles.exit_releases_partial
#print axioms Verif.Handles.lent_taken_after_second_exit
#print axioms Verif.Handles.lifted_index_dead_partial
#print axioms Verif.Handles.liftOwn_moves_partial
#print axioms Verif.Handles.lifted_dead_partial
#print axioms Verif.Handles.liftBorrow_keeps_partial
#print axioms Verif.Handles.drop_destructs_any_partial
#print axioms Verif.Handles.destructs_at_most_once
#print axioms Verif.Handles.drop_destructs_partial
#print axioms Verif.Handles.drop_loses_resource
#print axioms Verif.Handles.types_isolated
#print axioms Verif.Handles.types_independent
#print axioms Verif.Handles.types_unobserved
#print axioms Verif.Abi.canonLift_forbidden
#print axioms Verif.Abi.canonLower_forbidden
#print axioms Verif.Abi.canonLift_flags_partial
#print axioms Verif.Abi.canonLift_flags_ok
#print axioms Verif.Abi.canonLower_flags_partial
#print axioms Verif.Abi.canonLift_leave_lost
#print axioms Verif.Abi.canonLower_leave_lost
#print axioms Verif.Abi.canonLift_identity_partial
#print axioms Verif.Abi.component_call_partial
#print axioms Verif.Abi.canonLift_delivers_partial
#print axioms Verif.Abi.canonLower_delivers_partial
#print axioms Verif.Abi.component_call_any_partial
#print axioms Verif.Abi.canonLift_spilled_fails
#print axioms Verif.Abi.spilled_results_lost
#print axioms Verif.Abi.spilled_order_lost
#print axioms Verif.Abi.canonLower_nil_post
#print axioms Verif.Abi.nexts_in_order_partial
#print axioms Verif.Abi.nexts_empty
#print axioms Verif.Abi.next_past_end
#print axioms Verif.Abi.coerce_past_end
#print axioms Verif.Abi.coerce_wrong_kind
#print axioms Verif.Wat.tokens_tile
#print axioms Verif.Wat.tokens_end
#print axioms Verif.Wat.token_place
#print axioms Verif.Wat.peek_clone_partial
#print axioms Verif.Wat.answer_nexts
#print axioms Verif.Wat.peek_panics
#print axioms Verif.Wit.peek_clone_partial
#print axioms Verif.Wit.answer_nexts
#print axioms Verif.Wit.peek_panics
#print axioms Verif.Wat.integer_words_partial
#print axioms Verif.Wat.integer_words
#print axioms Verif.Wat.untidy_integer
#print axioms Verif.Wat.float_words_partial
#print axioms Verif.Wat.float_words
#print axioms Verif.Wat.float_names
#print axioms Verif.Wat.float_only
#print axioms Verif.Wat.decimal_float_missed
#print axioms Verif.Wat.no_float_taken
#print axioms Verif.Wat.closed_tokens_partial
#print axioms Verif.Wat.end_capture
#print axioms Verif.Wat.unterminated_is_end
#print axioms Verif.Wat.trivia_ignored
#print axioms Verif.Wast.script_trivia_ignored
#print axioms Verif.Wat.int32_literal_partial
#print axioms Verif.Wat.int64_literal_partial
#print axioms Verif.Wat.const_instruction
#print axioms Verif.Wat.padded_literals
#print axioms Verif.Wat.wide_literal
#print axioms Verif.Wat.plus_refused
#print axioms Verif.Wat.padded_octal
#print axioms Verif.Wat.nan_payload_partial
#print axioms Verif.Wat.plain_nan_infinite
#print axioms Verif.Wat.f32_plus_nan_refused
#print axioms Verif.Wat.print_parse_partial
#print axioms Verif.Wat.print_parse_spaced_partial
#print axioms Verif.Wat.print_injective
#print axioms Verif.Wat.wide_i64_refused
#print axioms Verif.Wat.wat_parser_ends
#print axioms Verif.Wit.wit_parser_ends
#print axioms Verif.Wast.wast_parser_ends
#print axioms Verif.Wit.tokens_tile
#print axioms Verif.Wit.tokens_end
#print axioms Verif.Wit.comments_nest
#print axioms Verif.Wit.unbalanced_comment_refused
#print axioms Verif.Wit.token_spelling
#print axioms Verif.Wit.word_token
#print axioms Verif.Wit.explicit_token
#print axioms Verif.Wit.arrow_token
#print axioms Verif.Wit.operator_token
#print axioms Verif.Wit.print_parse_partial
#print axioms Verif.Wit.print_read
#print axioms Verif.Wit.top_level_use_changed
#print axioms Verif.Wit.not_read_back
#print axioms Verif.Wit.only_items_accepted_partial
#print axioms Verif.Wit.lone_token_accepted
#print axioms Verif.Wit.accepted_iff_loose
#print axioms Verif.Runtime.instantiation_partial
#print axioms Verif.Runtime.addresses_wrap
#print axioms Verif.Runtime.getExport_first_partial
#print axioms Verif.Runtime.exports_never_found
#print axioms Verif.Collections.stack_lifo
#print axioms Verif.Collections.push_shares
#print axioms Verif.Collections.select_ok
#print axioms Verif.Collections.select_err
#print axioms Verif.Encoding.default_factory_exact
#print axioms Verif.Encoding.factory_last
#print axioms Verif.Abi.strings_in_memory_partial
#print axioms Verif.Abi.latin1_refused
#print axioms Verif.Abi.long_string_cut
#print axioms Verif.Abi.load_outside_panics
#print axioms Verif.Handles.borrow_lifted_as_own
#print axioms Verif.Handles.drop_borrow_any_partial
#print axioms Verif.Handles.drop_borrow_partial
#print axioms Verif.Abi.load_bool
#print axioms Verif.Abi.lift_narrow
#print axioms Verif.Abi.lower_narrow
#print axioms Verif.Abi.load_bool_any
#print axioms Verif.Abi.load_discriminant
#print axioms Verif.Abi.load_no_discriminant
#print axioms Verif.Abi.lift_discriminant
#print axioms Verif.Abi.lift_enum
#print axioms Verif.Abi.load_discriminant_any
#print axioms Verif.Abi.post_return_partial
#print axioms Verif.Abi.borrows_ignored
#print axioms Verif.Wat.string_literal_partial
#print axioms Verif.Wat.escaped_quote_cut
#print axioms Verif.Wat.block_comment_partial
#print axioms Verif.Wat.nested_comment_cut
#print axioms Verif.Wat.word_tokens
#print axioms Verif.Wat.word_at
#print axioms Verif.Wat.word_types
#print axioms Verif.Wat.keyword_tokens
#print axioms Verif.Wat.space_tokens
#print axioms Verif.Wat.space_at
#print axioms Verif.Wat.mnemonics_distinct_partial
#print axioms Verif.Wat.lost_instructions
#print axioms Verif.Wit.token_place
#print axioms Verif.Wit.space_token
#print axioms Verif.Wit.digits_token
#print axioms Verif.Wit.line_comment_token
#print axioms Verif.Wit.foreign_character_refused
#print axioms Verif.Wit.trivia_ignored
#print axioms Verif.Wit.accepted_iff_document
#print axioms Verif.Wit.document_accepted
#print axioms Verif.Wit.accepted_shape
#print axioms Verif.Wit.loose_unambiguous
#print axioms Verif.Wit.document_unambiguous
#print axioms Verif.Wit.builtin_types_partial
#print axioms Verif.Wit.other_builtins_are_names
#print axioms Verif.Wit.item_type_unset
#print axioms Verif.Wat.wat_accepted_iff
#print axioms Verif.Wat.wat_refused_iff
#print axioms Verif.Wat.inline_import_lost
#print axioms Verif.Wat.wat_unambiguous
#print axioms Verif.Wat.wat_cut
#print axioms Verif.Wat.wat_rest_ignored
#print axioms Verif.Wast.wast_accepted_iff
#print axioms Verif.Wast.wast_refused_iff
#print axioms Verif.Wast.wast_unambiguous
#print axioms Verif.Wast.directive_unambiguous
#print axioms Verif.Wat.wat_balanced
#print axioms Verif.Wat.unbalanced_refused
#print axioms Verif.Wast.wast_balanced_partial
#print axioms Verif.Wast.wast_unbalanced
#print axioms Verif.Wast.wast_action_partial
#print axioms Verif.Wast.wast_no_action
#print axioms Verif.Wast.wast_get_refused
#print axioms Verif.Wat.float_integer_nearest_partial
#print axioms Verif.Wat.float_integer_partial
#print axioms Verif.Wat.float_instruction
#print axioms Verif.Wat.f32_integer_wraps
#print axioms Verif.Wat.float_integer_refused
#print axioms Verif.Wat.negative_zero
#print axioms Verif.Wast.wast_concat_partial
#print axioms Verif.Wast.empty_script_swallows
#print axioms Verif.Wast.script_print_parse_partial
#print axioms Verif.Wast.script_print_injective
#print axioms Verif.Wast.references_lost
#print axioms Verif.Abi.lower_gives_any_partial
#print axioms Verif.Abi.lift_takes_any_partial
#print axioms Verif.Abi.load_takes_any_partial
#print axioms Verif.Abi.lower_gives_partial
#print axioms Verif.Abi.lift_takes_partial
#print axioms Verif.Abi.load_takes_partial
#print axioms Verif.Abi.carried_once
#print axioms Verif.Abi.words_in_once
#print axioms Verif.Abi.words_at_once
#print axioms Verif.Abi.repeated_label_two_owners
#print axioms Verif.Abi.lower_list_with_handle_fails
#print axioms Verif.Abi.pass_moves_owned_any_partial
#print axioms Verif.Abi.pass_moves_owned_partial
#print axioms Verif.Abi.canonLift_handles_any_partial
#print axioms Verif.Abi.canonLower_handles_any_partial
#print axioms Verif.Abi.canonLift_handles_partial
#print axioms Verif.Abi.canonLower_handles_partial
#print axioms Verif.Abi.borrow_outlives_call
#print axioms Verif.Abi.call_end_partial
#print axioms Verif.Wat.decode_accepts_partial
#print axioms Verif.Wat.decode_loses
#print axioms Verif.Wat.decode_not_injective
#print axioms Verif.Runtime.load_standard_partial
#print axioms Verif.Runtime.loaded_is_not_callable
#print axioms Verif.Abi.string_copy_partial
#print axioms Verif.Abi.string_copy_cut
#print axioms Verif.Abi.string_copy_stale
#print axioms Verif.Abi.utf8_to_utf16_partial
#print axioms Verif.Abi.utf8_to_utf16_overruns
#print axioms Verif.Abi.full_memory_integers_partial
#print axioms Verif.Abi.full_memory_load_partial
#print axioms Verif.Abi.full_memory_last_word
#print axioms Verif.Binary.accepted_slots_partial
#print axioms Verif.Binary.slots_bounded
#print axioms Verif.Binary.few_bytes_many_slots
#print axioms Verif.Binary.counting_reads_same
#print axioms Verif.Wat.float_literal_partial
#print axioms Verif.Wat.exact_literal_partial
#print axioms Verif.Wat.float_literal_refused
#print axioms Verif.Wat.double_rounded
#print axioms Verif.Wat.double_refused
#print axioms Verif.Wat.goLib_total
#print axioms Verif.Wat.infinity_const
#print axioms Verif.Wat.f64_nan_partial
#print axioms Verif.Wat.f64_nan_refused
#print axioms Verif.Binary.Stream.portions_partial
#print axioms Verif.Binary.Stream.cuts_agree
#print axioms Verif.Binary.Stream.accepted_reads_bytes
#print axioms Verif.Binary.Stream.eof_with_byte_refused
#print axioms Verif.Binary.Stream.eof_with_byte_accepted
#print axioms Verif.Binary.Stream.empty_read_refused
#print axioms Verif.Binary.Stream.lastWithEof_delivers
#print axioms Verif.Binary.Stream.hesitant_delivers
#print axioms Verif.Binary.Stream.failing_reader
#print axioms Verif.Wat.text_portions
#print axioms Verif.Wat.text_reads_bytes
#print axioms Verif.Wat.text_failing_reader
#print axioms Verif.Leb128.encoded_or_reported
#print axioms Verif.Leb128.reported_at_once
#print axioms Verif.Leb128.nothing_to_report
#print axioms Verif.Leb128.decode_buffered
#print axioms Verif.Leb128.lastWithEof_patient
#print axioms Verif.Leb128.hesitant_patient
#print axioms Verif.Abi.stored_together
#print axioms Verif.Abi.load_typed
#print axioms Verif.Abi.lift_typed
#print axioms Verif.Abi.canonical_unique
#print axioms Verif.Abi.repeated_label_untyped
#print axioms Verif.Abi.copy_exact
#print axioms Verif.Abi.forward_exact
#print axioms Verif.Abi.received_sendable
#print axioms Verif.Abi.load_reads_only
#print axioms Verif.Abi.lift_reads_only
#print axioms Verif.Abi.load_again
#print axioms Verif.Abi.lift_own_values
#print axioms Verif.Abi.lift_alone
#print axioms Verif.Abi.load_own_bytes
#print axioms Verif.Abi.load_after_write
#print axioms Verif.Wat.line_comment_at
#print axioms Verif.Wat.line_comment_end
#print axioms Verif.Wat.lone_semicolon
#print axioms Verif.Wit.malformed_refused
#print axioms Verif.Wit.tokens_utf8
#print axioms Verif.Wit.accepted_utf8
#print axioms Verif.Abi.string_read_partial
#print axioms Verif.Abi.string_load_partial
#print axioms Verif.Abi.string_read_sound
#print axioms Verif.Abi.string_refused
#print axioms Verif.Abi.malformed_string_accepted
#print axioms Verif.Handles.refused_unseen_partial
#print axioms Verif.Handles.refused_add_partial
#print axioms Verif.Handles.refused_add_seen
#print axioms Verif.Abi.load_means_partial
#print axioms Verif.Abi.load_only_means_partial
#print axioms Verif.Abi.load_refuses_partial
#print axioms Verif.Abi.means_unique
#print axioms Verif.Abi.untagged_length_accepted
#print axioms Verif.Abi.store_means_partial
#print axioms Verif.Abi.neat_exact
#print axioms Verif.Abi.flatten_core
#print axioms Verif.Abi.lower_means_partial
#print axioms Verif.Abi.lift_means_partial
#print axioms Verif.Abi.lift_only_means_partial
#print axioms Verif.Abi.lift_refuses_partial
#print axioms Verif.Abi.flat_means_unique
#print axioms Verif.Abi.flat_neat_exact
#print axioms Verif.Abi.canonLift_means_partial
#print axioms Verif.Abi.canonLower_means_partial
#print axioms Verif.Abi.canonLower_refuses_partial
#print axioms Verif.Abi.component_call_means_partial
#print axioms Verif.Abi.canonLower_spilled_means_partial
#print axioms Verif.Abi.load_bounded
#print axioms Verif.Abi.list_bounded
#print axioms Verif.Abi.lift_bounded
#print axioms Verif.Abi.liftValues_bounded
#print axioms Verif.Abi.empty_elements_unbounded
#print axioms Verif.Abi.nested_lists_reach
#print axioms Verif.Binary.read_iff
#print axioms Verif.Binary.one_reading
#print axioms Verif.Binary.malformed_refused_partial
#print axioms Verif.Binary.size_ignored
#print axioms Verif.Binary.order_ignored
#print axioms Verif.Binary.repeats_ignored
#print axioms Verif.Binary.numbers_wrap
#print axioms Verif.Abi.load_handles_means
#print axioms Verif.Abi.load_handles_only_means
#print axioms Verif.Abi.load_handles_refuses
#print axioms Verif.Abi.lift_handles_means
#print axioms Verif.Abi.lift_handles_only_means
#print axioms Verif.Abi.lift_handles_refuses
#print axioms Verif.Abi.lower_handles_means
#print axioms Verif.Abi.swapped_carried
#print axioms Verif.Abi.canonLift_table_partial
#print axioms Verif.Abi.canonLower_table_partial
#print axioms Verif.Abi.canonLower_table_refuses_partial
#print axioms Verif.Abi.component_call_table_partial
#print axioms Verif.Abi.canonLower_spilled_table_partial
#print axioms Verif.Abi.store_asks
#print axioms Verif.Abi.lower_asks
#print axioms Verif.Abi.asks_determined
#print axioms Verif.Abi.canonLift_asks
#print axioms Verif.Abi.canonLower_asks
#print axioms Verif.Abi.store_ignores_memory
#print axioms Verif.Abi.lower_ignores_memory
#print axioms Verif.Abi.store_same
#print axioms Verif.Abi.lower_same
#print axioms Verif.Abi.canonLift_same
#print axioms Verif.Abi.canonLower_same
#print axioms Verif.Abi.store_apart
#print axioms Verif.Abi.lower_apart
#print axioms Verif.Abi.canonLift_isolated
#print axioms Verif.Abi.canonLower_isolated
#print axioms Verif.Abi.component_call_isolated
#print axioms Verif.Abi.calls_isolated
#print axioms Verif.Abi.loaded_lists_fit
#print axioms Verif.Abi.lifted_lists_fit
#print axioms Verif.Abi.loaded_strings_fit
#print axioms Verif.Abi.lifted_strings_fit
#print axioms Verif.Abi.relay_memory
#print axioms Verif.Abi.relay_flat
#print axioms Verif.Abi.canonLift_confined
#print axioms Verif.Abi.canonLower_confined
#print axioms Verif.Abi.calls_confined
#print axioms Verif.Abi.canonLift_blind
#print axioms Verif.Abi.load_is_lifts
#print axioms Verif.Abi.lift_is_lifts
#print axioms Verif.Abi.lower_is_lowers
#print axioms Verif.Abi.store_keeps_handles
#print axioms Verif.Abi.compCall_operates
#print axioms Verif.Abi.calls_are_history
#print axioms Verif.Abi.calls_destroy_at_most_once
#print axioms Verif.Abi.calls_destroy_nothing
#print axioms Verif.Abi.calls_leave_handles
#print axioms Verif.Abi.calls_keep_flags_partial
#print axioms Verif.Abi.bad_arguments_close
#print axioms Verif.Abi.closed_for_ever
#print axioms Verif.Abi.one_bad_call
#print axioms Verif.Wat.const_exact
#print axioms Verif.Wat.const_unique
#print axioms Verif.Wat.index_decimal_partial
#print axioms Verif.Wat.index_exact
#print axioms Verif.Wat.index_wraps
#print axioms Verif.Wat.index_negative
#print axioms Verif.Wat.index_hex_refused
#print axioms Verif.Wat.index_under_refused
#print axioms Verif.Wat.items_answered_partial
#print axioms Verif.Wat.answers_unique
#print axioms Verif.Wat.items_return
#print axioms Verif.Wat.string_panics
#print axioms Verif.Wat.longest_token_partial
#print axioms Verif.Wat.own_rules
#print axioms Verif.Wat.own_rules_none
#print axioms Verif.Wat.own_rules_lossless
#print axioms Verif.Wat.no_going_back
#print axioms Verif.Wat.from_string
#print axioms Verif.Wat.from_string_rule
#print axioms Verif.Wat.same_rules
#print axioms Verif.Wat.map_order
#print axioms Verif.Wat.rule_order
#print axioms Verif.Wat.error_place
#print axioms Verif.Wat.said_next
#print axioms Verif.Wit.error_place
#print axioms Verif.Wit.said_next
#print axioms Verif.Wat.state_rule_partial
#print axioms Verif.Wat.state_rule_fails
#print axioms Verif.Wit.fails_iff
#print axioms Verif.Wat.parse_error_local
#print axioms Verif.Wat.parse_error_place
#print axioms Verif.Wat.watched_outcome
#print axioms Verif.Wit.parse_error_local
#print axioms Verif.Wit.parse_error_place_partial
#print axioms Verif.Wit.watched_outcome
#print axioms Verif.Wit.world_item_place
#print axioms Verif.Abi.spilled_asked_partial
#print axioms Verif.Abi.spilled_given_partial
#print axioms Verif.Abi.spilled_wraps
#print axioms Verif.Abi.spilled_no_place
#print axioms Verif.Wast.script_error_local
#print axioms Verif.Wast.script_error_place
#print axioms Verif.Wast.watched_outcome
#print axioms Verif.Abi.load_grown
#print axioms Verif.Abi.lift_grown
#print axioms Verif.Abi.store_grown
#print axioms Verif.Abi.lower_grown
#print axioms Verif.Abi.call_grown
#print axioms Verif.Abi.calls_grown
#print axioms Verif.Abi.full_memory_no_strings
#print axioms Verif.Wit.tokens_newline
#print axioms Verif.Wit.wit_concat
#print axioms Verif.Wit.wit_concat_all
#print axioms Verif.Wit.concat_comment
#print axioms Verif.Wit.concat_package_lost
#print axioms Verif.Abi.load_record_extended
#print axioms Verif.Abi.lift_record_extended
#print axioms Verif.Abi.load_tuple_extended
#print axioms Verif.Abi.lift_tuple_extended
#print axioms Verif.Abi.load_variant_extended
#print axioms Verif.Abi.lift_variant_extended
#print axioms Verif.Abi.load_enum_extended
#print axioms Verif.Abi.load_union_extended
#print axioms Verif.Abi.load_flags_extended
#print axioms Verif.Abi.lift_flags_extended
#print axioms Verif.Abi.enum_width_crossed
#print axioms Verif.Abi.variant_payload_moved
#print axioms Verif.Abi.list_elements_moved
#print axioms Verif.Abi.refined_label_changed
#print axioms Verif.Wit.wit_rename_accepted
#print axioms Verif.Wit.wit_rename
#print axioms Verif.Wit.wit_rename_written
#print axioms Verif.Wit.keyword_is_no_name
#print axioms Verif.Wat.wat_rename_accepted
#print axioms Verif.Wat.wat_rename
#print axioms Verif.Wat.wat_rename_written
#print axioms Verif.Wat.not_a_name
#print axioms Verif.Wat.names_not_resolved
#print axioms Verif.Wat.wat_sections
#print axioms Verif.Wat.wat_sections_swap
#print axioms Verif.Wat.wat_sections_written
#print axioms Verif.Wat.sections_unbalanced
#print axioms Verif.Wit.wit_items
#print axioms Verif.Wit.wit_items_swap
#print axioms Verif.Wit.wit_world_items
#print axioms Verif.Wit.wit_world_items_swap
#print axioms Verif.Wit.wit_items_written
#print axioms Verif.Wit.resource_goes_on
#print axioms Verif.Wast.script_first_module
#print axioms Verif.Wast.script_module_anywhere
#print axioms Verif.Wast.module_is_script
#print axioms Verif.Wast.module_before_script
#print axioms Verif.Wast.asserted_module
#print axioms Verif.Wast.asserted_unbalanced
#print axioms Verif.Wast.script_rename_accepted
#print axioms Verif.Wast.script_rename
#print axioms Verif.Wast.action_word_is_no_name
#print axioms Verif.Binary.read_so_far
#print axioms Verif.Binary.one_more_section
#print axioms Verif.Binary.cut_at_section
#print axioms Verif.Binary.refused_stays
