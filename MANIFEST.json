{
 "claims": [
  {
   "property": "C01",
   "status": "proved",
   "theorems": [
    "Verif.Leb128.roundtrip"
   ],
   "note": "All 32-bit values, all trailing bytes, all three decoders."
  },
  {
   "property": "C02",
   "status": "proved",
   "theorems": [
    "Verif.Leb128.decoders_agree",
    "Verif.Leb128.truncated_is_error",
    "Verif.Leb128.inputs_covered",
    "Verif.Leb128.decodeSlice_accepts_truncated",
    "Verif.Leb128.decoders_never_panic"
   ],
   "note": "Denotation given by the separate `denotes`. The slice decoder accepts truncated input; that is stated as its own theorem."
  },
  {
   "property": "C03",
   "status": "partial",
   "theorems": [
    "Verif.Leb128.encode_shape",
    "Verif.Leb128.encode_minimal_partial",
    "Verif.Leb128.encode_prefix_free",
    "Verif.Leb128.empty_slice_is_zero"
   ],
   "note": "Length, shape and prefix freedom for all values; minimality over everything the three decoders accept, except the empty slice. Full statement false of the code there: the slice decoder maps no bytes at all to 0 (empty_slice_is_zero)."
  },
  {
   "property": "C04",
   "status": "proved",
   "theorems": [
    "Verif.Binary.read_returns",
    "Verif.Binary.header_needed",
    "Verif.Binary.header_missing",
    "Verif.Binary.short_input"
   ],
   "note": "Every byte string; also that Read never panics and always ends."
  },
  {
   "property": "C05",
   "status": "partial",
   "theorems": [
    "Verif.Binary.standard_read_partial",
    "Verif.Binary.read_module_iff",
    "Verif.Binary.locals_refused",
    "Verif.Binary.locals_misread"
   ],
   "note": "Proved for functions without locals, with any custom sections in between. Full statement false of the code for functions with locals: the reader expects plain value types instead of count/type pairs, shown by a refused and a misread module."
  },
  {
   "property": "C06",
   "status": "partial",
   "theorems": [
    "Verif.Binary.unknown_between_partial",
    "Verif.Binary.unknown_transparent_partial",
    "Verif.Binary.unknown_not_transparent"
   ],
   "note": "Proved after every sequence of sections of the grammar, accepted or not, for any payload and continuation. Full statement false of the code where a section lies about its size: the size fields of known sections are not checked, shown by a concrete input (unknown_not_transparent)."
  },
  {
   "property": "C07",
   "status": "proved",
   "theorems": [
    "Verif.Binary.cut_refused",
    "Verif.Binary.short_input"
   ],
   "note": "Sections as the reader delimits them; cuts inside the preamble are short_input."
  },
  {
   "property": "C08",
   "status": "partial",
   "theorems": [
    "Verif.Binary.paired_all_partial",
    "Verif.Binary.paired_partial",
    "Verif.Binary.code_missing"
   ],
   "note": "Proved for every sequence of sections (paired_all_partial: what is accepted, and which type index and body every function gets; paired_partial for one section of each kind); more bodies than functions are refused. Full statement false of the code for fewer bodies: accepted with absent bodies (code_missing)."
  },
  {
   "property": "C09",
   "status": "proved",
   "theorems": [
    "Verif.Abi.alignTo_least",
    "Verif.Abi.alignTo_float"
   ],
   "note": "Integer part for every nonzero alignment; float64 rounding shown exact for the alignments in use. The model computes exactly; platform dependent float-to-integer overflow is excluded by the hypothesis that the result is below 2^32."
  },
  {
   "property": "C10",
   "status": "proved",
   "theorems": [
    "Verif.Abi.size_aligned",
    "Verif.Abi.elements_aligned",
    "Verif.Abi.size_refines",
    "Verif.Abi.alignment_swallows_error"
   ],
   "note": "Every user type. `Alignment` alone can answer 0 without error for a variant with an unknown payload type; that is recorded as a theorem."
  },
  {
   "property": "C11",
   "status": "partial",
   "theorems": [
    "Verif.Abi.record_fields_placed_partial",
    "Verif.Abi.storeFields_addrs",
    "Verif.Abi.loadFields_addrs",
    "Verif.Abi.fields_overlap"
   ],
   "note": "For a record placed at an aligned address with its end below 2^32. Full statement false of the code for larger types: sizes are 32-bit, a field of 2^32 bytes counts as none and the next field is put on top of it (fields_overlap). storeFields_addrs and loadFields_addrs: the loops of Store and Load use exactly those addresses."
  },
  {
   "property": "C12",
   "status": "partial",
   "theorems": [
    "Verif.Abi.discriminant_minimal_partial",
    "Verif.Abi.discriminant_too_many_cases"
   ],
   "note": "Full statement false of the code above 2^24 cases (refused); proved up to 2^24 and the refusal proved above. log2 is computed exactly in the model."
  },
  {
   "property": "C13",
   "status": "proved",
   "theorems": [
    "Verif.Abi.specialised_as_expansion",
    "Verif.Abi.expansions",
    "Verif.Abi.code_equations"
   ],
   "note": "code_equations shows that eager expansion in the model obeys the lazy equations of the code."
  },
  {
   "property": "C14",
   "status": "proved",
   "theorems": [
    "Verif.Abi.lower_flatten"
   ],
   "note": "Any type, value, state and allocator."
  },
  {
   "property": "C15",
   "status": "proved",
   "theorems": [
    "Verif.Abi.lift_consumes",
    "Verif.Abi.liftSeq_consumes"
   ],
   "note": "Any type and value list; also for parameters lifted in sequence."
  },
  {
   "property": "C16",
   "status": "proved",
   "theorems": [
    "Verif.Abi.flattenFunc_limits",
    "Verif.Abi.flattenFunc_error",
    "Verif.Abi.flattenTypes_concat"
   ],
   "note": "Every function type, every pair of limits."
  },
  {
   "property": "C17",
   "status": "proved",
   "theorems": [
    "Verif.Abi.joined_kind_carries"
   ],
   "note": "Position by position for every case of every variant, all bits; end to end in C22."
  },
  {
   "property": "C18",
   "status": "partial",
   "theorems": [
    "Verif.Abi.integers_in_memory_partial",
    "Verif.Abi.full_memory_store_refused"
   ],
   "note": "All eight integer types, every address inside a memory shorter than 2^32 bytes. Full statement false of the code for a memory of 2^32 bytes, the largest WebAssembly allows (C96)."
  },
  {
   "property": "C19",
   "status": "partial",
   "theorems": [
    "Verif.Abi.store_load_partial",
    "Verif.Abi.store_succeeds_partial",
    "Verif.Abi.store_with_handle_fails",
    "Verif.Abi.flags_over_64"
   ],
   "note": "Any type without handles, any value of it, any allocator meeting GoodAlloc, any encoding the factory knows. Missing: flags with more than 64 labels, lists of 2^32 bytes, variants with repeated labels, for which the code does not round trip (see C25, C20); handles, which Store refuses (store_with_handle_fails, C89). Full statement false of the code: flags of more than 64 labels are stored without writing anything and cannot be loaded (flags_over_64)."
  },
  {
   "property": "C20",
   "status": "partial",
   "theorems": [
    "Verif.Abi.store_frame_partial",
    "Verif.Abi.list_overflow_escapes"
   ],
   "note": "Full statement false of the code: a list whose byte size reaches 2^32 is written outside what was allocated. Proved for all other values."
  },
  {
   "property": "C21",
   "status": "partial",
   "theorems": [
    "Verif.Abi.store_refuses_partial",
    "Verif.Abi.store_refuses_unlaid",
    "Verif.Abi.store_wrap_panics"
   ],
   "note": "Full statement false of the code: ptr+size wrapping around passes the check and panics. Proved when it does not wrap."
  },
  {
   "property": "C22",
   "status": "partial",
   "theorems": [
    "Verif.Abi.lower_lift_handles_any_partial",
    "Verif.Abi.lower_lift_handles_partial",
    "Verif.Abi.lower_lift_partial",
    "Verif.Abi.lower_succeeds_partial",
    "Verif.Abi.borrow_home_not_lifted"
   ],
   "note": "Any type with or without handles, any value of it, any allocator meeting GoodAlloc, any reachable tables, values before and after left alone. Missing: more than 64 flags, where it is false (lower_flags_over_64); borrowed handles lowered into the instance that implements the resource, which gets the representation itself and where it is false (borrow_home_not_lifted). After every history, also one that uses calls after their end, as long as no table has 2^32 slots (the _any theorems, by the books of Handles.Ledger); with 2^32 slots it is false (add_returns_live)."
  },
  {
   "property": "C23",
   "status": "proved",
   "theorems": [
    "Verif.Abi.load_char",
    "Verif.Abi.lift_char",
    "Verif.Abi.load_char_any"
   ],
   "note": "Loading and lifting, every 32-bit word. Loads in memories of 2^32 bytes: load_char_any; what fails there is in C96."
  },
  {
   "property": "C24",
   "status": "proved",
   "theorems": [
    "Verif.Abi.canonical_idem",
    "Verif.Abi.load_float",
    "Verif.Abi.store_float",
    "Verif.Abi.lift_float",
    "Verif.Abi.lower_float",
    "Verif.Abi.load_float_any",
    "Verif.Abi.store_float_any"
   ],
   "note": "All four directions, every bit pattern. Loads and stores in memories of 2^32 bytes: the _any theorems; what fails there is in C96."
  },
  {
   "property": "C25",
   "status": "partial",
   "theorems": [
    "Verif.Abi.load_flags_partial",
    "Verif.Abi.lift_flags_partial",
    "Verif.Abi.flags_over_64",
    "Verif.Abi.lower_flags_over_64",
    "Verif.Abi.lift_flags_over_64"
   ],
   "note": "Full statement false of the code above 64 labels (the three over_64 theorems). Up to 64 labels loading and lifting proved here; storing then loading and lowering then lifting are part of store_load_partial and lower_lift_partial."
  },
  {
   "property": "C26",
   "status": "proved",
   "theorems": [
    "Verif.Abi.tagged_code_units"
   ],
   "note": "Every count below 2^31, both flags."
  },
  {
   "property": "C27",
   "status": "partial",
   "theorems": [
    "Verif.Abi.load_string_range_partial",
    "Verif.Abi.load_list_range_partial",
    "Verif.Abi.load_returns_partial",
    "Verif.Abi.string_wrap_panics",
    "Verif.Abi.string_length_bit_dropped",
    "Verif.Abi.list_wrap_panics",
    "Verif.Abi.load_spare_capacity"
   ],
   "note": "Full statement false of the code for ranges reaching 2^32 and for lengths with the top bit set. Proved for all others, including that nothing outside memory is read."
  },
  {
   "property": "C28",
   "status": "proved",
   "theorems": [
    "Verif.Abi.load_list_elements",
    "Verif.Abi.load_unchanged"
   ],
   "note": "Every element type, also with handles."
  },
  {
   "property": "C29",
   "status": "partial",
   "theorems": [
    "Verif.Abi.store_checks_type_partial",
    "Verif.Abi.store_truncates",
    "Verif.Abi.store_takes_non_integer",
    "Verif.Abi.store_float_panics"
   ],
   "note": "Full statement false of the code: integers of other widths are truncated, non-integers stored as 0. What an accepted value must look like is proved."
  },
  {
   "property": "C30",
   "status": "proved",
   "theorems": [
    "Verif.Abi.match_case",
    "Verif.Abi.loaded_label_selects"
   ],
   "note": "match_case: every type. loaded_label_selects: distinct labels without |."
  },
  {
   "property": "C31",
   "status": "partial",
   "theorems": [
    "Verif.Abi.load_terminates_partial",
    "Verif.Abi.cyclic_refines_diverges"
   ],
   "note": "Full statement false of the code: cyclic refines loops for ever. Proved when refines chains end."
  },
  {
   "property": "C32",
   "status": "partial",
   "theorems": [
    "Verif.Handles.table_spec_partial",
    "Verif.Handles.table_never_panics_partial",
    "Verif.Handles.history_spec_partial",
    "Verif.Handles.ledger_spec_partial",
    "Verif.Handles.index_keeps_partial",
    "Verif.Handles.add_returns_live",
    "Verif.Handles.full_table_fails",
    "Verif.Handles.wrapped_index"
   ],
   "note": "Proved for tables with fewer than 2^32 slots: one table (table_spec_partial), and several instances, types and calls (ledger_spec_partial, index_keeps_partial; history_spec_partial in the terms of C34). Full statement false of the code beyond: with 2^32 handles no index can be used (full_table_fails), the next Add returns index 0, which is live (add_returns_live), and index 0 then gives the first handle (wrapped_index). An Add may also return an error, see C33."
  },
  {
   "property": "C33",
   "status": "partial",
   "theorems": [
    "Verif.Handles.freed_reused_partial",
    "Verif.Handles.add_exact_partial",
    "Verif.Handles.add_fails_after_remove",
    "Verif.Handles.table_outgrows_live",
    "Verif.Handles.one_removal_breaks_add",
    "Verif.Handles.table_length_le_adds"
   ],
   "note": "Full statement false of the code: Remove records the length of the free list instead of the freed index. add_exact_partial gives the result of Add after every history of a table below 2^32 slots; one_removal_breaks_add: freeing any handle but the first makes the next Add fail, for tables of every size. Proved: removals in increasing order starting at 0 are reused."
  },
  {
   "property": "C34",
   "status": "partial",
   "theorems": [
    "Verif.Handles.lent_stays_partial",
    "Verif.Handles.lent_live_partial",
    "Verif.Handles.exit_fails_iff_partial",
    "Verif.Handles.exit_releases_partial",
    "Verif.Handles.lent_taken_after_second_exit",
    "Verif.Handles.ledger_spec_partial"
   ],
   "note": "Proved for histories that use no call after its end and keep tables below 2^32 slots (Valid). Full statement false of the code when ExitCall is called twice on a context: it does not forget the lenders and releases them twice, so a handle lent to another call can be removed (lent_taken_after_second_exit). ledger_spec_partial: in every history, valid or not, while no table has 2^32 slots, a handle with a loan on the books cannot be removed."
  },
  {
   "property": "C35",
   "status": "partial",
   "theorems": [
    "Verif.Handles.index_keeps_partial",
    "Verif.Handles.lifted_index_dead_partial",
    "Verif.Handles.liftOwn_moves_partial",
    "Verif.Handles.lifted_dead_partial",
    "Verif.Handles.liftBorrow_keeps_partial",
    "Verif.Handles.full_table_fails",
    "Verif.Handles.wrapped_index"
   ],
   "note": "Proved for every history of operations in which the tables stay below 2^32 slots, also when calls are used after their end (Ledger). Any continuation of the history. Full statement false of the code with 2^32 slots (full_table_fails, wrapped_index). The last three theorems say it in the terms of C34, for Valid histories."
  },
  {
   "property": "C36",
   "status": "partial",
   "theorems": [
    "Verif.Handles.drop_destructs_any_partial",
    "Verif.Handles.destructs_at_most_once",
    "Verif.Handles.drop_destructs_partial",
    "Verif.Handles.drop_loses_resource"
   ],
   "note": "Never twice: proved for every history without assumption (destructs_at_most_once). Exactly when: Proved for every history of operations in which the tables stay below 2^32 slots, also when calls are used after their end (Ledger). Full statement false of the code when the implementing instance may not be entered: the drop traps after the handle has been removed, and the destructor is never called (drop_loses_resource)."
  },
  {
   "property": "C37",
   "status": "proved",
   "theorems": [
    "Verif.Handles.types_isolated",
    "Verif.Handles.types_independent",
    "Verif.Handles.types_unobserved"
   ],
   "note": "Every history, valid or not. No effect on, and no dependence on, the tables of other types."
  },
  {
   "property": "C38",
   "status": "partial",
   "theorems": [
    "Verif.Abi.canonLift_forbidden",
    "Verif.Abi.canonLower_forbidden",
    "Verif.Abi.canonLift_flags_partial",
    "Verif.Abi.canonLift_flags_ok",
    "Verif.Abi.canonLower_flags_partial",
    "Verif.Abi.canonLift_leave_lost",
    "Verif.Abi.canonLower_leave_lost"
   ],
   "note": "Forbidden calls are refused without calling the callee, and successful calls keep the flags. On the error paths the code leaves MayLeave off when lowering the arguments (CanonLift) or results (CanonLower) fails; that is the only exception, and both are witnessed by concrete calls."
  },
  {
   "property": "C39",
   "status": "partial",
   "theorems": [
    "Verif.Abi.canonLift_identity_partial",
    "Verif.Abi.component_call_partial",
    "Verif.Abi.canonLift_delivers_partial",
    "Verif.Abi.canonLower_delivers_partial",
    "Verif.Abi.component_call_any_partial",
    "Verif.Abi.canonLift_spilled_fails",
    "Verif.Abi.spilled_results_lost",
    "Verif.Abi.spilled_order_lost",
    "Verif.Abi.canonLower_nil_post"
   ],
   "note": "Proved for values passed flat, handles included, between two instances with different memories and string encodings, and for every function called (component_call_any_partial: what the function gets stands for the arguments in its memory, what the caller gets back stands for the results in its own). False in the code when values are spilled: the pointer is not a flat value, the tuple is never stored, and loaded tuples come in map order."
  },
  {
   "property": "C40",
   "status": "partial",
   "theorems": [
    "Verif.Abi.nexts_in_order_partial",
    "Verif.Abi.nexts_empty",
    "Verif.Abi.next_past_end",
    "Verif.Abi.coerce_past_end",
    "Verif.Abi.coerce_wrong_kind"
   ],
   "note": "In order, each once, errors on a wrong kind and on an empty list. Full statement false of the code: past the end of a list that is not empty Next panics (next_past_end); a coercing iterator asked for a kind it cannot convert to returns the value of the other kind (coerce_wrong_kind)."
  },
  {
   "property": "C41",
   "status": "proved",
   "theorems": [
    "Verif.Wat.tokens_tile",
    "Verif.Wat.tokens_end"
   ],
   "note": "Every input; errors on the way lose no text either."
  },
  {
   "property": "C42",
   "status": "proved",
   "theorems": [
    "Verif.Wat.token_place"
   ],
   "note": "Every input and every token returned, also after errors."
  },
  {
   "property": "C43",
   "status": "partial",
   "theorems": [
    "Verif.Wat.peek_clone_partial",
    "Verif.Wat.answer_nexts",
    "Verif.Wat.peek_panics",
    "Verif.Wit.peek_clone_partial",
    "Verif.Wit.answer_nexts",
    "Verif.Wit.peek_panics"
   ],
   "note": "Proved for the WAT and the WIT lexer, any number of lexers and clones and any order of calls, as long as no Peek meets a lexical error. Full statement false of the code there: Peek panics and moves on (peek_panics of both)."
  },
  {
   "property": "C44",
   "status": "partial",
   "theorems": [
    "Verif.Wat.integer_words_partial",
    "Verif.Wat.integer_words",
    "Verif.Wat.untidy_integer"
   ],
   "note": "Exact for words without a trailing or doubled underscore; integer_words gives the accepted language for all words. Full statement false of the code: 1_ is taken as an integer (untidy_integer)."
  },
  {
   "property": "C45",
   "status": "partial",
   "theorems": [
    "Verif.Wat.float_words_partial",
    "Verif.Wat.float_words",
    "Verif.Wat.float_names",
    "Verif.Wat.float_only",
    "Verif.Wat.decimal_float_missed",
    "Verif.Wat.no_float_taken"
   ],
   "note": "Which words are returned as floats is proved exactly, for all words (float_words), and which literals of the format: inf, nan, payloads, and hexadecimal ones with signed exponents; decimal floats never (decimal_float_missed). Full statement false of the code in both directions (no_float_taken)."
  },
  {
   "property": "C46",
   "status": "partial",
   "theorems": [
    "Verif.Wat.closed_tokens_partial",
    "Verif.Wat.end_capture",
    "Verif.Wat.unterminated_is_end"
   ],
   "note": "String and comment tokens are always closed. Full statement false of the code: every unclosed string or block comment is returned as the end of the stream (unterminated_is_end, for all such inputs); only its non-empty capture tells (end_capture)."
  },
  {
   "property": "C47",
   "status": "proved",
   "theorems": [
    "Verif.Wat.trivia_ignored",
    "Verif.Wast.script_trivia_ignored"
   ],
   "note": "Every pair of modules and every pair of scripts; the bound on loops of the model is any number above the length of the text (see wat_parser_ends, wast_parser_ends)."
  },
  {
   "property": "C48",
   "status": "partial",
   "theorems": [
    "Verif.Wat.int32_literal_partial",
    "Verif.Wat.int64_literal_partial",
    "Verif.Wat.const_instruction",
    "Verif.Wat.padded_literals",
    "Verif.Wat.wide_literal",
    "Verif.Wat.plus_refused",
    "Verif.Wat.padded_octal"
   ],
   "note": "Proved for every literal without a plus sign and superfluous leading zeros, 64 bit constants in the range of 32 bit ones. Full statement false of the code for the rest: a plus sign is always refused (plus_refused), a leading 0 always means base 8 (padded_octal, padded_literals), and 64 bit constants out of the 32 bit range are refused (wide_literal)."
  },
  {
   "property": "C49",
   "status": "partial",
   "theorems": [
    "Verif.Wat.nan_payload_partial",
    "Verif.Wat.plain_nan_infinite",
    "Verif.Wat.f32_plus_nan_refused"
   ],
   "note": "Proved for every payload with a minus sign or no sign. Full statement false of the code for plain nan, which becomes infinity (plain_nan_infinite), and for a plus sign, with which every NaN is refused (f32_plus_nan_refused, with the model of strconv.ParseFloat)."
  },
  {
   "property": "C50",
   "status": "partial",
   "theorems": [
    "Verif.Wat.print_parse_partial",
    "Verif.Wat.print_parse_spaced_partial",
    "Verif.Wat.print_injective",
    "Verif.Wat.wide_i64_refused"
   ],
   "note": "Proved for every component or module whose 64 bit constants are in the range of 32 bits, whose floats are written as the library reads them, whose names are names and whose exported names have no quote (Spec.Supported). Full statement false of the code for wider 64 bit constants (wide_i64_refused)."
  },
  {
   "property": "C51",
   "status": "proved",
   "theorems": [
    "Verif.Wat.wat_parser_ends",
    "Verif.Wit.wit_parser_ends",
    "Verif.Wast.wast_parser_ends"
   ],
   "note": "The three parsers, every text. The bound on loops and recursion that the model needs is shown never to be reached and not to matter."
  },
  {
   "property": "C52",
   "status": "proved",
   "theorems": [
    "Verif.Wit.tokens_tile",
    "Verif.Wit.tokens_end"
   ],
   "note": "Every text, valid UTF-8 or not, and whatever the Unicode tables say about characters from U+0080 on."
  },
  {
   "property": "C53",
   "status": "proved",
   "theorems": [
    "Verif.Wit.comments_nest",
    "Verif.Wit.unbalanced_comment_refused",
    "Verif.Wit.token_spelling"
   ],
   "note": "Every nesting depth. token_spelling says that every BlockComment token is a balanced comment."
  },
  {
   "property": "C54",
   "status": "proved",
   "theorems": [
    "Verif.Wit.word_token",
    "Verif.Wit.explicit_token",
    "Verif.Wit.arrow_token",
    "Verif.Wit.operator_token",
    "Verif.Wit.token_spelling"
   ],
   "note": "Every word at every place of a text."
  },
  {
   "property": "C55",
   "status": "partial",
   "theorems": [
    "Verif.Wit.print_parse_partial",
    "Verif.Wit.print_read",
    "Verif.Wit.top_level_use_changed",
    "Verif.Wit.not_read_back"
   ],
   "note": "Every tree of the supported part (OkAst), of any size and nesting and with any names, without a use at top level; with uses the exact tree read back is given. Missing, because it is false for them: trees with uses at top level (their semicolon becomes an empty item), with the built-in types other than u32, float32, float64 and string, with ItemType set, with named methods, with flags or enums in a world, with includes of several names, with paths that have a package, and with version numbers from 2^31 on; witnesses in not_read_back."
  },
  {
   "property": "C56",
   "status": "partial",
   "theorems": [
    "Verif.Wit.only_items_accepted_partial",
    "Verif.Wit.lone_token_accepted",
    "Verif.Wit.accepted_iff_loose"
   ],
   "note": "Proved for every text whose tree has no empty item. Missing, because it is false: a token at top level that begins no item is accepted and becomes an empty item. accepted_iff_loose says exactly what is accepted."
  },
  {
   "property": "C57",
   "status": "partial",
   "theorems": [
    "Verif.Runtime.instantiation_partial",
    "Verif.Runtime.addresses_wrap"
   ],
   "note": "Proved while the store holds at most 2^32 functions; beyond that the uint32 address wraps (addresses_wrap)."
  },
  {
   "property": "C58",
   "status": "partial",
   "theorems": [
    "Verif.Runtime.getExport_first_partial",
    "Verif.Runtime.exports_never_found"
   ],
   "note": "GetExport finds the first export of an instance. Full statement false of the code: NewModuleInstance never fills the exports (exports_never_found)."
  },
  {
   "property": "C59",
   "status": "proved",
   "theorems": [
    "Verif.Collections.stack_lifo",
    "Verif.Collections.push_shares"
   ],
   "note": "Each stack value used once, as in every use in the repository; push_shares shows what happens when an old stack value is pushed to again."
  },
  {
   "property": "C60",
   "status": "proved",
   "theorems": [
    "Verif.Collections.select_ok",
    "Verif.Collections.select_err"
   ],
   "note": "Every slice and every transform, with the effects of the transform in order."
  },
  {
   "property": "C61",
   "status": "proved",
   "theorems": [
    "Verif.Encoding.default_factory_exact",
    "Verif.Encoding.factory_last"
   ],
   "note": "Every name."
  },
  {
   "property": "C62",
   "status": "partial",
   "theorems": [
    "Verif.Abi.strings_in_memory_partial",
    "Verif.Abi.latin1_refused",
    "Verif.Abi.long_string_cut"
   ],
   "note": "Strings whose encoding is shorter than 2^31 code units, memories shorter than 2^32 bytes, allocators that return what the canonical ABI asks for (GoodAlloc). Characters Latin-1 does not have are refused (latin1_refused). Full statement false of the code for longer strings: an ASCII string of 2^31 or more characters is stored and comes back without its last 2^31 characters (long_string_cut)."
  },
  {
   "property": "C63",
   "status": "partial",
   "theorems": [
    "Verif.Abi.load_returns_partial",
    "Verif.Abi.load_outside_panics",
    "Verif.Abi.string_wrap_panics",
    "Verif.Abi.list_wrap_panics"
   ],
   "note": "Full statement false of the code: loads are not bounds checked. Proved for destinations inside memory whose pairs do not reach 2^32 and types with finite refines."
  },
  {
   "property": "C64",
   "status": "partial",
   "theorems": [
    "Verif.Handles.borrow_lifted_as_own",
    "Verif.Handles.drop_borrow_any_partial",
    "Verif.Handles.drop_borrow_partial"
   ],
   "note": "Full statement false of the code: LiftOwn does not look at Own. The half about dropping is proved, for every history in which the tables stay below 2^32 slots."
  },
  {
   "property": "C65",
   "status": "proved",
   "theorems": [
    "Verif.Abi.load_bool",
    "Verif.Abi.lift_narrow",
    "Verif.Abi.lower_narrow",
    "Verif.Abi.load_bool_any"
   ],
   "note": "Bool loads, bool and 8/16-bit lifts from any word, and lowering of bools and integers up to 32 bits. Loads in memories of 2^32 bytes: load_bool_any; what fails there is in C96."
  },
  {
   "property": "C66",
   "status": "proved",
   "theorems": [
    "Verif.Abi.load_discriminant",
    "Verif.Abi.load_no_discriminant",
    "Verif.Abi.lift_discriminant",
    "Verif.Abi.lift_enum",
    "Verif.Abi.load_discriminant_any"
   ],
   "note": "Every number of cases: 1 to 2^24 with a discriminant outside them, others always (load_no_discriminant; for lifting they have no flattening). In memories of 2^32 bytes no value either (load_discriminant_any), but the access at the end can panic, see C96. lift_enum is the positive side for enums, see C22 for all types."
  },
  {
   "property": "C67",
   "status": "partial",
   "theorems": [
    "Verif.Abi.post_return_partial",
    "Verif.Abi.borrows_ignored"
   ],
   "note": "Everything but the last sentence: the code drops the error of ExitCall, so borrows still held are not reported (borrows_ignored)."
  },
  {
   "property": "C68",
   "status": "partial",
   "theorems": [
    "Verif.Wat.string_literal_partial",
    "Verif.Wat.escaped_quote_cut"
   ],
   "note": "Proved for literals without an escaped quote. Full statement false of the code: the literal is cut at an escaped quote (escaped_quote_cut)."
  },
  {
   "property": "C69",
   "status": "partial",
   "theorems": [
    "Verif.Wat.block_comment_partial",
    "Verif.Wat.nested_comment_cut"
   ],
   "note": "Proved for comments without a comment in them. Full statement false of the code: the first end marker ends the outer comment (nested_comment_cut)."
  },
  {
   "property": "C70",
   "status": "proved",
   "theorems": [
    "Verif.Wat.word_tokens",
    "Verif.Wat.word_at",
    "Verif.Wat.word_types",
    "Verif.Wat.keyword_tokens"
   ],
   "note": "Every text, up to the first lexical error."
  },
  {
   "property": "C71",
   "status": "proved",
   "theorems": [
    "Verif.Wat.space_tokens",
    "Verif.Wat.space_at"
   ],
   "note": "Every text, up to the first lexical error."
  },
  {
   "property": "C72",
   "status": "partial",
   "theorems": [
    "Verif.Wat.mnemonics_distinct_partial",
    "Verif.Wat.lost_instructions"
   ],
   "note": "Proved for every pair of words that leave an instruction in the tree. Full statement false of the code: 25 words are accepted and leave a nil instruction (lost_instructions)."
  },
  {
   "property": "C73",
   "status": "proved",
   "theorems": [
    "Verif.Wit.token_place"
   ],
   "note": "Every token of every text; the column counts bytes, not characters."
  },
  {
   "property": "C74",
   "status": "proved",
   "theorems": [
    "Verif.Wit.space_token",
    "Verif.Wit.digits_token",
    "Verif.Wit.line_comment_token",
    "Verif.Wit.foreign_character_refused",
    "Verif.Wit.token_spelling"
   ],
   "note": "Every place of every text; which characters from U+0080 on are white space, digits or letters is left open."
  },
  {
   "property": "C75",
   "status": "proved",
   "theorems": [
    "Verif.Wit.trivia_ignored"
   ],
   "note": "Every pair of texts, whatever the Unicode tables say."
  },
  {
   "property": "C76",
   "status": "proved",
   "theorems": [
    "Verif.Wit.accepted_iff_loose",
    "Verif.Wit.accepted_iff_document",
    "Verif.Wit.document_accepted",
    "Verif.Wit.accepted_shape"
   ],
   "note": "Every text and tree, whatever the Unicode tables say; accepted_iff_loose is for all trees, those with empty items included. The grammar is what the parser of this repository accepts; where it is more or less than WIT is said in Wit/Grammar.lean."
  },
  {
   "property": "C77",
   "status": "proved",
   "theorems": [
    "Verif.Wit.loose_unambiguous",
    "Verif.Wit.document_unambiguous"
   ],
   "note": "Every sequence of tokens."
  },
  {
   "property": "C78",
   "status": "partial",
   "theorems": [
    "Verif.Wit.builtin_types_partial",
    "Verif.Wit.other_builtins_are_names",
    "Verif.Wit.item_type_unset"
   ],
   "note": "Proved for u32, float32, float64 and string. Missing, because it is false: the other nine built-in types are parsed to references to a type of that name, and ItemType of lists and options stays nil (the element type is in the embedded Type)."
  },
  {
   "property": "C79",
   "status": "proved",
   "theorems": [
    "Verif.Wat.wat_accepted_iff",
    "Verif.Wat.wat_refused_iff",
    "Verif.Wat.inline_import_lost"
   ],
   "note": "Every text and tree, for any conversion of floats that returns a value or an error. The grammar is what the parser of this repository accepts; where it is more or less than WAT is said in Wat/Grammar.lean. inline_import_lost: an import inside a function leaves nothing in the tree."
  },
  {
   "property": "C80",
   "status": "proved",
   "theorems": [
    "Verif.Wat.wat_unambiguous"
   ],
   "note": "Every sequence of tokens."
  },
  {
   "property": "C81",
   "status": "proved",
   "theorems": [
    "Verif.Wat.wat_cut",
    "Verif.Wat.wat_rest_ignored"
   ],
   "note": "Every accepted text."
  },
  {
   "property": "C82",
   "status": "proved",
   "theorems": [
    "Verif.Wast.wast_accepted_iff",
    "Verif.Wast.wast_refused_iff",
    "Verif.Wast.wast_unambiguous",
    "Verif.Wast.directive_unambiguous"
   ],
   "note": "Every text and list of directives, for any conversion of floats that returns a value or an error. The grammar is what the parser of this repository accepts; where it is more or less than WAST is said in Wast/Grammar.lean."
  },
  {
   "property": "C83",
   "status": "partial",
   "theorems": [
    "Verif.Wat.wat_balanced",
    "Verif.Wat.unbalanced_refused",
    "Verif.Wast.wast_balanced_partial",
    "Verif.Wast.wast_unbalanced"
   ],
   "note": "Proved for every module and every script without ref.null and ref.extern. Full statement false of the code for expected references in scripts: the closing parenthesis of (ref.null) must be left out, and a script that has it is refused (wast_unbalanced)."
  },
  {
   "property": "C84",
   "status": "partial",
   "theorems": [
    "Verif.Wast.wast_action_partial",
    "Verif.Wast.wast_no_action",
    "Verif.Wast.wast_get_refused"
   ],
   "note": "Proved for every accepted script without an action of one word. Full statement false of the code: an action that is one word in parentheses is accepted and lost (wast_no_action), and reading a global is refused (wast_get_refused)."
  },
  {
   "property": "C85",
   "status": "partial",
   "theorems": [
    "Verif.Wat.float_integer_nearest_partial",
    "Verif.Wat.float_integer_partial",
    "Verif.Wat.float_instruction",
    "Verif.Wat.f32_integer_wraps",
    "Verif.Wat.float_integer_refused",
    "Verif.Wat.negative_zero"
   ],
   "note": "Proved for integers written without plus sign or leading zeros (NoPadding) that fit the signed 32 bit type (f32) or the range of 32 bit literals (f64). Full statement false of the code for the rest: f32.const of 2^31 to 2^32-1 wraps to a negative float, larger integers are refused, and -0 loses its sign. float_integer_nearest_partial uses the conversions Go specifies (goLib); the others hold for any conversion."
  },
  {
   "property": "C86",
   "status": "partial",
   "theorems": [
    "Verif.Wast.wast_concat_partial",
    "Verif.Wast.empty_script_swallows"
   ],
   "note": "Every accepted script with at least one directive, every continuation. Full statement false of the code for scripts without directives: one that ends with a line comment swallows what follows (empty_script_swallows)."
  },
  {
   "property": "C87",
   "status": "partial",
   "theorems": [
    "Verif.Wast.script_print_parse_partial",
    "Verif.Wast.script_print_injective",
    "Verif.Wast.references_lost"
   ],
   "note": "Proved for every script of supported modules and constants (Spec.DirOk). Missing: 64 bit constants out of the range of 32 bits and actions that were lost. False of the code for references as arguments: ref.null and ref.extern leave the same tree (references_lost)."
  },
  {
   "property": "C88",
   "status": "partial",
   "theorems": [
    "Verif.Abi.lower_gives_any_partial",
    "Verif.Abi.lift_takes_any_partial",
    "Verif.Abi.load_takes_any_partial",
    "Verif.Abi.lower_gives_partial",
    "Verif.Abi.lift_takes_partial",
    "Verif.Abi.load_takes_partial",
    "Verif.Abi.carried_once",
    "Verif.Abi.words_in_once",
    "Verif.Abi.words_at_once",
    "Verif.Abi.repeated_label_two_owners"
   ],
   "note": "Lowering for every type, lifting and loading for well-formed types (Wf: labels differ, at most 64 flags, refines chains end). Full statement false of the code for record types with repeated labels, which the code does not refuse. An instance that implements the resource of a borrow gets the representation, as the component model says. The indices are tied to the words at the places of the handles among the flat values and in memory (WordsIn, WordsAt), which are determined by type, value and place. After every history, also one that uses calls after their end, as long as no table has 2^32 slots (the _any theorems, by the books of Handles.Ledger); with 2^32 slots it is false (add_returns_live)."
  },
  {
   "property": "C89",
   "status": "partial",
   "theorems": [
    "Verif.Abi.store_with_handle_fails",
    "Verif.Abi.lower_list_with_handle_fails"
   ],
   "note": "False of the code, for every value with a handle in it: Store has no case for handles, so lists of handles cannot be lowered either."
  },
  {
   "property": "C90",
   "status": "partial",
   "theorems": [
    "Verif.Abi.pass_moves_owned_any_partial",
    "Verif.Abi.pass_moves_owned_partial",
    "Verif.Abi.repeated_label_two_owners"
   ],
   "note": "Every well-formed type (Wf), every value, every two different instances. Full statement false of the code for record types with repeated labels: one resource gets two owners and another none (repeated_label_two_owners). The indices are those among the flat values lifted and lowered (WordsIn). After every history, also one that uses calls after their end, as long as no table has 2^32 slots (the _any theorems, by the books of Handles.Ledger); with 2^32 slots it is false (add_returns_live)."
  },
  {
   "property": "C91",
   "status": "partial",
   "theorems": [
    "Verif.Abi.canonLift_handles_any_partial",
    "Verif.Abi.canonLower_handles_any_partial",
    "Verif.Abi.canonLift_handles_partial",
    "Verif.Abi.canonLower_handles_partial"
   ],
   "note": "Arguments and results passed flat, any function called, well-formed types, a fresh call context. Missing: spilled arguments and results, which the code does not deliver (C39). The indices are those among the flat values passed (WordsInAll). After every history, also one that uses calls after their end, as long as no table has 2^32 slots (the _any theorems, by the books of Handles.Ledger); with 2^32 slots it is false (add_returns_live)."
  },
  {
   "property": "C92",
   "status": "partial",
   "theorems": [
    "Verif.Abi.borrow_outlives_call",
    "Verif.Abi.call_end_partial"
   ],
   "note": "False of the code: the error of ExitCall is dropped, so the call succeeds, the owner can drop the resource and the callee still has its borrowed handle (borrow_outlives_call). When nothing borrowed is left the call ends as it should (call_end_partial, for valid histories)."
  },
  {
   "property": "C93",
   "status": "partial",
   "theorems": [
    "Verif.Wat.decode_accepts_partial",
    "Verif.Wat.decode_loses",
    "Verif.Wat.decode_not_injective"
   ],
   "note": "Acceptance, errors and the kind of directive hold for every reader and text. False of the code otherwise: every module is decoded to the empty module, every component to a nil pointer (decode_loses)."
  },
  {
   "property": "C94",
   "status": "partial",
   "theorems": [
    "Verif.Runtime.load_standard_partial",
    "Verif.Runtime.loaded_is_not_callable"
   ],
   "note": "Functions, their addresses and code: every module without locals (C05), up to 2^32 functions (C57). False of the code: exports and signatures are never recorded in the instance (loaded_is_not_callable)."
  },
  {
   "property": "C95",
   "status": "partial",
   "theorems": [
    "Verif.Abi.string_copy_partial",
    "Verif.Abi.string_copy_cut",
    "Verif.Abi.string_copy_stale",
    "Verif.Abi.utf8_to_utf16_partial",
    "Verif.Abi.utf8_to_utf16_overruns"
   ],
   "note": "Proved when the number of code units given is that of the string (string_copy_partial) or at least its UTF-8 length (utf8_to_utf16_partial). The helpers do not check it; with a wrong number the property is false: the string is cut (string_copy_cut), the block ends with bytes that were there before (string_copy_stale), or the string is written past the block (utf8_to_utf16_overruns)."
  },
  {
   "property": "C96",
   "status": "partial",
   "theorems": [
    "Verif.Abi.full_memory_integers_partial",
    "Verif.Abi.full_memory_load_partial",
    "Verif.Abi.full_memory_store_refused",
    "Verif.Abi.full_memory_last_word"
   ],
   "note": "Full statement false of the code: uint32(Memory.Len()) is 0 for such a memory, so every store below the last slot is refused and accesses to the last word panic. What is proved: loads of all eight integer types below the last slot."
  },
  {
   "property": "C97",
   "status": "partial",
   "theorems": [
    "Verif.Binary.accepted_slots_partial",
    "Verif.Binary.slots_bounded",
    "Verif.Binary.few_bytes_many_slots",
    "Verif.Binary.counting_reads_same"
   ],
   "note": "Proved for accepted inputs. Full statement false of the code for refused ones: counts are trusted before the elements are read, so 21 bytes can ask for more than 2^32 elements (few_bytes_many_slots); never more than 2*(2^32-1) beyond the length (slots_bounded). counting_reads_same: the counting reader is the reader of C04. Elements made or appended are counted, not their sizes in memory nor the spare capacity append may take."
  },
  {
   "property": "C98",
   "status": "partial",
   "theorems": [
    "Verif.Wat.float_literal_partial",
    "Verif.Wat.exact_literal_partial",
    "Verif.Wat.float_literal_refused",
    "Verif.Wat.double_rounded",
    "Verif.Wat.double_refused",
    "Verif.Wat.goLib_total"
   ],
   "note": "Proved for f32.const of hexadecimal literals whose exponent has a sign, and for f64.const of those that are single precision numbers. Full statement false of the code for the rest: decimal literals, exponents without sign and literals without exponent are all refused (float_literal_refused), and f64.const rounds to single precision first (double_rounded, double_refused). strconv.ParseFloat is modelled from its documentation, with the simplifications in Go/Float.lean."
  },
  {
   "property": "C99",
   "status": "partial",
   "theorems": [
    "Verif.Wat.infinity_const",
    "Verif.Wat.f64_nan_partial",
    "Verif.Wat.f64_nan_refused"
   ],
   "note": "Proved for infinities and for f64.const nan. Full statement false of the code for the rest: f64.const of a NaN with a sign or a payload is refused (f64_nan_refused)."
  },
  {
   "property": "C100",
   "status": "partial",
   "theorems": [
    "Verif.Binary.Stream.portions_partial",
    "Verif.Binary.Stream.cuts_agree",
    "Verif.Binary.Stream.accepted_reads_bytes",
    "Verif.Binary.Stream.eof_with_byte_refused",
    "Verif.Binary.Stream.eof_with_byte_accepted",
    "Verif.Binary.Stream.empty_read_refused",
    "Verif.Binary.Stream.lastWithEof_delivers",
    "Verif.Binary.Stream.hesitant_delivers"
   ],
   "note": "Proved for readers that hand out at least one byte without an error while they have one. Full statement false of the code: a byte that comes with end of file is thrown away, so modules are refused and, worse, truncated ones accepted (eof_with_byte_accepted), and a call without bytes is an error. accepted_reads_bytes says what holds for every reader."
  },
  {
   "property": "C101",
   "status": "proved",
   "theorems": [
    "Verif.Binary.Stream.failing_reader"
   ],
   "note": "Every reader, also those that break the contract of io.Reader."
  },
  {
   "property": "C102",
   "status": "proved",
   "theorems": [
    "Verif.Wat.text_portions",
    "Verif.Wat.text_reads_bytes",
    "Verif.Wat.text_failing_reader"
   ],
   "note": "Every reader within the contract of io.Reader that comes to its end; the growth of the slice in io.ReadAll is arbitrary."
  },
  {
   "property": "C103",
   "status": "proved",
   "theorems": [
    "Verif.Leb128.encoded_or_reported",
    "Verif.Leb128.reported_at_once",
    "Verif.Leb128.nothing_to_report"
   ],
   "note": "bufio.Writer is modelled from its source."
  },
  {
   "property": "C104",
   "status": "proved",
   "theorems": [
    "Verif.Leb128.decode_buffered",
    "Verif.Leb128.lastWithEof_patient",
    "Verif.Leb128.hesitant_patient"
   ],
   "note": "bufio.Reader is modelled from its source. DecodeReader, which has no buffer, does not have the property (C100)."
  },
  {
   "property": "C105",
   "status": "proved",
   "theorems": [
    "Verif.Abi.stored_together"
   ],
   "note": "The conditions on each value are those of C19."
  },
  {
   "property": "C106",
   "status": "proved",
   "theorems": [
    "Verif.Abi.load_typed",
    "Verif.Abi.lift_typed",
    "Verif.Abi.canonical_unique",
    "Verif.Abi.repeated_label_untyped"
   ],
   "note": "The labels have to differ: repeated_label_untyped."
  },
  {
   "property": "C107",
   "status": "proved",
   "theorems": [
    "Verif.Abi.copy_exact",
    "Verif.Abi.forward_exact",
    "Verif.Abi.received_sendable"
   ],
   "note": "Usable types are those of C19 and C22 (Wf); fitting is ListsFit and StringsFit, as there."
  },
  {
   "property": "C108",
   "status": "proved",
   "theorems": [
    "Verif.Abi.load_reads_only",
    "Verif.Abi.lift_reads_only",
    "Verif.Abi.load_again"
   ],
   "note": "All outcomes."
  },
  {
   "property": "C109",
   "status": "proved",
   "theorems": [
    "Verif.Abi.lift_own_values",
    "Verif.Abi.lift_alone"
   ],
   "note": "Any type, handles included."
  },
  {
   "property": "C110",
   "status": "proved",
   "theorems": [
    "Verif.Abi.load_own_bytes",
    "Verif.Abi.load_after_write"
   ],
   "note": "Handles included. What is described to reach 2^32 is outside the quantifier; C27 says what goes wrong there."
  },
  {
   "property": "C111",
   "status": "proved",
   "theorems": [
    "Verif.Wat.line_comment_at",
    "Verif.Wat.line_comment_end",
    "Verif.Wat.lone_semicolon"
   ],
   "note": ""
  },
  {
   "property": "C112",
   "status": "proved",
   "theorems": [
    "Verif.Wit.malformed_refused",
    "Verif.Wit.tokens_utf8",
    "Verif.Wit.accepted_utf8"
   ],
   "note": "The condition PlainReplacement on the Unicode tables is that U+FFFD is no letter, digit or white space."
  },
  {
   "property": "C113",
   "status": "partial",
   "theorems": [
    "Verif.Abi.string_read_partial",
    "Verif.Abi.string_load_partial",
    "Verif.Abi.string_read_sound",
    "Verif.Abi.string_refused",
    "Verif.Abi.malformed_string_accepted"
   ],
   "note": "Missing: the refusal of bytes that write no string, which is false of the code: malformed_string_accepted shows that all of them are read as a string with U+FFFD in it, by the documented behaviour of the decoders of x/text."
  },
  {
   "property": "C114",
   "status": "partial",
   "theorems": [
    "Verif.Handles.refused_unseen_partial",
    "Verif.Handles.refused_add_partial",
    "Verif.Handles.refused_add_seen",
    "Verif.Handles.drop_loses_resource"
   ],
   "note": "Every operation that asks for no new handle, in every state, apart from drops whose implementing instance may not be entered: those are refused after the handle was removed (drop_loses_resource). Refused additions: everything that asks for no other handle is answered as before; the next addition is not, as the refused one took an entry off the free list (refused_add_seen)."
  },
  {
   "property": "C115",
   "status": "partial",
   "theorems": [
    "Verif.Abi.load_means_partial",
    "Verif.Abi.load_only_means_partial",
    "Verif.Abi.load_refuses_partial",
    "Verif.Abi.means_unique",
    "Verif.Abi.malformed_string_accepted",
    "Verif.Abi.untagged_length_accepted"
   ],
   "note": "Every type without handles (for those see C123), with differing labels and at most 64 flags, every memory below 2^32 bytes, aligned address inside it. Missing: pairs that reach 2^32 (C63 false there), more than 64 flags (C25), and the refusal of malformed strings and of length words with a highest bit that is no tag, which the code accepts (malformed_string_accepted, untagged_length_accepted)."
  },
  {
   "property": "C116",
   "status": "partial",
   "theorems": [
    "Verif.Abi.store_means_partial",
    "Verif.Abi.neat_exact"
   ],
   "note": "Every type with differing labels and at most 64 flags, every value whose strings and lists fit, every allocator that keeps its promises. Missing: more than 64 flags (C25: the code writes nothing at all there), repeated labels, lists of 2^32 bytes or more (the code truncates the length), handles (Store does not write them)."
  },
  {
   "property": "C117",
   "status": "proved",
   "theorems": [
    "Verif.Abi.flatten_core"
   ],
   "note": "Every type whose flags have fewer than 2^37 labels."
  },
  {
   "property": "C118",
   "status": "partial",
   "theorems": [
    "Verif.Abi.lower_means_partial",
    "Verif.Abi.lift_means_partial",
    "Verif.Abi.lift_only_means_partial",
    "Verif.Abi.lift_refuses_partial",
    "Verif.Abi.flat_means_unique",
    "Verif.Abi.flat_neat_exact"
   ],
   "note": "Handles: C123. Missing: more than 64 flags (false there: lower_flags_over_64), repeated labels, pairs that wrap around (C63), length words with a highest bit that is no tag (untagged_length_accepted), lists of 2^32 bytes or more (C19); bytes that write no string are not refused but read with U+FFFD (malformed_string_accepted)."
  },
  {
   "property": "C119",
   "status": "partial",
   "theorems": [
    "Verif.Abi.canonLift_means_partial",
    "Verif.Abi.canonLower_means_partial",
    "Verif.Abi.canonLower_refuses_partial",
    "Verif.Abi.component_call_means_partial",
    "Verif.Abi.canonLower_spilled_means_partial"
   ],
   "note": "Handles: C124. Missing: as in C118; spilled values are lost when lowered (false there: canonLift_spilled_fails, spilled_results_lost) and come in any order when lifted (spilled_order_lost)."
  },
  {
   "property": "C120",
   "status": "proved",
   "theorems": [
    "Verif.Abi.load_bounded",
    "Verif.Abi.list_bounded",
    "Verif.Abi.lift_bounded",
    "Verif.Abi.liftValues_bounded",
    "Verif.Abi.empty_elements_unbounded",
    "Verif.Abi.nested_lists_reach"
   ],
   "note": "Lists whose elements take up no bytes are outside the bound, as the statement says."
  },
  {
   "property": "C121",
   "status": "proved",
   "theorems": [
    "Verif.Binary.read_iff",
    "Verif.Binary.one_reading"
   ],
   "note": ""
  },
  {
   "property": "C122",
   "status": "partial",
   "theorems": [
    "Verif.Binary.malformed_refused_partial",
    "Verif.Binary.size_ignored",
    "Verif.Binary.order_ignored",
    "Verif.Binary.repeats_ignored",
    "Verif.Binary.numbers_wrap"
   ],
   "note": "Proved: what is outside the grammar of sections the reader takes is refused. Full statement false of the code: sizes of known sections are not looked at, order and repetition of sections do not matter, numbers may be too long and wrap."
  },
  {
   "property": "C123",
   "status": "proved",
   "theorems": [
    "Verif.Abi.load_handles_means",
    "Verif.Abi.load_handles_only_means",
    "Verif.Abi.load_handles_refuses",
    "Verif.Abi.lift_handles_means",
    "Verif.Abi.lift_handles_only_means",
    "Verif.Abi.lift_handles_refuses",
    "Verif.Abi.lower_handles_means",
    "Verif.Abi.swapped_carried"
   ],
   "note": "The domain is that of the quantifier (Readable, Liftable at the type with u32 instead of handles; Wf, ListsFit, StringsFit). What entering and finding a handle does to the tables is C32-C37 and C88."
  },
  {
   "property": "C124",
   "status": "partial",
   "theorems": [
    "Verif.Abi.canonLift_table_partial",
    "Verif.Abi.canonLower_table_partial",
    "Verif.Abi.canonLower_table_refuses_partial",
    "Verif.Abi.component_call_table_partial",
    "Verif.Abi.canonLower_spilled_table_partial"
   ],
   "note": "Missing: values spilled to memory, which are lost when lowered (false there: canonLift_spilled_fails, spilled_results_lost) and come in any order when lifted (spilled_order_lost); more than 64 flags, repeated labels, strings and lists of 2^32 bytes or more; a post-return function that changes the memory of the caller."
  },
  {
   "property": "C125",
   "status": "proved",
   "theorems": [
    "Verif.Abi.store_asks",
    "Verif.Abi.lower_asks",
    "Verif.Abi.asks_determined",
    "Verif.Abi.canonLift_asks",
    "Verif.Abi.canonLower_asks"
   ],
   "note": "Arguments and results over the limit on flat values are not passed flat: there the code asks for one block and never fills it (C39)."
  },
  {
   "property": "C126",
   "status": "proved",
   "theorems": [
    "Verif.Abi.store_ignores_memory",
    "Verif.Abi.lower_ignores_memory"
   ],
   "note": "No condition on type or value."
  },
  {
   "property": "C127",
   "status": "proved",
   "theorems": [
    "Verif.Abi.store_same",
    "Verif.Abi.lower_same",
    "Verif.Abi.canonLift_same",
    "Verif.Abi.canonLower_same",
    "Verif.Abi.store_apart",
    "Verif.Abi.lower_apart"
   ],
   "note": "On the domains named in the quantifier. Without differing labels two cases can have one canonical name."
  },
  {
   "property": "C128",
   "status": "proved",
   "theorems": [
    "Verif.Abi.canonLift_isolated",
    "Verif.Abi.canonLower_isolated",
    "Verif.Abi.component_call_isolated",
    "Verif.Abi.calls_isolated"
   ],
   "note": "On the domains named in the quantifier; the condition that lists fit concerns only the bytes in use of the own memory (list_overflow_escapes, C20, shows what happens otherwise)."
  },
  {
   "property": "C129",
   "status": "proved",
   "theorems": [
    "Verif.Abi.loaded_lists_fit",
    "Verif.Abi.lifted_lists_fit",
    "Verif.Abi.loaded_strings_fit",
    "Verif.Abi.lifted_strings_fit",
    "Verif.Abi.relay_memory",
    "Verif.Abi.relay_flat"
   ],
   "note": "On the domain named in the quantifier."
  },
  {
   "property": "C130",
   "status": "proved",
   "theorems": [
    "Verif.Abi.canonLift_confined",
    "Verif.Abi.canonLower_confined",
    "Verif.Abi.calls_confined",
    "Verif.Abi.canonLift_blind"
   ],
   "note": "On the domain named in the quantifier. The model gives each allocator the memory of its own instance only."
  },
  {
   "property": "C131",
   "status": "proved",
   "theorems": [
    "Verif.Abi.load_is_lifts",
    "Verif.Abi.lift_is_lifts",
    "Verif.Abi.lower_is_lowers",
    "Verif.Abi.store_keeps_handles",
    "Verif.Abi.compCall_operates",
    "Verif.Abi.calls_are_history",
    "Verif.Abi.calls_destroy_at_most_once",
    "Verif.Abi.calls_destroy_nothing"
   ],
   "note": "On the domain named in the quantifier. Call contexts are numbers that the calls choose; in Go they are fresh pointers, so new ones are different. What MayLeave is changed to is not an operation on handles; C38 is about it."
  },
  {
   "property": "C132",
   "status": "proved",
   "theorems": [
    "Verif.Abi.calls_leave_handles"
   ],
   "note": "On the domain named in the quantifier."
  },
  {
   "property": "C133",
   "status": "partial",
   "theorems": [
    "Verif.Abi.calls_keep_flags_partial",
    "Verif.Abi.bad_arguments_close",
    "Verif.Abi.closed_for_ever",
    "Verif.Abi.one_bad_call"
   ],
   "note": "Proved for sequences of calls that succeed. Full statement false of the code: a call whose arguments cannot be lowered, because one has another type or the guest has no memory to give, leaves MayLeave off, and from then on no call into or out of the instance succeeds, in any sequence of calls."
  },
  {
   "property": "C134",
   "status": "proved",
   "theorems": [
    "Verif.Wat.const_exact",
    "Verif.Wat.const_unique",
    "Verif.Wat.plus_refused",
    "Verif.Wat.padded_octal"
   ],
   "note": "Every integer of the text format. What Go reads is specified in Verif.Wat.Number, which the grammars of C79 and C87 use too."
  },
  {
   "property": "C135",
   "status": "partial",
   "theorems": [
    "Verif.Wat.index_decimal_partial",
    "Verif.Wat.index_exact",
    "Verif.Wat.index_wraps",
    "Verif.Wat.index_negative",
    "Verif.Wat.index_hex_refused",
    "Verif.Wat.index_under_refused"
   ],
   "note": "index_exact says what is read in every case. Full statement proved for decimal digits below 2^32, false of the code otherwise: numbers from 2^32 up to 2^63 are taken modulo 2^32, numbers with a sign are accepted, hexadecimal numbers and underscores are refused."
  },
  {
   "property": "C136",
   "status": "partial",
   "theorems": [
    "Verif.Wat.items_answered_partial",
    "Verif.Wat.answers_unique",
    "Verif.Wat.items_return",
    "Verif.Wat.string_panics"
   ],
   "note": "The answers to every sequence of calls are given exactly, and the tokens determine them. False of the code in one case: where the text has something that is no token ParseString panics instead of returning an error (string_panics), since it unwraps without recovering."
  },
  {
   "property": "C137",
   "status": "partial",
   "theorems": [
    "Verif.Wat.longest_token_partial",
    "Verif.Wat.own_rules",
    "Verif.Wat.own_rules_none",
    "Verif.Wat.own_rules_lossless",
    "Verif.Wat.no_going_back"
   ],
   "note": "What Next does is given exactly for all rules (own_rules, own_rules_none), and the longest token is returned where the longest bytes a rule can have read are a token. False of the code otherwise: the lexer does not go back to a shorter token when a longer attempt fails (no_going_back), and if the attempt fails at the end of the text it returns EndOfStream with the rest as its capture. Rules of types defined by the caller (Rule is an interface) are not modelled."
  },
  {
   "property": "C138",
   "status": "proved",
   "theorems": [
    "Verif.Wat.from_string",
    "Verif.Wat.from_string_rule",
    "Verif.Wat.same_rules"
   ],
   "note": "What is accepted, and the exchange of rules in any list of rules and any state of the lexer."
  },
  {
   "property": "C139",
   "status": "proved",
   "theorems": [
    "Verif.Wat.map_order",
    "Verif.Wat.rule_order"
   ],
   "note": "map_order for New; rule_order for any rules after any others."
  },
  {
   "property": "C140",
   "status": "proved",
   "theorems": [
    "Verif.Wat.error_place",
    "Verif.Wat.said_next"
   ],
   "note": "All sequences of calls of Next, also after errors; said_next: the answers with messages are those of the lexer. The words of the message are not modelled, only the numbers and the quoted bytes."
  },
  {
   "property": "C141",
   "status": "proved",
   "theorems": [
    "Verif.Wit.error_place",
    "Verif.Wit.said_next"
   ],
   "note": "All sequences of calls of Next, also after errors. The words of the message and the character named in it are not modelled."
  },
  {
   "property": "C142",
   "status": "partial",
   "theorems": [
    "Verif.Wat.state_rule_partial",
    "Verif.Wat.state_rule_fails"
   ],
   "note": "Proved where no StateRule can begin. Full statement false of the code: the registry has no factory for StateRule, so wherever one can begin Next returns no token, whatever the other rules (state_rule_fails; a panic, or an error if handle.Error recovers from it)."
  },
  {
   "property": "C143",
   "status": "proved",
   "theorems": [
    "Verif.Wit.fails_iff"
   ],
   "note": "The first error of a run; those after it are in C141. The words of the message and the character named in it are not modelled."
  },
  {
   "property": "C144",
   "status": "proved",
   "theorems": [
    "Verif.Wat.parse_error_local",
    "Verif.Wat.parse_error_place",
    "Verif.Wat.watched_outcome"
   ],
   "note": "Of an error its place is modelled, not its words. That `tok` in each call of `parseError` is the token of the last call of `peek` or `next` is read from the code, line by line, and not proved; errors of `strconv` and of an unknown section of a module name no place."
  },
  {
   "property": "C145",
   "status": "partial",
   "theorems": [
    "Verif.Wit.parse_error_local",
    "Verif.Wit.parse_error_place_partial",
    "Verif.Wit.watched_outcome",
    "Verif.Wit.world_item_place"
   ],
   "note": "That nothing after the token has a part in the error is proved in full. The place is not that of the token in one error: an unknown item of a world is refused with the line and the column where its first token ends (`world_item_place`). Of an error its place is modelled, not its words. That the argument of each call of `parseError` is the token of the last call of `peek` or `next` is read from the code, line by line, and not proved; errors of `strconv` name no place."
  },
  {
   "property": "C146",
   "status": "partial",
   "theorems": [
    "Verif.Abi.spilled_asked_partial",
    "Verif.Abi.spilled_given_partial",
    "Verif.Abi.spilled_wraps",
    "Verif.Abi.spilled_no_place"
   ],
   "note": "Two parts are false. The end of the tuple is computed in 32 bits: a pointer at which the tuple would reach past 2^32 is accepted, though it lies outside the memory (`spilled_wraps`). And where the caller passes fewer flat values than it should, so that the one that names the place is missing, LowerValues panics (`spilled_no_place`). Proved for pointers at which the tuple ends below 2^32, and for tuples smaller than 4 GiB. That nothing is written is what makes such calls fail as a whole, see C39."
  },
  {
   "property": "C147",
   "status": "proved",
   "theorems": [
    "Verif.Wast.script_error_local",
    "Verif.Wast.script_error_place",
    "Verif.Wast.watched_outcome"
   ],
   "note": "Of an error its place is modelled, not its words. That `tok` in each call of `parseError` is the token of the last call of `peek` or `next` is read from the code, line by line, and not proved; errors of `strconv`, of `parseGet` and of an unknown section of a module name no place."
  },
  {
   "property": "C148",
   "status": "proved",
   "theorems": [
    "Verif.Abi.load_grown",
    "Verif.Abi.lift_grown",
    "Verif.Abi.store_grown",
    "Verif.Abi.lower_grown",
    "Verif.Abi.call_grown",
    "Verif.Abi.calls_grown",
    "Verif.Abi.full_memory_no_strings"
   ],
   "note": "`Grown` asks that the bytes be kept up to the capacity of the smaller memory, not only up to its length, since integers are read up to the capacity. An allocator, a called function or a post-return function that behaves otherwise in a larger memory is not covered (`Unharmed`, `CallUnharmed`); `bump_unharmed` and `backCall_unharmed` show that the hypotheses can be met. The converse does not hold and is not claimed."
  },
  {
   "property": "C149",
   "status": "proved",
   "theorems": [
    "Verif.Wit.tokens_newline",
    "Verif.Wit.wit_concat",
    "Verif.Wit.wit_concat_all",
    "Verif.Wit.concat_comment",
    "Verif.Wit.concat_package_lost"
   ],
   "note": "The three tokens a second text must not begin with are in the statement of the property; `concat_package_lost` shows for `package` and `as` that the claim fails without that. `wit_concat` gives the outcome of the whole from that of the second text alone in both cases, accepted and refused."
  },
  {
   "property": "C150",
   "status": "proved",
   "theorems": [
    "Verif.Abi.load_record_extended",
    "Verif.Abi.lift_record_extended",
    "Verif.Abi.load_tuple_extended",
    "Verif.Abi.lift_tuple_extended",
    "Verif.Abi.load_variant_extended",
    "Verif.Abi.lift_variant_extended",
    "Verif.Abi.load_enum_extended",
    "Verif.Abi.load_union_extended",
    "Verif.Abi.load_flags_extended",
    "Verif.Abi.lift_flags_extended",
    "Verif.Abi.enum_width_crossed",
    "Verif.Abi.variant_payload_moved",
    "Verif.Abi.list_elements_moved",
    "Verif.Abi.refined_label_changed"
   ],
   "note": "The conditions are in the statement of the property, and a theorem shows for each of them that the claim fails without it. Fields are compared by label, except labels used again among the added fields, which a Go map cannot hold twice. Enums and unions among core values are the case of variants (`lift_variant_extended`) after expansion."
  },
  {
   "property": "C151",
   "status": "proved",
   "theorems": [
    "Verif.Wit.wit_rename_accepted",
    "Verif.Wit.wit_rename",
    "Verif.Wit.wit_rename_written",
    "Verif.Wit.keyword_is_no_name"
   ],
   "note": "`wit_rename_accepted` needs no condition on the renaming beyond keeping the kinds of the tokens; `wit_rename` takes different names to different names and gives the same outcome in all cases, refusals included."
  },
  {
   "property": "C152",
   "status": "proved",
   "theorems": [
    "Verif.Wat.wat_rename_accepted",
    "Verif.Wat.wat_rename",
    "Verif.Wat.wat_rename_written",
    "Verif.Wat.not_a_name",
    "Verif.Wat.names_not_resolved"
   ],
   "note": "`wat_rename_accepted` needs no condition on identifiers; `wat_rename` takes different names to different names and gives the same outcome in all cases, refusals included. A string with a quote in it is refused by the parser, so a renaming has to keep whether there is one."
  },
  {
   "property": "C153",
   "status": "proved",
   "theorems": [
    "Verif.Wat.wat_sections",
    "Verif.Wat.wat_sections_swap",
    "Verif.Wat.wat_sections_written",
    "Verif.Wat.sections_unbalanced"
   ],
   "note": "Groups of sections are given by their tokens; `wat_sections_written` is about texts with these tokens written with spaces between them. `sections_unbalanced` shows why the parentheses of the first group have to match."
  },
  {
   "property": "C154",
   "status": "proved",
   "theorems": [
    "Verif.Wit.wit_items",
    "Verif.Wit.wit_items_swap",
    "Verif.Wit.wit_world_items",
    "Verif.Wit.wit_world_items_swap",
    "Verif.Wit.wit_items_written",
    "Verif.Wit.resource_goes_on"
   ],
   "note": "Groups of items are given by their tokens; `wit_items_written` is about texts with these tokens written with spaces between them. `resource_goes_on` shows why the rest must not begin with a semicolon. The interface or world is the first of the text, with no package declaration before it."
  },
  {
   "property": "C155",
   "status": "proved",
   "theorems": [
    "Verif.Wast.script_first_module",
    "Verif.Wast.script_module_anywhere",
    "Verif.Wast.module_is_script",
    "Verif.Wast.module_before_script",
    "Verif.Wast.asserted_module",
    "Verif.Wast.asserted_unbalanced"
   ],
   "note": "Texts are compared by their tokens, so white space and comments do not matter. `asserted_unbalanced` shows why the parentheses of a module in an assertion have to match."
  },
  {
   "property": "C156",
   "status": "proved",
   "theorems": [
    "Verif.Wast.script_rename_accepted",
    "Verif.Wast.script_rename",
    "Verif.Wast.action_word_is_no_name"
   ],
   "note": "A renaming acts on identifiers and on strings with their quotes, as in C152. `action_word_is_no_name` shows that words which are not names do make a difference."
  },
  {
   "property": "C157",
   "status": "proved",
   "theorems": [
    "Verif.Binary.read_so_far",
    "Verif.Binary.one_more_section",
    "Verif.Binary.cut_at_section",
    "Verif.Binary.refused_stays"
   ],
   "note": "`cut_at_section` and `refused_stays` are about inputs that are cut between two sections (`Seq TakenSec`), the others about any input that was read."
  }
 ]
}