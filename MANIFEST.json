{
 "claims": [
  {
   "property": "C01",
   "status": "proved",
   "theorems": [
    "Ab.C01_varuint32_roundtrip",
    "Ab.C01_varuint7_roundtrip",
    "Ab.C01_varuint7_out_of_range_not_readable"
   ],
   "note": "for every value and every surrounding bytes; also the 7-bit variant and its failure above 127"
  },
  {
   "property": "C02",
   "status": "proved",
   "theorems": [
    "Ab.C02_varuint32_minimal",
    "Ab.C02_varuint32_prefix_free"
   ],
   "note": ""
  },
  {
   "property": "C03",
   "status": "proved",
   "theorems": [
    "Ab.C03_read_varu32"
   ],
   "note": ""
  },
  {
   "property": "C04",
   "status": "partial",
   "theorems": [
    "Ab.C04_negation",
    "Ab.C04_read_varu32_in_range_partial",
    "Ab.C04_read_varu32_exact"
   ],
   "note": "false of the code (C04_negation: FF FF FF FF 7F is read as 2^32-1); exact behaviour proved for every byte string: the result is the encoded number modulo 2^32, encodings longer than five bytes are rejected, truncated ones raise"
  },
  {
   "property": "C05",
   "status": "partial",
   "theorems": [
    "Ab.C05_negation",
    "Ab.C05_read_vari32_partial",
    "Ab.C05_read_vari32_exact",
    "Ab.C05_read_vari32_truncated",
    "Ab.C05_read_vari7",
    "Ab.C05_read_vari7_rejects"
   ],
   "note": "false of the code (C05_negation: the five-byte encoding of -2^31 shifts an int by 35); exact behaviour proved for every byte string, including which encodings are undefined"
  },
  {
   "property": "C06",
   "status": "proved",
   "theorems": [
    "Ab.C06_write_compile_roundtrip"
   ],
   "note": ""
  },
  {
   "property": "C07",
   "status": "proved",
   "theorems": [
    "Ab.C07_compile_total_and_safe",
    "Ab.C07_loaded_functions_sound"
   ],
   "note": ""
  },
  {
   "property": "C08",
   "status": "partial",
   "theorems": [
    "Ab.C08_negation",
    "Ab.C08_unsupported_section_aborts",
    "Ab.C08_bad_type_index_aborts",
    "Ab.C08_entry_past_end_aborts",
    "Ab.C08_aborts_only_at_other_sections_partial"
   ],
   "note": "false of the code (negation and three families of aborting inputs); the exact set of aborting inputs is C84_aborts_exactly"
  },
  {
   "property": "C09",
   "status": "proved",
   "theorems": [
    "Ab.C09_accepts_only_header",
    "Ab.C09_rejects_bad_header",
    "Ab.C09_rejects_bad_section_code"
   ],
   "note": ""
  },
  {
   "property": "C10",
   "status": "partial",
   "theorems": [
    "Ab.C10_negation",
    "Ab.C10_section_sizes_partial",
    "Ab.C10_wrong_type_section_size_rejected"
   ],
   "note": "false of the code for code sections (witness); proved for type and function sections"
  },
  {
   "property": "C11",
   "status": "partial",
   "theorems": [
    "Ab.C11_negation",
    "Ab.C11_witness_file",
    "Ab.C11_entry_bodies_partial",
    "Ab.C11_entry_body_inside_iff_partial"
   ],
   "note": "false of the code (witness entry and witness file); proved: exact condition, and body offsets strictly increase"
  },
  {
   "property": "C12",
   "status": "partial",
   "theorems": [
    "Ab.C12_stream_decodes_modulo_256",
    "Ab.C12_negation",
    "Ab.C12_stream_decodes_partial"
   ],
   "note": "false of the code (C12_negation: register 256 is written as 0); proved exactly modulo 256 for all registers, and faithful below 256"
  },
  {
   "property": "C13",
   "status": "partial",
   "theorems": [
    "Ab.C13_diverges_on_other_instructions",
    "Ab.C13_negation",
    "Ab.C13_reads_handled_instructions_partial"
   ],
   "note": "false of the code (any instruction other than unreachable/nop/halt makes the reader loop for ever, proved for all such streams); proved for the three handled instructions"
  },
  {
   "property": "C14",
   "status": "proved",
   "theorems": [
    "Ab.C14_slots_contiguous",
    "Ab.C14_slots_disjoint",
    "Ab.C14_slots_cover",
    "Ab.C14_ret_slots_cover"
   ],
   "note": ""
  },
  {
   "property": "C15",
   "status": "proved",
   "theorems": [
    "Ab.C15_functype_eq",
    "Ab.C15_functype_eq_equivalence",
    "Ab.C15_functype_hash",
    "Ab.C15_limits_eq",
    "Ab.C15_limits_hash"
   ],
   "note": ""
  },
  {
   "property": "C16",
   "status": "proved",
   "theorems": [
    "Ab.C16_mismatch_aborts",
    "Ab.C16_match_runs",
    "Ab.C16_types_match"
   ],
   "note": ""
  },
  {
   "property": "C17",
   "status": "proved",
   "theorems": [
    "Ab.C17_interpreter_refines_machine",
    "Ab.C17_divergence",
    "Ab.C17_every_exit_is_explained",
    "Ab.C17_divergence_nonvacuous"
   ],
   "note": "for every well-formed body, memory and number of steps, including divergence and the converse"
  },
  {
   "property": "C18",
   "status": "proved",
   "theorems": [
    "Ab.C18_only_own_frame_written",
    "Ab.C18_any_code_writes_within_256_registers"
   ],
   "note": "well-formed bodies: only the own register area; any code: within the 256 encodable registers"
  },
  {
   "property": "C19",
   "status": "proved",
   "theorems": [
    "Ab.C19_frames_nest_and_restore"
   ],
   "note": ""
  },
  {
   "property": "C20",
   "status": "proved",
   "theorems": [
    "Ab.C20_static_call_returns_and_restores",
    "Ab.C20_top_level_u32",
    "Ab.C20_no_value",
    "Ab.C20_missing_value_is_undefined"
   ],
   "note": ""
  },
  {
   "property": "C21",
   "status": "partial",
   "theorems": [
    "Ab.C21_nested_return_aborts",
    "Ab.C21_api_witness",
    "Ab.C21_negation",
    "Ab.C21_nested_call_partial"
   ],
   "note": "false of the code (the return handler reads the saved ip as the frame tag); proved: fails whenever the saved ip's low byte is non-zero, with an API witness; holds when it is zero"
  },
  {
   "property": "C22",
   "status": "partial",
   "theorems": [
    "Ab.C22_add_sub_partial",
    "Ab.C22_overflow_is_undefined",
    "Ab.C22_negation"
   ],
   "note": "false of the code for overflowing operands (signed overflow is undefined in C++17 and C++20); proved for all others, all aliasing patterns"
  },
  {
   "property": "C23",
   "status": "proved",
   "theorems": [
    "Ab.C23_goto",
    "Ab.C23_goto_if",
    "Ab.C23_goto_unless"
   ],
   "note": ""
  },
  {
   "property": "C24",
   "status": "proved",
   "theorems": [
    "Ab.C24_halt",
    "Ab.C24_unreachable",
    "Ab.C24_unimplemented_aborts",
    "Ab.C24_error_flag_is_sticky"
   ],
   "note": ""
  },
  {
   "property": "C25",
   "status": "partial",
   "theorems": [
    "Ab.C25_x64_return_always_aborts",
    "Ab.C25_negation",
    "Ab.C25_executable_partial"
   ],
   "note": "false of the code (x64.return always aborts); proved for every other instruction"
  },
  {
   "property": "C26",
   "status": "partial",
   "theorems": [
    "Ab.C26_exact_bound",
    "Ab.C26_fresh_context_502_registers_partial",
    "Ab.C26_call_overflows",
    "Ab.C26_negation"
   ],
   "note": "false of the code (more than 502 registers); exact bound proved"
  },
  {
   "property": "C27",
   "status": "proved",
   "theorems": [
    "Ab.C27_end_to_end",
    "Ab.C27_any_code"
   ],
   "note": ""
  },
  {
   "property": "C28",
   "status": "partial",
   "theorems": [
    "Ab.BB.C28_byte_buffer_refines_list_partial",
    "Ab.BB.C28_growth_at_least_doubles_partial",
    "Ab.BB.C28_negation_zero_capacity_append_aborts",
    "Ab.BB.C28_negation_copy_of_cleared_append_aborts"
   ],
   "note": "false of the code (appending to a zero-capacity buffer aborts); proved for every program that creates no zero-capacity buffer, any allocator, with the exact aborts"
  },
  {
   "property": "C29",
   "status": "partial",
   "theorems": [
    "Ab.BB.C29_no_use_after_free_partial",
    "Ab.BB.C29_released_block_is_exclusive_partial",
    "Ab.BB.C29_negation_shrink_empty_then_destroy",
    "Ab.BB.C29_negation_resize_zero_then_reserve",
    "Ab.BB.C29_negation_release_span_of_empty_dangles",
    "Ab.BB.C29_negation_self_append",
    "Ab.BB.C29_negation_wrapping_write"
   ],
   "note": "false of the code (five witnesses: shrink of an empty buffer then destroy, resize(0), release_span, self-append, wrapping offset); proved for every program avoiding those misuses, any allocator"
  },
  {
   "property": "C30",
   "status": "partial",
   "theorems": [
    "Ab.PVec.C30_persistent_vector_partial",
    "Ab.PVec.C30_negation_self_assignment",
    "Ab.PVec.C30_negation_large"
   ],
   "note": "false of the code (self-assignment and appending to more than 2^30 elements are undefined behaviour); proved for every other program: reads, sizes and old versions"
  },
  {
   "property": "C31",
   "status": "partial",
   "theorems": [
    "Ab.PVec.C31_counts_partial",
    "Ab.PVec.C31_no_leak_partial",
    "Ab.PVec.C31_negation_self_assignment"
   ],
   "note": "false of the code (self-assignment frees a live node); proved for every other program: counters exact, live nodes = reachable nodes, nothing left at the end"
  },
  {
   "property": "C32",
   "status": "partial",
   "theorems": [
    "Ab.RC.C32_destroyed_with_last_handle_partial",
    "Ab.RC.C32_negation_self_assignment",
    "Ab.RC.C32_negation_self_pointer_assignment"
   ],
   "note": "false of the code (self-assignment frees the object); proved for every program without self-assignment and fewer than 2^31 handles"
  },
  {
   "property": "C33",
   "status": "proved",
   "theorems": [
    "Ab.IL.C33_context_list_enumerates_entered",
    "Ab.IL.C33_entering_twice_loops"
   ],
   "note": ""
  },
  {
   "property": "C34",
   "status": "proved",
   "theorems": [
    "Ab.LT.C34_label_ids_distinct",
    "Ab.LT.C34_target_is_placed_offset",
    "Ab.LT.C34_place_once",
    "Ab.LT.C34_alloc_total"
   ],
   "note": ""
  },
  {
   "property": "C35",
   "status": "proved",
   "theorems": [
    "Ab.LI.C35_line_and_column"
   ],
   "note": ""
  },
  {
   "property": "C36",
   "status": "proved",
   "theorems": [
    "Ab.Edn.C36_interning_is_a_bijection",
    "Ab.Edn.C36_unknown_symbol"
   ],
   "note": "every sequence of fewer than 2^64 distinct names"
  },
  {
   "property": "C37",
   "status": "partial",
   "theorems": [
    "Ab.Edn.C37_equality_is_an_equivalence_partial",
    "Ab.Edn.C37_reals",
    "Ab.Edn.C37_equality_is_structural_partial",
    "Ab.Edn.C37_kinds",
    "Ab.Edn.C37_negation_nan",
    "Ab.Edn.C37_negation_map_keys"
   ],
   "note": "false of the code (NaN is not equal to itself; two equal maps used as keys of maps may compare different because hashing a map depends on iteration order); proved: symmetric, transitive, implies same data; exact when there is no NaN and no key contains a map of two entries"
  },
  {
   "property": "C38",
   "status": "partial",
   "theorems": [
    "Ab.Edn.C38_equal_nodes_hash_alike_partial",
    "Ab.Edn.C38_negation"
   ],
   "note": "false of the code (equal maps filled in another order hash differently); proved when no map has more than one entry"
  },
  {
   "property": "C39",
   "status": "partial",
   "theorems": [
    "Ab.Edn.C39_parse_returns_throws_or_runs_partial",
    "Ab.Edn.C39_negation",
    "Ab.Edn.C39_negation_throws",
    "Ab.Edn.C39_no_brace_partial"
   ],
   "note": "false of the code (a map left open loops for ever, allocating an error each round; an error message containing '}' is used as a format string and throws fmt::format_error, as for `(}`); proved: which of the three \u2013 document, exception, endless loop \u2013 happens, for every text"
  },
  {
   "property": "C40",
   "status": "partial",
   "theorems": [
    "Ab.Edn.Layout.C40_any_layout_partial",
    "Ab.Edn.C40_round_trip_partial",
    "Ab.Edn.C40_negation",
    "Ab.Edn.C40_negation_strings",
    "Ab.Edn.C40_negation_backslash"
   ],
   "note": "false of the code (a keyword is read as a symbol named with the colon, a string with its quotes; a string that ends in a backslash swallows what follows, C40_negation_backslash); proved for every tree without strings that end in a backslash, with reals read as the number their digits give in machine arithmetic (C85) and keywords and strings read that way, printed with single spaces (C40_round_trip_partial) or in any layout (C40_any_layout_partial)"
  },
  {
   "property": "C41",
   "status": "partial",
   "theorems": [
    "Ab.Edn.C41_integer_literal_partial",
    "Ab.Edn.C41_every_integer_token_partial",
    "Ab.Edn.C41_negation"
   ],
   "note": "false of the code (-2^63 is undefined behaviour, so is any literal of magnitude 2^63 or more); proved exactly for the others"
  },
  {
   "property": "C42",
   "status": "partial",
   "theorems": [
    "Ab.Edn.C42_negation",
    "Ab.Edn.C42_the_rest_plays_no_part_partial"
   ],
   "note": "false of the code (from the first text no rule matches everything is dropped and nothing is logged); proved: the rest plays no part in the document"
  },
  {
   "property": "C43",
   "status": "partial",
   "theorems": [
    "Ab.LinMem.C43_requests_partial",
    "Ab.LinMem.C43_one_request_partial",
    "Ab.LinMem.C43_negation",
    "Ab.LinMem.C43_wrap_negation"
   ],
   "note": "false of the code (max_size is in pages while size is in bytes; a maximum that wraps in bytes hands out foreign pages); proved: region, limits and size for every configuration that does not wrap, every request sequence and every operating system behaviour"
  },
  {
   "property": "C44",
   "status": "partial",
   "theorems": [
    "Ab.LebStream.C44_complete_number_partial",
    "Ab.LebStream.C44_value_partial",
    "Ab.LebStream.C44_incomplete_number_partial",
    "Ab.LebStream.C44_negation",
    "Ab.LebStream.C44_never_an_error_partial"
   ],
   "note": "false of the code (a truncated number is not reported, an empty stream reads as 127); proved for every complete number of at most ten bytes; the other streams characterised exactly"
  },
  {
   "property": "C45",
   "status": "partial",
   "theorems": [
    "Ab.Driver.C45_first_directory_partial",
    "Ab.Driver.C45_not_found_partial",
    "Ab.Driver.C45_negation",
    "Ab.Driver.C45_no_limit_partial"
   ],
   "note": "false of the code (the first directory entry of the name wins even if it cannot be executed); proved: first directory with such an entry, in the documented order"
  },
  {
   "property": "C46",
   "status": "partial",
   "theorems": [
    "Ab.Sexpr.C46_tokens",
    "Ab.Sexpr.C46_balanced",
    "Ab.Sexpr.C46_indentation_partial",
    "Ab.Sexpr.C46_top_level_partial",
    "Ab.Sexpr.C46_negation"
   ],
   "note": "contents and balance proved for all event sequences; indentation is false beyond 10 levels (C46_negation), exact formula proved"
  },
  {
   "property": "C47",
   "status": "partial",
   "theorems": [
    "Ab.Util.C47_integer_hash_injective",
    "Ab.Util.C47_view_equality_partial",
    "Ab.Util.C47_views_without_nul_partial",
    "Ab.Util.C47_negation",
    "Ab.Util.C47_view_and_c_string_partial"
   ],
   "note": "hash proved injective; view equality false of the code when there are NUL bytes; exact characterisation proved"
  },
  {
   "property": "C48",
   "status": "proved",
   "theorems": [
    "Ab.Util.C48_power_of_two_arithmetic",
    "Ab.Util.C48_parity",
    "Ab.Util.C48_undefined"
   ],
   "note": ""
  },
  {
   "property": "C49",
   "status": "partial",
   "theorems": [
    "Ab.MaybeM.C49_values_partial",
    "Ab.MaybeM.C49_assigning_nothing_partial",
    "Ab.MaybeM.C49_self_assignment_partial",
    "Ab.MaybeM.C49_negation"
   ],
   "note": "false of the code (assigning nothing keeps the old value; self-assignment is undefined); proved for every program avoiding those assignments, with exact object counts"
  },
  {
   "property": "C50",
   "status": "proved",
   "theorems": [
    "Ab.Edn.C50_tokens_are_longest_matches"
   ],
   "note": "every text; Ragel's longest-match scanner semantics is the model (DESIGN.md)"
  },
  {
   "property": "C51",
   "status": "partial",
   "theorems": [
    "Ab.Edn.C51_token_locations_partial",
    "Ab.Edn.C51_negation"
   ],
   "note": "false of the code (newlines inside string literals are not recorded); proved for every text whose string literals contain no newline"
  },
  {
   "property": "C52",
   "status": "partial",
   "theorems": [
    "Ab.Edn.C52_string_literal_partial",
    "Ab.Edn.C52_negation"
   ],
   "note": "false of the code (nodes keep the quotes and escapes); proved: the node is the literal's source text"
  },
  {
   "property": "C53",
   "status": "partial",
   "theorems": [
    "Ab.Driver.C53_dispatch_partial",
    "Ab.Driver.C53_separator_partial",
    "Ab.Driver.C53_negation"
   ],
   "note": "false of the code (`--` is passed to the command as its name); proved for all other command lines"
  },
  {
   "property": "C54",
   "status": "partial",
   "theorems": [
    "Ab.Util.C54_negation",
    "Ab.Util.C54_pow_partial"
   ],
   "note": "false of the code (pow(n) is 2^(e+n-1)); exact characterisation proved"
  },
  {
   "property": "C55",
   "status": "partial",
   "theorems": [
    "Ab.LebStream.C55_signed_number_partial",
    "Ab.LebStream.C55_ten_bytes_negative_partial",
    "Ab.LebStream.C55_negation"
   ],
   "note": "false of the code (ten-byte negative numbers are undefined behaviour: shift by 70); proved for all others"
  },
  {
   "property": "C56",
   "status": "proved",
   "theorems": [
    "Ab.LebStream.C56_fixed_width_number"
   ],
   "note": ""
  },
  {
   "property": "C57",
   "status": "partial",
   "theorems": [
    "Ab.LinMem.C57_destroyed_partial",
    "Ab.LinMem.C57_negation"
   ],
   "note": "false of the code (pages leak when the constructor throws); proved when the constructor succeeds"
  },
  {
   "property": "C58",
   "status": "partial",
   "theorems": [
    "Ab.Sexpr.C58_quoted_partial",
    "Ab.Sexpr.C58_negation"
   ],
   "note": "false of the code (quotes are not escaped); proved for strings without a quote"
  },
  {
   "property": "C59",
   "status": "partial",
   "theorems": [
    "Ab.PVec.C59_range_for_partial",
    "Ab.PVec.C59_past_the_end",
    "Ab.PVec.C59_negation_eight"
   ],
   "note": "false of the code (end() fails an assertion for sizes that are multiples of four, not zero and not a power of four, e.g. 8); proved exactly for all sizes"
  },
  {
   "property": "C60",
   "status": "partial",
   "theorems": [
    "Ab.PVec.C60_foreach_partial",
    "Ab.PVec.C60_negation_one"
   ],
   "note": "false of the code (the unused places of the last leaf are visited too); exact characterisation proved"
  },
  {
   "property": "C61",
   "status": "partial",
   "theorems": [
    "Ab.Wasm.C61_instructions_partial",
    "Ab.Wasm.C61_instruction_partial",
    "Ab.Wasm.C61_missing_partial",
    "Ab.Wasm.C61_negation"
   ],
   "note": "false of the code (memory.size, memory.grow and the conversions end the process; ten-byte negative constants are undefined behaviour); proved for all other instruction sequences; exact condition for the process to end proved"
  },
  {
   "property": "C62",
   "status": "partial",
   "theorems": [
    "Ab.Wasm.C62_module_partial",
    "Ab.Wasm.C62_unread_partial",
    "Ab.Wasm.C62_negation"
   ],
   "note": "false of the code (table, memory and start sections are not consumed, a custom section before the end loses the place, names end at a zero byte); proved for all other modules and every visitor"
  },
  {
   "property": "C63",
   "status": "partial",
   "theorems": [
    "Ab.Wasm.C63_header_partial",
    "Ab.Wasm.C63_section_partial",
    "Ab.Wasm.C63_function_type_partial",
    "Ab.Wasm.C63_import_kind_partial",
    "Ab.Wasm.C63_initializer_partial",
    "Ab.Wasm.C63_negation",
    "Ab.Wasm.C63_sizes_negation"
   ],
   "note": "false of the code (short files, wrong section sizes, section numbers above 255, truncated data accepted; exit; undefined behaviour); proved: headers, section numbers, type tags, import kinds, initializers"
  },
  {
   "property": "C64",
   "status": "partial",
   "theorems": [
    "Ab.Wasm.C64_options_partial",
    "Ab.Wasm.C64_help_partial",
    "Ab.Wasm.C64_negation"
   ],
   "note": "false of the code (--output misspelt, -o without a file is undefined); proved for all other command lines"
  },
  {
   "property": "C65",
   "status": "partial",
   "theorems": [
    "Ab.Wasm.C65_negation",
    "Ab.Wasm.C65_example_negation"
   ],
   "note": "false of the code: proved that for every module whose last section is a code section with one function nothing is printed"
  },
  {
   "property": "C66",
   "status": "partial",
   "theorems": [
    "Ab.Wasm.C66_text_partial",
    "Ab.Wasm.C66_negation"
   ],
   "note": "false of the code (integers print as single characters); proved for every module without function bodies with numbers shown that way"
  },
  {
   "property": "C67",
   "status": "partial",
   "theorems": [
    "Ab.Wasm.C67_reading_ends_partial",
    "Ab.Wasm.C67_disassembling_ends_partial",
    "Ab.Wasm.C67_consumed_partial",
    "Ab.Wasm.C67_negation"
   ],
   "note": "ending proved for every file; the bound is false of the code (20 bytes cause more than 2^64 callbacks)"
  },
  {
   "property": "C68",
   "status": "proved",
   "theorems": [
    "Ab.Own.C68_released_once_after_last_use",
    "Ab.Own.C68_nothing_else_released",
    "Ab.Own.C68_sensible_programs_are_defined",
    "Ab.Own.C68_nothing_leaks",
    "Ab.Own.C68_instances_keep_their_code"
   ],
   "note": "std::shared_ptr is modelled as a use count"
  },
  {
   "property": "C69",
   "status": "partial",
   "theorems": [
    "Ab.Own.C69_negation",
    "Ab.Own.C69_vm_destroys_nothing"
   ],
   "note": "false of the code: the VM's table of instances is never filled, so destroying the VM destroys nothing (proved for every program)"
  },
  {
   "property": "C70",
   "status": "partial",
   "theorems": [
    "Ab.C70_negation",
    "Ab.C70_later_types_dangle",
    "Ab.C70_types_first_partial",
    "Ab.C70_written_modules_partial"
   ],
   "note": "false of the code (types after functions reallocate the table, type() dangles); proved for every file with its types first and every written module"
  },
  {
   "property": "C71",
   "status": "partial",
   "theorems": [
    "Ab.Ctx.C71_negation",
    "Ab.Ctx.C71_no_program_with_a_move_ends_well",
    "Ab.Ctx.C71_without_moves_partial"
   ],
   "note": "false of the code (the defaulted move constructor shares the stack and forgets the list); proved that no program with a move ends well, and the full property for programs without moves"
  },
  {
   "property": "C72",
   "status": "proved",
   "theorems": [
    "Ab.Wast.C72_tokens"
   ],
   "note": "the counters are ints, so texts of two gigabytes and more are outside the property"
  },
  {
   "property": "C73",
   "status": "partial",
   "theorems": [
    "Ab.Wast.C73_the_rest_is_lost",
    "Ab.Wast.C73_every_text",
    "Ab.Wast.C73_negation",
    "Ab.Wast.C73_negation_full",
    "Ab.Wast.C73_comments_and_strings_end_the_file"
   ],
   "note": "false of the code: proved for every text that the tokens up to the first unreadable character are delivered, the rest is lost and no error is reported"
  },
  {
   "property": "C74",
   "status": "partial",
   "theorems": [
    "Ab.Wast.C74_one_buffer",
    "Ab.Wast.C74_negation",
    "Ab.Wast.C74_word_at_the_cut",
    "Ab.Wast.C74_pieces_partial"
   ],
   "note": "one buffer: proved for every cut; several buffers: false of the code (a piece that ends with a word makes the next call undefined, proved for every such piece); proved when all pieces end with a parenthesis or white space"
  },
  {
   "property": "C75",
   "status": "partial",
   "theorems": [
    "Ab.Tools.C75_negation",
    "Ab.Tools.C75_one_argument_undefined",
    "Ab.Tools.C75_double_dash_reads_double_dash",
    "Ab.Tools.C75_command_line_partial",
    "Ab.Tools.C75_unreadable_reported"
   ],
   "note": "false of the code (one argument is undefined behaviour, after -- the file called -- is read); proved for two arguments, help and errors"
  },
  {
   "property": "C76",
   "status": "partial",
   "theorems": [
    "Ab.Tools.C76_listing_partial",
    "Ab.Tools.C76_complete_files_partial",
    "Ab.Tools.C76_negation",
    "Ab.Tools.C76_empty_file",
    "Ab.Tools.C76_descriptor_zero"
   ],
   "note": "false of the code (status 0 although text was lost; empty files 'cannot be opened'); exact listing proved for every file"
  },
  {
   "property": "C77",
   "status": "partial",
   "theorems": [
    "Ab.Tools.C77_negation",
    "Ab.Tools.C77_nothing_is_run",
    "Ab.Tools.C77_command_line_partial",
    "Ab.Tools.C77_ab_run_never_runs"
   ],
   "note": "false of the code: proved that no command line runs anything; usage and errors proved"
  },
  {
   "property": "C78",
   "status": "partial",
   "theorems": [
    "Ab.Edn.C78_well_formed_partial",
    "Ab.Edn.C78_ill_formed_partial",
    "Ab.Edn.C78_no_errors_iff_partial",
    "Ab.Edn.C78_negation"
   ],
   "note": "false of the code (`(}` throws, `{` loops for ever); proved for every text for which parsing returns, that it returns for every well-formed text, and that the error list is empty exactly when the text is well formed and no pair was dropped"
  },
  {
   "property": "C79",
   "status": "partial",
   "theorems": [
    "Ab.ResultM.C79_results_partial",
    "Ab.ResultM.C79_no_other_program_partial",
    "Ab.ResultM.C79_negation"
   ],
   "note": "false of the code (a value of class type assigned over an error, or an error of class type over a value, is assigned to an object that is not alive; a trivial error over a value never destroys the value); proved for every other program and that no program doing so ends well"
  },
  {
   "property": "C80",
   "status": "partial",
   "theorems": [
    "Ab.LockM.C80_any_guards_together_partial",
    "Ab.LockM.C80_never_waits_partial",
    "Ab.LockM.C80_lock_counts_partial",
    "Ab.LockM.C80_too_many_locks_partial",
    "Ab.LockM.C80_negation"
   ],
   "note": "false of the code (the guards' bodies are commented out): proved that any combination of guards can be alive together and that nobody ever waits"
  },
  {
   "property": "C81",
   "status": "partial",
   "theorems": [
    "Ab.Util.C81_less_partial",
    "Ab.Util.C81_order_partial",
    "Ab.Util.C81_negation",
    "Ab.Util.C81_equal_partial"
   ],
   "note": "false of the code (adjacent spans are not less); exact characterisation proved for spans that are not empty"
  },
  {
   "property": "C82",
   "status": "partial",
   "theorems": [
    "Ab.Util.C82_compare_partial",
    "Ab.Util.C82_same_length_partial",
    "Ab.Util.C82_compare_c_string_partial",
    "Ab.Util.C82_negation"
   ],
   "note": "false of the code (a prefix compares equal); exact characterisation proved"
  },
  {
   "property": "C83",
   "status": "partial",
   "theorems": [
    "Ab.WH.C83_write_owned_span_or_bad_alloc_partial",
    "Ab.WH.C83_write_succeeds",
    "Ab.WH.C83_written_block_loads",
    "Ab.WH.C83_negation_shrink_refusal_terminates"
   ],
   "note": "false of the code in one case (the final shrink happens in a noexcept function, so its refusal ends the process); everything else proved for every allocator, prior heap and module, and success for an obliging allocator"
  },
  {
   "property": "C84",
   "status": "proved",
   "theorems": [
    "Ab.C84_loads_exactly",
    "Ab.C84_aborts_exactly",
    "Ab.C84_refuses_exactly",
    "Ab.C84_language_unambiguous",
    "Ab.C84_sections_compose",
    "Ab.C84_code_size_is_free"
   ],
   "note": "proved as equivalences with a grammar given as relations on what is left of the file (Spec/Loader.lean)"
  },
  {
   "property": "C85",
   "status": "partial",
   "theorems": [
    "Ab.Edn.C85_exact_arithmetic_partial",
    "Ab.Edn.C85_exponent_overflow",
    "Ab.Edn.C85_negation",
    "Ab.Edn.C85_error_bound_partial",
    "Ab.Edn.C85_whole_numbers_partial",
    "Ab.Edn.C85_tokens"
   ],
   "note": "false of the code (each digit rounds, so 0.7 is read as 0.7000000000000001; an exponent of 2^63 or more overflows); proved for every literal: exact with exact arithmetic, a relative error of at most 2n+m+4 roundings for any round-to-nearest arithmetic, exact for whole numbers below 2^53, undefined exactly for exponents out of range. Exponent range of double (overflow to infinity, subnormals) not modelled"
  },
  {
   "property": "C86",
   "status": "partial",
   "theorems": [
    "Ab.EdnHeap.C86_no_use_after_free",
    "Ab.EdnHeap.C86_alive_exactly",
    "Ab.EdnHeap.C86_without_cycles_partial",
    "Ab.EdnHeap.C86_negation",
    "Ab.EdnHeap.C86_cycles_are_never_freed"
   ],
   "note": "false of the code for nodes that are part of themselves (a list pushed into itself, a map that is its own metadata: never destroyed); proved for every program: no use after free, exactly which nodes live, and the full claim where there is no cycle"
  },
  {
   "property": "C87",
   "status": "partial",
   "theorems": [
    "Ab.EdnHeap.C87_ends_partial",
    "Ab.EdnHeap.C87_by_content_partial",
    "Ab.EdnHeap.C87_same_data_partial",
    "Ab.EdnHeap.C87_negation"
   ],
   "note": "false of the code (comparing or hashing a list pushed into itself never comes back); proved: it ends when the left side does not contain itself, and gives the answer for the trees shown when nothing is null and no key has changed since insertion"
  },
  {
   "property": "C88",
   "status": "partial",
   "theorems": [
    "Ab.EdnHeap.C88_lookup_partial",
    "Ab.EdnHeap.C88_insert_then_find_partial",
    "Ab.EdnHeap.C88_insert_existing_partial",
    "Ab.EdnHeap.C88_negation"
   ],
   "note": "false of the code (a key changed after its insertion is not found again, even by the same object); proved for maps whose keys have not changed and keys without NaN or larger maps inside, for every iteration order"
  },
  {
   "property": "C89",
   "status": "proved",
   "theorems": [
    "Ab.EdnHeap.C89_as_if_nothing_were_destroyed",
    "Ab.EdnHeap.C89_same_answers",
    "Ab.EdnHeap.C89_only_the_named_node_changes",
    "Ab.EdnHeap.C89_seen_through_every_pointer"
   ],
   "note": "proved as a simulation of a reference semantics without use counts (Spec/EdnShare.lean), for every program and every map iteration order"
  },
  {
   "property": "C90",
   "status": "proved",
   "theorems": [
    "Ab.Sexpr.C90_layout",
    "Ab.Sexpr.C90_level",
    "Ab.Sexpr.C90_tidy"
   ],
   "note": "exact layout of every call sequence against an independent specification, plus the tidiness claims"
  },
  {
   "property": "C91",
   "status": "partial",
   "theorems": [
    "Ab.Wasm.C91_text_partial",
    "Ab.Wasm.C91_same_without_comments_partial",
    "Ab.Wasm.C91_negation"
   ],
   "note": "false of the code (when the last section shows nothing the closing parenthesis of the module is in a comment; a section of ten bytes has its size printed as a line break); proved for all other modules of the C66 fragment, with the exact verbose text"
  },
  {
   "property": "C92",
   "status": "partial",
   "theorems": [
    "Ab.Wasm.C92_names",
    "Ab.Wasm.C92_printed_partial",
    "Ab.Wasm.C92_negation",
    "Ab.Wasm.C92_bad_type",
    "Ab.Wasm.C92_any_depth_partial"
   ],
   "note": "false of the code for blocks nested more than ten levels deep (the level stops at ten but is counted back); proved for all structured code within that, with the names of all 256 operator codes; operators the program does not know (C61) are excluded; the exact text beyond that is proved too (C92_any_depth_partial)"
  },
  {
   "property": "C93",
   "status": "partial",
   "theorems": [
    "Ab.Edn.C93_mistakes_partial",
    "Ab.Edn.C93_places",
    "Ab.Edn.C93_negation"
   ],
   "note": "false of the code (a repeated key is reported at the token after the value, a ] closing a map is said to close a vector, and some texts yield no document, C39); proved for every text that yields a document: the exact list of errors apart from repeated keys, and the places and order of all errors"
  },
  {
   "property": "C94",
   "status": "partial",
   "theorems": [
    "Ab.Tools.C94_help_partial",
    "Ab.Tools.C94_negation"
   ],
   "note": "false of the code after -- (ab -- help run passes -- on as the program name and run is then one argument too many); proved for all other command lines and every environment"
  },
  {
   "property": "C95",
   "status": "proved",
   "theorems": [
    "Ab.C95_forward_code_finishes",
    "Ab.C95_call_finishes",
    "Ab.C95_bound_is_exact"
   ],
   "note": "loop and call level; the bound is the number of instructions of the body and is exact"
  },
  {
   "property": "C96",
   "status": "partial",
   "theorems": [
    "Ab.C96_same_answer_partial",
    "Ab.C96_counts",
    "Ab.C96_negation"
   ],
   "note": "false of the code (registers after the arguments are not initialised, so r1 := r1 + r0 counts calls); proved, for any two contexts and stacks, for bodies that write each register before reading it on every path"
  },
  {
   "property": "C97",
   "status": "partial",
   "theorems": [
    "Ab.C97_tables_fit_the_file",
    "Ab.C97_requests_partial",
    "Ab.C97_requests_exact",
    "Ab.C97_negation"
   ],
   "note": "false of the code (reserve is called with the declared count before anything is read: 15 bytes ask for 16 GiB); proved for files that load, for code sections of any file, and for the tables of loaded modules"
  },
  {
   "property": "C98",
   "status": "proved",
   "theorems": [
    "Ab.C98_contexts_do_not_interfere",
    "Ab.C98_any_interleaving"
   ],
   "note": "proved as a relational (two-run) property: every access outside a context's own stack and the module bytes is undefined behaviour in the model, so a defined run reads and writes its own stack only; calls are sequential"
  },
  {
   "property": "C99",
   "status": "proved",
   "theorems": [
    "Ab.C99_written_code_runs",
    "Ab.C99_multiplication"
   ],
   "note": "all outcomes: values, error flag, undefined (overflow, no value where one is declared), not finished; used on a multiplication loop for all factors"
  },
  {
   "property": "C100",
   "status": "partial",
   "theorems": [
    "Ab.Edn.C100_zero_partial",
    "Ab.Edn.C100_zero_is_nan",
    "Ab.Edn.C100_large_exponents",
    "Ab.Edn.C100_moderate_partial",
    "Ab.Edn.C100_negation"
   ],
   "note": "false of the code (0e309 is read as NaN: the value is multiplied by pow(10, 309), which is infinite); proved for zeros with exponents up to 308 (exactly NaN above) and for all literals of moderate size (17 digits with an exponent up to 280, say); for every arithmetic with the IEEE laws of Spec/EdnDouble.lean"
  },
  {
   "property": "C101",
   "status": "partial",
   "theorems": [
    "Ab.Edn.C101_compare_exact",
    "Ab.Edn.C101_same_token_partial",
    "Ab.Edn.C101_negation",
    "Ab.Edn.C101_other_texts"
   ],
   "note": "false of the code for NaN tokens (C100), which differ from themselves; proved for all others; the comparison does not look at the text, so tokens of different texts at the same place compare equal (C101_other_texts)"
  },
  {
   "property": "C102",
   "status": "proved",
   "theorems": [
    "Ab.Edn.C102_token_texts",
    "Ab.Edn.C102_token_kinds",
    "Ab.Edn.C102_other_buffer"
   ],
   "note": "every text shorter than 2^64 bytes"
  },
  {
   "property": "C103",
   "status": "proved",
   "theorems": [
    "Ab.BB.C103_amortised"
   ],
   "note": "a buffer made with capacity 0 starts at DEFAULT_CAPACITY with its first append; not covered by the theorem"
  },
  {
   "property": "C104",
   "status": "proved",
   "theorems": [
    "Ab.PVec.C104_append_cost"
   ],
   "note": "exact count of nodes allocated; sizes up to 2^30 (beyond, the code overflows: see C30)"
  },
  {
   "property": "C105",
   "status": "partial",
   "theorems": [
    "Ab.Edn.C105_negation",
    "Ab.Edn.C105_linear_partial",
    "Ab.Edn.C105_quadratic_partial"
   ],
   "note": "false of the code: n zeros are n tokens, and because a real may begin with several zeros each scan reads to the end of the text before it goes back; n zeros take exactly n(n+1)/2 looks, which is also the most any text takes; proved (at most 5 looks per byte) for texts in which no token 0 is directly followed by a digit. The work counted is that of the scanner of Model/EdnLexer.lean, which, like Ragel's, stops at the first byte at which no rule can go on"
  },
  {
   "property": "C106",
   "status": "partial",
   "theorems": [
    "Ab.Wasm.C106_function_partial",
    "Ab.Wasm.C106_text_partial",
    "Ab.Wasm.C106_negation",
    "Ab.Wasm.C106_any_depth_partial"
   ],
   "note": "false of the code: the indentation stops at ten levels going in but not coming out, and of a branch table only the first target is shown; proved (exact text) for functions at most eight blocks deep and tables of at most one target besides the default, when the printer is handed the size of the instructions (handed the size the format has, which counts the locals, it prints nothing: C65); numbers are written as characters, as in C66; for functions nested to any depth and any branch tables the exact text printed is proved too (C106_any_depth_partial)"
  },
  {
   "property": "C107",
   "status": "partial",
   "theorems": [
    "Ab.Edn.Stack.C107_stack_partial",
    "Ab.Edn.Stack.C107_document_partial",
    "Ab.Edn.Stack.C107_negation"
   ],
   "note": "false of the code: the parser calls itself for every open collection and nothing limits the depth, so whatever the stack there is a document whose parsing overruns it; proved exactly when: parsing overruns a stack for n collections if and only if at some time, before the parser gives up or the text ends, more than n are open, and otherwise does what it does with unlimited stack; for documents that number is the depth of nesting. Stack is counted in open collections, not bytes"
  },
  {
   "property": "C108",
   "status": "partial",
   "theorems": [
    "Ab.EdnHeap.Stack.C108_destroy_partial",
    "Ab.EdnHeap.Stack.C108_destroy_overruns_partial",
    "Ab.EdnHeap.Stack.C108_negation"
   ],
   "note": "false of the code: destructors, hashing and comparison call themselves for nested nodes and nothing limits the depth; proved: for every stack there is a program whose node can be neither destroyed nor hashed nor compared with itself, though with stack for one more call all three work; destruction does what it does with unlimited stack whenever no chain of nodes, each holding the next, is longer than the stack, and overruns it whenever there is a longer one whose nodes have no other use. Stack is counted in nested calls, not bytes"
  },
  {
   "property": "C109",
   "status": "proved",
   "theorems": [
    "Ab.Edn.Text.C109_text_tells",
    "Ab.Edn.Text.C109_tokens_differ",
    "Ab.Edn.Text.C109_location_tells",
    "Ab.Edn.Text.C109_location_range_tells"
   ],
   "note": "how fmt writes a double is a parameter that writes no space; nil, true, false and errors are shown as (unknown n ...), so that true and false at the same place of different texts look the same (example beside the theorem)"
  },
  {
   "property": "C110",
   "status": "partial",
   "theorems": [
    "Ab.Box.C110_holds_partial",
    "Ab.Box.C110_negation"
   ],
   "note": "proved for programs without `b = c` (c a box variable), and with `b = x` (x a variable) only if moving leaves values alone; C110_negation has both failures"
  },
  {
   "property": "C111",
   "status": "partial",
   "theorems": [
    "Ab.OpName.C111_names_partial",
    "Ab.OpName.C111_negation"
   ],
   "note": "names other than unknown are unique, and every opcode that does not abort in some state has one, except 0x6b (C111_negation)"
  },
  {
   "property": "C112",
   "status": "partial",
   "theorems": [
    "Ab.Trace.C112_trace_partial",
    "Ab.Trace.C112_operands_partial",
    "Ab.Trace.C112_negation"
   ],
   "note": "the names, places, results and order are proved for every well-formed body, with operands as after the instruction; operands as they were for bodies in which no instruction overwrites its own operand; C112_negation shows i32.add r0 r0 r1"
  },
  {
   "property": "C113",
   "status": "partial",
   "theorems": [
    "Ab.Edn.Print.C113_lines_partial",
    "Ab.Edn.Print.C113_silent_partial",
    "Ab.Edn.Print.C113_negation"
   ],
   "note": "exactly what is written is proved: the lines for the strings, symbols and keywords, in order, of all tokens if parsing completes and of the first ones if not; silence for texts without them; C113_negation parses `a`"
  },
  {
   "property": "C114",
   "status": "partial",
   "theorems": [
    "Ab.LinMem.C114_separate_partial",
    "Ab.LinMem.C114_destroyed_partial",
    "Ab.LinMem.C114_negation",
    "Ab.LinMem.C114_foreign_negation"
   ],
   "note": "False of the code: moving a VirtualMachine copies its LinearMemory, so destroying the one moved from unmaps the memory of the other (C114_negation), and later the other unmaps what somebody else may have put there (C114_foreign_negation). Proved for every process that neither copies a memory nor moves a VM."
  },
  {
   "property": "C115",
   "status": "partial",
   "theorems": [
    "Ab.Vms.C115_idle_moves_partial",
    "Ab.Vms.C115_negation",
    "Ab.Vms.C115_stale_negation"
   ],
   "note": "False of the code: a context keeps pointing to the machine that was moved from, so destroying it touches a destroyed machine (C115_negation), or leaves a destroyed context in the list of the new machine (C115_stale_negation). Proved for all programs that move machines only while they have no contexts."
  },
  {
   "property": "C116",
   "status": "partial",
   "theorems": [
    "Ab.RcG.C116_negation",
    "Ab.RcG.C116_careful_partial",
    "Ab.RcG.C116_no_leak_partial",
    "Ab.RcG.C116_next"
   ],
   "note": "False of the code: an assignment gives up the old object before it reads the new one, so p = p->next uses a deleted object (C116_negation), exactly when nothing else refers to the object (C116_next). Proved for all programs without assignments from a place to itself or from a member of the object the assigned variable refers to; such programs leak nothing but cycles."
  },
  {
   "property": "C117",
   "status": "partial",
   "theorems": [
    "Ab.MaybeNull.C117_value_partial",
    "Ab.MaybeNull.C117_programs_partial",
    "Ab.MaybeNull.C117_apply",
    "Ab.MaybeNull.C117_map_partial",
    "Ab.MaybeNull.C117_compose_partial",
    "Ab.MaybeNull.C117_negation"
   ],
   "note": "False of the code: a Maybe made from a null pointer or from a Maybe that holds nothing holds nothing; assigning what holds nothing keeps the old value, also through *; assigning a nested Maybe that holds an object to itself is undefined; map does not compose when the first function returns a null pointer (C117_negation). Proved: exactly the values that come down to nothing are lost (C117_value_partial), every program without those assignments ends with each variable as meant (C117_programs_partial), apply as stated, map and its composition for results that are not null."
  },
  {
   "property": "C118",
   "status": "partial",
   "theorems": [
    "Ab.ReadBack.C118_words_partial",
    "Ab.ReadBack.C118_types_partial",
    "Ab.ReadBack.C118_quotes_negation",
    "Ab.ReadBack.C118_verbose_negation",
    "Ab.ReadBack.C118_negation"
   ],
   "note": "False of the code: ab-asm has no lexeme for a quoted text or a comment, so it stops, with status 0, inside the disassembly of every module with an import, an export or a data segment (C118_quotes_negation) and of every module with a section disassembled with --verbose (C118_verbose_negation). Proved: every module whose entries show only words and parentheses is read back exactly (C118_words_partial), in particular every module that shows only function types (C118_types_partial)."
  },
  {
   "property": "C119",
   "status": "proved",
   "theorems": [
    "Ab.PVec.C119_same_answer",
    "Ab.PVec.C119_lookup",
    "Ab.PVec.C119_space"
   ],
   "note": "Counting reads erases to the plain reader (C119_same_answer); the depth is exact (C119_lookup); the space bound counts live nodes (C119_space)."
  },
  {
   "property": "C120",
   "status": "proved",
   "theorems": [
    "Ab.LI.C120_same_answer",
    "Ab.LI.C120_steps"
   ],
   "note": "Counting iterations erases to the plain lookup (C120_same_answer); the bound and the answer together (C120_steps)."
  },
  {
   "property": "C121",
   "status": "partial",
   "theorems": [
    "Ab.C121_same_outcome",
    "Ab.C121_reads_partial",
    "Ab.C121_quadratic_partial",
    "Ab.C121_looks_exact",
    "Ab.C121_small_types_partial",
    "Ab.C121_quadratic_negation",
    "Ab.C121_negation"
   ],
   "note": "False of the code: each function goes through all entries of its type again, so k functions sharing a type of k parameters take k*k operations for a file of 4k+98 bytes (C121_quadratic_negation); no factor up to a million works (C121_negation). Proved: at most six reads per byte for any bytes, although a code entry may move the reader back (C121_reads_partial); at most quadratic work (C121_quadratic_partial); exactly how many entries are looked at (C121_looks_exact); linear for types of bounded size (C121_small_types_partial)."
  },
  {
   "property": "C122",
   "status": "partial",
   "theorems": [
    "Ab.Edn.Layout.C122_blank_between_tokens_partial",
    "Ab.Edn.Layout.C122_last_line_partial",
    "Ab.Edn.Layout.C122_same_tokens",
    "Ab.Edn.Layout.C122_negation"
   ],
   "note": "False of the code: a string may end in a backslash before its closing quote, and then a comment with a double quote in it becomes part of the string (C122_negation). Proved: blank text whose comments have no double quote may be put at the end of any piece, and everything after it moves by its length, line breaks included (C122_blank_between_tokens_partial); such a comment may also end the text without a line break (C122_last_line_partial); texts with the same tokens are read alike, whatever the layout (C122_same_tokens)."
  },
  {
   "property": "C123",
   "status": "partial",
   "theorems": [
    "Ab.Edn.Layout.C123_one_after_the_other_partial",
    "Ab.Edn.Layout.C123_negation_silent_end",
    "Ab.Edn.Layout.C123_negation_string"
   ],
   "note": "False of the code in two ways: a character in the first text that begins no token ends the reading without a report, so that all of the second is lost (C123_negation_silent_end); a string of the first text may end in a backslash before its closing quote, and then runs on to a quote in the second (C123_negation_string). Proved without these two: the first text is all tokens, whitespace and comments, and none of its strings ends so or the second has no double quote (C123_one_after_the_other_partial)."
  },
  {
   "property": "C124",
   "status": "proved",
   "theorems": [
    "Ab.Edn.C124_every_node_counts",
    "Ab.Edn.C124_leaves",
    "Ab.Edn.C124_list_or_vector",
    "Ab.Edn.C124_function_types",
    "Ab.Edn.C124_limits"
   ],
   "note": ""
  },
  {
   "property": "C125",
   "status": "partial",
   "theorems": [
    "Ab.Edn.C125_equal_texts_partial",
    "Ab.Edn.C125_negation",
    "Ab.Edn.C125_nan_negation"
   ],
   "note": "False of the code: a map is hashed in iteration order, so two texts of the same data with a map of two entries as a key are read as nodes that compare different (C125_negation); and 0e309, read as a NaN, differs from itself (C125_nan_negation). Proved (C125_equal_texts_partial): nodes that compare equal were always written as the same data (reals: as literals read as the same number), and the same data compare equal when no map inside a map key has two or more entries and no real is read as a NaN. Keywords come back as symbols whose names keep the colon and strings with their quotes (C40), which does not confuse them with others. Left out: strings that end in a backslash (C40)."
  },
  {
   "property": "C126",
   "status": "partial",
   "theorems": [
    "Ab.Units.C126_exact_partial",
    "Ab.Units.C126_too_large",
    "Ab.Units.C126_literals_partial",
    "Ab.Units.C126_negation"
   ],
   "note": "False of the code: nothing guards the product, so 2^34 GiB are no bytes and 2 GiB as an int are undefined (C126_negation). Proved: exact for every type and value whose product fits (C126_exact_partial, C126_literals_partial); what happens to every other product, per type (C126_too_large)."
  },
  {
   "property": "C127",
   "status": "partial",
   "theorems": [
    "Ab.C127_loads_exactly",
    "Ab.C127_aborts_exactly",
    "Ab.C127_refused_partial",
    "Ab.C127_no_partial_function",
    "Ab.C127_front_is_prefix",
    "Ab.C127_refused_negation"
   ],
   "note": "False of the code: a file cut between sections loads as a module without the later ones, and a file cut inside a function body ends the process (C127_refused_negation). Proved: exactly where a cut file loads and as what (C127_loads_exactly), exactly where it ends the process (C127_aborts_exactly), DecodeError everywhere else (C127_refused_partial), that a cut file that loads has no functions at all (C127_no_partial_function), and for arbitrary files that the front part has a prefix of the whole (C127_front_is_prefix)."
  },
  {
   "property": "C128",
   "status": "partial",
   "theorems": [
    "Ab.Edn.Layout.C128_nodes_partial",
    "Ab.Edn.Layout.C128_open_reported_partial",
    "Ab.Edn.Layout.C128_negation_escaped_quote",
    "Ab.Edn.Layout.C128_negation_other_token",
    "Ab.Edn.Layout.C128_negation_open_map"
   ],
   "note": "False of the code: an escaped quote lets what is left of a string end earlier and swallow nothing of what follows, so a cut text can be read without errors as other contents (C128_negation_escaped_quote); what is left of a token can be another token (C128_negation_other_token); an open map makes reading go on for ever (C128_negation_open_map). Proved for texts without escaped double quotes in strings: what is read without errors is some of the first data of the whole text, each complete, followed only, and only if the cut is inside a token, by atoms (C128_nodes_partial); if the tokens before the cut do not form a document, every document returned has a structural error (C128_open_reported_partial)."
  },
  {
   "property": "C129",
   "status": "partial",
   "theorems": [
    "Ab.Wasm.C129_between_entries_partial",
    "Ab.Wasm.C129_functions_negation",
    "Ab.Wasm.C129_export_negation",
    "Ab.Wasm.C129_boundary_negation",
    "Ab.Wasm.C129_entry_negation"
   ],
   "note": "False of the code: a file cut between sections is accepted as the module of those before (C129_boundary_negation); a file cut within its function section is accepted, and the visitor is told of functions of type 127 in place of those missing (C129_functions_negation); a file that lost the last byte of a type or an export is accepted with another result type or index (C129_entry_negation; for every file that ends with exports, C129_export_negation). Proved: a file cut within a type, import, global, export, element, code or data section - after the number of the section, after its length, or between its entries - is rejected, by the exception or the exit determined by the kind of section, after the visitor was told exactly what is there (C129_between_entries_partial)."
  },
  {
   "property": "C130",
   "status": "proved",
   "theorems": [
    "Ab.Wast.C130_tokens"
   ],
   "note": "Every text is lexemes followed by something unreadable (C73_every_text); what is left of it is lexemes followed by something unreadable too. An identifier of which only the dollar sign is left delivers no token; nothing is reported (C73)."
  }
 ]
}