{"claims": [
{"property": "C01", "status": "proved", "theorems": ["Verif.C01_exception_table_roundtrip", "Verif.C01_exception_table_error"], "note": ""},
{"property": "C02", "status": "proved", "theorems": ["Verif.C02_exception_table_format"], "note": ""},
{"property": "C03", "status": "proved", "theorems": ["Verif.C03_positions_are_locations"], "note": ""},
{"property": "C04", "status": "proved", "theorems": ["Verif.C04_pack_location", "Verif.C04_exact", "Verif.C04_locations_raise_iff", "Verif.C04_statement_false"], "note": "C04_exact: when a byte after the first has bit 0x80 set; C04_statement_false: the defect on an example"},
{"property": "C05", "status": "proved", "theorems": ["Verif.C05_lnotab_lines"], "note": ""},
{"property": "C06", "status": "proved", "theorems": ["Verif.C06_exact", "Verif.C06_linetable_lines_partial", "Verif.C06_linetable_lines_all_lines_partial", "Verif.C06_statement_false", "Verif.C06_long_no_line_run_false", "Verif.C06_setlineno_no_line_false"], "note": "C06_exact: when the lines are right, in every case (Spec/LinesRight); without that condition the claim is false (C06_statement_false and the two others)"},
{"property": "C07", "status": "proved", "theorems": ["Verif.C07_assemble_decodes", "Verif.C07_extNeeded_least", "Verif.C07_assemble_no_arg", "Verif.C07_size_eq_length_iff", "Verif.C07_size_partial", "Verif.C07_statement_false"], "note": "exact condition in C07_size_eq_length_iff; C07_statement_false: the defect"},
{"property": "C09", "status": "proved", "theorems": ["Verif.C09_constructed_valid", "Verif.C09_step", "Verif.C09_concrete_instr_always_valid", "Verif.C09_set_stores", "Verif.C09_set_opcode_stores"], "note": ""},
{"property": "C11", "status": "proved", "theorems": ["Verif.C11_location_accepts_exactly_coherent"], "note": ""},
{"property": "C12", "status": "proved", "theorems": ["Verif.C12_set_lineno", "Verif.C12_set_lineno_instr"], "note": ""},
{"property": "C42", "status": "proved", "theorems": ["Verif.C42_exact", "Verif.C42_co_lines_partial", "Verif.C42_co_lines_false"], "note": "C42_exact: when the scanned lines are right, in every case; same defect as C04"},
{"property": "C08", "status": "proved", "theorems": ["Verif.C08_read_311", "Verif.C08_read_before_311", "Verif.C08_units_311"], "note": "for instructions whose size is honest (C07)"},
{"property": "C44", "status": "proved", "theorems": ["Verif.C44_code_exact_311", "Verif.C44_code_exact_old", "Verif.C44_exact", "Verif.C44_reassemble_partial", "Verif.C44_from_code_to_code_311_partial", "Verif.C44_statement_false"], "note": "exact; the _partial theorems are the direction without prefixed NOPs"},
{"property": "C10", "status": "proved", "theorems": ["Verif.C10_constructed_valid", "Verif.C10_accepts_iff", "Verif.C10_step", "Verif.C10_step_stores", "Verif.C10_instr_always_valid"], "note": "construction succeeds exactly on the documented arguments; every history of mutations keeps the instruction valid; raising operations change nothing."},
{"property": "C14", "status": "proved", "theorems": ["Verif.C14_jump_lands_on_label"], "note": "input without manual CACHE (see C19)"},
{"property": "C15", "status": "proved", "theorems": ["Verif.C15_sizes_never_shrink", "Verif.C15_converges", "Verif.C15_more_passes_same", "Verif.C15_least_layout"], "note": ""},
{"property": "C16", "status": "proved", "theorems": ["Verif.C16_exact", "Verif.C16_count", "Verif.C16_handlers_partial", "Verif.C16_one_entry_each", "Verif.C16_statement_false"], "note": "C16_exact covers every case in which the markers delimit regions, including the defect (an empty region before the first instruction), for which C16_statement_false is an example"},
{"property": "C17", "status": "proved", "theorems": ["Verif.C17_const", "Verif.C17_name", "Verif.C17_local", "Verif.C17_tables", "Verif.C17_exact", "Verif.C17_to_code_exact"], "note": ""},
{"property": "C18", "status": "proved", "theorems": ["Verif.C18_cell_free_slot", "Verif.C18_exact", "Verif.C18_roundtrip_partial", "Verif.C22_statement_false"], "note": "C18_cell_free_slot: to_concrete, every case; C18_exact: and back, every case with the exception; C22_statement_false shows the defect"},
{"property": "C19", "status": "proved", "theorems": ["Verif.C19_exact", "Verif.C19_right_iff", "Verif.C19_misplaced", "Verif.C19_caches_emitted_partial", "Verif.C19_manual_cache_follows_owner", "Verif.C19_pruned", "Verif.C19_statement_false"], "note": "C19_exact gives the layout for any placement of manual CACHEs, C19_right_iff when it is what CPython requires, C19_misplaced the refusals; C19_statement_false is the defect on an example"},
{"property": "C20", "status": "proved", "theorems": ["Verif.C20_which", "Verif.C20_compare", "Verif.C20_compare_encodes", "Verif.C20_flags_intrinsics", "Verif.C20_roundtrip"], "note": ""},
{"property": "C21", "status": "proved", "theorems": ["Verif.C21_which", "Verif.C21_exact", "Verif.C21_two_variables_partial", "Verif.C21_statement_false"], "note": "C21_exact says exactly when both variables are addressed and what is addressed otherwise; C21_two_variables_partial is its main direction, C21_statement_false the defect on an example"},
{"property": "C45", "status": "proved", "theorems": ["Verif.C45_program_preserved", "Verif.C45_locations"], "note": ""},
{"property": "C22", "status": "proved", "theorems": ["Verif.C22_read", "Verif.C22_exact", "Verif.C22_handlers_exact", "Verif.C22_operations_partial", "Verif.C22_program_partial", "Verif.C22_attributes", "Verif.C19_pruned", "Verif.C22_statement_false"], "note": "C22_read says what is read for each operation, C22_exact when all are kept; C22_program_partial adds the handlers for tables as CPython writes them; C22_statement_false shows the defect"},
{"property": "C23", "status": "proved", "theorems": ["Verif.C23_read", "Verif.C23_handlers", "Verif.C23_handlers_iff", "Verif.C23_operations_partial", "Verif.C23_roundtrip_partial", "Verif.C23_statement_false", "Verif.C23_nested_try_false", "Verif.C23_label_at_end_false", "Verif.C23_same_start_false"], "note": "C23_read: instructions, operands, targets, locations; C23_handlers, C23_handlers_iff: which handlers are kept; the last four: the defect, and cases where the conversion back raises"},
{"property": "C13", "status": "proved", "theorems": ["Verif.C13_bytecode", "Verif.C13_concrete", "Verif.C13_cfg", "Verif.C13_all_set", "Verif.C13_idempotent", "Verif.C13_concrete_idempotent", "Verif.C13_cfg_idempotent", "Verif.C13_succeeds_iff"], "note": "each occurrence of an instruction is taken to be a distinct object"},
{"property": "C34", "status": "proved", "theorems": ["Verif.C34_one_kind", "Verif.C34_kept", "Verif.C34_idempotent", "Verif.C34_concrete_idempotent"], "note": ""},
{"property": "C35", "status": "proved", "theorems": ["Verif.C35_bytecode", "Verif.C35_concrete", "Verif.C35_raises_iff"], "note": ""},
{"property": "C36", "status": "proved", "theorems": ["Verif.C35_bytecode", "Verif.C35_concrete", "Verif.C36_nofree_bytecode", "Verif.C36_nofree_concrete", "Verif.C36_statement_false"], "note": "NOFREE is exact as implemented (C36_nofree_concrete); C36_statement_false: cell variables only"},
{"property": "C24", "status": "proved", "theorems": ["Verif.C24_indexes", "Verif.C24_delete", "Verif.C24_statement_false"], "note": "C24_statement_false: del cfg[-1] breaks the indexes"},
{"property": "C25", "status": "proved", "theorems": ["Verif.C25_exact", "Verif.C25_cases", "Verif.C25_partial", "Verif.C25_statement_false", "Verif.C25_error_loses_code"], "note": "C25_exact and C25_cases cover every block and index; keeping the fall-through successor is false (C25_statement_false)"},
{"property": "C28", "status": "proved", "theorems": ["Verif.C28_dead_blocks", "Verif.C28_complete", "Verif.C28_exact_partial", "Verif.C28_statement_false"], "note": "exact; C28_statement_false: fall-through is not followed"},
{"property": "C29", "status": "partial", "theorems": ["Verif.C29_partial", "Verif.C29_no_generator_partial", "Verif.C29_statement_false", "Verif.C29_generator_false", "Verif.C29_handlers_false", "Verif.C29_handlers_partial"], "note": "false for a fall-through into an empty block, for generators and for shared handlers; proved without handlers otherwise, and with handlers on 3.11+ for graphs with a stack map (Spec/StackMap)"},
{"property": "C30", "status": "proved", "theorems": ["Verif.C30_attained"], "note": ""},
{"property": "C31", "status": "partial", "theorems": ["Verif.C31_raises", "Verif.C31_partial", "Verif.C31_consistent_partial", "Verif.C31_statement_false", "Verif.C31_statement_false_310", "Verif.C31_hidden_underflow", "Verif.C31_handlers_partial"], "note": "false for loops that shrink the stack; proved without handlers when the depths at a block are consistent, and with handlers on 3.11+ for graphs with a stack map"},
{"property": "C33", "status": "partial", "theorems": ["Verif.C33_partial", "Verif.C33_all_partial", "Verif.C33_statement_false", "Verif.C33_unreached_end_false"], "note": "false for shared handlers and for regions whose end is not reached; proved on 3.11+ for graphs with a stack map (Spec/StackMap)"},
{"property": "C32", "status": "proved", "theorems": ["Verif.C32_terminates", "Verif.effOf_ne"], "note": ""},
{"property": "C26", "status": "proved", "theorems": ["Verif.C26", "Verif.C26_from", "Verif.C26_to", "Verif.C26_no_dangling"], "note": ""},
{"property": "C27", "status": "proved", "theorems": ["Verif.C27", "Verif.C27_iterable"], "note": ""},
{"property": "C46", "status": "proved", "theorems": ["Verif.C46", "Verif.C46_from", "Verif.C46_to", "Verif.C46_depth_lost"], "note": "stack depths of handlers are not kept (C46_depth_lost)"},
{"property": "C43", "status": "proved", "theorems": ["Verif.C43_sum_311", "Verif.C43_sum_312", "Verif.C43_signs_exact", "Verif.C43_signs_partial", "Verif.C43_signs_false"], "note": "pre <= 0 <= post does not hold in general (C43_signs_false); C43_signs_exact says when"},
{"property": "C47", "status": "proved", "theorems": ["Verif.C47_no_false_underflow", "Verif.C47_exact", "Verif.C47_exact_partial", "Verif.C47_exact_false"], "note": "what an opcode uses is Spec table uses311, after the documentation and ceval of 3.11"},
{"property": "C40", "status": "proved", "theorems": ["Verif.C40_bytecode_ok", "Verif.C40_bytecode_error", "Verif.C40_bytecode_first", "Verif.C40_bytecode_iff", "Verif.C40_constructor", "Verif.C40_concrete", "Verif.C40_block_ok", "Verif.C40_block_error", "Verif.C40_block_iff"], "note": ""},
{"property": "C38", "status": "proved", "theorems": ["Verif.C38_bytecode", "Verif.C38_instr_copy", "Verif.C38_concrete", "Verif.C38_slice", "Verif.C38_concrete_false", "Verif.C38_independent", "Verif.C38_independent_false", "Verif.C38_concrete_instr_copy", "Verif.C38_concrete_instr_size", "Verif.C38_concrete_instr_false"], "note": "C38_concrete_false, C38_independent_false, C38_concrete_instr_false: what is lost or shared"},
{"property": "C37", "status": "proved", "theorems": ["Verif.C37_equal", "Verif.C37_raises", "Verif.C37_errors", "Verif.C37_refl", "Verif.C37_symm", "Verif.C37_trans", "Verif.C37_rename", "Verif.C37_depth_false", "Verif.C37_attributes_ignored"], "note": "C37_depth_false and C37_attributes_ignored: what == does not compare"},
{"property": "C39", "status": "proved", "theorems": ["Verif.C39_equal", "Verif.C39_statement_false"], "note": "exact; C39_statement_false: different instructions compare equal"},
{"property": "C41", "status": "proved", "theorems": ["Verif.C41_exact", "Verif.C41_written_iff", "Verif.C41_roundtrip_partial", "Verif.C41_statement_false"], "note": "C41_written_iff: when writing succeeds; C41_exact: what is read back (for CACHE on 3.13 the location is left open); C41_roundtrip_partial: the case where nothing moves; C41_statement_false: each excluded case fails"},
{"property": "C48", "status": "proved", "theorems": ["Verif.C48_to_code_program", "Verif.C48_default", "Verif.C48_explicit"], "note": "the code object is read by Spec/CodeProgram, an independent reader of the formats of 3.11+"},
{"property": "C49", "status": "proved", "theorems": ["Verif.C49_argnames_exact", "Verif.C49_argnames_partial", "Verif.C49_argnames_false"], "note": "C49_argnames_exact gives the value and when it is the parameters; positional-only parameters are counted twice (C49_argnames_false)"},
{"property": "C50", "status": "proved", "theorems": ["Verif.C50_concrete_from_code"], "note": "the code object is read by Spec/CodeProgram; WellCoded is the shape of co_code"},
{"property": "C51", "status": "proved", "theorems": ["Verif.C51_from_code", "Verif.C51_conserve", "Verif.C51_usable", "Verif.C51_depths_forgotten"], "note": "for code objects as the compiler writes them (Spec/CodeOK), prune_caches=True; see finding 11 for prune_caches=False"},
{"property": "C52", "status": "proved", "theorems": ["Verif.C52_round_trip", "Verif.C52_locations", "Verif.C52_exact"], "note": "locations exactly kept when positions without columns are on one line"},
{"property": "C53", "status": "proved", "theorems": ["Verif.C53_compared", "Verif.C53_same_code_partial", "Verif.C53_symm", "Verif.C53_keeps", "Verif.C53_statement_false", "Verif.C53_hidden_code", "Verif.C53_fallthrough_ignored", "Verif.C53_depths_written"], "note": "C53_compared is exact; the C53_*_false/hidden/ignored theorems show what is not compared; C53_same_code_partial: equal graphs with the same block sizes and nothing hidden are the same program"},
{"property": "C54", "status": "proved", "theorems": ["Verif.C54_to_code"], "note": "the graph is read by Spec/GraphProgram, the code object by Spec/CodeProgram; depths of handlers apart"},
{"property": "C55", "status": "partial", "theorems": ["Verif.C55_to_code_partial", "Verif.C55_compute_partial", "Verif.C55_raises", "Verif.C55_handlers_partial"], "note": "executions of the instruction list (Spec/Linear), no graph in the statement; without exception handlers, and, in C55_handlers_partial, with exceptions dispatched by the exception table of the code object (Spec/LinearTry), for Bytecode whose graph has a stack map"},
{"property": "C56", "status": "proved", "theorems": ["Verif.C56_to_bytecode_partial", "Verif.C56_graph_code_partial", "Verif.C56_to_code_partial", "Verif.C56_joined", "Verif.C56_to_code_joined", "Verif.C56_statement_false"], "note": "C56_joined and C56_to_code_joined: exactly which depth each handler gets, for every graph; the _partial theorems: it is the recorded one when regions with the same handler record the same depth; C56_statement_false: finding 27"},
{"property": "C57", "status": "proved", "theorems": ["Verif.C57_bytecode", "Verif.C57_concrete", "Verif.C57_graph", "Verif.C57_text", "Verif.C57_text_concrete", "Verif.C57_text_graph", "Verif.C57_statement_false", "Verif.C57_depth_hidden"], "note": "injectivity for the three classes (repr a parameter, without newline and not of the form of a label); C57_text*: exactly when there is a text; C57_statement_false, C57_depth_hidden: finding 28"},
{"property": "C58", "status": "proved", "theorems": ["Verif.C58_assembled_iff_rules", "Verif.C58_only_passes_fail", "Verif.C58_default_passes_statement_false"], "note": "the equivalence is proved for more than 3 times as many passes as jumps; with the default of 10 passes it is false (ten jumps that grow one after the other), and RuntimeError is then the only failure"},
{"property": "C59", "status": "proved", "theorems": ["Verif.C59_written_iff_rules", "Verif.C59_default_iff_rules", "Verif.C59_default_before_311", "Verif.exTwoLines_refused"], "note": "the first theorem: depths not computed (or before 3.11) and a stack size given; the second: 3.11+, depths computed; the third: before 3.11, default options. With fewer passes C58 applies: RuntimeError is possible"},
{"property": "C60", "status": "proved", "theorems": ["Verif.C60_from_iff_labels", "Verif.C60_to_iff_rules", "Verif.C60_round_trip", "Verif.C60_sized_iff", "Verif.C60_default_iff_analysis", "Verif.C60_default_before_311", "Verif.C60_depths_refused"], "note": "the two equivalences are proved; the round trip without analysis is proved for Bytecode whose TryBegin have no depth, and false otherwise (C60_depths_refused: AssertionError, finding 29)"},
{"property": "C61", "status": "proved", "theorems": ["Verif.C61_reasons", "Verif.C61_no_handlers", "Verif.C61_to_code_reasons", "Verif.C61_to_code_total", "Verif.C61_handlers", "Verif.C61_to_code_handlers", "Verif.C61_jump_back_refused"], "note": "With handlers the condition is the stack map of Spec/StackMap and Spec/RegionFlow; C61_jump_back_refused (finding 30) is the program refused although it follows all the rules and has one stack height per instruction."},
{"property": "C62", "status": "proved", "theorems": ["Verif.C62_rules", "Verif.C62_round_trip_total", "Verif.C62_round_trip_identity", "Verif.C62_default_iff_analysis", "Verif.C62_passes_identity", "Verif.C62_passes_default"], "note": "Spec/Rewritable states the extra conditions on the code object; identity for code without two-variable opcodes (3.13, finding 6)"},
{"property": "C63", "status": "proved", "theorems": ["Verif.C63_to_code_operations", "Verif.C63_to_code_lines", "Verif.C63_to_code_all_lines", "Verif.C63_stacksize"], "note": "operations, operands and targets proved for every Bytecode; lines proved when they are writable (LinesWritable, Spec/LineTables), in particular when every location has a line; otherwise false: C05/C06 findings, C65_line_lost"},
{"property": "C64", "status": "proved", "theorems": ["Verif.C64_concrete", "Verif.C64_from_code", "Verif.C64_usable"], "note": "the qualified name is left at its default (these versions have none)"},
{"property": "C65", "status": "proved", "theorems": ["Verif.C65_operations", "Verif.C65_round_trip", "Verif.C65_lines_before_310", "Verif.C65_rules", "Verif.C65_round_trip_identity", "Verif.C65_default_iff_analysis", "Verif.C65_line_lost"], "note": "identity proved for code objects with writable lines (LinesWritable: always so before 3.10); on 3.10 otherwise, operations are kept but lines can be lost: C65_line_lost"},
{"property": "C66", "status": "proved", "theorems": ["Verif.C66_well_formed", "Verif.C66_rewritable", "Verif.C66_read_back", "Verif.C66_read_back_exact", "Verif.C66_stable", "Verif.C66_region_lost"], "note": "proved except for try regions whose first instruction needs an EXTENDED_ARG, for which the claim is false: from_code loses the region to_code wrote (C66_region_lost)"},
{"property": "C67", "status": "proved", "theorems": ["Verif.C67_uncond", "Verif.C67_final", "Verif.C67_has_jump", "Verif.C67_cond_exact", "Verif.C67_cond_partial", "Verif.C67_cond_false", "Verif.C67_direction"], "note": "FOR_ITER and SEND either jump or go on and is_cond_jump() is False for them (C67_cond_false)"},
{"property": "C68", "status": "proved", "theorems": ["Verif.C68_edit_program", "Verif.C68_patch", "Verif.C68_edit_rules", "Verif.C68_written", "Verif.C68_default_iff_analysis", "Verif.C68_patch_before_311", "Verif.C68_written_before_311", "Verif.C68_default_before_311"], "note": "depths apart in C68_patch (they are recomputed by default)"},
{"property": "C69", "status": "proved", "theorems": ["Verif.C69_default_identity", "Verif.C69_passes", "Verif.C69_checked", "Verif.real_round_trip", "Verif.real_codes_round_trip", "Verif.C69_any_code_statement_false"], "note": "needs a stack map (C33 is false without one); real_round_trip and real_codes_round_trip are instances for code objects compiled by CPython 3.11; C69_checked: a computable test that implies all hypotheses; C69_any_code_statement_false: a code object of CPython 3.11 without a stack map, whose handler depths change"},
{"property": "C70", "status": "proved", "theorems": ["Verif.C70_concrete", "Verif.C70_passes", "Verif.C70_exact", "Verif.C70_tight", "Verif.C70_unbounded"], "note": "C70_tight, C70_unbounded: for every number of passes there is a program that needs one more (3.11); C70_exact: an example"},
{"property": "C71", "status": "proved", "theorems": ["Verif.C71_not_longer", "Verif.C71_tables", "Verif.C71_small", "Verif.C71_passes", "Verif.C71_no_condition_statement_false"], "note": "C71_no_condition_statement_false: the condition on the size of the tables is needed"},
{"property": "C73", "status": "proved", "theorems": ["Verif.C73_written", "Verif.C73_read", "Verif.C73_back"], "note": "3.11 and later; depths given (with depths computed the depth is C69's); C07 and C26 are the per-operation and per-entry statements"},
{"property": "C72", "status": "proved", "theorems": ["Verif.C72_conversion", "Verif.C72_to_code", "Verif.C72_total"], "note": "C72_conversion is about to_concrete_bytecode, C72_to_code and C72_total about to_code with a given stack size and depths"},
{"property": "C74", "status": "proved", "theorems": ["Verif.C74_fixed_point", "Verif.C74_second", "Verif.C74_any_locations_statement_false"], "note": "C74_second is the statement for code objects of the compiler; C74_any_locations_statement_false: the condition on locations is needed"},
{"property": "C75", "status": "proved", "theorems": ["Verif.C75_says", "Verif.C75_classes", "Verif.C75_noticed", "Verif.C75_passes", "Verif.C75_key"], "note": "each exception class has a witness beside the theorems; compute_exception_stack_depths=False (the analysis that computes depths is C60 and C61)"},
{"property": "C76", "status": "proved", "theorems": ["Verif.C76_direct", "Verif.C76_through_bytecode", "Verif.C76_defaults", "Verif.C76_identity", "Verif.C76_identity_old", "Verif.C76_program", "Verif.C76_from_code_to_code", "Verif.C76_default_round_trip"], "note": "C76_identity: on 3.11+, positions with a line but no column must not span lines (3.11 tables cannot hold such a span); C76_identity_old: 3.8 to 3.10"},
{"property": "C77", "status": "proved", "theorems": ["Verif.C77_two_steps", "Verif.C77_two_steps_given", "Verif.C77_old_option", "Verif.C77_graph", "Verif.C77_graph_given", "Verif.C77_stacksize", "Verif.C77_stacksize_concrete", "Verif.C77_stacksize_graph"], "note": ""},
{"property": "C78", "status": "proved", "theorems": ["Verif.C78_from_says", "Verif.C78_from_classes", "Verif.C78_from_succeeds", "Verif.C78_from_noticed", "Verif.C78_to_says", "Verif.C78_to_classes", "Verif.C78_to_succeeds"], "note": ""},
{"property": "C79", "status": "proved", "theorems": ["Verif.C79_says", "Verif.C79_iff", "Verif.C79_prefixes", "Verif.C79_plain"], "note": ""},
{"property": "C80", "status": "proved", "theorems": ["Verif.C80_back", "Verif.C80_default"], "note": ""},
{"property": "C81", "status": "proved", "theorems": ["Verif.C81_says", "Verif.C81_iff", "Verif.C81_extended_arg", "Verif.C81_bytecode", "Verif.C81_old", "Verif.C81_old_bytecode", "Verif.C81_old_extended_arg"], "note": "co_positions() is CPython's reader of the table (Spec/LocFormat); a malformed table is read as empty."},
{"property": "C82", "status": "proved", "theorems": ["Verif.C82_concrete", "Verif.C82_given", "Verif.C82_default", "Verif.C82_default_classes"], "note": "Regions must hold an instruction: an empty one makes to_code fail with AssertionError (see the findings)."},
{"property": "C83", "status": "proved", "theorems": ["Verif.C83_given", "Verif.C83_computed", "Verif.C83_default", "Verif.C83_succeeds", "Verif.C83_classes"], "note": "Regions must hold an instruction, as for C82."},
{"property": "C84", "status": "proved", "theorems": ["Verif.C84_refused", "Verif.C84_shown", "Verif.C84_right", "Verif.C84_to_bytecode", "Verif.C84_from_bytecode", "Verif.C84_update"], "note": ""},
{"property": "C85", "status": "proved", "theorems": ["Verif.C85_deletes", "Verif.C85_size", "Verif.C85_before", "Verif.C85_code", "Verif.C85_to_code", "Verif.C85_dead_blocks_partial", "Verif.C85_dead_blocks_false"], "note": "C85_dead_blocks_partial is the case of get_dead_blocks under the stated condition; C85_dead_blocks_false: without it, on an example"},
{"property": "C86", "status": "proved", "theorems": ["Verif.C86_same", "Verif.C86_failures", "Verif.C86_stricter", "Verif.C86_bytecode", "Verif.C86_bytecode_stricter", "Verif.C86_to_code", "Verif.C86_to_code_stricter", "Verif.C86_check_needed", "Verif.C86_stricter_false"], "note": ""}
]}
