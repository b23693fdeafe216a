#!/usr/bin/env python3
"""Writes MANIFEST.json and lean/Verif/Audit.lean from the table below.

python3 tools/manifest.py
"""
import json, os
ROOT = os.path.dirname(os.path.dirname(os.path.abspath(__file__)))
C = []
def c(p, status, theorems, note, ns=""):
    C.append({"property": p, "status": status,
              "theorems": [("Kratos." + ns + "." if ns else "Kratos.") + t for t in theorems.split()],
              "note": note})

c("C01", "proved", "fold_arith fold_bitwise fold_eq fold_in_range fold_signed_64_ub",
  "widths 1..64 unsigned, 1..63 signed; at 64 signed the code shifts by 64 (UB), proved separately", "Eval")
c("C02", "partial", "fold_order_partial fold_order_counterexample fold_order_equal_negatives",
  "false of the code for <=/>= on two equal negatives; the partial theorem excludes exactly that case", "Eval")
c("C03", "partial", "fold_divide fold_divide_zero_ub fold_lshr fold_sshr_partial fold_sshr_counterexample",
  ">>> of a negative operand is wrong in the code", "Eval")
c("C04", "partial", "fold_invert fold_negate fold_plus_not_or fold_reduce_partial fold_reduce_counterexample fold_reduce_and_wide fold_ternary fold_invert_64_ub",
  "reductions & and ^ use a 32-bit popcount and are wrong above 32 bits", "Eval")
c("C05", "partial", "const_create_exact const_wide_ub const_history_partial const_history_defined const_history_counterexample_width const_history_counterexample_signed const_string_counterexample",
  "widths up to 64 (wider ones shift out of range); the unchecked width/signed setters and the string setter break the invariant", "Const")
c("C06", "partial", "const_text_partial const_text_counterexample_unsigned const_text_counterexample_min const_text_unsigned_literal big_text",
  "false of the code for unsigned constants with the top bit of 64 set and for the minimum 64-bit value", "Const")
c("C13", "partial", "if_to_case_counterexample if_to_case_partial case_order_irrelevant if_to_case_wide_ub",
  "false of the code when a label repeats in the chain; proved for chains without repeated labels", "Opt")
c("C14", "partial", "merge_if_counterexample_else merge_if_counterexample_between merge_if_partial",
  "false of the code when an if has an else or statements in between write the predicate; proved otherwise", "Opt")
c("C15", "partial", "remove_empty_partial remove_empty_both_ub remove_empty_counterexample_ub remove_empty_counterexample_wide remove_empty_counterexample_nested remove_empty_counterexample_default",
  "false of the code for the four families shown; proved for all other trees", "Opt")
c("C26", "partial", "function_return_partial function_return_accept_paths function_return_reject_paths function_return_counterexample_loop function_return_counterexample_break check_wide_ub",
  "loops that run zero times and break make the claim false of the code; proved for the rest, and exact on control paths", "Check")
c("C27", "partial", "latch_partial latch_paths_exact latch_counterexample_loop latch_slice_counterexample check_wide_ub",
  "combinational blocks; zero-trip loops and slice assignments make the claim false of the code", "Check")
c("C07", "partial", "expr_text_partial reads_unique constText_eq expr_text_counterexample_right expr_text_counterexample_neg expr_text_counterexample_fuse expr_text_counterexample_select expr_text_counterexample_chain not_ExprTextCorrect",
  "false of the code for the five families shown; proved, from characters to value, for every other expression", "Print")
c("C08", "partial", "slice_select_partial slice_reject_partial slice_counterexample_range slice_counterexample_unit not_SliceCorrect slice_compose slice_cache slice_cache_counterexample sim_position_partial sim_position_counterexample",
  "false of the code for range selects of multi-dimensional arrays, trailing dimensions of size 1 and the struct slice cache; proved otherwise", "Slice")
c("C09", "proved", "array_tiles flatten_row_major rowMajor_mem rowMajor_nodup", "", "Slice")
c("C10", "partial", "member_range struct_tiles struct_typedef_counterexample struct_typedef_mirrored struct_typedef_partial members_nested",
  "member ranges tile the struct; the emitted typedef lists the fields in the mirrored order, shown exactly", "Slice")
c("C11", "partial", "width_partial operands_equal width_counterexample_shared not_WidthCorrect width_counterexample_logical width_counterexample_cached sign_bin sign_un sign_concat extend_exact never_rejected no_loss_partial no_loss_counterexample_expr no_loss_counterexample_const not_NoSilentLoss",
  "false of the code for shared constants, logical operators, the cached width and silently truncated operands; proved otherwise, scalars without loop variables", "Width")
c("C12", "partial", "params_partial set_value_reaches_partial nonpositive_rejected nonpositive_rejected_tied params_counterexample_expr not_ParamsCorrect params_counterexample_untie params_counterexample_retie params_counterexample_reparent params_counterexample_atomic",
  "false of the code for width expressions, untying, re-tying, re-parenting and rejected values deeper in the chain; proved for all other histories", "Param")
c("C34", "partial", "moore_trace_partial moore_counterexample_hold reset_counterexample comb_step hw_reset",
  "whole-history theorem for the register and the outputs; false of the code for states that hold their outputs, for active-low non-port resets and for colliding enum names, each shown by a counterexample", "Fsm")
c("C35", "partial", "mealy_outputs_partial mealy_counterexample_single mealy_counterexample_last mealy_counterexample_default",
  "false of the code around unconditional transitions; proved for guarded ones", "Fsm")
c("C36", "partial", "states_exact search_terminates encodings_partial encodings_flat encodings_counterexample",
  "full for machines without child FSMs; nested machines can have colliding names", "Fsm")
c("C37", "partial", "construct_partial next_ok_iff outputs_complete missing_output_rejected construct_counterexample",
  "a second unconditional transition is accepted (and leads to undefined behaviour)", "Fsm")
c("C61", "proved", "clog2_least clog2_zero_ub is_2_power_iff", "all non-zero 32-bit arguments; clog2(0) is undefined behaviour", "Util")
c("C38", "proved", "unique_name_is_fresh unique_name_terminates unique_name_shape", "the generated name is free; the loop ends while fewer than 2^32 names are taken", "Gen")
c("C39", "partial", "table_partial names_partial reindex_repairs var_new var_again rename_moves ports_out_of_step port_over_variable rename_drops_variable failed_removal_loses_port two_variables_one_name same_array_twice_rejected not_TableClaim", "the full claim (TableClaim) is false of the code: five histories break it; proved for every history of calls avoiding those", "Gen")
c("C41", "partial", "index_partial index_once empty_name_breaks_index not_IndexClaim", "false for generators renamed from the empty name; proved for every other history", "Gen")
c("C42", "partial", "siblings_partial listing_never_throws add_duplicate_refused rename_duplicate_refused failed_add_clashes added_twice_clashes removes_wrong_child not_SiblingsClaim", "false after a refused add, adding a child to two parents, or removing a foreign child; proved for all other histories", "Gen")
c("C43", "partial", "uniquify_names_partial uniquify_terminates reorder_perm reorder_tracked_first clone_left_behind", "proved for registered, named generators; clones keep the old name (counterexample)", "Gen")
c("C66", "partial", "transfer_partial transfer_keeps transfer_free transfer_loses_variable not_TransferClaim", "false when the prefixed name is taken in the parent; proved otherwise", "Gen")
c("C45", "proved", "sorted_bottom_up parallel_bottom_up levels_are_depths tree_accepted shared_rejected graph_nodes graph_edges", "both bottom-up orders, for every container order; every finite tree is accepted, anything else raises", "Graph")
c("C46", "proved", "struct_order emitted_in_order collect_spec", "for every set of definitions whose type names do not need themselves and every container order", "Graph")
c("C47", "partial", "visits_once_partial parents_first_in_trees not_VisitorClaim root_visited_twice visit_s_repeats visit_s_same_on_trees removal_safe removing_siblings_skips", "exactly once and after a parent; with sharing a node is visited before its second parent (counterexample)", "Graph")
c("C67", "partial", "one_meaning_partial conflict_rejected conflicting_structs_accepted not_OneMeaningClaim same_layout same_flat", "false for nested structs: field and type names are not compared; proved for flat structs, layout agreement in general", "Graph")
c("C40", "partial", "wire_sound_partial wire_order_partial wire_rejects not_WireClaim not_WireClaim_order foreign_instance_wired foreign_variables_wired interface_second_drives_input inout_order_matters", "false for interface ports given second, foreign variables, foreign instances with a shared name and (order) inout; proved for everything else", "Port")
c("C57", "partial", "flip_partial duplicate_refused bundle_assign not_FlipClaim refused_inout_kept flip_forgets_name bundle_assign_not_atomic", "members proved for in/out histories; the flipped bundle loses its name and a refused inout member stays behind", "Port")
c("C65", "partial", "typing_partial not_TypingClaim data_port_drives_clock slice_skips_typing", "false for port sources (any port type is accepted) and slices of the port; proved otherwise", "Port")
c("C68", "partial", "lvalue_partial lvalue_accepted constants_refused operators_refused not_LvalueClaim parameter_assignable constant_slice_assignable sum_slice_assignable constant_in_concat_assignable", "all lvalues are accepted; refusal fails for parameters, parts of constants and expressions, and constants inside concatenations", "Port")
c("C53", "partial", "seq_partial seq_exact seq_not_triggered triggered_iff not_SeqClaim first_assignment_wins two_blocks_race", "false: the first assignment of a block wins, and blocks on one clock see each other's updates; proved for one block that updates no variable twice (exact result otherwise)", "Sim")
c("C54", "partial", "settle_partial settle_solves settle_order_independent solution_unique demo_clean demo_quiet demo_acyclic demo_covers demo_known not_SettleClaim ternary_condition_ignored constant_expression_ignored oversized_value_not_told", "false: ternary conditions are not dependencies, constant expressions are never evaluated, oversized values are not propagated; proved for designs without these, after every history, in every iteration order", "Sim")
c("C55", "partial", "static_partial static_needs_values static_depends_on_variable not_StaticClaim static_constant_slice_diverges static_negative_constant bit_select_wrong range_select_fails bit_write_clobbers", "value correct for closed slice-free expressions; negation and slice defects shown", "Sim")
c("C52", "partial", "accepted_iff refused_iff accepted_partial declared_names_ok not_NameClaim empty_name_accepted rename_unchecked", "The check refuses exactly the 248 reserved words of IEEE 1800-2017; it does not look at characters, and renaming a variable is not checked at all.", "Names")
c("C58", "proved", "tokens_spec tokens_of_pieces tokens_join", "", "Text")
c("C59", "partial", "wrap_words wrap_reads_back wrap_width_partial wrap_width wrap_greedy wrap_after_long not_WrapClaim", "Words are always preserved; the width limit holds for texts without over-long words. An over-long word makes the remaining-space counter wrap below zero and nothing after it is broken.", "Text")
c("C60", "partial", "fault_partial fault_coverage fault_again fresh_new fresh_addRun switch_not_reported late_state_ignored not_FaultClaim", "Exact for designs without switch statements while computed coverage is current; blocks inside switch statements are never reported, and data added to a run after the first analysis is ignored.", "Fault")
c("C62", "proved", "streaming streaming_from is_xxh64 add_empty add_nonempty buffer_bound", "", "XXHash")
c("C63", "proved", "run_spec register_refused_iff add_refused_iff run_twice added_twice_runs_twice", "A pass added twice runs twice: duplicate names are rejected on registration, not on addition.", "Pass")
c("C64", "partial", "no_twice one_body added rejected removed tree_partial tree_no_loops shared_statement loop_parent self_inside setChild_duplicates setConst_same_case generator_twice not_TreeClaim", "No duplicates and one body per case value hold for every history (set_child, constant changes excepted); single holder, right parents and acyclicity for every history that adds only detached statements. Five ways the full claim fails are proved.", "Heap")
c("C17", "partial", "pipeline_partial pipeline_every_step_partial counter_slows_down not_PipelineClaim", "Every module without output reads: any number of stages, any inputs and edges. False when the module reads its own output (a counter): the feedback is delayed too.", "Pipe")
c("C18", "partial", "enabled_same clock_enable_partial second_statement_not_gated reset_gated call_refused not_EnableClaim", "Enabled: unconditional. Disabled/reset: blocks whose reset is the only statement and that are not hand-gated; counterexamples for both exceptions.", "Gate")
c("C19", "partial", "sync_off_same sync_reset_partial no_sync_reset not_SyncClaim", "Deasserted: unconditional. Asserted: single reset-if blocks; blocks with a statement after the reset get no synchronous reset.", "Gate")
c("C69", "partial", "clone_eq", "Behaviour copied exactly; delays (dropped by the code, src/stmt.cc:217) are not in the model.", "Gate")
c("C20", "proved", "sorted sort_accepts initial_sorted StablySorted.unique", "sort_stmts and sort_initial_stmts produce the unique stable sort; refusals characterised.", "Sort")
c("C24", "partial", "fixed kinds_partial rejected_only latch_not_checked not_KindClaim", "Exact effect on every design; kinds fixed by the user in latches, initial/final blocks or unchecked blocks are not checked.", "Kinds")
c("C29", "partial", "single_driver_partial comb_accepted concat_two_drivers for_two_drivers dyn_two_drivers", "Plain targets outside for loops, any visiting order; counterexamples for concatenations, for loops and variable slices.", "Drv")
c("C30", "partial", "one_kind_partial mixed_rejects concat_not_checked", "All targets but concatenations and parts of casts; counterexample for concatenations.", "Drv")
c("C31", "partial", "no_loop_partial loop_rejected_rightly two_step_loop slice_loop condition_loop", "Exactly the direct loops are found; counterexamples for longer loops, slices and ternary conditions.", "Drv")
c("C33", "proved", "Verify.assignments_good Verify.good_accepted Verify.const_accepted Drv.wire_xor_block", "Every assignment of every accepted design; a variable is driven by wires only or inside blocks only.", "")
c("C32", "partial", "enable_exact_partial no_condition_iff enable_total default_value not_EnableClaim blocking_not_seen wide_predicate_refused lone_default_ub", "exact for non-blocking code, loops that run and do not feed the conditions, and default cases with one other case; default cases of larger switches are compared with 1 (default_value, not_EnableClaim)", "Enable")
c("C28", "partial", "connectivity_partial connected_accepted not_ConnectivityClaim cast_part_refused external_top", "exact for variables, constant slices and slices of whole variables by a variable; concatenations and casts on the left count as driving everything, parts of casts are refused", "Conn")
c("C21", "partial", "zero_exact_partial zero_generator_partial outputs_untouched zero_total stub_zeroed_partial not_ZeroClaim signed_stub_refused enum_stub_refused not_StubClaim enum_refused driven_by_parts_ub irregular_refused nested_array_wrong", "exact for ports without dimensions or with one; a fully driven port that is driven in parts is undefined behaviour, nested arrays are zeroed wrongly", "Zero")
c("C16", "partial", "merge_drivers_partial merge_clocked_partial others_kept new_assignments_legal not_MergeClaim swap_lost blocking_reordered only_counted", "When every merged statement connects equal bit positions, each bit keeps exactly its drivers, and a clocked (non-blocking) block commits the same registers. The full claim is false: slice indices are never compared (a bit swap becomes a copy), only the number of statements is, and in a block of blocking assignments the merged statement moves behind its readers.", "MergeW")
c("C23", "partial", "Fanout.fanout_partial Fanout.fanout_wires_partial Fanout.input_lost Fanout.output_lost Fanout.output_twice Fanout.loop_diverges Fanout.not_FanoutClaim PassT.pass_through_partial PassT.not_PassClaim PassT.latch_removed PassT.slice_lost PassT.clone_refused", "Wires: proved for chains without ports in the middle. Pass-through modules: proved for modules whose statements are top-level assignments of whole ports. The full claim is false: an input or output port in a wire chain loses its connection, a cycle of wires never ends, a module with a latch or with a sliced output is taken for a pass-through and its readers are deleted, and clones of a removed module are refused.", "")
c("C22", "partial", "outputs_unchanged_partial dead_code_partial dead_vars_partial gone_candidate varLoop_complete unused_vars_unmentioned unused_vars_complete unused_stmts_tick not_DeadClaim clock_unwired concat_target_lost undriven_output_takes_reader call_argument_lost silent_instance_lost unused_clock_removed stale_slice_kept black_box_removed external_lost", "Dead-code elimination over the flattened design: for every schedule of assignments, clock ticks and input changes every variable that is left keeps its value, for designs with one target per assignment where no removable variable is an event control or a call argument and no assignment reads an undriven instance output. False in general: the clock port of an instance is not a registered reader and is unwired (not_DeadClaim), every external module loses all its ports (black_box_removed, external_lost), and four further witnesses.", "Dead")
c("C48", "partial", "printed_iff text_reads reads_unique stmt_text_partial block_text_partial not_TextClaim sample_ok", "Reading back is proved for every printable statement (no hypothesis), as a recursive-descent reader of the standard's grammar; behaviour is proved for every statement whose loops are good in the sense of C49 and whose case labels differ. The full claim is false: not_TextClaim. Expressions are single tokens (their text is C06/C07).", "StmtText")
c("C49", "partial", "for_text_iff for_up_partial for_down_partial for_up_int_partial for_down_int_partial runs_unique wrong_direction down_by_two_forever not_ForClaim", "for_text_iff is an exact characterisation for bounds that fit the declared type; the full claim is false: `for (int unsigned i = 5; i > 0; i -= 2)` does not end, and a loop with a step in the wrong direction runs.", "ForText")
c("C70", "partial", "assert_value assert_property_swapped not_assert_property", "Holds for immediate assertions; for properties the keyword else is missing, so the action is read as the one to run on success.", "StmtText")
c("C50", "partial", "instance_partial shared_partial path_partial negative_wraps tied_then_set enum_value raw_default not_InstClaim", "Proved for every tame history and every depth of instances, also when the module is printed from another generator with the same declarations. False in general: a parameter set from its parent's and then to a number, parameters of enumeration type, raw types with a default, negative values.", "Inst")
c("C51", "partial", "lines_exact lines_place_partial lines_partial bare_functions_shift always_ff_before starts_are_texts file_lines always_ff_line bare_function_line connection_line not_LineClaim", "False of the code: always_ff blocks are recorded one line early, every connection but the first at the line of the first, and a function without ports puts everything after it one line short; in a combined file top-level statements are not moved. Exact offsets proved for every module; the claim proved for modules without these.", "Lines")
c("C71", "partial", "comment_partial comment_one_line comment_truncated comment_leaks not_CommentClaim", "False of the code: a comment with a line break keeps only its first character and what follows the last break, and a leading line break turns the rest into code. Proved exactly; the claim holds for comments without line breaks.", "Lines")
c("C56", "partial", "read_partial large_partial bank_has write_shows holes capacity_of_bank build_iff single_refused large_macro not_BankClaim", "Reads: for every nesting of banks, every number of copies, sizes and history a read of an existing address shows the last value written, bit for bit, and the output holds while idle; same as one large macro. False of the code: the output after a write differs from that of one macro, and with a number of copies that is not a power of two capacity() counts addresses that do not exist.", "Sram")
c("C44", "partial", "assignment_partial const_partial op_partial operand_partial name_counts word_counts merged_iff like_same_hash not_MergeClaim", "False of the code (not_MergeClaim: modules computing a - b and b - a under one name are given one module name). like_same_hash lists, for all bodies, the differences the hash does not read; merged_iff: merged exactly when the hashes agree; the _partial theorems: a difference in one assignment at any depth is seen in modules with at most three hash entries. Missing: larger modules (hash collisions exist by counting).", "ModHash")
c("C25", "partial", "ssa_partial single_assignment convert_iff not_SsaClaim elseReads_wrong attrBranches_wrong partBranch_wrong", "False of the code in general (three witnesses: reads in an else branch of variables assigned in the then branch, attributes assigned under an if, slices assigned under an if). ssa_partial proves it for all other bodies; single_assignment and convert_iff hold for all bodies.", "Ssa")
c("C72", "partial", "polarity_partial polarity_exact not_OwnListClaim not_WiresClaim not_DeclaredClaim not_OrderClaim", "One edge per asynchronous reset, as declared, and tests with its polarity: proved for all designs, with an exact characterisation of the accepted ones. False of the code: a block may test an asynchronous reset it is not triggered by; resets wired together are not compared; synchronous resets may be tested against their declaration; the verdict depends on the order of blocks.", "Content")
c("C73", "partial", "sensitivity_exact remove_async_clocks remove_async_aligned remove_async_ignored not_WiredTypesClaim not_TriggerClaim", "Exact characterisation of the check, and all that is claimed of the pass. In addition, false of the code: wired ports keep equal types (the port of a parent without registers stays an asynchronous reset), and every block keeps a trigger.", "Content")
c("C74", "partial", "synth_partial synth_refused_partial synth_missed not_SynthClaim not_SynthRefusalClaim", "False of the code both ways: final blocks, delay statements and calls in returns, assertions, arguments and slices are missed, and every system function in an expression is refused, also clog2. Proved for what is visited.", "Content")
c("C75", "partial", "replace_exact replace_ok replace_partial replace_frame again not_ReplaceClaim not_MovableClaim extend_lost condition_lost concat_lost second_lost cast_lost index_lost slice_lost test_lost index_refused left_refused call_refused captured_wrong resolve_self", "False of the code: references inside extensions, casts and indices below an operator, slices in concatenations and conditions, second occurrences in a concatenation and variables tested directly by if or case are kept, and indices and calls are refused. Proved: the call removes all references exactly if they are in the places that are looked at, and then the text is the old one with the new name; other generators are untouched.", "Replace")
c("C76", "partial", "connect_partial connect_ports connect_plain connect_closed not_ConnectClaim extend_lost index_refused constant_connected constant_refused inout_refused unconnected_missed slice_wrong", "Equivalence of statements before with connections and statements after, for all wirings both passes accept, and one connection per input and per output read; the parent mentions no port of a child if all references were where C75 finds them. False in full: some references keep the child's name, indices are refused, undriven inputs get a floating wire. Interface ports and packed structs are not modelled.", "Decouple")
c("C77", "partial", "legal_partial legal_text_partial legal_frame slice_wrong cast_wrong index_wrong write_wrong test_wrong test_lost not_LegalClaim", "False of the code: a slice, cast or index of the port is replaced as if it were the port itself, so x = child.in[0] becomes x = net; tests keep the port. Proved for statements that read the port by itself or under an operator, for all values and all meanings of operators; the text claim needs the positions of C75.", "Legal")
c("C78", "partial", "lift_partial lift_shape driven_twice_wrong unconnected_ub swapped_wrong follow_wrong var_index_wrong mixed_wrong constant_ub nested_ub not_LiftClaim blockName_ok blockName_ub no_common_name_ub", "False of the code: the indices of different ports are checked separately, so instances from a[0] to b[1] and from a[1] to b[0] become a loop from a[i] to b[i]; an output is followed through any expression and its assignment stays, so the part is driven twice. Proved when each instance uses one index and followed assignments are copies. The block name is the longest common beginning without underscore at the end; without one the behaviour is undefined.", "Lift")
c("C79", "partial", "py_partial not_PyClaim drop_wrong drop_hw_wrong shadow_wrong line_wrong range_wrong stale_wrong not_flag_refused mixed_refused nested_refused", "The block does what the function says if no operand of and/or is `not` of a Python value, loop variables are used in their loops only, and no loop line is met twice. False in general: `first and not last` and `x == 1 and not flag` lose the `not` operand; names are looked up outside the function first; kept loops are identified by their line, so copies made by an unrolled loop around them share one body and one range; a loop variable used after its loop is not the last value.", "Elab")
c("C80", "partial", "remove_partial remove_crash_iff not_RemoveClaim guarded_ub empty_if_ub clocked_ub other_blocks_missed default_wrong", "Everything else keeps its effect and none is left in combinational and clocked blocks and at the top, where pruning is right (C15). The crash is characterised exactly: an if with nothing left in both branches, as in `if (c) assert(x)`. False of the code further: assertions directly in initial, final, latch and function blocks stay, and removing assertions reads the event controls of clocked blocks as statements.", "Asrt")
c("C81", "partial", "declare_partial step_throws_iff not_DeclareClaim clash_wrong misspelt_lost inout_refused modport_port_partial modport_ref_partial not_ModportRefClaim modport_wire_wrong wire_iff inout_wrong variables_wire_lost modport_text_iff both_text_wrong empty_modport_refused emit_partial collect_iff extract_partial modports_lost modport_only_lost not_EmitClaim header_partial variables_header_lost name_refused name_reuse_wrong clash_ub", "False of the code: get_modport_ref looks up the name of the modport instead of that of the signal (all variables become outputs); a signal may be both input and output, or port and variable; modports are not compared between same-named interfaces; an interface used only through modports is not emitted; a port interface with only variables is neither listed in the header nor wired. Proved: what is declared is exactly what was set, directions of a modport used as a port, wiring, text of an interface, agreement of same-named interfaces in any order.", "Iface")
c("C82", "partial", "header_partial inout_ub not_HeaderClaim commas_spec declared_partial conns_partial conns_once conns_reproducible_partial same_names_wrong not_ReproducibleClaim", "False of the code: the comparison 'input before output' is not a strict weak ordering once an input, a bidirectional port and an output are present, so std::stable_sort is undefined; connections of two interfaces with a port of the same name come out in address order. Proved: completeness and uniqueness of the order in all other cases. std::sort and std::stable_sort are modelled by their contract.", "Lists")
c("C83", "partial", "declare_partial declared_stays enum_ok_iff value_partial type_partial foreign_wrong port_type_wrong port_type_partial same_value_wrong empty_wrong resized_wrong not_LegalClaim shadow_wrong not_ValueClaim clash_wrong keyword_wrong legal_partial range_text order_partial assign_var_iff assign_const_partial assign_partial same_name_wrong not_AssignClaim get_iff", "False of the code: duplicate values, no members, keywords as members and a variable named like a member are accepted; assigning a member to a wider plain variable resizes the literal in the type declaration; members of the context can be shadowed by those of a generator; assignments compare only the names of enums, which two generators may share; the type of a port declared in its own generator is not visible in the header. Proved: everything that holds within one scope, for all histories.", "Enm")
c("C84", "partial", "handle_partial loop_wrong not_HandleClaim handle_unique relative_partial relative_refused sibling_wrong not_RelativeClaim reference_partial reference_wrong not_ReferenceClaim top_wrong", "False of the code: in a generate loop the index is put on the instance instead of the block; a relative name is given to variables of siblings whose name continues that of the scope; a reference printed from the top is captured by a child of the same name, and a variable of the top is printed without a path. Proved: everything else, for all hierarchies.", "Hnd")
c("C85", "partial", "struct_partial wanted_iff definitions_partial layout meaning accepts_partial own_output_lost test_lost not_StatementsClaim clash_ub mixed_ub not_AcceptsClaim text_ambiguous_wrong conflict_wrong not_DefinitionsClaim", "False of the code: an output the module reads itself and a condition that is a port of the bundle keep naming the removed port; a variable with the name of the bundle and a port used both in part and as a whole are undefined behaviour; the text hashed for a definition is ambiguous. Proved: which bundles are converted, the new port, its members and layout, what else changes (nothing), the renaming of every well placed statement and its meaning, and that the pass goes through when names are free and uses are not mixed.", "Bundle")
c("C86", "partial", "binds_partial binds_iff_adjacent decl_printed call_printed distinct_counts accepts_iff args_partial type_partial return_types children_partial child_lost pos_partial pos_wrong arity_partial same_text_wrong tie_wrong signed_wrong task_wrong arity_missed not_BindClaim not_ArgsClaim not_TypeClaim not_ChildrenClaim not_ArityClaim not_PosClaim", "False of the code: FunctionCallVar::to_string sorts the texts of the arguments by a table keyed by text, so f(a=x, b=y, c=x) is printed f(x, x, y); positional arguments of a built-in are keyed by the decimal text of their position, so from the eleventh argument on they are permuted; a place may be given twice; arguments without a port are accepted; a signed result is declared unsigned; a task can be used as a value; the arity of void built-ins is not checked; creating a built-in twice hides the next function from every traversal. Proved: binding for distinct texts and places, the exact condition on texts, exactly which calls are accepted, the types of returns and calls, and the traversal of histories without a repeated built-in.", "Func")
c("C87", "partial", "types_fit value_iff value_partial wide_lost describes_partial import_exists order_wrong width_wrong second_refused not_ValueClaim not_DescribesClaim not_SharedClaim", "False of the code: byte, shortint, int and longint are signed, so an unsigned port of exactly 8, 16, 32 or 64 bits with its top bit set arrives as a negative number, and ports over 64 bits are cut off; the visitor compares neither widths nor results nor orders of two declarations of a name; in Python the second generator that calls a DPI function gets a declaration without ports, so the extraction refuses the design. Proved: exactly which values arrive, that the line has the ports, directions, signs and attribute of every function of the name, that it describes the function it was made from, and that a line can always be printed.", "Func")
c("C88", "partial", "debug_partial accepted_iff settles fix_linear hidden_wrong neg_wrong added_wrong attr_refused not_DebugClaim", "False of the code: the mapping of names to versions is carried along linearly, so the second branch of an if shows the versions of the first branch; the condition of the second branch is the bitwise complement of the test, so a breakpoint there also stops when a test of several bits is true; the statements that the conversion adds are breakpoints too. Proved for all bodies, worlds and settled states (which exist from every start): a breakpoint at a written assignment stops exactly if the assignment runs and shows the right values except for names hidden by the first branch of an if, when complements are negations; the functions accepted are exactly those that are converted and assign whole variables.", "Ssa")
c("C89", "partial", "merge_partial inverted_wrong block_lost slice_wrong slice_refused not_MergeClaim", "False of the code: what the port reads is not looked at, so child.p = ~v with v = 0 becomes child.p = 0; a constant for one bit of the wire is stretched to the port; a wire of which the port reads one bit makes the pass throw; a wire assigned in an always_comb block loses its declaration but not its assignment. Proved for all designs in which the statements of the wires taken out stand directly in the generator, assign the whole wire and read the wire itself: accepted, exactly these wires removed, none mentioned any more, all other values the same for every meaning of operators and blocks.", "MergeConst")
c("C90", "partial", "order_free again_copy swapped_key equal_key swapped_wrong equal_wrong cache_partial not_CacheClaim init_iff init_body_partial init_again wiring_lost options_lost sequential_refused not_InitClaim text_partial uninitialised_wrong clone_lost not_TextClaim", "False of the code: the key is an exclusive or, so for every hash function create(k=a, l=b) and create(k=b, l=a) share a key, and so do (k=a, l=a) and (k=b, l=b): the second call returns a copy of the first generator; a copy writes add_child's connections and add_always' options (sensitivity among them) down without them, and replaying sequential raises half way; an uninitialized copy visited before its definition is written out with an empty body, and a clone() whose definition is part of another design is not written out at all. Proved: the exact condition under which initialization gives the constructor's generator; for all histories without colliding keys, every generator has a complete definition with its arguments; the text is right when names tell arguments apart and definitions come first.", "Cache")
c("C91", "partial", "accepted_same swap_partial swap_gone swap_frame count_refused remove_partial unwire_exact refused_wrong not_RefuseClaim input_lost test_lost not_SwapClaim index_refused not_AcceptClaim inner_lost mention_wrong not_RemoveClaim", "False of the code: ports are moved one by one while they are compared, so that a replacement refused because of a later port has already connected the earlier ones to the new generator; statements of the parent that read an input of the instance, and an if on an output, keep mentioning the old instance; an output in the index of a slice makes the call throw; removing an instance deletes the statements inside of it that read its own outputs, while tests and reads of inputs stay in the parent. Proved for all interfaces and statements: an accepted call had equal interfaces; where the parent drives inputs and reads outputs in the places looked at, equal interfaces are accepted and all statements are renamed, simultaneously and nothing else; no other generator is touched; what remains after a removal; unwire is exact.", "Swap")
c("C92", "partial", "text_reads top_partial below_partial shared_wrong not_TextClaim range_wrong middle_vacuous docs_reading infer_iff infer_keeps unclocked_wrong same_clock_refused not_ClockClaim text_shape declared_once twice_wrong build_partial second_imply_ub second_imply_lost not_CallsClaim", "False of the code: conditions without a wait, and all but the first, are written with the path from the top even in the module they belong to, so in a module with two instances the property of the second one is about the first one's variables; a wait from 3 to 1 is accepted and the text is not legal; a property of one condition is written without a clock; two children with the same clock count as two clocks and the design is refused; generating twice declares every property twice; a second imply destroys the object the first one returned. Proved for all sequences, hierarchies and executions: the text has one reading with the delays and order asked for; in the top module, and in a unique instance whose path resolves, it holds exactly when the sequence does; exact condition of clock inference; chained calls build what they say.", "Sva")
c("C93", "partial", "regs_partial regs_frame next_accepted other_type_refused twice_wrong foreign_wrong low_wrong not_RegClaim", "False of the code: a second call with the same name is accepted and drives the same variable twice; enables are told apart by name only, so an enable of another generator is used for registers asked for with the enable of the same name here, and the other way round; reg_init takes every reset for active high. Proved for all histories of calls without these and all executions: every register does exactly what its call says, whatever the other calls are, and nothing else is driven.", "Regs")
c("C94", "partial", "wrapper_exact_partial wrapper_accepted_partial wrapper_elements wrapper_scalars wrapper_only wrapper_transparent wrapper_covers wrapper_direction suffix_inj wrapper_refused wrapper_sign_lost wrapper_inout_wrong wrapper_unit_array_wrong not_FlattenClaim", "False of the code: an array a and a scalar a_0 clash and the wrapper is refused; elements of signed arrays and of arrays of clocks become unsigned data ports; inout ports are only driven outwards; an explicit array of one element stays an array. Proved for all port lists of any shapes: refused exactly when two flattened names are equal (never, if no array's name followed by _ begins another port's name), and otherwise exactly one scalar port per element with direction and width, every bit connected once, transparent.", "Flatten")
c("C95", "partial", "inline_partial collapse_partial not_InlineClaim register_lost slice_refused index_refused parent_register_lost test_wrong direct_refused", "False of the code: a child that reads its own connected output loses those statements (a counter disappears); children that read a slice of a port by itself, or use a port as an index on the left, are refused; a register of the parent that copies one variable and feeds the child is replaced by that variable; tests are left with a removed variable; two inlined children connected directly are refused. Proved for all designs without these: only the connections and connected ports disappear, everything else is the old text with ports substituted, and the last loop removes a continuous copy correctly. Connections to slices, constants and expressions are not modelled.", "Inline")
c("C96", "partial", "registry_sound registry_complete_partial registry_exact_partial not_ExactClaim remove_wrong slice_wrong index_wrong again_lost shared_lost", "After any calls a recorded driver writes the variable and a recorded reader reads it; with statements added only when they are nowhere and were never unwired, every statement in the design is recorded for everything it writes and reads; exact if moreover remove_stmt is not used and what is unwired or cleared has no slices on the right and no index on the left. The full claim is false: remove_stmt leaves the statement recorded, unwiring or clearing a = b[3:0] leaves it a reader of b (VarSlice::remove_sink calls remove_source), a[i] = b leaves a reader of i, an unwired statement added again is not recorded, and a statement in two blocks is lost when one is cleared.", "Registry")
c("C97", "partial", "rerun_sound rerun_partial overlap_missed not_RerunClaim overlap_lost twice_lost index_lost condition_lost call_lost cast_ub", "What is run always depends on a changed bit; a process without conditional expressions, calls and expressions as index is run if no two slices in the design need the changed bit (for their place or as index). The full claim is false: a bit is linked to one slice only, so of x = a[7:0], y = a[3:0] (or x = a[i], y = b[i]) only one is computed again, in whatever order (overlap_missed is general); conditions of conditional expressions, arguments of calls and expressions as index are not registered; a cast is undefined behaviour. C54 treats a slice as a reader of the whole variable.", "SimLinks")
c("C98", "partial", "memory_partial whole_events element_ub sub_read_refused sub_write_refused element_event_wrong not_EventClaim large_ub wide_ub sub_write_wrong not_MemoryClaim", "Proved for every array of elements of up to 32 bits and every history of whole writes, word writes (packed, up to 64 bits) and element writes (arrays of up to 64 bits): the array and each element read back as the specification's row-major memory. whole_events: for every whole write the changed bits are exactly those that differ. False of the code beyond that: a changing element write in an array of more than 64 bits shifts a word by 64 or more (element_ub, for all such arrays), an element write reports the bits counted from the element and not from the array (element_event_wrong, not_EventClaim), elements of more than 32 bits shift a 32-bit mask too far (wide_ub), a part that is itself an array cannot be read (sub_read_refused), nor set in an unpacked array (sub_write_refused), and in a packed one the wrong elements are overwritten (sub_write_wrong).", "SimArrays")
c("C99", "partial", "breakpoints_partial saved_iff skipped_refused override_lost loop_wrong function_refused ignored_refused not_TableClaim", "Proved for all statement trees: a saved table has exactly the assignments as breakpoints, in order, with their place and condition also after file names are compressed, and each shows the variables in scope, provided no name gets back a meaning it had before (breakpoints_partial). saved_iff: a table is made exactly when no recorded statement is inside one that gets no scope, otherwise an exception. False of the code: assignments in functions, loops, initial blocks and latches, or in a block marked debug-ignore, make saving fail (skipped_refused, function_refused, ignored_refused); a second loop over the same name shows the last value of the first (loop_wrong); override of a scope variable has no effect (override_lost).", "DebugScopes")
c("C100", "partial", "assign_partial index_partial operator_partial accept_partial variable_iff variable_value middle_wrong corner_wrong descending_wrong divide_wrong wrap_wrong step_refused down_refused refused_changes second_use_refused range_unchecked not_NarrowClaim not_AcceptClaim", "Proved for all sums and products of loop variables and constants over loops that count upwards, without 32-bit overflow at the last values, and whatever the static simulator remembers: an accepted assignment, index or operand has the width of the place and the value it had, in every iteration (assign_partial, index_partial, operator_partial); with step 1 everything that fits is accepted (accept_partial); a loop variable by itself, up or down, is decided exactly (variable_iff, variable_value). False of the code: only the ends are evaluated (middle_wrong), never two first values together (corner_wrong, descending_wrong), operands of a quotient are cut (divide_wrong), overflow hides the size (wrap_wrong); refused although fitting (step_refused, down_refused, second_use_refused); a refusal leaves a broken expression (refused_changes); array bounds are not looked at (range_unchecked).", "LoopIndex")
c("C101", "partial", "lookup_partial effects_partial returns_iff_partial replaced_rename_wrong clash_wrong removed_lost replaced_lost removed_refused foreign_wrong not_TableClaim not_RaisingClaim", "Proved for all orderly histories (only parentless generators are placed, only children removed, only children that did not come in by replace renamed, to a free name; exceptions may occur): both tables agree (lookup_partial), each call has its effect and nothing else (effects_partial), and returns exactly when the name is free or taken as it must be (returns_iff_partial). False of the code outside: renaming a generator put in by replace reaches only the library, without an exception (replaced_rename_wrong, not_TableClaim); renaming to a taken name raises but Python has lost the sibling (clash_wrong, not_RaisingClaim); renaming a removed or replaced generator raises and drops another child (removed_lost, replaced_lost), or is refused (removed_refused); removing a foreign generator removes the child with its name (foreign_wrong).", "PyTree")
c("C102", "partial", "diagram_partial diagram_made diagram_flat table_partial table_realized outside_start_throws collision_wrong leaving_wrong comma_wrong default_throws inner_missing not_DiagramClaim", "Proved for every machine without nesting, however built, whose start state is its own (diagram_flat), and for nested ones that no transition leaves and whose full names differ (diagram_partial, diagram_made): reading the text gives one node per state, the double circle for the start, one arrow per transition. The table reads back when each output has a value and no text has a comma (table_partial), which holds after realize (table_realized). False of the code: a start state of another machine throws (outside_start_throws, not_DiagramClaim), states k_s and s in k are drawn as one (collision_wrong), a state outside is drawn once per arrow to it, with all its arrows (leaving_wrong), a concatenation as value takes two columns (comma_wrong), defaults are missing before realize (default_throws), states of inner machines have no row (inner_missing).", "Diagram")
c("C103", "partial", "Xml.document_reads_back Report.report_partial Report.prefix_wrong Report.relative_wrong Report.relative_ub Report.shared_line_wrong Report.bare_block_wrong Report.uncomputed_wrong Report.not_ReportClaim", "The writer is right for every document (document_reads_back). The report is proved right when the coverage of all runs has been computed, no two statements share a line, blocks have debug information, and file names are absolute with no directory name the beginning of another one (report_partial). False of the code: /a is taken for the common directory of /a/y and /ab/x (prefix_wrong, not_ReportClaim), a relative file name for a directory (relative_wrong) or read past its end (relative_ub), of two statements on one line one is shown (shared_line_wrong), inside a block without debug information the block around it is counted and blocks covered can exceed blocks valid (bare_block_wrong), runs not analysed before are missing (uncomputed_wrong). Rates and time stamp are not modelled.")
c("C104", "partial", "port_text_partial var_text_partial shift_wrong lone_wrong raw_wrong enum_wrong not_PortClaim not_VarClaim declares_unique", "PortClaim and VarClaim (the full statements) are false of the code: four kinds of witnesses. Proved for ports whose parametrised width binds at least as tightly as a subtraction, and for variables without a type parameter, with an explicit array where a size parameter may be 1, and no arrays of enumerations. Parameter expressions are 32 bits wide; interface ports and the strings of before_var_str/after_var_str are not modelled.", "Decl")
c("C105", "partial", "package_partial package_name race stale_fn not_PackageClaim", "PackageClaim (the full statement) is false of the code: race gives a schedule of two threads with undefined behaviour, stale_fn a generator that does not learn the path of a file that was already right. Proved for one processor or at most one generator per level, and for the path when the file was missing or differed. The texts of modules, debug information and header are inputs; files can be opened, and module names are relative paths; generators of one name have the same texts, as the code assumes.", "Package")
c("C106", "partial", "import_partial file_partial module_found module_missing carry_wrong line_end_wrong inout_lost not_ImportClaim parameter_width_undefined type_refused", "ImportClaim (the full statement) is false of the code: carry_wrong, line_end_wrong and inout_lost are legal modules imported wrongly, parameter_width_undefined is undefined behaviour, type_refused an exception. Proved for declarations whose tokens are set apart by commas and blanks, that begin with input or output and in which no port without a range follows one with a range. The regular expressions are modelled as scanners; the recursion limit of the engine is not. The assignment of port types behind the import is not modelled.", "Import")
c("C107", "partial", "legal_accepted accepted_partial accepted_input_partial sibling_accepted input_hidden expression_hidden not_ScopeClaim", "ScopeClaim (accepted iff legal) is false of the code: sibling_accepted, input_hidden and expression_hidden are illegal assignments that are accepted. Proved: every legal assignment is accepted, for all expressions; an accepted single signal or slice is legal if it is not of a sibling (variables and outputs) or is a port (inputs). Constants that were given a generator, and casts, are not modelled.", "Scope")
c("C108", "partial", "coverage_partial coverage_exact_partial cut_point cut_file no_page_refused parse_defined count_lost same_name not_CoverageClaim", "CoverageClaim (every count below 2^63, files told apart by their path) is false of the code: count_lost and same_name. Proved for counts below 2^32 when no two blocks have the same line in files of the same name (coverage_partial), and with exact paths when no two files have the same name (coverage_exact_partial); cut_file for files cut off before the count of the last point; a cut inside the count is read as a smaller count. A missing file and systems without std::filesystem are not modelled.", "Cov")
c("C109", "partial", "strategy_partial strategy_run_partial external_child tracked_twice not_StrategyClaim", "Proved for every design whose generators do not instantiate external ones by statements and that has no hashes yet, for every bottom-up order, every order within levels and every hash function. The rest is false of the code: with instantiation statements of a child marked external by hand the sequential strategy throws and the parallel one does not (external_child); while generated modules are tracked a design cannot be hashed twice (tracked_twice).", "Strategy")
c("C110", "partial", "accepted_partial complete_partial exact_partial untested_reset ternary_hidden undriven_refused not_FlipFlopClaim", "Shape of accepted blocks for all generators; exact (both directions) for conditions without ? : and case targets narrower than 32 bits (wider ones are undefined behaviour, C27). False of the code: an untested reset is accepted (untested_reset), a reset in the condition of a ternary is overlooked (ternary_hidden). Left sides indexed by a variable and statement functions are not modelled.", "FlipFlop")
c("C111", "partial", "emit_partial closed_partial external_clash not_EmitClaim", "Proved for every design hashed by either strategy in which no external module has the original name of a module of the design. Missing, because false: an internal and an external module of one name (external_clash: the emitted module of the design also serves the external instance). Clones are excluded by Design.", "Emit")
c("C112", "partial", "write_all write_new table_line table_current files_partial kinds_clash rewrite_loses stale_table not_FileClaim", "Proved: text, table and shifts of every single call, tracked or not; presence and uniqueness over every history of tracked calls on different files in which a name always has one text. Missing, because false: a definition and a module of one name (kinds_clash), a file written again with tracking (rewrite_loses), and a table left from an earlier call (stale_table).", "OutFile")
c("C113", "partial", "items_text_partial printed_iff inputs_kept timed_text timed_printed no_clock input_slice not_ItemClaim", "Proved for all bodies whose clocked blocks have a condition and whose blocks satisfy the conditions of C48 on loops and labels; exact description of what is refused; delays in full. Missing, because false: a clocked block without conditions is printed as always_ff @() (no_clock), and a slice of an own input is accepted as a target (input_slice).", "Items")
c("C114", "partial", "icc_partial cut_report busy_refused far_lost no_table not_IccClaim", "icc_partial: for every report in which each section has a table and counts/origins are below 100000, blocks/lines below 10000, kinds shorter than 20, exactly the taken branches are returned, with the count of such a row; cut_report: prefixes of lines give subsets. The full claim is false of the code (not_IccClaim): busy_refused, far_lost, no_table. Missing files are not modelled", "Icc")
c("C115", "partial", "from_sound from_partial to_partial connected_partial dual_partial slice_hidden part_hidden cast_hidden index_reported removed_reported not_ConnectedClaim", "from_sound: for any history, what connected_from reports is an output of another generator in an assignment to the port; from_partial, to_partial, dual_partial, connected_partial: exact for the histories of C96 and expressions without slices, casts and calls. The full claim is false of the code (not_ConnectedClaim): slice_hidden, part_hidden, cast_hidden, index_reported, removed_reported", "Connected")
c("C116", "partial", "registers_partial var_names initial_hides unchecked_hidden cloned_hidden not_RegisterClaim", "var_names in full; registers_partial: exact for designs without cloned or external generators and unchecked clocked blocks in which nothing written in a clocked block is written elsewhere, for every order of the sets. The full claim is false of the code (not_RegisterClaim): initial_hides, unchecked_hidden, cloned_hidden. Generate loops are not modelled", "Registers")
c("C117", "partial", "passes_exact passes_ordered share_partial share_same share_default_partial pipeline_lost not_ShareClaim", "passes_exact and passes_ordered in full; share_partial: instances merged at the hash have equal final bodies if no pass behind the hash tells their annotations apart. The full claim is false of the code (not_ShareClaim, pipeline_lost). Passes that throw and the contents of the hash (C44) are abstracted", "Flow")
c("C118", "partial", "mock_partial mock_join_partial clash_refused mock_plain mock_again repeated_endless shared_refused existing_wrong removed_undefined not_MockClaim", "mock_partial: for paths of any length with different names none of which the context knows; mock_join_partial: the outermost may exist. The full claim is false of the code (not_MockClaim): repeated_endless, shared_refused, existing_wrong, removed_undefined", "Mock")
c("C119", "partial", "propagate_exact propagate_partial own_kept shown_length shadow_wrong loop_lost not_ScopeClaim", "propagate_exact: exactly what is shown, for all nestings; propagate_partial: the claim without loops and clashes of names. The full claim is false of the code (not_ScopeClaim): shadow_wrong, loop_lost", "Propagate")
c("C120", "partial", "select_partial select_sound state_partial state_refused negative_refused word_unknown mark_iff mark_unknown instance_hides packed_refused junk_accepted empty_undefined not_NameClaim not_RefuseClaim", "select_partial: for all hierarchies and names where no instance has the name of the variable and the variable is not a packed array; select_sound and mark_iff in full. The full claims are false of the code (not_NameClaim, not_RefuseClaim): instance_hides, packed_refused, mark_unknown, empty_undefined. What Simulator::set does with the value is C40", "RunNames")
c("C121", "partial", "follows_partial accepted accepted_clean accepted_linked frozen_partial var_untied clash_undefined port_clash wider_wrong conditional_undefined concat_undefined refused_leaves not_PortClaim not_VarClaim", "follows_partial: for all trees of ordinary operators whose operands have equal widths and whose parameters are set from parameters of the parent declared alike, for all later values; accepted: such copies are accepted; accepted_clean and accepted_linked: nothing else is. The full claims are false of the code (not_PortClaim, not_VarClaim): conditional_undefined, concat_undefined, wider_wrong, refused_leaves, clash_undefined, var_untied", "Copy")
c("C122", "partial", "width_partial size_partial plain_width size_frozen size_expression_frozen width_number width_expression_wrong port_frozen retied stays port_stays not_VarClaim not_PortClaim", "width_partial, size_partial: for shapes that are a parameter set from the parent's, for all later values; plain_width, size_frozen: what is not parametrised stays. The full claims are false of the code (not_VarClaim, not_PortClaim): size_expression_frozen, width_expression_wrong, retied and port_frozen say what happens instead", "ParamInline")
c("C123", "partial", "concat_partial others_keep_partial width_partial mixed_refused stale not_ConcatClaim not_LocalClaim not_WidthClaim", "concat_partial: for all histories in which the readers of the first operand were not moved; others_keep_partial: for statements that share no expression object with the moved ones; width_partial, mixed_refused: when readers move only to variables of the same width and sign. The full claims are false of the code (not_ConcatClaim, not_LocalClaim, not_WidthClaim); stale says what concat hands out after a move", "Shared")
c("C124", "partial", "handle_partial relative_partial relative_cat_throw relative_operator handle_diverges_iff handle_index_wrong handle_cast_wrong handle_param_wrong handle_cond_ambiguous same_text relative_unrefused not_HandleClaim not_RelativeClaim", "handle_partial: variables, slices and elements at constant indices, constants, operators, concatenations and conditionals over plain conditions; relative_partial: the same without operators. handle_diverges_iff says exactly when the call never returns. The full claims are false of the code (not_HandleClaim, not_RelativeClaim, with the causes in the other theorems)", "HExpr")
c("C125", "partial", "first_line entry_iff sound_partial complete_partial extract_iff extractGen_iff foreign_hides not_SoundClaim not_CompleteClaim", "entry_iff says what every entry is; sound_partial: if everything reached from the module is printed in it; complete_partial: for the kinds of objects the visitor knows. The full claims are false of the code (not_SoundClaim, not_CompleteClaim)", "LineTable")
c("C126", "partial", "others_keep declare_partial again_iff again_size_wrong enum_wrong struct_wrong again_packs var_is_port port_is_gone not_AskedClaim not_AtomicClaim not_AgainClaim not_ClockClaim", "declare_partial: for a name not in use and arguments that have an effect, the call gives exactly the signal asked for, or is refused and changes nothing; again_iff says what a second declaration does. The full claims are false of the code (the not_ theorems)", "PyDecl")
c("C127", "partial", "fields_exact action_exact transaction_exact values_exact extract_partial extract_text flag_partial entry_exact not_EachClaim not_CombClaim not_LastMatchClaim", "extract_partial: every event of the design once, in the order first met; extract_text and flag_partial: if no event is shared by two blocks. The full claims are false of the code (the not_ theorems)", "Events")
c("C128", "partial", "codes_exact defs_names defs_value given_width default_width_partial negative_refused declare_exact width_least names_partial zero_refused rounding_refused mixed_wrong repeat_wrong not_DistinctClaim not_AnyClaim", "names_partial: two or more different names get the codes 0, 1, 2, … and the least width; defs_value says what any list gives, repeated names included; given_width and default_width_partial say which definitions are accepted, declare_exact and width_least what they give. The full claims are false of the code (mixed lists collide, a single state is refused)", "EnumHelper")
c("C129", "partial", "asserts_report asserts_report_partial not_reports block_ok_iff inject_only_reports inject_ok_iff property_reports_pass not_property", "asserts_report_partial: functions with no assert_ inside a test; asserts_report says for every function which position each assertion reports. The full claims are false of the code (nested assert_, asserted properties)", "AssertPos")
c("C130", "partial", "addChild_ok_iff addChild_does addChild_refused deferred_unwired all_wired_partial string_partial param_hides_port not_AtomicClaim not_DeferredClaim not_AllWiredClaim not_StringClaim", "addChild_ok_iff and addChild_does say when a call on a generator that is no copy is accepted and what it does; all_wired_partial: every keyword naming a port and no parameter is wired; the other claims are false of the code and refuted", "AddChild")
c("C131", "partial", "call_typed call_keeps first_call call_partial again_partial stuck not_PositionClaim not_TranslatedClaim not_AgainClaim not_RetryClaim", "call_typed, call_keeps and first_call hold in every state; call_partial for generators with distinct names that are kept and consistent methods; the unrestricted claims are false of the code and refuted", "FuncCall")
c("C132", "partial", "add_ok add_ok_iff add_refused bare_refused decorator_partial not_AtomicClaim not_QualifiedClaim not_DecoratorClaim", "add_ok and add_ok_iff say when a call is accepted and what it does, for every environment; decorator_partial if names mean the same at definition and at addition; the other claims are false of the code and refuted", "Always")
c("C133", "partial", "remove_in remove_partial batch batch_partial genRemove_gen loop_kept loop_reached shared_kept twice_kept batch_twice batch_return not_RemoveClaim not_BatchClaim", "Removal proved exact after every careful history except directly inside an added loop; batches characterised for every sequence of calls, and equal to immediate removal if nothing is twice or comes back. The five failures are theorems.", "Remove")
c("C134", "partial", "pulse_partial cycle_partial reset_partial pulse_unique no_clock no_reset demo_drives demo_cycle demo_reset high_clock_lost not_CycleClaim", "false: if the clock is high before, the first cycle of cycle() makes no rising edge and is lost; proved for a low clock (an inactive reset), one register block on it, values known and the conditions of C54", "Sim")
c("C135", "partial", "find_ends reported_reads plain_reported_partial driver_partial demo_design demo_linked demo_find slice_not_reported slice_target_missing cast_not_reported port_missing not_DriverClaim", "completeness is false: a variable read through a slice, a cast or a variable index, or that is a port or an enumeration variable, is not told as a driver, and a variable assigned through slices only, or a port, has no entry; soundness and termination are proved for all designs, completeness for whole variables assigned expressions of variables, constants and operators", "Drivers")
c("C136", "partial", "walk_meets debug_vars_partial ext_fs ext_plain place_spec hidden_file demo_ok string_taken_for_variable slice_taken_for_value parameter_not_shown not_DebugVarsClaim", "false: a Python string equal to the name of a variable is shown as that variable, a slice (or any signal that is not a variable of the generator) as a constant string, a parameter not at all; proved otherwise, with the walk and the places for all inputs", "DebugTable")

c("C137", "partial", "case_runs case_accepted keyOf_ok atomic_partial print_partial not_AtomicClaim not_PrintClaim", "case_runs and case_accepted hold for all accepted calls; false: a call refused for a later argument leaves the earlier ones in the switch, and an empty block makes a case that cannot be printed", "CaseCalls")
c("C138", "partial", "reduce_means concat_parts concat_signs few list_partial not_ListClaim", "everything but the last sentence is proved; false: a list of two or more objects is given back as it is", "Reduce")
#END

C.sort(key=lambda x: x["property"])
if __name__ == "__main__":
    with open(os.path.join(ROOT, "MANIFEST.json"), "w") as f:
        f.write('{"claims": [\n' + ",\n".join(json.dumps(x) for x in C) + "\n]}\n")
    names = []
    for x in C:
        for t in x["theorems"]:
            if t not in names:
                names.append(t)
    imports = [l for l in open(os.path.join(ROOT, "lean/Verif.lean")).read().split("\n")
               if l.startswith("import") and "Audit" not in l]
    with open(os.path.join(ROOT, "lean/Verif/Audit.lean"), "w") as f:
        f.write("\n".join(imports) + "\n\n")
        f.write("/-!\nGenerated by tools/manifest.py: the build prints the axioms of every theorem named in\n"
                "MANIFEST.json, and fails when a name is wrong.\n-/\n\n")
        for n in names:
            f.write("#print axioms %s\n" % n)
