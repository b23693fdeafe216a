{"claims": [
{"property": "C01", "status": "proved", "theorems": ["Kratos.Eval.fold_arith", "Kratos.Eval.fold_bitwise", "Kratos.Eval.fold_eq", "Kratos.Eval.fold_in_range", "Kratos.Eval.fold_signed_64_ub"], "note": "widths 1..64 unsigned, 1..63 signed; at 64 signed the code shifts by 64 (UB), proved separately"},
{"property": "C02", "status": "partial", "theorems": ["Kratos.Eval.fold_order_partial", "Kratos.Eval.fold_order_counterexample", "Kratos.Eval.fold_order_equal_negatives"], "note": "false of the code for <=/>= on two equal negatives; the partial theorem excludes exactly that case"},
{"property": "C03", "status": "partial", "theorems": ["Kratos.Eval.fold_divide", "Kratos.Eval.fold_divide_zero_ub", "Kratos.Eval.fold_lshr", "Kratos.Eval.fold_sshr_partial", "Kratos.Eval.fold_sshr_counterexample"], "note": ">>> of a negative operand is wrong in the code"},
{"property": "C04", "status": "partial", "theorems": ["Kratos.Eval.fold_invert", "Kratos.Eval.fold_negate", "Kratos.Eval.fold_plus_not_or", "Kratos.Eval.fold_reduce_partial", "Kratos.Eval.fold_reduce_counterexample", "Kratos.Eval.fold_reduce_and_wide", "Kratos.Eval.fold_ternary", "Kratos.Eval.fold_invert_64_ub"], "note": "reductions & and ^ use a 32-bit popcount and are wrong above 32 bits"},
{"property": "C05", "status": "partial", "theorems": ["Kratos.Const.const_create_exact", "Kratos.Const.const_wide_ub", "Kratos.Const.const_history_partial", "Kratos.Const.const_history_defined", "Kratos.Const.const_history_counterexample_width", "Kratos.Const.const_history_counterexample_signed", "Kratos.Const.const_string_counterexample"], "note": "widths up to 64 (wider ones shift out of range); the unchecked width/signed setters and the string setter break the invariant"},
{"property": "C06", "status": "partial", "theorems": ["Kratos.Const.const_text_partial", "Kratos.Const.const_text_counterexample_unsigned", "Kratos.Const.const_text_counterexample_min", "Kratos.Const.const_text_unsigned_literal", "Kratos.Const.big_text"], "note": "false of the code for unsigned constants with the top bit of 64 set and for the minimum 64-bit value"},
{"property": "C07", "status": "partial", "theorems": ["Kratos.Print.expr_text_partial", "Kratos.Print.reads_unique", "Kratos.Print.constText_eq", "Kratos.Print.expr_text_counterexample_right", "Kratos.Print.expr_text_counterexample_neg", "Kratos.Print.expr_text_counterexample_fuse", "Kratos.Print.expr_text_counterexample_select", "Kratos.Print.expr_text_counterexample_chain", "Kratos.Print.not_ExprTextCorrect"], "note": "false of the code for the five families shown; proved, from characters to value, for every other expression"},
{"property": "C08", "status": "partial", "theorems": ["Kratos.Slice.slice_select_partial", "Kratos.Slice.slice_reject_partial", "Kratos.Slice.slice_counterexample_range", "Kratos.Slice.slice_counterexample_unit", "Kratos.Slice.not_SliceCorrect", "Kratos.Slice.slice_compose", "Kratos.Slice.slice_cache", "Kratos.Slice.slice_cache_counterexample", "Kratos.Slice.sim_position_partial", "Kratos.Slice.sim_position_counterexample"], "note": "false of the code for range selects of multi-dimensional arrays, trailing dimensions of size 1 and the struct slice cache; proved otherwise"},
{"property": "C09", "status": "proved", "theorems": ["Kratos.Slice.array_tiles", "Kratos.Slice.flatten_row_major", "Kratos.Slice.rowMajor_mem", "Kratos.Slice.rowMajor_nodup"], "note": ""},
{"property": "C10", "status": "partial", "theorems": ["Kratos.Slice.member_range", "Kratos.Slice.struct_tiles", "Kratos.Slice.struct_typedef_counterexample", "Kratos.Slice.struct_typedef_mirrored", "Kratos.Slice.struct_typedef_partial", "Kratos.Slice.members_nested"], "note": "member ranges tile the struct; the emitted typedef lists the fields in the mirrored order, shown exactly"},
{"property": "C100", "status": "partial", "theorems": ["Kratos.LoopIndex.assign_partial", "Kratos.LoopIndex.index_partial", "Kratos.LoopIndex.operator_partial", "Kratos.LoopIndex.accept_partial", "Kratos.LoopIndex.variable_iff", "Kratos.LoopIndex.variable_value", "Kratos.LoopIndex.middle_wrong", "Kratos.LoopIndex.corner_wrong", "Kratos.LoopIndex.descending_wrong", "Kratos.LoopIndex.divide_wrong", "Kratos.LoopIndex.wrap_wrong", "Kratos.LoopIndex.step_refused", "Kratos.LoopIndex.down_refused", "Kratos.LoopIndex.refused_changes", "Kratos.LoopIndex.second_use_refused", "Kratos.LoopIndex.range_unchecked", "Kratos.LoopIndex.not_NarrowClaim", "Kratos.LoopIndex.not_AcceptClaim"], "note": "Proved for all sums and products of loop variables and constants over loops that count upwards, without 32-bit overflow at the last values, and whatever the static simulator remembers: an accepted assignment, index or operand has the width of the place and the value it had, in every iteration (assign_partial, index_partial, operator_partial); with step 1 everything that fits is accepted (accept_partial); a loop variable by itself, up or down, is decided exactly (variable_iff, variable_value). False of the code: only the ends are evaluated (middle_wrong), never two first values together (corner_wrong, descending_wrong), operands of a quotient are cut (divide_wrong), overflow hides the size (wrap_wrong); refused although fitting (step_refused, down_refused, second_use_refused); a refusal leaves a broken expression (refused_changes); array bounds are not looked at (range_unchecked)."},
{"property": "C101", "status": "partial", "theorems": ["Kratos.PyTree.lookup_partial", "Kratos.PyTree.effects_partial", "Kratos.PyTree.returns_iff_partial", "Kratos.PyTree.replaced_rename_wrong", "Kratos.PyTree.clash_wrong", "Kratos.PyTree.removed_lost", "Kratos.PyTree.replaced_lost", "Kratos.PyTree.removed_refused", "Kratos.PyTree.foreign_wrong", "Kratos.PyTree.not_TableClaim", "Kratos.PyTree.not_RaisingClaim"], "note": "Proved for all orderly histories (only parentless generators are placed, only children removed, only children that did not come in by replace renamed, to a free name; exceptions may occur): both tables agree (lookup_partial), each call has its effect and nothing else (effects_partial), and returns exactly when the name is free or taken as it must be (returns_iff_partial). False of the code outside: renaming a generator put in by replace reaches only the library, without an exception (replaced_rename_wrong, not_TableClaim); renaming to a taken name raises but Python has lost the sibling (clash_wrong, not_RaisingClaim); renaming a removed or replaced generator raises and drops another child (removed_lost, replaced_lost), or is refused (removed_refused); removing a foreign generator removes the child with its name (foreign_wrong)."},
{"property": "C102", "status": "partial", "theorems": ["Kratos.Diagram.diagram_partial", "Kratos.Diagram.diagram_made", "Kratos.Diagram.diagram_flat", "Kratos.Diagram.table_partial", "Kratos.Diagram.table_realized", "Kratos.Diagram.outside_start_throws", "Kratos.Diagram.collision_wrong", "Kratos.Diagram.leaving_wrong", "Kratos.Diagram.comma_wrong", "Kratos.Diagram.default_throws", "Kratos.Diagram.inner_missing", "Kratos.Diagram.not_DiagramClaim"], "note": "Proved for every machine without nesting, however built, whose start state is its own (diagram_flat), and for nested ones that no transition leaves and whose full names differ (diagram_partial, diagram_made): reading the text gives one node per state, the double circle for the start, one arrow per transition. The table reads back when each output has a value and no text has a comma (table_partial), which holds after realize (table_realized). False of the code: a start state of another machine throws (outside_start_throws, not_DiagramClaim), states k_s and s in k are drawn as one (collision_wrong), a state outside is drawn once per arrow to it, with all its arrows (leaving_wrong), a concatenation as value takes two columns (comma_wrong), defaults are missing before realize (default_throws), states of inner machines have no row (inner_missing)."},
{"property": "C103", "status": "partial", "theorems": ["Kratos.Xml.document_reads_back", "Kratos.Report.report_partial", "Kratos.Report.prefix_wrong", "Kratos.Report.relative_wrong", "Kratos.Report.relative_ub", "Kratos.Report.shared_line_wrong", "Kratos.Report.bare_block_wrong", "Kratos.Report.uncomputed_wrong", "Kratos.Report.not_ReportClaim"], "note": "The writer is right for every document (document_reads_back). The report is proved right when the coverage of all runs has been computed, no two statements share a line, blocks have debug information, and file names are absolute with no directory name the beginning of another one (report_partial). False of the code: /a is taken for the common directory of /a/y and /ab/x (prefix_wrong, not_ReportClaim), a relative file name for a directory (relative_wrong) or read past its end (relative_ub), of two statements on one line one is shown (shared_line_wrong), inside a block without debug information the block around it is counted and blocks covered can exceed blocks valid (bare_block_wrong), runs not analysed before are missing (uncomputed_wrong). Rates and time stamp are not modelled."},
{"property": "C104", "status": "partial", "theorems": ["Kratos.Decl.port_text_partial", "Kratos.Decl.var_text_partial", "Kratos.Decl.shift_wrong", "Kratos.Decl.lone_wrong", "Kratos.Decl.raw_wrong", "Kratos.Decl.enum_wrong", "Kratos.Decl.not_PortClaim", "Kratos.Decl.not_VarClaim", "Kratos.Decl.declares_unique"], "note": "PortClaim and VarClaim (the full statements) are false of the code: four kinds of witnesses. Proved for ports whose parametrised width binds at least as tightly as a subtraction, and for variables without a type parameter, with an explicit array where a size parameter may be 1, and no arrays of enumerations. Parameter expressions are 32 bits wide; interface ports and the strings of before_var_str/after_var_str are not modelled."},
{"property": "C105", "status": "partial", "theorems": ["Kratos.Package.package_partial", "Kratos.Package.package_name", "Kratos.Package.race", "Kratos.Package.stale_fn", "Kratos.Package.not_PackageClaim"], "note": "PackageClaim (the full statement) is false of the code: race gives a schedule of two threads with undefined behaviour, stale_fn a generator that does not learn the path of a file that was already right. Proved for one processor or at most one generator per level, and for the path when the file was missing or differed. The texts of modules, debug information and header are inputs; files can be opened, and module names are relative paths; generators of one name have the same texts, as the code assumes."},
{"property": "C106", "status": "partial", "theorems": ["Kratos.Import.import_partial", "Kratos.Import.file_partial", "Kratos.Import.module_found", "Kratos.Import.module_missing", "Kratos.Import.carry_wrong", "Kratos.Import.line_end_wrong", "Kratos.Import.inout_lost", "Kratos.Import.not_ImportClaim", "Kratos.Import.parameter_width_undefined", "Kratos.Import.type_refused"], "note": "ImportClaim (the full statement) is false of the code: carry_wrong, line_end_wrong and inout_lost are legal modules imported wrongly, parameter_width_undefined is undefined behaviour, type_refused an exception. Proved for declarations whose tokens are set apart by commas and blanks, that begin with input or output and in which no port without a range follows one with a range. The regular expressions are modelled as scanners; the recursion limit of the engine is not. The assignment of port types behind the import is not modelled."},
{"property": "C107", "status": "partial", "theorems": ["Kratos.Scope.legal_accepted", "Kratos.Scope.accepted_partial", "Kratos.Scope.accepted_input_partial", "Kratos.Scope.sibling_accepted", "Kratos.Scope.input_hidden", "Kratos.Scope.expression_hidden", "Kratos.Scope.not_ScopeClaim"], "note": "ScopeClaim (accepted iff legal) is false of the code: sibling_accepted, input_hidden and expression_hidden are illegal assignments that are accepted. Proved: every legal assignment is accepted, for all expressions; an accepted single signal or slice is legal if it is not of a sibling (variables and outputs) or is a port (inputs). Constants that were given a generator, and casts, are not modelled."},
{"property": "C108", "status": "partial", "theorems": ["Kratos.Cov.coverage_partial", "Kratos.Cov.coverage_exact_partial", "Kratos.Cov.cut_point", "Kratos.Cov.cut_file", "Kratos.Cov.no_page_refused", "Kratos.Cov.parse_defined", "Kratos.Cov.count_lost", "Kratos.Cov.same_name", "Kratos.Cov.not_CoverageClaim"], "note": "CoverageClaim (every count below 2^63, files told apart by their path) is false of the code: count_lost and same_name. Proved for counts below 2^32 when no two blocks have the same line in files of the same name (coverage_partial), and with exact paths when no two files have the same name (coverage_exact_partial); cut_file for files cut off before the count of the last point; a cut inside the count is read as a smaller count. A missing file and systems without std::filesystem are not modelled."},
{"property": "C109", "status": "partial", "theorems": ["Kratos.Strategy.strategy_partial", "Kratos.Strategy.strategy_run_partial", "Kratos.Strategy.external_child", "Kratos.Strategy.tracked_twice", "Kratos.Strategy.not_StrategyClaim"], "note": "Proved for every design whose generators do not instantiate external ones by statements and that has no hashes yet, for every bottom-up order, every order within levels and every hash function. The rest is false of the code: with instantiation statements of a child marked external by hand the sequential strategy throws and the parallel one does not (external_child); while generated modules are tracked a design cannot be hashed twice (tracked_twice)."},
{"property": "C11", "status": "partial", "theorems": ["Kratos.Width.width_partial", "Kratos.Width.operands_equal", "Kratos.Width.width_counterexample_shared", "Kratos.Width.not_WidthCorrect", "Kratos.Width.width_counterexample_logical", "Kratos.Width.width_counterexample_cached", "Kratos.Width.sign_bin", "Kratos.Width.sign_un", "Kratos.Width.sign_concat", "Kratos.Width.extend_exact", "Kratos.Width.never_rejected", "Kratos.Width.no_loss_partial", "Kratos.Width.no_loss_counterexample_expr", "Kratos.Width.no_loss_counterexample_const", "Kratos.Width.not_NoSilentLoss"], "note": "false of the code for shared constants, logical operators, the cached width and silently truncated operands; proved otherwise, scalars without loop variables"},
{"property": "C110", "status": "partial", "theorems": ["Kratos.FlipFlop.accepted_partial", "Kratos.FlipFlop.complete_partial", "Kratos.FlipFlop.exact_partial", "Kratos.FlipFlop.untested_reset", "Kratos.FlipFlop.ternary_hidden", "Kratos.FlipFlop.undriven_refused", "Kratos.FlipFlop.not_FlipFlopClaim"], "note": "Shape of accepted blocks for all generators; exact (both directions) for conditions without ? : and case targets narrower than 32 bits (wider ones are undefined behaviour, C27). False of the code: an untested reset is accepted (untested_reset), a reset in the condition of a ternary is overlooked (ternary_hidden). Left sides indexed by a variable and statement functions are not modelled."},
{"property": "C111", "status": "partial", "theorems": ["Kratos.Emit.emit_partial", "Kratos.Emit.closed_partial", "Kratos.Emit.external_clash", "Kratos.Emit.not_EmitClaim"], "note": "Proved for every design hashed by either strategy in which no external module has the original name of a module of the design. Missing, because false: an internal and an external module of one name (external_clash: the emitted module of the design also serves the external instance). Clones are excluded by Design."},
{"property": "C112", "status": "partial", "theorems": ["Kratos.OutFile.write_all", "Kratos.OutFile.write_new", "Kratos.OutFile.table_line", "Kratos.OutFile.table_current", "Kratos.OutFile.files_partial", "Kratos.OutFile.kinds_clash", "Kratos.OutFile.rewrite_loses", "Kratos.OutFile.stale_table", "Kratos.OutFile.not_FileClaim"], "note": "Proved: text, table and shifts of every single call, tracked or not; presence and uniqueness over every history of tracked calls on different files in which a name always has one text. Missing, because false: a definition and a module of one name (kinds_clash), a file written again with tracking (rewrite_loses), and a table left from an earlier call (stale_table)."},
{"property": "C113", "status": "partial", "theorems": ["Kratos.Items.items_text_partial", "Kratos.Items.printed_iff", "Kratos.Items.inputs_kept", "Kratos.Items.timed_text", "Kratos.Items.timed_printed", "Kratos.Items.no_clock", "Kratos.Items.input_slice", "Kratos.Items.not_ItemClaim"], "note": "Proved for all bodies whose clocked blocks have a condition and whose blocks satisfy the conditions of C48 on loops and labels; exact description of what is refused; delays in full. Missing, because false: a clocked block without conditions is printed as always_ff @() (no_clock), and a slice of an own input is accepted as a target (input_slice)."},
{"property": "C114", "status": "partial", "theorems": ["Kratos.Icc.icc_partial", "Kratos.Icc.cut_report", "Kratos.Icc.busy_refused", "Kratos.Icc.far_lost", "Kratos.Icc.no_table", "Kratos.Icc.not_IccClaim"], "note": "icc_partial: for every report in which each section has a table and counts/origins are below 100000, blocks/lines below 10000, kinds shorter than 20, exactly the taken branches are returned, with the count of such a row; cut_report: prefixes of lines give subsets. The full claim is false of the code (not_IccClaim): busy_refused, far_lost, no_table. Missing files are not modelled"},
{"property": "C115", "status": "partial", "theorems": ["Kratos.Connected.from_sound", "Kratos.Connected.from_partial", "Kratos.Connected.to_partial", "Kratos.Connected.connected_partial", "Kratos.Connected.dual_partial", "Kratos.Connected.slice_hidden", "Kratos.Connected.part_hidden", "Kratos.Connected.cast_hidden", "Kratos.Connected.index_reported", "Kratos.Connected.removed_reported", "Kratos.Connected.not_ConnectedClaim"], "note": "from_sound: for any history, what connected_from reports is an output of another generator in an assignment to the port; from_partial, to_partial, dual_partial, connected_partial: exact for the histories of C96 and expressions without slices, casts and calls. The full claim is false of the code (not_ConnectedClaim): slice_hidden, part_hidden, cast_hidden, index_reported, removed_reported"},
{"property": "C116", "status": "partial", "theorems": ["Kratos.Registers.registers_partial", "Kratos.Registers.var_names", "Kratos.Registers.initial_hides", "Kratos.Registers.unchecked_hidden", "Kratos.Registers.cloned_hidden", "Kratos.Registers.not_RegisterClaim"], "note": "var_names in full; registers_partial: exact for designs without cloned or external generators and unchecked clocked blocks in which nothing written in a clocked block is written elsewhere, for every order of the sets. The full claim is false of the code (not_RegisterClaim): initial_hides, unchecked_hidden, cloned_hidden. Generate loops are not modelled"},
{"property": "C117", "status": "partial", "theorems": ["Kratos.Flow.passes_exact", "Kratos.Flow.passes_ordered", "Kratos.Flow.share_partial", "Kratos.Flow.share_same", "Kratos.Flow.share_default_partial", "Kratos.Flow.pipeline_lost", "Kratos.Flow.not_ShareClaim"], "note": "passes_exact and passes_ordered in full; share_partial: instances merged at the hash have equal final bodies if no pass behind the hash tells their annotations apart. The full claim is false of the code (not_ShareClaim, pipeline_lost). Passes that throw and the contents of the hash (C44) are abstracted"},
{"property": "C118", "status": "partial", "theorems": ["Kratos.Mock.mock_partial", "Kratos.Mock.mock_join_partial", "Kratos.Mock.clash_refused", "Kratos.Mock.mock_plain", "Kratos.Mock.mock_again", "Kratos.Mock.repeated_endless", "Kratos.Mock.shared_refused", "Kratos.Mock.existing_wrong", "Kratos.Mock.removed_undefined", "Kratos.Mock.not_MockClaim"], "note": "mock_partial: for paths of any length with different names none of which the context knows; mock_join_partial: the outermost may exist. The full claim is false of the code (not_MockClaim): repeated_endless, shared_refused, existing_wrong, removed_undefined"},
{"property": "C119", "status": "partial", "theorems": ["Kratos.Propagate.propagate_exact", "Kratos.Propagate.propagate_partial", "Kratos.Propagate.own_kept", "Kratos.Propagate.shown_length", "Kratos.Propagate.shadow_wrong", "Kratos.Propagate.loop_lost", "Kratos.Propagate.not_ScopeClaim"], "note": "propagate_exact: exactly what is shown, for all nestings; propagate_partial: the claim without loops and clashes of names. The full claim is false of the code (not_ScopeClaim): shadow_wrong, loop_lost"},
{"property": "C12", "status": "partial", "theorems": ["Kratos.Param.params_partial", "Kratos.Param.set_value_reaches_partial", "Kratos.Param.nonpositive_rejected", "Kratos.Param.nonpositive_rejected_tied", "Kratos.Param.params_counterexample_expr", "Kratos.Param.not_ParamsCorrect", "Kratos.Param.params_counterexample_untie", "Kratos.Param.params_counterexample_retie", "Kratos.Param.params_counterexample_reparent", "Kratos.Param.params_counterexample_atomic"], "note": "false of the code for width expressions, untying, re-tying, re-parenting and rejected values deeper in the chain; proved for all other histories"},
{"property": "C120", "status": "partial", "theorems": ["Kratos.RunNames.select_partial", "Kratos.RunNames.select_sound", "Kratos.RunNames.state_partial", "Kratos.RunNames.state_refused", "Kratos.RunNames.negative_refused", "Kratos.RunNames.word_unknown", "Kratos.RunNames.mark_iff", "Kratos.RunNames.mark_unknown", "Kratos.RunNames.instance_hides", "Kratos.RunNames.packed_refused", "Kratos.RunNames.junk_accepted", "Kratos.RunNames.empty_undefined", "Kratos.RunNames.not_NameClaim", "Kratos.RunNames.not_RefuseClaim"], "note": "select_partial: for all hierarchies and names where no instance has the name of the variable and the variable is not a packed array; select_sound and mark_iff in full. The full claims are false of the code (not_NameClaim, not_RefuseClaim): instance_hides, packed_refused, mark_unknown, empty_undefined. What Simulator::set does with the value is C40"},
{"property": "C121", "status": "partial", "theorems": ["Kratos.Copy.follows_partial", "Kratos.Copy.accepted", "Kratos.Copy.accepted_clean", "Kratos.Copy.accepted_linked", "Kratos.Copy.frozen_partial", "Kratos.Copy.var_untied", "Kratos.Copy.clash_undefined", "Kratos.Copy.port_clash", "Kratos.Copy.wider_wrong", "Kratos.Copy.conditional_undefined", "Kratos.Copy.concat_undefined", "Kratos.Copy.refused_leaves", "Kratos.Copy.not_PortClaim", "Kratos.Copy.not_VarClaim"], "note": "follows_partial: for all trees of ordinary operators whose operands have equal widths and whose parameters are set from parameters of the parent declared alike, for all later values; accepted: such copies are accepted; accepted_clean and accepted_linked: nothing else is. The full claims are false of the code (not_PortClaim, not_VarClaim): conditional_undefined, concat_undefined, wider_wrong, refused_leaves, clash_undefined, var_untied"},
{"property": "C122", "status": "partial", "theorems": ["Kratos.ParamInline.width_partial", "Kratos.ParamInline.size_partial", "Kratos.ParamInline.plain_width", "Kratos.ParamInline.size_frozen", "Kratos.ParamInline.size_expression_frozen", "Kratos.ParamInline.width_number", "Kratos.ParamInline.width_expression_wrong", "Kratos.ParamInline.port_frozen", "Kratos.ParamInline.retied", "Kratos.ParamInline.stays", "Kratos.ParamInline.port_stays", "Kratos.ParamInline.not_VarClaim", "Kratos.ParamInline.not_PortClaim"], "note": "width_partial, size_partial: for shapes that are a parameter set from the parent's, for all later values; plain_width, size_frozen: what is not parametrised stays. The full claims are false of the code (not_VarClaim, not_PortClaim): size_expression_frozen, width_expression_wrong, retied and port_frozen say what happens instead"},
{"property": "C123", "status": "partial", "theorems": ["Kratos.Shared.concat_partial", "Kratos.Shared.others_keep_partial", "Kratos.Shared.width_partial", "Kratos.Shared.mixed_refused", "Kratos.Shared.stale", "Kratos.Shared.not_ConcatClaim", "Kratos.Shared.not_LocalClaim", "Kratos.Shared.not_WidthClaim"], "note": "concat_partial: for all histories in which the readers of the first operand were not moved; others_keep_partial: for statements that share no expression object with the moved ones; width_partial, mixed_refused: when readers move only to variables of the same width and sign. The full claims are false of the code (not_ConcatClaim, not_LocalClaim, not_WidthClaim); stale says what concat hands out after a move"},
{"property": "C124", "status": "partial", "theorems": ["Kratos.HExpr.handle_partial", "Kratos.HExpr.relative_partial", "Kratos.HExpr.relative_cat_throw", "Kratos.HExpr.relative_operator", "Kratos.HExpr.handle_diverges_iff", "Kratos.HExpr.handle_index_wrong", "Kratos.HExpr.handle_cast_wrong", "Kratos.HExpr.handle_param_wrong", "Kratos.HExpr.handle_cond_ambiguous", "Kratos.HExpr.same_text", "Kratos.HExpr.relative_unrefused", "Kratos.HExpr.not_HandleClaim", "Kratos.HExpr.not_RelativeClaim"], "note": "handle_partial: variables, slices and elements at constant indices, constants, operators, concatenations and conditionals over plain conditions; relative_partial: the same without operators. handle_diverges_iff says exactly when the call never returns. The full claims are false of the code (not_HandleClaim, not_RelativeClaim, with the causes in the other theorems)"},
{"property": "C125", "status": "partial", "theorems": ["Kratos.LineTable.first_line", "Kratos.LineTable.entry_iff", "Kratos.LineTable.sound_partial", "Kratos.LineTable.complete_partial", "Kratos.LineTable.extract_iff", "Kratos.LineTable.extractGen_iff", "Kratos.LineTable.foreign_hides", "Kratos.LineTable.not_SoundClaim", "Kratos.LineTable.not_CompleteClaim"], "note": "entry_iff says what every entry is; sound_partial: if everything reached from the module is printed in it; complete_partial: for the kinds of objects the visitor knows. The full claims are false of the code (not_SoundClaim, not_CompleteClaim)"},
{"property": "C126", "status": "partial", "theorems": ["Kratos.PyDecl.others_keep", "Kratos.PyDecl.declare_partial", "Kratos.PyDecl.again_iff", "Kratos.PyDecl.again_size_wrong", "Kratos.PyDecl.enum_wrong", "Kratos.PyDecl.struct_wrong", "Kratos.PyDecl.again_packs", "Kratos.PyDecl.var_is_port", "Kratos.PyDecl.port_is_gone", "Kratos.PyDecl.not_AskedClaim", "Kratos.PyDecl.not_AtomicClaim", "Kratos.PyDecl.not_AgainClaim", "Kratos.PyDecl.not_ClockClaim"], "note": "declare_partial: for a name not in use and arguments that have an effect, the call gives exactly the signal asked for, or is refused and changes nothing; again_iff says what a second declaration does. The full claims are false of the code (the not_ theorems)"},
{"property": "C127", "status": "partial", "theorems": ["Kratos.Events.fields_exact", "Kratos.Events.action_exact", "Kratos.Events.transaction_exact", "Kratos.Events.values_exact", "Kratos.Events.extract_partial", "Kratos.Events.extract_text", "Kratos.Events.flag_partial", "Kratos.Events.entry_exact", "Kratos.Events.not_EachClaim", "Kratos.Events.not_CombClaim", "Kratos.Events.not_LastMatchClaim"], "note": "extract_partial: every event of the design once, in the order first met; extract_text and flag_partial: if no event is shared by two blocks. The full claims are false of the code (the not_ theorems)"},
{"property": "C128", "status": "partial", "theorems": ["Kratos.EnumHelper.codes_exact", "Kratos.EnumHelper.defs_names", "Kratos.EnumHelper.defs_value", "Kratos.EnumHelper.given_width", "Kratos.EnumHelper.default_width_partial", "Kratos.EnumHelper.negative_refused", "Kratos.EnumHelper.declare_exact", "Kratos.EnumHelper.width_least", "Kratos.EnumHelper.names_partial", "Kratos.EnumHelper.zero_refused", "Kratos.EnumHelper.rounding_refused", "Kratos.EnumHelper.mixed_wrong", "Kratos.EnumHelper.repeat_wrong", "Kratos.EnumHelper.not_DistinctClaim", "Kratos.EnumHelper.not_AnyClaim"], "note": "names_partial: two or more different names get the codes 0, 1, 2, \u2026 and the least width; defs_value says what any list gives, repeated names included; given_width and default_width_partial say which definitions are accepted, declare_exact and width_least what they give. The full claims are false of the code (mixed lists collide, a single state is refused)"},
{"property": "C129", "status": "partial", "theorems": ["Kratos.AssertPos.asserts_report", "Kratos.AssertPos.asserts_report_partial", "Kratos.AssertPos.not_reports", "Kratos.AssertPos.block_ok_iff", "Kratos.AssertPos.inject_only_reports", "Kratos.AssertPos.inject_ok_iff", "Kratos.AssertPos.property_reports_pass", "Kratos.AssertPos.not_property"], "note": "asserts_report_partial: functions with no assert_ inside a test; asserts_report says for every function which position each assertion reports. The full claims are false of the code (nested assert_, asserted properties)"},
{"property": "C13", "status": "partial", "theorems": ["Kratos.Opt.if_to_case_counterexample", "Kratos.Opt.if_to_case_partial", "Kratos.Opt.case_order_irrelevant", "Kratos.Opt.if_to_case_wide_ub"], "note": "false of the code when a label repeats in the chain; proved for chains without repeated labels"},
{"property": "C130", "status": "partial", "theorems": ["Kratos.AddChild.addChild_ok_iff", "Kratos.AddChild.addChild_does", "Kratos.AddChild.addChild_refused", "Kratos.AddChild.deferred_unwired", "Kratos.AddChild.all_wired_partial", "Kratos.AddChild.string_partial", "Kratos.AddChild.param_hides_port", "Kratos.AddChild.not_AtomicClaim", "Kratos.AddChild.not_DeferredClaim", "Kratos.AddChild.not_AllWiredClaim", "Kratos.AddChild.not_StringClaim"], "note": "addChild_ok_iff and addChild_does say when a call on a generator that is no copy is accepted and what it does; all_wired_partial: every keyword naming a port and no parameter is wired; the other claims are false of the code and refuted"},
{"property": "C131", "status": "partial", "theorems": ["Kratos.FuncCall.call_typed", "Kratos.FuncCall.call_keeps", "Kratos.FuncCall.first_call", "Kratos.FuncCall.call_partial", "Kratos.FuncCall.again_partial", "Kratos.FuncCall.stuck", "Kratos.FuncCall.not_PositionClaim", "Kratos.FuncCall.not_TranslatedClaim", "Kratos.FuncCall.not_AgainClaim", "Kratos.FuncCall.not_RetryClaim"], "note": "call_typed, call_keeps and first_call hold in every state; call_partial for generators with distinct names that are kept and consistent methods; the unrestricted claims are false of the code and refuted"},
{"property": "C132", "status": "partial", "theorems": ["Kratos.Always.add_ok", "Kratos.Always.add_ok_iff", "Kratos.Always.add_refused", "Kratos.Always.bare_refused", "Kratos.Always.decorator_partial", "Kratos.Always.not_AtomicClaim", "Kratos.Always.not_QualifiedClaim", "Kratos.Always.not_DecoratorClaim"], "note": "add_ok and add_ok_iff say when a call is accepted and what it does, for every environment; decorator_partial if names mean the same at definition and at addition; the other claims are false of the code and refuted"},
{"property": "C133", "status": "partial", "theorems": ["Kratos.Remove.remove_in", "Kratos.Remove.remove_partial", "Kratos.Remove.batch", "Kratos.Remove.batch_partial", "Kratos.Remove.genRemove_gen", "Kratos.Remove.loop_kept", "Kratos.Remove.loop_reached", "Kratos.Remove.shared_kept", "Kratos.Remove.twice_kept", "Kratos.Remove.batch_twice", "Kratos.Remove.batch_return", "Kratos.Remove.not_RemoveClaim", "Kratos.Remove.not_BatchClaim"], "note": "Removal proved exact after every careful history except directly inside an added loop; batches characterised for every sequence of calls, and equal to immediate removal if nothing is twice or comes back. The five failures are theorems."},
{"property": "C134", "status": "partial", "theorems": ["Kratos.Sim.pulse_partial", "Kratos.Sim.cycle_partial", "Kratos.Sim.reset_partial", "Kratos.Sim.pulse_unique", "Kratos.Sim.no_clock", "Kratos.Sim.no_reset", "Kratos.Sim.demo_drives", "Kratos.Sim.demo_cycle", "Kratos.Sim.demo_reset", "Kratos.Sim.high_clock_lost", "Kratos.Sim.not_CycleClaim"], "note": "false: if the clock is high before, the first cycle of cycle() makes no rising edge and is lost; proved for a low clock (an inactive reset), one register block on it, values known and the conditions of C54"},
{"property": "C135", "status": "partial", "theorems": ["Kratos.Drivers.find_ends", "Kratos.Drivers.reported_reads", "Kratos.Drivers.plain_reported_partial", "Kratos.Drivers.driver_partial", "Kratos.Drivers.demo_design", "Kratos.Drivers.demo_linked", "Kratos.Drivers.demo_find", "Kratos.Drivers.slice_not_reported", "Kratos.Drivers.slice_target_missing", "Kratos.Drivers.cast_not_reported", "Kratos.Drivers.port_missing", "Kratos.Drivers.not_DriverClaim"], "note": "completeness is false: a variable read through a slice, a cast or a variable index, or that is a port or an enumeration variable, is not told as a driver, and a variable assigned through slices only, or a port, has no entry; soundness and termination are proved for all designs, completeness for whole variables assigned expressions of variables, constants and operators"},
{"property": "C136", "status": "partial", "theorems": ["Kratos.DebugTable.walk_meets", "Kratos.DebugTable.debug_vars_partial", "Kratos.DebugTable.ext_fs", "Kratos.DebugTable.ext_plain", "Kratos.DebugTable.place_spec", "Kratos.DebugTable.hidden_file", "Kratos.DebugTable.demo_ok", "Kratos.DebugTable.string_taken_for_variable", "Kratos.DebugTable.slice_taken_for_value", "Kratos.DebugTable.parameter_not_shown", "Kratos.DebugTable.not_DebugVarsClaim"], "note": "false: a Python string equal to the name of a variable is shown as that variable, a slice (or any signal that is not a variable of the generator) as a constant string, a parameter not at all; proved otherwise, with the walk and the places for all inputs"},
{"property": "C137", "status": "partial", "theorems": ["Kratos.CaseCalls.case_runs", "Kratos.CaseCalls.case_accepted", "Kratos.CaseCalls.keyOf_ok", "Kratos.CaseCalls.atomic_partial", "Kratos.CaseCalls.print_partial", "Kratos.CaseCalls.not_AtomicClaim", "Kratos.CaseCalls.not_PrintClaim"], "note": "case_runs and case_accepted hold for all accepted calls; false: a call refused for a later argument leaves the earlier ones in the switch, and an empty block makes a case that cannot be printed"},
{"property": "C138", "status": "partial", "theorems": ["Kratos.Reduce.reduce_means", "Kratos.Reduce.concat_parts", "Kratos.Reduce.concat_signs", "Kratos.Reduce.few", "Kratos.Reduce.list_partial", "Kratos.Reduce.not_ListClaim"], "note": "everything but the last sentence is proved; false: a list of two or more objects is given back as it is"},
{"property": "C14", "status": "partial", "theorems": ["Kratos.Opt.merge_if_counterexample_else", "Kratos.Opt.merge_if_counterexample_between", "Kratos.Opt.merge_if_partial"], "note": "false of the code when an if has an else or statements in between write the predicate; proved otherwise"},
{"property": "C15", "status": "partial", "theorems": ["Kratos.Opt.remove_empty_partial", "Kratos.Opt.remove_empty_both_ub", "Kratos.Opt.remove_empty_counterexample_ub", "Kratos.Opt.remove_empty_counterexample_wide", "Kratos.Opt.remove_empty_counterexample_nested", "Kratos.Opt.remove_empty_counterexample_default"], "note": "false of the code for the four families shown; proved for all other trees"},
{"property": "C16", "status": "partial", "theorems": ["Kratos.MergeW.merge_drivers_partial", "Kratos.MergeW.merge_clocked_partial", "Kratos.MergeW.others_kept", "Kratos.MergeW.new_assignments_legal", "Kratos.MergeW.not_MergeClaim", "Kratos.MergeW.swap_lost", "Kratos.MergeW.blocking_reordered", "Kratos.MergeW.only_counted"], "note": "When every merged statement connects equal bit positions, each bit keeps exactly its drivers, and a clocked (non-blocking) block commits the same registers. The full claim is false: slice indices are never compared (a bit swap becomes a copy), only the number of statements is, and in a block of blocking assignments the merged statement moves behind its readers."},
{"property": "C17", "status": "partial", "theorems": ["Kratos.Pipe.pipeline_partial", "Kratos.Pipe.pipeline_every_step_partial", "Kratos.Pipe.counter_slows_down", "Kratos.Pipe.not_PipelineClaim"], "note": "Every module without output reads: any number of stages, any inputs and edges. False when the module reads its own output (a counter): the feedback is delayed too."},
{"property": "C18", "status": "partial", "theorems": ["Kratos.Gate.enabled_same", "Kratos.Gate.clock_enable_partial", "Kratos.Gate.second_statement_not_gated", "Kratos.Gate.reset_gated", "Kratos.Gate.call_refused", "Kratos.Gate.not_EnableClaim"], "note": "Enabled: unconditional. Disabled/reset: blocks whose reset is the only statement and that are not hand-gated; counterexamples for both exceptions."},
{"property": "C19", "status": "partial", "theorems": ["Kratos.Gate.sync_off_same", "Kratos.Gate.sync_reset_partial", "Kratos.Gate.no_sync_reset", "Kratos.Gate.not_SyncClaim"], "note": "Deasserted: unconditional. Asserted: single reset-if blocks; blocks with a statement after the reset get no synchronous reset."},
{"property": "C20", "status": "proved", "theorems": ["Kratos.Sort.sorted", "Kratos.Sort.sort_accepts", "Kratos.Sort.initial_sorted", "Kratos.Sort.StablySorted.unique"], "note": "sort_stmts and sort_initial_stmts produce the unique stable sort; refusals characterised."},
{"property": "C21", "status": "partial", "theorems": ["Kratos.Zero.zero_exact_partial", "Kratos.Zero.zero_generator_partial", "Kratos.Zero.outputs_untouched", "Kratos.Zero.zero_total", "Kratos.Zero.stub_zeroed_partial", "Kratos.Zero.not_ZeroClaim", "Kratos.Zero.signed_stub_refused", "Kratos.Zero.enum_stub_refused", "Kratos.Zero.not_StubClaim", "Kratos.Zero.enum_refused", "Kratos.Zero.driven_by_parts_ub", "Kratos.Zero.irregular_refused", "Kratos.Zero.nested_array_wrong"], "note": "exact for ports without dimensions or with one; a fully driven port that is driven in parts is undefined behaviour, nested arrays are zeroed wrongly"},
{"property": "C22", "status": "partial", "theorems": ["Kratos.Dead.outputs_unchanged_partial", "Kratos.Dead.dead_code_partial", "Kratos.Dead.dead_vars_partial", "Kratos.Dead.gone_candidate", "Kratos.Dead.varLoop_complete", "Kratos.Dead.unused_vars_unmentioned", "Kratos.Dead.unused_vars_complete", "Kratos.Dead.unused_stmts_tick", "Kratos.Dead.not_DeadClaim", "Kratos.Dead.clock_unwired", "Kratos.Dead.concat_target_lost", "Kratos.Dead.undriven_output_takes_reader", "Kratos.Dead.call_argument_lost", "Kratos.Dead.silent_instance_lost", "Kratos.Dead.unused_clock_removed", "Kratos.Dead.stale_slice_kept", "Kratos.Dead.black_box_removed", "Kratos.Dead.external_lost"], "note": "Dead-code elimination over the flattened design: for every schedule of assignments, clock ticks and input changes every variable that is left keeps its value, for designs with one target per assignment where no removable variable is an event control or a call argument and no assignment reads an undriven instance output. False in general: the clock port of an instance is not a registered reader and is unwired (not_DeadClaim), every external module loses all its ports (black_box_removed, external_lost), and four further witnesses."},
{"property": "C23", "status": "partial", "theorems": ["Kratos.Fanout.fanout_partial", "Kratos.Fanout.fanout_wires_partial", "Kratos.Fanout.input_lost", "Kratos.Fanout.output_lost", "Kratos.Fanout.output_twice", "Kratos.Fanout.loop_diverges", "Kratos.Fanout.not_FanoutClaim", "Kratos.PassT.pass_through_partial", "Kratos.PassT.not_PassClaim", "Kratos.PassT.latch_removed", "Kratos.PassT.slice_lost", "Kratos.PassT.clone_refused"], "note": "Wires: proved for chains without ports in the middle. Pass-through modules: proved for modules whose statements are top-level assignments of whole ports. The full claim is false: an input or output port in a wire chain loses its connection, a cycle of wires never ends, a module with a latch or with a sliced output is taken for a pass-through and its readers are deleted, and clones of a removed module are refused."},
{"property": "C24", "status": "partial", "theorems": ["Kratos.Kinds.fixed", "Kratos.Kinds.kinds_partial", "Kratos.Kinds.rejected_only", "Kratos.Kinds.latch_not_checked", "Kratos.Kinds.not_KindClaim"], "note": "Exact effect on every design; kinds fixed by the user in latches, initial/final blocks or unchecked blocks are not checked."},
{"property": "C25", "status": "partial", "theorems": ["Kratos.Ssa.ssa_partial", "Kratos.Ssa.single_assignment", "Kratos.Ssa.convert_iff", "Kratos.Ssa.not_SsaClaim", "Kratos.Ssa.elseReads_wrong", "Kratos.Ssa.attrBranches_wrong", "Kratos.Ssa.partBranch_wrong"], "note": "False of the code in general (three witnesses: reads in an else branch of variables assigned in the then branch, attributes assigned under an if, slices assigned under an if). ssa_partial proves it for all other bodies; single_assignment and convert_iff hold for all bodies."},
{"property": "C26", "status": "partial", "theorems": ["Kratos.Check.function_return_partial", "Kratos.Check.function_return_accept_paths", "Kratos.Check.function_return_reject_paths", "Kratos.Check.function_return_counterexample_loop", "Kratos.Check.function_return_counterexample_break", "Kratos.Check.check_wide_ub"], "note": "loops that run zero times and break make the claim false of the code; proved for the rest, and exact on control paths"},
{"property": "C27", "status": "partial", "theorems": ["Kratos.Check.latch_partial", "Kratos.Check.latch_paths_exact", "Kratos.Check.latch_counterexample_loop", "Kratos.Check.latch_slice_counterexample", "Kratos.Check.check_wide_ub"], "note": "combinational blocks; zero-trip loops and slice assignments make the claim false of the code"},
{"property": "C28", "status": "partial", "theorems": ["Kratos.Conn.connectivity_partial", "Kratos.Conn.connected_accepted", "Kratos.Conn.not_ConnectivityClaim", "Kratos.Conn.cast_part_refused", "Kratos.Conn.external_top"], "note": "exact for variables, constant slices and slices of whole variables by a variable; concatenations and casts on the left count as driving everything, parts of casts are refused"},
{"property": "C29", "status": "partial", "theorems": ["Kratos.Drv.single_driver_partial", "Kratos.Drv.comb_accepted", "Kratos.Drv.concat_two_drivers", "Kratos.Drv.for_two_drivers", "Kratos.Drv.dyn_two_drivers"], "note": "Plain targets outside for loops, any visiting order; counterexamples for concatenations, for loops and variable slices."},
{"property": "C30", "status": "partial", "theorems": ["Kratos.Drv.one_kind_partial", "Kratos.Drv.mixed_rejects", "Kratos.Drv.concat_not_checked"], "note": "All targets but concatenations and parts of casts; counterexample for concatenations."},
{"property": "C31", "status": "partial", "theorems": ["Kratos.Drv.no_loop_partial", "Kratos.Drv.loop_rejected_rightly", "Kratos.Drv.two_step_loop", "Kratos.Drv.slice_loop", "Kratos.Drv.condition_loop"], "note": "Exactly the direct loops are found; counterexamples for longer loops, slices and ternary conditions."},
{"property": "C32", "status": "partial", "theorems": ["Kratos.Enable.enable_exact_partial", "Kratos.Enable.no_condition_iff", "Kratos.Enable.enable_total", "Kratos.Enable.default_value", "Kratos.Enable.not_EnableClaim", "Kratos.Enable.blocking_not_seen", "Kratos.Enable.wide_predicate_refused", "Kratos.Enable.lone_default_ub"], "note": "exact for non-blocking code, loops that run and do not feed the conditions, and default cases with one other case; default cases of larger switches are compared with 1 (default_value, not_EnableClaim)"},
{"property": "C33", "status": "proved", "theorems": ["Kratos.Verify.assignments_good", "Kratos.Verify.good_accepted", "Kratos.Verify.const_accepted", "Kratos.Drv.wire_xor_block"], "note": "Every assignment of every accepted design; a variable is driven by wires only or inside blocks only."},
{"property": "C34", "status": "partial", "theorems": ["Kratos.Fsm.moore_trace_partial", "Kratos.Fsm.moore_counterexample_hold", "Kratos.Fsm.reset_counterexample", "Kratos.Fsm.comb_step", "Kratos.Fsm.hw_reset"], "note": "whole-history theorem for the register and the outputs; false of the code for states that hold their outputs, for active-low non-port resets and for colliding enum names, each shown by a counterexample"},
{"property": "C35", "status": "partial", "theorems": ["Kratos.Fsm.mealy_outputs_partial", "Kratos.Fsm.mealy_counterexample_single", "Kratos.Fsm.mealy_counterexample_last", "Kratos.Fsm.mealy_counterexample_default"], "note": "false of the code around unconditional transitions; proved for guarded ones"},
{"property": "C36", "status": "partial", "theorems": ["Kratos.Fsm.states_exact", "Kratos.Fsm.search_terminates", "Kratos.Fsm.encodings_partial", "Kratos.Fsm.encodings_flat", "Kratos.Fsm.encodings_counterexample"], "note": "full for machines without child FSMs; nested machines can have colliding names"},
{"property": "C37", "status": "partial", "theorems": ["Kratos.Fsm.construct_partial", "Kratos.Fsm.next_ok_iff", "Kratos.Fsm.outputs_complete", "Kratos.Fsm.missing_output_rejected", "Kratos.Fsm.construct_counterexample"], "note": "a second unconditional transition is accepted (and leads to undefined behaviour)"},
{"property": "C38", "status": "proved", "theorems": ["Kratos.Gen.unique_name_is_fresh", "Kratos.Gen.unique_name_terminates", "Kratos.Gen.unique_name_shape"], "note": "the generated name is free; the loop ends while fewer than 2^32 names are taken"},
{"property": "C39", "status": "partial", "theorems": ["Kratos.Gen.table_partial", "Kratos.Gen.names_partial", "Kratos.Gen.reindex_repairs", "Kratos.Gen.var_new", "Kratos.Gen.var_again", "Kratos.Gen.rename_moves", "Kratos.Gen.ports_out_of_step", "Kratos.Gen.port_over_variable", "Kratos.Gen.rename_drops_variable", "Kratos.Gen.failed_removal_loses_port", "Kratos.Gen.two_variables_one_name", "Kratos.Gen.same_array_twice_rejected", "Kratos.Gen.not_TableClaim"], "note": "the full claim (TableClaim) is false of the code: five histories break it; proved for every history of calls avoiding those"},
{"property": "C40", "status": "partial", "theorems": ["Kratos.Port.wire_sound_partial", "Kratos.Port.wire_order_partial", "Kratos.Port.wire_rejects", "Kratos.Port.not_WireClaim", "Kratos.Port.not_WireClaim_order", "Kratos.Port.foreign_instance_wired", "Kratos.Port.foreign_variables_wired", "Kratos.Port.interface_second_drives_input", "Kratos.Port.inout_order_matters"], "note": "false for interface ports given second, foreign variables, foreign instances with a shared name and (order) inout; proved for everything else"},
{"property": "C41", "status": "partial", "theorems": ["Kratos.Gen.index_partial", "Kratos.Gen.index_once", "Kratos.Gen.empty_name_breaks_index", "Kratos.Gen.not_IndexClaim"], "note": "false for generators renamed from the empty name; proved for every other history"},
{"property": "C42", "status": "partial", "theorems": ["Kratos.Gen.siblings_partial", "Kratos.Gen.listing_never_throws", "Kratos.Gen.add_duplicate_refused", "Kratos.Gen.rename_duplicate_refused", "Kratos.Gen.failed_add_clashes", "Kratos.Gen.added_twice_clashes", "Kratos.Gen.removes_wrong_child", "Kratos.Gen.not_SiblingsClaim"], "note": "false after a refused add, adding a child to two parents, or removing a foreign child; proved for all other histories"},
{"property": "C43", "status": "partial", "theorems": ["Kratos.Gen.uniquify_names_partial", "Kratos.Gen.uniquify_terminates", "Kratos.Gen.reorder_perm", "Kratos.Gen.reorder_tracked_first", "Kratos.Gen.clone_left_behind"], "note": "proved for registered, named generators; clones keep the old name (counterexample)"},
{"property": "C44", "status": "partial", "theorems": ["Kratos.ModHash.assignment_partial", "Kratos.ModHash.const_partial", "Kratos.ModHash.op_partial", "Kratos.ModHash.operand_partial", "Kratos.ModHash.name_counts", "Kratos.ModHash.word_counts", "Kratos.ModHash.merged_iff", "Kratos.ModHash.like_same_hash", "Kratos.ModHash.not_MergeClaim"], "note": "False of the code (not_MergeClaim: modules computing a - b and b - a under one name are given one module name). like_same_hash lists, for all bodies, the differences the hash does not read; merged_iff: merged exactly when the hashes agree; the _partial theorems: a difference in one assignment at any depth is seen in modules with at most three hash entries. Missing: larger modules (hash collisions exist by counting)."},
{"property": "C45", "status": "proved", "theorems": ["Kratos.Graph.sorted_bottom_up", "Kratos.Graph.parallel_bottom_up", "Kratos.Graph.levels_are_depths", "Kratos.Graph.tree_accepted", "Kratos.Graph.shared_rejected", "Kratos.Graph.graph_nodes", "Kratos.Graph.graph_edges"], "note": "both bottom-up orders, for every container order; every finite tree is accepted, anything else raises"},
{"property": "C46", "status": "proved", "theorems": ["Kratos.Graph.struct_order", "Kratos.Graph.emitted_in_order", "Kratos.Graph.collect_spec"], "note": "for every set of definitions whose type names do not need themselves and every container order"},
{"property": "C47", "status": "partial", "theorems": ["Kratos.Graph.visits_once_partial", "Kratos.Graph.parents_first_in_trees", "Kratos.Graph.not_VisitorClaim", "Kratos.Graph.root_visited_twice", "Kratos.Graph.visit_s_repeats", "Kratos.Graph.visit_s_same_on_trees", "Kratos.Graph.removal_safe", "Kratos.Graph.removing_siblings_skips"], "note": "exactly once and after a parent; with sharing a node is visited before its second parent (counterexample)"},
{"property": "C48", "status": "partial", "theorems": ["Kratos.StmtText.printed_iff", "Kratos.StmtText.text_reads", "Kratos.StmtText.reads_unique", "Kratos.StmtText.stmt_text_partial", "Kratos.StmtText.block_text_partial", "Kratos.StmtText.not_TextClaim", "Kratos.StmtText.sample_ok"], "note": "Reading back is proved for every printable statement (no hypothesis), as a recursive-descent reader of the standard's grammar; behaviour is proved for every statement whose loops are good in the sense of C49 and whose case labels differ. The full claim is false: not_TextClaim. Expressions are single tokens (their text is C06/C07)."},
{"property": "C49", "status": "partial", "theorems": ["Kratos.ForText.for_text_iff", "Kratos.ForText.for_up_partial", "Kratos.ForText.for_down_partial", "Kratos.ForText.for_up_int_partial", "Kratos.ForText.for_down_int_partial", "Kratos.ForText.runs_unique", "Kratos.ForText.wrong_direction", "Kratos.ForText.down_by_two_forever", "Kratos.ForText.not_ForClaim"], "note": "for_text_iff is an exact characterisation for bounds that fit the declared type; the full claim is false: `for (int unsigned i = 5; i > 0; i -= 2)` does not end, and a loop with a step in the wrong direction runs."},
{"property": "C50", "status": "partial", "theorems": ["Kratos.Inst.instance_partial", "Kratos.Inst.shared_partial", "Kratos.Inst.path_partial", "Kratos.Inst.negative_wraps", "Kratos.Inst.tied_then_set", "Kratos.Inst.enum_value", "Kratos.Inst.raw_default", "Kratos.Inst.not_InstClaim"], "note": "Proved for every tame history and every depth of instances, also when the module is printed from another generator with the same declarations. False in general: a parameter set from its parent's and then to a number, parameters of enumeration type, raw types with a default, negative values."},
{"property": "C51", "status": "partial", "theorems": ["Kratos.Lines.lines_exact", "Kratos.Lines.lines_place_partial", "Kratos.Lines.lines_partial", "Kratos.Lines.bare_functions_shift", "Kratos.Lines.always_ff_before", "Kratos.Lines.starts_are_texts", "Kratos.Lines.file_lines", "Kratos.Lines.always_ff_line", "Kratos.Lines.bare_function_line", "Kratos.Lines.connection_line", "Kratos.Lines.not_LineClaim"], "note": "False of the code: always_ff blocks are recorded one line early, every connection but the first at the line of the first, and a function without ports puts everything after it one line short; in a combined file top-level statements are not moved. Exact offsets proved for every module; the claim proved for modules without these."},
{"property": "C52", "status": "partial", "theorems": ["Kratos.Names.accepted_iff", "Kratos.Names.refused_iff", "Kratos.Names.accepted_partial", "Kratos.Names.declared_names_ok", "Kratos.Names.not_NameClaim", "Kratos.Names.empty_name_accepted", "Kratos.Names.rename_unchecked"], "note": "The check refuses exactly the 248 reserved words of IEEE 1800-2017; it does not look at characters, and renaming a variable is not checked at all."},
{"property": "C53", "status": "partial", "theorems": ["Kratos.Sim.seq_partial", "Kratos.Sim.seq_exact", "Kratos.Sim.seq_not_triggered", "Kratos.Sim.triggered_iff", "Kratos.Sim.not_SeqClaim", "Kratos.Sim.first_assignment_wins", "Kratos.Sim.two_blocks_race"], "note": "false: the first assignment of a block wins, and blocks on one clock see each other's updates; proved for one block that updates no variable twice (exact result otherwise)"},
{"property": "C54", "status": "partial", "theorems": ["Kratos.Sim.settle_partial", "Kratos.Sim.settle_solves", "Kratos.Sim.settle_order_independent", "Kratos.Sim.solution_unique", "Kratos.Sim.demo_clean", "Kratos.Sim.demo_quiet", "Kratos.Sim.demo_acyclic", "Kratos.Sim.demo_covers", "Kratos.Sim.demo_known", "Kratos.Sim.not_SettleClaim", "Kratos.Sim.ternary_condition_ignored", "Kratos.Sim.constant_expression_ignored", "Kratos.Sim.oversized_value_not_told"], "note": "false: ternary conditions are not dependencies, constant expressions are never evaluated, oversized values are not propagated; proved for designs without these, after every history, in every iteration order"},
{"property": "C55", "status": "partial", "theorems": ["Kratos.Sim.static_partial", "Kratos.Sim.static_needs_values", "Kratos.Sim.static_depends_on_variable", "Kratos.Sim.not_StaticClaim", "Kratos.Sim.static_constant_slice_diverges", "Kratos.Sim.static_negative_constant", "Kratos.Sim.bit_select_wrong", "Kratos.Sim.range_select_fails", "Kratos.Sim.bit_write_clobbers"], "note": "value correct for closed slice-free expressions; negation and slice defects shown"},
{"property": "C56", "status": "partial", "theorems": ["Kratos.Sram.read_partial", "Kratos.Sram.large_partial", "Kratos.Sram.bank_has", "Kratos.Sram.write_shows", "Kratos.Sram.holes", "Kratos.Sram.capacity_of_bank", "Kratos.Sram.build_iff", "Kratos.Sram.single_refused", "Kratos.Sram.large_macro", "Kratos.Sram.not_BankClaim"], "note": "Reads: for every nesting of banks, every number of copies, sizes and history a read of an existing address shows the last value written, bit for bit, and the output holds while idle; same as one large macro. False of the code: the output after a write differs from that of one macro, and with a number of copies that is not a power of two capacity() counts addresses that do not exist."},
{"property": "C57", "status": "partial", "theorems": ["Kratos.Port.flip_partial", "Kratos.Port.duplicate_refused", "Kratos.Port.bundle_assign", "Kratos.Port.not_FlipClaim", "Kratos.Port.refused_inout_kept", "Kratos.Port.flip_forgets_name", "Kratos.Port.bundle_assign_not_atomic"], "note": "members proved for in/out histories; the flipped bundle loses its name and a refused inout member stays behind"},
{"property": "C58", "status": "proved", "theorems": ["Kratos.Text.tokens_spec", "Kratos.Text.tokens_of_pieces", "Kratos.Text.tokens_join"], "note": ""},
{"property": "C59", "status": "partial", "theorems": ["Kratos.Text.wrap_words", "Kratos.Text.wrap_reads_back", "Kratos.Text.wrap_width_partial", "Kratos.Text.wrap_width", "Kratos.Text.wrap_greedy", "Kratos.Text.wrap_after_long", "Kratos.Text.not_WrapClaim"], "note": "Words are always preserved; the width limit holds for texts without over-long words. An over-long word makes the remaining-space counter wrap below zero and nothing after it is broken."},
{"property": "C60", "status": "partial", "theorems": ["Kratos.Fault.fault_partial", "Kratos.Fault.fault_coverage", "Kratos.Fault.fault_again", "Kratos.Fault.fresh_new", "Kratos.Fault.fresh_addRun", "Kratos.Fault.switch_not_reported", "Kratos.Fault.late_state_ignored", "Kratos.Fault.not_FaultClaim"], "note": "Exact for designs without switch statements while computed coverage is current; blocks inside switch statements are never reported, and data added to a run after the first analysis is ignored."},
{"property": "C61", "status": "proved", "theorems": ["Kratos.Util.clog2_least", "Kratos.Util.clog2_zero_ub", "Kratos.Util.is_2_power_iff"], "note": "all non-zero 32-bit arguments; clog2(0) is undefined behaviour"},
{"property": "C62", "status": "proved", "theorems": ["Kratos.XXHash.streaming", "Kratos.XXHash.streaming_from", "Kratos.XXHash.is_xxh64", "Kratos.XXHash.add_empty", "Kratos.XXHash.add_nonempty", "Kratos.XXHash.buffer_bound"], "note": ""},
{"property": "C63", "status": "proved", "theorems": ["Kratos.Pass.run_spec", "Kratos.Pass.register_refused_iff", "Kratos.Pass.add_refused_iff", "Kratos.Pass.run_twice", "Kratos.Pass.added_twice_runs_twice"], "note": "A pass added twice runs twice: duplicate names are rejected on registration, not on addition."},
{"property": "C64", "status": "partial", "theorems": ["Kratos.Heap.no_twice", "Kratos.Heap.one_body", "Kratos.Heap.added", "Kratos.Heap.rejected", "Kratos.Heap.removed", "Kratos.Heap.tree_partial", "Kratos.Heap.tree_no_loops", "Kratos.Heap.shared_statement", "Kratos.Heap.loop_parent", "Kratos.Heap.self_inside", "Kratos.Heap.setChild_duplicates", "Kratos.Heap.setConst_same_case", "Kratos.Heap.generator_twice", "Kratos.Heap.not_TreeClaim"], "note": "No duplicates and one body per case value hold for every history (set_child, constant changes excepted); single holder, right parents and acyclicity for every history that adds only detached statements. Five ways the full claim fails are proved."},
{"property": "C65", "status": "partial", "theorems": ["Kratos.Port.typing_partial", "Kratos.Port.not_TypingClaim", "Kratos.Port.data_port_drives_clock", "Kratos.Port.slice_skips_typing"], "note": "false for port sources (any port type is accepted) and slices of the port; proved otherwise"},
{"property": "C66", "status": "partial", "theorems": ["Kratos.Gen.transfer_partial", "Kratos.Gen.transfer_keeps", "Kratos.Gen.transfer_free", "Kratos.Gen.transfer_loses_variable", "Kratos.Gen.not_TransferClaim"], "note": "false when the prefixed name is taken in the parent; proved otherwise"},
{"property": "C67", "status": "partial", "theorems": ["Kratos.Graph.one_meaning_partial", "Kratos.Graph.conflict_rejected", "Kratos.Graph.conflicting_structs_accepted", "Kratos.Graph.not_OneMeaningClaim", "Kratos.Graph.same_layout", "Kratos.Graph.same_flat"], "note": "false for nested structs: field and type names are not compared; proved for flat structs, layout agreement in general"},
{"property": "C68", "status": "partial", "theorems": ["Kratos.Port.lvalue_partial", "Kratos.Port.lvalue_accepted", "Kratos.Port.constants_refused", "Kratos.Port.operators_refused", "Kratos.Port.not_LvalueClaim", "Kratos.Port.parameter_assignable", "Kratos.Port.constant_slice_assignable", "Kratos.Port.sum_slice_assignable", "Kratos.Port.constant_in_concat_assignable"], "note": "all lvalues are accepted; refusal fails for parameters, parts of constants and expressions, and constants inside concatenations"},
{"property": "C69", "status": "partial", "theorems": ["Kratos.Gate.clone_eq"], "note": "Behaviour copied exactly; delays (dropped by the code, src/stmt.cc:217) are not in the model."},
{"property": "C70", "status": "partial", "theorems": ["Kratos.StmtText.assert_value", "Kratos.StmtText.assert_property_swapped", "Kratos.StmtText.not_assert_property"], "note": "Holds for immediate assertions; for properties the keyword else is missing, so the action is read as the one to run on success."},
{"property": "C71", "status": "partial", "theorems": ["Kratos.Lines.comment_partial", "Kratos.Lines.comment_one_line", "Kratos.Lines.comment_truncated", "Kratos.Lines.comment_leaks", "Kratos.Lines.not_CommentClaim"], "note": "False of the code: a comment with a line break keeps only its first character and what follows the last break, and a leading line break turns the rest into code. Proved exactly; the claim holds for comments without line breaks."},
{"property": "C72", "status": "partial", "theorems": ["Kratos.Content.polarity_partial", "Kratos.Content.polarity_exact", "Kratos.Content.not_OwnListClaim", "Kratos.Content.not_WiresClaim", "Kratos.Content.not_DeclaredClaim", "Kratos.Content.not_OrderClaim"], "note": "One edge per asynchronous reset, as declared, and tests with its polarity: proved for all designs, with an exact characterisation of the accepted ones. False of the code: a block may test an asynchronous reset it is not triggered by; resets wired together are not compared; synchronous resets may be tested against their declaration; the verdict depends on the order of blocks."},
{"property": "C73", "status": "partial", "theorems": ["Kratos.Content.sensitivity_exact", "Kratos.Content.remove_async_clocks", "Kratos.Content.remove_async_aligned", "Kratos.Content.remove_async_ignored", "Kratos.Content.not_WiredTypesClaim", "Kratos.Content.not_TriggerClaim"], "note": "Exact characterisation of the check, and all that is claimed of the pass. In addition, false of the code: wired ports keep equal types (the port of a parent without registers stays an asynchronous reset), and every block keeps a trigger."},
{"property": "C74", "status": "partial", "theorems": ["Kratos.Content.synth_partial", "Kratos.Content.synth_refused_partial", "Kratos.Content.synth_missed", "Kratos.Content.not_SynthClaim", "Kratos.Content.not_SynthRefusalClaim"], "note": "False of the code both ways: final blocks, delay statements and calls in returns, assertions, arguments and slices are missed, and every system function in an expression is refused, also clog2. Proved for what is visited."},
{"property": "C75", "status": "partial", "theorems": ["Kratos.Replace.replace_exact", "Kratos.Replace.replace_ok", "Kratos.Replace.replace_partial", "Kratos.Replace.replace_frame", "Kratos.Replace.again", "Kratos.Replace.not_ReplaceClaim", "Kratos.Replace.not_MovableClaim", "Kratos.Replace.extend_lost", "Kratos.Replace.condition_lost", "Kratos.Replace.concat_lost", "Kratos.Replace.second_lost", "Kratos.Replace.cast_lost", "Kratos.Replace.index_lost", "Kratos.Replace.slice_lost", "Kratos.Replace.test_lost", "Kratos.Replace.index_refused", "Kratos.Replace.left_refused", "Kratos.Replace.call_refused", "Kratos.Replace.captured_wrong", "Kratos.Replace.resolve_self"], "note": "False of the code: references inside extensions, casts and indices below an operator, slices in concatenations and conditions, second occurrences in a concatenation and variables tested directly by if or case are kept, and indices and calls are refused. Proved: the call removes all references exactly if they are in the places that are looked at, and then the text is the old one with the new name; other generators are untouched."},
{"property": "C76", "status": "partial", "theorems": ["Kratos.Decouple.connect_partial", "Kratos.Decouple.connect_ports", "Kratos.Decouple.connect_plain", "Kratos.Decouple.connect_closed", "Kratos.Decouple.not_ConnectClaim", "Kratos.Decouple.extend_lost", "Kratos.Decouple.index_refused", "Kratos.Decouple.constant_connected", "Kratos.Decouple.constant_refused", "Kratos.Decouple.inout_refused", "Kratos.Decouple.unconnected_missed", "Kratos.Decouple.slice_wrong"], "note": "Equivalence of statements before with connections and statements after, for all wirings both passes accept, and one connection per input and per output read; the parent mentions no port of a child if all references were where C75 finds them. False in full: some references keep the child's name, indices are refused, undriven inputs get a floating wire. Interface ports and packed structs are not modelled."},
{"property": "C77", "status": "partial", "theorems": ["Kratos.Legal.legal_partial", "Kratos.Legal.legal_text_partial", "Kratos.Legal.legal_frame", "Kratos.Legal.slice_wrong", "Kratos.Legal.cast_wrong", "Kratos.Legal.index_wrong", "Kratos.Legal.write_wrong", "Kratos.Legal.test_wrong", "Kratos.Legal.test_lost", "Kratos.Legal.not_LegalClaim"], "note": "False of the code: a slice, cast or index of the port is replaced as if it were the port itself, so x = child.in[0] becomes x = net; tests keep the port. Proved for statements that read the port by itself or under an operator, for all values and all meanings of operators; the text claim needs the positions of C75."},
{"property": "C78", "status": "partial", "theorems": ["Kratos.Lift.lift_partial", "Kratos.Lift.lift_shape", "Kratos.Lift.driven_twice_wrong", "Kratos.Lift.unconnected_ub", "Kratos.Lift.swapped_wrong", "Kratos.Lift.follow_wrong", "Kratos.Lift.var_index_wrong", "Kratos.Lift.mixed_wrong", "Kratos.Lift.constant_ub", "Kratos.Lift.nested_ub", "Kratos.Lift.not_LiftClaim", "Kratos.Lift.blockName_ok", "Kratos.Lift.blockName_ub", "Kratos.Lift.no_common_name_ub"], "note": "False of the code: the indices of different ports are checked separately, so instances from a[0] to b[1] and from a[1] to b[0] become a loop from a[i] to b[i]; an output is followed through any expression and its assignment stays, so the part is driven twice. Proved when each instance uses one index and followed assignments are copies. The block name is the longest common beginning without underscore at the end; without one the behaviour is undefined."},
{"property": "C79", "status": "partial", "theorems": ["Kratos.Elab.py_partial", "Kratos.Elab.not_PyClaim", "Kratos.Elab.drop_wrong", "Kratos.Elab.drop_hw_wrong", "Kratos.Elab.shadow_wrong", "Kratos.Elab.line_wrong", "Kratos.Elab.range_wrong", "Kratos.Elab.stale_wrong", "Kratos.Elab.not_flag_refused", "Kratos.Elab.mixed_refused", "Kratos.Elab.nested_refused"], "note": "The block does what the function says if no operand of and/or is `not` of a Python value, loop variables are used in their loops only, and no loop line is met twice. False in general: `first and not last` and `x == 1 and not flag` lose the `not` operand; names are looked up outside the function first; kept loops are identified by their line, so copies made by an unrolled loop around them share one body and one range; a loop variable used after its loop is not the last value."},
{"property": "C80", "status": "partial", "theorems": ["Kratos.Asrt.remove_partial", "Kratos.Asrt.remove_crash_iff", "Kratos.Asrt.not_RemoveClaim", "Kratos.Asrt.guarded_ub", "Kratos.Asrt.empty_if_ub", "Kratos.Asrt.clocked_ub", "Kratos.Asrt.other_blocks_missed", "Kratos.Asrt.default_wrong"], "note": "Everything else keeps its effect and none is left in combinational and clocked blocks and at the top, where pruning is right (C15). The crash is characterised exactly: an if with nothing left in both branches, as in `if (c) assert(x)`. False of the code further: assertions directly in initial, final, latch and function blocks stay, and removing assertions reads the event controls of clocked blocks as statements."},
{"property": "C81", "status": "partial", "theorems": ["Kratos.Iface.declare_partial", "Kratos.Iface.step_throws_iff", "Kratos.Iface.not_DeclareClaim", "Kratos.Iface.clash_wrong", "Kratos.Iface.misspelt_lost", "Kratos.Iface.inout_refused", "Kratos.Iface.modport_port_partial", "Kratos.Iface.modport_ref_partial", "Kratos.Iface.not_ModportRefClaim", "Kratos.Iface.modport_wire_wrong", "Kratos.Iface.wire_iff", "Kratos.Iface.inout_wrong", "Kratos.Iface.variables_wire_lost", "Kratos.Iface.modport_text_iff", "Kratos.Iface.both_text_wrong", "Kratos.Iface.empty_modport_refused", "Kratos.Iface.emit_partial", "Kratos.Iface.collect_iff", "Kratos.Iface.extract_partial", "Kratos.Iface.modports_lost", "Kratos.Iface.modport_only_lost", "Kratos.Iface.not_EmitClaim", "Kratos.Iface.header_partial", "Kratos.Iface.variables_header_lost", "Kratos.Iface.name_refused", "Kratos.Iface.name_reuse_wrong", "Kratos.Iface.clash_ub"], "note": "False of the code: get_modport_ref looks up the name of the modport instead of that of the signal (all variables become outputs); a signal may be both input and output, or port and variable; modports are not compared between same-named interfaces; an interface used only through modports is not emitted; a port interface with only variables is neither listed in the header nor wired. Proved: what is declared is exactly what was set, directions of a modport used as a port, wiring, text of an interface, agreement of same-named interfaces in any order."},
{"property": "C82", "status": "partial", "theorems": ["Kratos.Lists.header_partial", "Kratos.Lists.inout_ub", "Kratos.Lists.not_HeaderClaim", "Kratos.Lists.commas_spec", "Kratos.Lists.declared_partial", "Kratos.Lists.conns_partial", "Kratos.Lists.conns_once", "Kratos.Lists.conns_reproducible_partial", "Kratos.Lists.same_names_wrong", "Kratos.Lists.not_ReproducibleClaim"], "note": "False of the code: the comparison 'input before output' is not a strict weak ordering once an input, a bidirectional port and an output are present, so std::stable_sort is undefined; connections of two interfaces with a port of the same name come out in address order. Proved: completeness and uniqueness of the order in all other cases. std::sort and std::stable_sort are modelled by their contract."},
{"property": "C83", "status": "partial", "theorems": ["Kratos.Enm.declare_partial", "Kratos.Enm.declared_stays", "Kratos.Enm.enum_ok_iff", "Kratos.Enm.value_partial", "Kratos.Enm.type_partial", "Kratos.Enm.foreign_wrong", "Kratos.Enm.port_type_wrong", "Kratos.Enm.port_type_partial", "Kratos.Enm.same_value_wrong", "Kratos.Enm.empty_wrong", "Kratos.Enm.resized_wrong", "Kratos.Enm.not_LegalClaim", "Kratos.Enm.shadow_wrong", "Kratos.Enm.not_ValueClaim", "Kratos.Enm.clash_wrong", "Kratos.Enm.keyword_wrong", "Kratos.Enm.legal_partial", "Kratos.Enm.range_text", "Kratos.Enm.order_partial", "Kratos.Enm.assign_var_iff", "Kratos.Enm.assign_const_partial", "Kratos.Enm.assign_partial", "Kratos.Enm.same_name_wrong", "Kratos.Enm.not_AssignClaim", "Kratos.Enm.get_iff"], "note": "False of the code: duplicate values, no members, keywords as members and a variable named like a member are accepted; assigning a member to a wider plain variable resizes the literal in the type declaration; members of the context can be shadowed by those of a generator; assignments compare only the names of enums, which two generators may share; the type of a port declared in its own generator is not visible in the header. Proved: everything that holds within one scope, for all histories."},
{"property": "C84", "status": "partial", "theorems": ["Kratos.Hnd.handle_partial", "Kratos.Hnd.loop_wrong", "Kratos.Hnd.not_HandleClaim", "Kratos.Hnd.handle_unique", "Kratos.Hnd.relative_partial", "Kratos.Hnd.relative_refused", "Kratos.Hnd.sibling_wrong", "Kratos.Hnd.not_RelativeClaim", "Kratos.Hnd.reference_partial", "Kratos.Hnd.reference_wrong", "Kratos.Hnd.not_ReferenceClaim", "Kratos.Hnd.top_wrong"], "note": "False of the code: in a generate loop the index is put on the instance instead of the block; a relative name is given to variables of siblings whose name continues that of the scope; a reference printed from the top is captured by a child of the same name, and a variable of the top is printed without a path. Proved: everything else, for all hierarchies."},
{"property": "C85", "status": "partial", "theorems": ["Kratos.Bundle.struct_partial", "Kratos.Bundle.wanted_iff", "Kratos.Bundle.definitions_partial", "Kratos.Bundle.layout", "Kratos.Bundle.meaning", "Kratos.Bundle.accepts_partial", "Kratos.Bundle.own_output_lost", "Kratos.Bundle.test_lost", "Kratos.Bundle.not_StatementsClaim", "Kratos.Bundle.clash_ub", "Kratos.Bundle.mixed_ub", "Kratos.Bundle.not_AcceptsClaim", "Kratos.Bundle.text_ambiguous_wrong", "Kratos.Bundle.conflict_wrong", "Kratos.Bundle.not_DefinitionsClaim"], "note": "False of the code: an output the module reads itself and a condition that is a port of the bundle keep naming the removed port; a variable with the name of the bundle and a port used both in part and as a whole are undefined behaviour; the text hashed for a definition is ambiguous. Proved: which bundles are converted, the new port, its members and layout, what else changes (nothing), the renaming of every well placed statement and its meaning, and that the pass goes through when names are free and uses are not mixed."},
{"property": "C86", "status": "partial", "theorems": ["Kratos.Func.binds_partial", "Kratos.Func.binds_iff_adjacent", "Kratos.Func.decl_printed", "Kratos.Func.call_printed", "Kratos.Func.distinct_counts", "Kratos.Func.accepts_iff", "Kratos.Func.args_partial", "Kratos.Func.type_partial", "Kratos.Func.return_types", "Kratos.Func.children_partial", "Kratos.Func.child_lost", "Kratos.Func.pos_partial", "Kratos.Func.pos_wrong", "Kratos.Func.arity_partial", "Kratos.Func.same_text_wrong", "Kratos.Func.tie_wrong", "Kratos.Func.signed_wrong", "Kratos.Func.task_wrong", "Kratos.Func.arity_missed", "Kratos.Func.not_BindClaim", "Kratos.Func.not_ArgsClaim", "Kratos.Func.not_TypeClaim", "Kratos.Func.not_ChildrenClaim", "Kratos.Func.not_ArityClaim", "Kratos.Func.not_PosClaim"], "note": "False of the code: FunctionCallVar::to_string sorts the texts of the arguments by a table keyed by text, so f(a=x, b=y, c=x) is printed f(x, x, y); positional arguments of a built-in are keyed by the decimal text of their position, so from the eleventh argument on they are permuted; a place may be given twice; arguments without a port are accepted; a signed result is declared unsigned; a task can be used as a value; the arity of void built-ins is not checked; creating a built-in twice hides the next function from every traversal. Proved: binding for distinct texts and places, the exact condition on texts, exactly which calls are accepted, the types of returns and calls, and the traversal of histories without a repeated built-in."},
{"property": "C87", "status": "partial", "theorems": ["Kratos.Func.types_fit", "Kratos.Func.value_iff", "Kratos.Func.value_partial", "Kratos.Func.wide_lost", "Kratos.Func.describes_partial", "Kratos.Func.import_exists", "Kratos.Func.order_wrong", "Kratos.Func.width_wrong", "Kratos.Func.second_refused", "Kratos.Func.not_ValueClaim", "Kratos.Func.not_DescribesClaim", "Kratos.Func.not_SharedClaim"], "note": "False of the code: byte, shortint, int and longint are signed, so an unsigned port of exactly 8, 16, 32 or 64 bits with its top bit set arrives as a negative number, and ports over 64 bits are cut off; the visitor compares neither widths nor results nor orders of two declarations of a name; in Python the second generator that calls a DPI function gets a declaration without ports, so the extraction refuses the design. Proved: exactly which values arrive, that the line has the ports, directions, signs and attribute of every function of the name, that it describes the function it was made from, and that a line can always be printed."},
{"property": "C88", "status": "partial", "theorems": ["Kratos.Ssa.debug_partial", "Kratos.Ssa.accepted_iff", "Kratos.Ssa.settles", "Kratos.Ssa.fix_linear", "Kratos.Ssa.hidden_wrong", "Kratos.Ssa.neg_wrong", "Kratos.Ssa.added_wrong", "Kratos.Ssa.attr_refused", "Kratos.Ssa.not_DebugClaim"], "note": "False of the code: the mapping of names to versions is carried along linearly, so the second branch of an if shows the versions of the first branch; the condition of the second branch is the bitwise complement of the test, so a breakpoint there also stops when a test of several bits is true; the statements that the conversion adds are breakpoints too. Proved for all bodies, worlds and settled states (which exist from every start): a breakpoint at a written assignment stops exactly if the assignment runs and shows the right values except for names hidden by the first branch of an if, when complements are negations; the functions accepted are exactly those that are converted and assign whole variables."},
{"property": "C89", "status": "partial", "theorems": ["Kratos.MergeConst.merge_partial", "Kratos.MergeConst.inverted_wrong", "Kratos.MergeConst.block_lost", "Kratos.MergeConst.slice_wrong", "Kratos.MergeConst.slice_refused", "Kratos.MergeConst.not_MergeClaim"], "note": "False of the code: what the port reads is not looked at, so child.p = ~v with v = 0 becomes child.p = 0; a constant for one bit of the wire is stretched to the port; a wire of which the port reads one bit makes the pass throw; a wire assigned in an always_comb block loses its declaration but not its assignment. Proved for all designs in which the statements of the wires taken out stand directly in the generator, assign the whole wire and read the wire itself: accepted, exactly these wires removed, none mentioned any more, all other values the same for every meaning of operators and blocks."},
{"property": "C90", "status": "partial", "theorems": ["Kratos.Cache.order_free", "Kratos.Cache.again_copy", "Kratos.Cache.swapped_key", "Kratos.Cache.equal_key", "Kratos.Cache.swapped_wrong", "Kratos.Cache.equal_wrong", "Kratos.Cache.cache_partial", "Kratos.Cache.not_CacheClaim", "Kratos.Cache.init_iff", "Kratos.Cache.init_body_partial", "Kratos.Cache.init_again", "Kratos.Cache.wiring_lost", "Kratos.Cache.options_lost", "Kratos.Cache.sequential_refused", "Kratos.Cache.not_InitClaim", "Kratos.Cache.text_partial", "Kratos.Cache.uninitialised_wrong", "Kratos.Cache.clone_lost", "Kratos.Cache.not_TextClaim"], "note": "False of the code: the key is an exclusive or, so for every hash function create(k=a, l=b) and create(k=b, l=a) share a key, and so do (k=a, l=a) and (k=b, l=b): the second call returns a copy of the first generator; a copy writes add_child's connections and add_always' options (sensitivity among them) down without them, and replaying sequential raises half way; an uninitialized copy visited before its definition is written out with an empty body, and a clone() whose definition is part of another design is not written out at all. Proved: the exact condition under which initialization gives the constructor's generator; for all histories without colliding keys, every generator has a complete definition with its arguments; the text is right when names tell arguments apart and definitions come first."},
{"property": "C91", "status": "partial", "theorems": ["Kratos.Swap.accepted_same", "Kratos.Swap.swap_partial", "Kratos.Swap.swap_gone", "Kratos.Swap.swap_frame", "Kratos.Swap.count_refused", "Kratos.Swap.remove_partial", "Kratos.Swap.unwire_exact", "Kratos.Swap.refused_wrong", "Kratos.Swap.not_RefuseClaim", "Kratos.Swap.input_lost", "Kratos.Swap.test_lost", "Kratos.Swap.not_SwapClaim", "Kratos.Swap.index_refused", "Kratos.Swap.not_AcceptClaim", "Kratos.Swap.inner_lost", "Kratos.Swap.mention_wrong", "Kratos.Swap.not_RemoveClaim"], "note": "False of the code: ports are moved one by one while they are compared, so that a replacement refused because of a later port has already connected the earlier ones to the new generator; statements of the parent that read an input of the instance, and an if on an output, keep mentioning the old instance; an output in the index of a slice makes the call throw; removing an instance deletes the statements inside of it that read its own outputs, while tests and reads of inputs stay in the parent. Proved for all interfaces and statements: an accepted call had equal interfaces; where the parent drives inputs and reads outputs in the places looked at, equal interfaces are accepted and all statements are renamed, simultaneously and nothing else; no other generator is touched; what remains after a removal; unwire is exact."},
{"property": "C92", "status": "partial", "theorems": ["Kratos.Sva.text_reads", "Kratos.Sva.top_partial", "Kratos.Sva.below_partial", "Kratos.Sva.shared_wrong", "Kratos.Sva.not_TextClaim", "Kratos.Sva.range_wrong", "Kratos.Sva.middle_vacuous", "Kratos.Sva.docs_reading", "Kratos.Sva.infer_iff", "Kratos.Sva.infer_keeps", "Kratos.Sva.unclocked_wrong", "Kratos.Sva.same_clock_refused", "Kratos.Sva.not_ClockClaim", "Kratos.Sva.text_shape", "Kratos.Sva.declared_once", "Kratos.Sva.twice_wrong", "Kratos.Sva.build_partial", "Kratos.Sva.second_imply_ub", "Kratos.Sva.second_imply_lost", "Kratos.Sva.not_CallsClaim"], "note": "False of the code: conditions without a wait, and all but the first, are written with the path from the top even in the module they belong to, so in a module with two instances the property of the second one is about the first one's variables; a wait from 3 to 1 is accepted and the text is not legal; a property of one condition is written without a clock; two children with the same clock count as two clocks and the design is refused; generating twice declares every property twice; a second imply destroys the object the first one returned. Proved for all sequences, hierarchies and executions: the text has one reading with the delays and order asked for; in the top module, and in a unique instance whose path resolves, it holds exactly when the sequence does; exact condition of clock inference; chained calls build what they say."},
{"property": "C93", "status": "partial", "theorems": ["Kratos.Regs.regs_partial", "Kratos.Regs.regs_frame", "Kratos.Regs.next_accepted", "Kratos.Regs.other_type_refused", "Kratos.Regs.twice_wrong", "Kratos.Regs.foreign_wrong", "Kratos.Regs.low_wrong", "Kratos.Regs.not_RegClaim"], "note": "False of the code: a second call with the same name is accepted and drives the same variable twice; enables are told apart by name only, so an enable of another generator is used for registers asked for with the enable of the same name here, and the other way round; reg_init takes every reset for active high. Proved for all histories of calls without these and all executions: every register does exactly what its call says, whatever the other calls are, and nothing else is driven."},
{"property": "C94", "status": "partial", "theorems": ["Kratos.Flatten.wrapper_exact_partial", "Kratos.Flatten.wrapper_accepted_partial", "Kratos.Flatten.wrapper_elements", "Kratos.Flatten.wrapper_scalars", "Kratos.Flatten.wrapper_only", "Kratos.Flatten.wrapper_transparent", "Kratos.Flatten.wrapper_covers", "Kratos.Flatten.wrapper_direction", "Kratos.Flatten.suffix_inj", "Kratos.Flatten.wrapper_refused", "Kratos.Flatten.wrapper_sign_lost", "Kratos.Flatten.wrapper_inout_wrong", "Kratos.Flatten.wrapper_unit_array_wrong", "Kratos.Flatten.not_FlattenClaim"], "note": "False of the code: an array a and a scalar a_0 clash and the wrapper is refused; elements of signed arrays and of arrays of clocks become unsigned data ports; inout ports are only driven outwards; an explicit array of one element stays an array. Proved for all port lists of any shapes: refused exactly when two flattened names are equal (never, if no array's name followed by _ begins another port's name), and otherwise exactly one scalar port per element with direction and width, every bit connected once, transparent."},
{"property": "C95", "status": "partial", "theorems": ["Kratos.Inline.inline_partial", "Kratos.Inline.collapse_partial", "Kratos.Inline.not_InlineClaim", "Kratos.Inline.register_lost", "Kratos.Inline.slice_refused", "Kratos.Inline.index_refused", "Kratos.Inline.parent_register_lost", "Kratos.Inline.test_wrong", "Kratos.Inline.direct_refused"], "note": "False of the code: a child that reads its own connected output loses those statements (a counter disappears); children that read a slice of a port by itself, or use a port as an index on the left, are refused; a register of the parent that copies one variable and feeds the child is replaced by that variable; tests are left with a removed variable; two inlined children connected directly are refused. Proved for all designs without these: only the connections and connected ports disappear, everything else is the old text with ports substituted, and the last loop removes a continuous copy correctly. Connections to slices, constants and expressions are not modelled."},
{"property": "C96", "status": "partial", "theorems": ["Kratos.Registry.registry_sound", "Kratos.Registry.registry_complete_partial", "Kratos.Registry.registry_exact_partial", "Kratos.Registry.not_ExactClaim", "Kratos.Registry.remove_wrong", "Kratos.Registry.slice_wrong", "Kratos.Registry.index_wrong", "Kratos.Registry.again_lost", "Kratos.Registry.shared_lost"], "note": "After any calls a recorded driver writes the variable and a recorded reader reads it; with statements added only when they are nowhere and were never unwired, every statement in the design is recorded for everything it writes and reads; exact if moreover remove_stmt is not used and what is unwired or cleared has no slices on the right and no index on the left. The full claim is false: remove_stmt leaves the statement recorded, unwiring or clearing a = b[3:0] leaves it a reader of b (VarSlice::remove_sink calls remove_source), a[i] = b leaves a reader of i, an unwired statement added again is not recorded, and a statement in two blocks is lost when one is cleared."},
{"property": "C97", "status": "partial", "theorems": ["Kratos.SimLinks.rerun_sound", "Kratos.SimLinks.rerun_partial", "Kratos.SimLinks.overlap_missed", "Kratos.SimLinks.not_RerunClaim", "Kratos.SimLinks.overlap_lost", "Kratos.SimLinks.twice_lost", "Kratos.SimLinks.index_lost", "Kratos.SimLinks.condition_lost", "Kratos.SimLinks.call_lost", "Kratos.SimLinks.cast_ub"], "note": "What is run always depends on a changed bit; a process without conditional expressions, calls and expressions as index is run if no two slices in the design need the changed bit (for their place or as index). The full claim is false: a bit is linked to one slice only, so of x = a[7:0], y = a[3:0] (or x = a[i], y = b[i]) only one is computed again, in whatever order (overlap_missed is general); conditions of conditional expressions, arguments of calls and expressions as index are not registered; a cast is undefined behaviour. C54 treats a slice as a reader of the whole variable."},
{"property": "C98", "status": "partial", "theorems": ["Kratos.SimArrays.memory_partial", "Kratos.SimArrays.whole_events", "Kratos.SimArrays.element_ub", "Kratos.SimArrays.sub_read_refused", "Kratos.SimArrays.sub_write_refused", "Kratos.SimArrays.element_event_wrong", "Kratos.SimArrays.not_EventClaim", "Kratos.SimArrays.large_ub", "Kratos.SimArrays.wide_ub", "Kratos.SimArrays.sub_write_wrong", "Kratos.SimArrays.not_MemoryClaim"], "note": "Proved for every array of elements of up to 32 bits and every history of whole writes, word writes (packed, up to 64 bits) and element writes (arrays of up to 64 bits): the array and each element read back as the specification's row-major memory. whole_events: for every whole write the changed bits are exactly those that differ. False of the code beyond that: a changing element write in an array of more than 64 bits shifts a word by 64 or more (element_ub, for all such arrays), an element write reports the bits counted from the element and not from the array (element_event_wrong, not_EventClaim), elements of more than 32 bits shift a 32-bit mask too far (wide_ub), a part that is itself an array cannot be read (sub_read_refused), nor set in an unpacked array (sub_write_refused), and in a packed one the wrong elements are overwritten (sub_write_wrong)."},
{"property": "C99", "status": "partial", "theorems": ["Kratos.DebugScopes.breakpoints_partial", "Kratos.DebugScopes.saved_iff", "Kratos.DebugScopes.skipped_refused", "Kratos.DebugScopes.override_lost", "Kratos.DebugScopes.loop_wrong", "Kratos.DebugScopes.function_refused", "Kratos.DebugScopes.ignored_refused", "Kratos.DebugScopes.not_TableClaim"], "note": "Proved for all statement trees: a saved table has exactly the assignments as breakpoints, in order, with their place and condition also after file names are compressed, and each shows the variables in scope, provided no name gets back a meaning it had before (breakpoints_partial). saved_iff: a table is made exactly when no recorded statement is inside one that gets no scope, otherwise an exception. False of the code: assignments in functions, loops, initial blocks and latches, or in a block marked debug-ignore, make saving fail (skipped_refused, function_refused, ignored_refused); a second loop over the same name shows the last value of the first (loop_wrong); override of a scope variable has no effect (override_lost)."}
]}
