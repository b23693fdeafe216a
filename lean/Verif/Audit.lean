import Verif.Eval.Props
import Verif.Const.Props
import Verif.Opt.Props
import Verif.Check.Props
import Verif.Print.Props
import Verif.Slice.Props
import Verif.Width.Props
import Verif.Param.Props
import Verif.Fsm.Examples
import Verif.Util.Clog2Props
import Verif.Gen.TableProps
import Verif.Gen.CtxProps
import Verif.Gen.ChildrenProps
import Verif.Gen.Inline
import Verif.Graph.Levels
import Verif.Graph.StructProps
import Verif.Graph.Visitor
import Verif.Port.Props
import Verif.Sim.Static
import Verif.Sim.Seq
import Verif.Sim.SettleProps
import Verif.Text.Tokens
import Verif.Misc.Names
import Verif.Misc.XXHash
import Verif.Misc.PassManager
import Verif.Misc.Fault
import Verif.Stmt.HeapProps
import Verif.Seq.Pipeline
import Verif.Seq.Gate
import Verif.Pass.Sort
import Verif.Pass.Kinds
import Verif.Pass.Drivers
import Verif.Pass.Verify
import Verif.Pass.Enable
import Verif.Pass.Connect
import Verif.Pass.Zero
import Verif.Pass.MergeWire
import Verif.Pass.Fanout
import Verif.Pass.PassThrough
import Verif.Pass.DeadCode
import Verif.Print.ForText
import Verif.Print.StmtText
import Verif.Param.Instance
import Verif.Print.Lines
import Verif.Lib.Sram
import Verif.Misc.ModuleHash
import Verif.Py.Ssa
import Verif.Check.Content
import Verif.Check.Resets
import Verif.Check.Synth
import Verif.Pass.Replace
import Verif.Pass.Decouple
import Verif.Pass.Legal
import Verif.Pass.Lift
import Verif.Py.Elab
import Verif.Pass.Asserts
import Verif.Gen.Interface
import Verif.Gen.InterfaceProps
import Verif.Print.Lists
import Verif.Gen.Enums
import Verif.Misc.Handles
import Verif.Pass.Bundle
import Verif.Gen.FunctionsProps
import Verif.Gen.Dpi
import Verif.Py.SsaDebug
import Verif.Pass.MergeConst
import Verif.Py.Cache
import Verif.Gen.Swap
import Verif.Print.Sva
import Verif.Py.Regs
import Verif.Gen.Flatten
import Verif.Pass.Inline
import Verif.Stmt.Registry
import Verif.Sim.Links
import Verif.Sim.Arrays
import Verif.Misc.DebugScopes
import Verif.Width.Loop
import Verif.Py.Tree
import Verif.Fsm.Diagram
import Verif.Misc.Xml
import Verif.Misc.Report
import Verif.Print.Decl
import Verif.Misc.Package
import Verif.Text.Import
import Verif.Check.Scope
import Verif.Text.Coverage
import Verif.Gen.Strategy
import Verif.Check.FlipFlop
import Verif.Gen.Emit
import Verif.Print.File
import Verif.Print.Items
import Verif.Text.Icc
import Verif.Stmt.Connected
import Verif.Misc.Registers
import Verif.Misc.Flow
import Verif.Misc.Mock
import Verif.Misc.Propagate
import Verif.Misc.RunNames
import Verif.Param.Copy
import Verif.Param.Inline
import Verif.Pass.Shared
import Verif.Misc.HandleExpr
import Verif.Print.LineTable
import Verif.Py.Decl
import Verif.Misc.Events
import Verif.Py.EnumHelper
import Verif.Py.AssertPos
import Verif.Py.AddChild
import Verif.Py.FuncCall
import Verif.Py.Always
import Verif.Stmt.Remove
import Verif.Sim.Cycle
import Verif.Graph.Drivers
import Verif.Misc.DebugTable
import Verif.Py.EnumAccept
import Verif.Py.CaseCalls
import Verif.Py.Reduce

/-!
Generated by tools/manifest.py: the build prints the axioms of every theorem named in
MANIFEST.json, and fails when a name is wrong.
-/

#print axioms Kratos.Eval.fold_arith
#print axioms Kratos.Eval.fold_bitwise
#print axioms Kratos.Eval.fold_eq
#print axioms Kratos.Eval.fold_in_range
#print axioms Kratos.Eval.fold_signed_64_ub
#print axioms Kratos.Eval.fold_order_partial
#print axioms Kratos.Eval.fold_order_counterexample
#print axioms Kratos.Eval.fold_order_equal_negatives
#print axioms Kratos.Eval.fold_divide
#print axioms Kratos.Eval.fold_divide_zero_ub
#print axioms Kratos.Eval.fold_lshr
#print axioms Kratos.Eval.fold_sshr_partial
#print axioms Kratos.Eval.fold_sshr_counterexample
#print axioms Kratos.Eval.fold_invert
#print axioms Kratos.Eval.fold_negate
#print axioms Kratos.Eval.fold_plus_not_or
#print axioms Kratos.Eval.fold_reduce_partial
#print axioms Kratos.Eval.fold_reduce_counterexample
#print axioms Kratos.Eval.fold_reduce_and_wide
#print axioms Kratos.Eval.fold_ternary
#print axioms Kratos.Eval.fold_invert_64_ub
#print axioms Kratos.Const.const_create_exact
#print axioms Kratos.Const.const_wide_ub
#print axioms Kratos.Const.const_history_partial
#print axioms Kratos.Const.const_history_defined
#print axioms Kratos.Const.const_history_counterexample_width
#print axioms Kratos.Const.const_history_counterexample_signed
#print axioms Kratos.Const.const_string_counterexample
#print axioms Kratos.Const.const_text_partial
#print axioms Kratos.Const.const_text_counterexample_unsigned
#print axioms Kratos.Const.const_text_counterexample_min
#print axioms Kratos.Const.const_text_unsigned_literal
#print axioms Kratos.Const.big_text
#print axioms Kratos.Print.expr_text_partial
#print axioms Kratos.Print.reads_unique
#print axioms Kratos.Print.constText_eq
#print axioms Kratos.Print.expr_text_counterexample_right
#print axioms Kratos.Print.expr_text_counterexample_neg
#print axioms Kratos.Print.expr_text_counterexample_fuse
#print axioms Kratos.Print.expr_text_counterexample_select
#print axioms Kratos.Print.expr_text_counterexample_chain
#print axioms Kratos.Print.not_ExprTextCorrect
#print axioms Kratos.Slice.slice_select_partial
#print axioms Kratos.Slice.slice_reject_partial
#print axioms Kratos.Slice.slice_counterexample_range
#print axioms Kratos.Slice.slice_counterexample_unit
#print axioms Kratos.Slice.not_SliceCorrect
#print axioms Kratos.Slice.slice_compose
#print axioms Kratos.Slice.slice_cache
#print axioms Kratos.Slice.slice_cache_counterexample
#print axioms Kratos.Slice.sim_position_partial
#print axioms Kratos.Slice.sim_position_counterexample
#print axioms Kratos.Slice.array_tiles
#print axioms Kratos.Slice.flatten_row_major
#print axioms Kratos.Slice.rowMajor_mem
#print axioms Kratos.Slice.rowMajor_nodup
#print axioms Kratos.Slice.member_range
#print axioms Kratos.Slice.struct_tiles
#print axioms Kratos.Slice.struct_typedef_counterexample
#print axioms Kratos.Slice.struct_typedef_mirrored
#print axioms Kratos.Slice.struct_typedef_partial
#print axioms Kratos.Slice.members_nested
#print axioms Kratos.LoopIndex.assign_partial
#print axioms Kratos.LoopIndex.index_partial
#print axioms Kratos.LoopIndex.operator_partial
#print axioms Kratos.LoopIndex.accept_partial
#print axioms Kratos.LoopIndex.variable_iff
#print axioms Kratos.LoopIndex.variable_value
#print axioms Kratos.LoopIndex.middle_wrong
#print axioms Kratos.LoopIndex.corner_wrong
#print axioms Kratos.LoopIndex.descending_wrong
#print axioms Kratos.LoopIndex.divide_wrong
#print axioms Kratos.LoopIndex.wrap_wrong
#print axioms Kratos.LoopIndex.step_refused
#print axioms Kratos.LoopIndex.down_refused
#print axioms Kratos.LoopIndex.refused_changes
#print axioms Kratos.LoopIndex.second_use_refused
#print axioms Kratos.LoopIndex.range_unchecked
#print axioms Kratos.LoopIndex.not_NarrowClaim
#print axioms Kratos.LoopIndex.not_AcceptClaim
#print axioms Kratos.PyTree.lookup_partial
#print axioms Kratos.PyTree.effects_partial
#print axioms Kratos.PyTree.returns_iff_partial
#print axioms Kratos.PyTree.replaced_rename_wrong
#print axioms Kratos.PyTree.clash_wrong
#print axioms Kratos.PyTree.removed_lost
#print axioms Kratos.PyTree.replaced_lost
#print axioms Kratos.PyTree.removed_refused
#print axioms Kratos.PyTree.foreign_wrong
#print axioms Kratos.PyTree.not_TableClaim
#print axioms Kratos.PyTree.not_RaisingClaim
#print axioms Kratos.Diagram.diagram_partial
#print axioms Kratos.Diagram.diagram_made
#print axioms Kratos.Diagram.diagram_flat
#print axioms Kratos.Diagram.table_partial
#print axioms Kratos.Diagram.table_realized
#print axioms Kratos.Diagram.outside_start_throws
#print axioms Kratos.Diagram.collision_wrong
#print axioms Kratos.Diagram.leaving_wrong
#print axioms Kratos.Diagram.comma_wrong
#print axioms Kratos.Diagram.default_throws
#print axioms Kratos.Diagram.inner_missing
#print axioms Kratos.Diagram.not_DiagramClaim
#print axioms Kratos.Xml.document_reads_back
#print axioms Kratos.Report.report_partial
#print axioms Kratos.Report.prefix_wrong
#print axioms Kratos.Report.relative_wrong
#print axioms Kratos.Report.relative_ub
#print axioms Kratos.Report.shared_line_wrong
#print axioms Kratos.Report.bare_block_wrong
#print axioms Kratos.Report.uncomputed_wrong
#print axioms Kratos.Report.not_ReportClaim
#print axioms Kratos.Decl.port_text_partial
#print axioms Kratos.Decl.var_text_partial
#print axioms Kratos.Decl.shift_wrong
#print axioms Kratos.Decl.lone_wrong
#print axioms Kratos.Decl.raw_wrong
#print axioms Kratos.Decl.enum_wrong
#print axioms Kratos.Decl.not_PortClaim
#print axioms Kratos.Decl.not_VarClaim
#print axioms Kratos.Decl.declares_unique
#print axioms Kratos.Package.package_partial
#print axioms Kratos.Package.package_name
#print axioms Kratos.Package.race
#print axioms Kratos.Package.stale_fn
#print axioms Kratos.Package.not_PackageClaim
#print axioms Kratos.Import.import_partial
#print axioms Kratos.Import.file_partial
#print axioms Kratos.Import.module_found
#print axioms Kratos.Import.module_missing
#print axioms Kratos.Import.carry_wrong
#print axioms Kratos.Import.line_end_wrong
#print axioms Kratos.Import.inout_lost
#print axioms Kratos.Import.not_ImportClaim
#print axioms Kratos.Import.parameter_width_undefined
#print axioms Kratos.Import.type_refused
#print axioms Kratos.Scope.legal_accepted
#print axioms Kratos.Scope.accepted_partial
#print axioms Kratos.Scope.accepted_input_partial
#print axioms Kratos.Scope.sibling_accepted
#print axioms Kratos.Scope.input_hidden
#print axioms Kratos.Scope.expression_hidden
#print axioms Kratos.Scope.not_ScopeClaim
#print axioms Kratos.Cov.coverage_partial
#print axioms Kratos.Cov.coverage_exact_partial
#print axioms Kratos.Cov.cut_point
#print axioms Kratos.Cov.cut_file
#print axioms Kratos.Cov.no_page_refused
#print axioms Kratos.Cov.parse_defined
#print axioms Kratos.Cov.count_lost
#print axioms Kratos.Cov.same_name
#print axioms Kratos.Cov.not_CoverageClaim
#print axioms Kratos.Strategy.strategy_partial
#print axioms Kratos.Strategy.strategy_run_partial
#print axioms Kratos.Strategy.external_child
#print axioms Kratos.Strategy.tracked_twice
#print axioms Kratos.Strategy.not_StrategyClaim
#print axioms Kratos.Width.width_partial
#print axioms Kratos.Width.operands_equal
#print axioms Kratos.Width.width_counterexample_shared
#print axioms Kratos.Width.not_WidthCorrect
#print axioms Kratos.Width.width_counterexample_logical
#print axioms Kratos.Width.width_counterexample_cached
#print axioms Kratos.Width.sign_bin
#print axioms Kratos.Width.sign_un
#print axioms Kratos.Width.sign_concat
#print axioms Kratos.Width.extend_exact
#print axioms Kratos.Width.never_rejected
#print axioms Kratos.Width.no_loss_partial
#print axioms Kratos.Width.no_loss_counterexample_expr
#print axioms Kratos.Width.no_loss_counterexample_const
#print axioms Kratos.Width.not_NoSilentLoss
#print axioms Kratos.FlipFlop.accepted_partial
#print axioms Kratos.FlipFlop.complete_partial
#print axioms Kratos.FlipFlop.exact_partial
#print axioms Kratos.FlipFlop.untested_reset
#print axioms Kratos.FlipFlop.ternary_hidden
#print axioms Kratos.FlipFlop.undriven_refused
#print axioms Kratos.FlipFlop.not_FlipFlopClaim
#print axioms Kratos.Emit.emit_partial
#print axioms Kratos.Emit.closed_partial
#print axioms Kratos.Emit.external_clash
#print axioms Kratos.Emit.not_EmitClaim
#print axioms Kratos.OutFile.write_all
#print axioms Kratos.OutFile.write_new
#print axioms Kratos.OutFile.table_line
#print axioms Kratos.OutFile.table_current
#print axioms Kratos.OutFile.files_partial
#print axioms Kratos.OutFile.kinds_clash
#print axioms Kratos.OutFile.rewrite_loses
#print axioms Kratos.OutFile.stale_table
#print axioms Kratos.OutFile.not_FileClaim
#print axioms Kratos.Items.items_text_partial
#print axioms Kratos.Items.printed_iff
#print axioms Kratos.Items.inputs_kept
#print axioms Kratos.Items.timed_text
#print axioms Kratos.Items.timed_printed
#print axioms Kratos.Items.no_clock
#print axioms Kratos.Items.input_slice
#print axioms Kratos.Items.not_ItemClaim
#print axioms Kratos.Icc.icc_partial
#print axioms Kratos.Icc.cut_report
#print axioms Kratos.Icc.busy_refused
#print axioms Kratos.Icc.far_lost
#print axioms Kratos.Icc.no_table
#print axioms Kratos.Icc.not_IccClaim
#print axioms Kratos.Connected.from_sound
#print axioms Kratos.Connected.from_partial
#print axioms Kratos.Connected.to_partial
#print axioms Kratos.Connected.connected_partial
#print axioms Kratos.Connected.dual_partial
#print axioms Kratos.Connected.slice_hidden
#print axioms Kratos.Connected.part_hidden
#print axioms Kratos.Connected.cast_hidden
#print axioms Kratos.Connected.index_reported
#print axioms Kratos.Connected.removed_reported
#print axioms Kratos.Connected.not_ConnectedClaim
#print axioms Kratos.Registers.registers_partial
#print axioms Kratos.Registers.var_names
#print axioms Kratos.Registers.initial_hides
#print axioms Kratos.Registers.unchecked_hidden
#print axioms Kratos.Registers.cloned_hidden
#print axioms Kratos.Registers.not_RegisterClaim
#print axioms Kratos.Flow.passes_exact
#print axioms Kratos.Flow.passes_ordered
#print axioms Kratos.Flow.share_partial
#print axioms Kratos.Flow.share_same
#print axioms Kratos.Flow.share_default_partial
#print axioms Kratos.Flow.pipeline_lost
#print axioms Kratos.Flow.not_ShareClaim
#print axioms Kratos.Mock.mock_partial
#print axioms Kratos.Mock.mock_join_partial
#print axioms Kratos.Mock.clash_refused
#print axioms Kratos.Mock.mock_plain
#print axioms Kratos.Mock.mock_again
#print axioms Kratos.Mock.repeated_endless
#print axioms Kratos.Mock.shared_refused
#print axioms Kratos.Mock.existing_wrong
#print axioms Kratos.Mock.removed_undefined
#print axioms Kratos.Mock.not_MockClaim
#print axioms Kratos.Propagate.propagate_exact
#print axioms Kratos.Propagate.propagate_partial
#print axioms Kratos.Propagate.own_kept
#print axioms Kratos.Propagate.shown_length
#print axioms Kratos.Propagate.shadow_wrong
#print axioms Kratos.Propagate.loop_lost
#print axioms Kratos.Propagate.not_ScopeClaim
#print axioms Kratos.Param.params_partial
#print axioms Kratos.Param.set_value_reaches_partial
#print axioms Kratos.Param.nonpositive_rejected
#print axioms Kratos.Param.nonpositive_rejected_tied
#print axioms Kratos.Param.params_counterexample_expr
#print axioms Kratos.Param.not_ParamsCorrect
#print axioms Kratos.Param.params_counterexample_untie
#print axioms Kratos.Param.params_counterexample_retie
#print axioms Kratos.Param.params_counterexample_reparent
#print axioms Kratos.Param.params_counterexample_atomic
#print axioms Kratos.RunNames.select_partial
#print axioms Kratos.RunNames.select_sound
#print axioms Kratos.RunNames.state_partial
#print axioms Kratos.RunNames.state_refused
#print axioms Kratos.RunNames.negative_refused
#print axioms Kratos.RunNames.word_unknown
#print axioms Kratos.RunNames.mark_iff
#print axioms Kratos.RunNames.mark_unknown
#print axioms Kratos.RunNames.instance_hides
#print axioms Kratos.RunNames.packed_refused
#print axioms Kratos.RunNames.junk_accepted
#print axioms Kratos.RunNames.empty_undefined
#print axioms Kratos.RunNames.not_NameClaim
#print axioms Kratos.RunNames.not_RefuseClaim
#print axioms Kratos.Copy.follows_partial
#print axioms Kratos.Copy.accepted
#print axioms Kratos.Copy.accepted_clean
#print axioms Kratos.Copy.accepted_linked
#print axioms Kratos.Copy.frozen_partial
#print axioms Kratos.Copy.var_untied
#print axioms Kratos.Copy.clash_undefined
#print axioms Kratos.Copy.port_clash
#print axioms Kratos.Copy.wider_wrong
#print axioms Kratos.Copy.conditional_undefined
#print axioms Kratos.Copy.concat_undefined
#print axioms Kratos.Copy.refused_leaves
#print axioms Kratos.Copy.not_PortClaim
#print axioms Kratos.Copy.not_VarClaim
#print axioms Kratos.ParamInline.width_partial
#print axioms Kratos.ParamInline.size_partial
#print axioms Kratos.ParamInline.plain_width
#print axioms Kratos.ParamInline.size_frozen
#print axioms Kratos.ParamInline.size_expression_frozen
#print axioms Kratos.ParamInline.width_number
#print axioms Kratos.ParamInline.width_expression_wrong
#print axioms Kratos.ParamInline.port_frozen
#print axioms Kratos.ParamInline.retied
#print axioms Kratos.ParamInline.stays
#print axioms Kratos.ParamInline.port_stays
#print axioms Kratos.ParamInline.not_VarClaim
#print axioms Kratos.ParamInline.not_PortClaim
#print axioms Kratos.Shared.concat_partial
#print axioms Kratos.Shared.others_keep_partial
#print axioms Kratos.Shared.width_partial
#print axioms Kratos.Shared.mixed_refused
#print axioms Kratos.Shared.stale
#print axioms Kratos.Shared.not_ConcatClaim
#print axioms Kratos.Shared.not_LocalClaim
#print axioms Kratos.Shared.not_WidthClaim
#print axioms Kratos.HExpr.handle_partial
#print axioms Kratos.HExpr.relative_partial
#print axioms Kratos.HExpr.relative_cat_throw
#print axioms Kratos.HExpr.relative_operator
#print axioms Kratos.HExpr.handle_diverges_iff
#print axioms Kratos.HExpr.handle_index_wrong
#print axioms Kratos.HExpr.handle_cast_wrong
#print axioms Kratos.HExpr.handle_param_wrong
#print axioms Kratos.HExpr.handle_cond_ambiguous
#print axioms Kratos.HExpr.same_text
#print axioms Kratos.HExpr.relative_unrefused
#print axioms Kratos.HExpr.not_HandleClaim
#print axioms Kratos.HExpr.not_RelativeClaim
#print axioms Kratos.LineTable.first_line
#print axioms Kratos.LineTable.entry_iff
#print axioms Kratos.LineTable.sound_partial
#print axioms Kratos.LineTable.complete_partial
#print axioms Kratos.LineTable.extract_iff
#print axioms Kratos.LineTable.extractGen_iff
#print axioms Kratos.LineTable.foreign_hides
#print axioms Kratos.LineTable.not_SoundClaim
#print axioms Kratos.LineTable.not_CompleteClaim
#print axioms Kratos.PyDecl.others_keep
#print axioms Kratos.PyDecl.declare_partial
#print axioms Kratos.PyDecl.again_iff
#print axioms Kratos.PyDecl.again_size_wrong
#print axioms Kratos.PyDecl.enum_wrong
#print axioms Kratos.PyDecl.struct_wrong
#print axioms Kratos.PyDecl.again_packs
#print axioms Kratos.PyDecl.var_is_port
#print axioms Kratos.PyDecl.port_is_gone
#print axioms Kratos.PyDecl.not_AskedClaim
#print axioms Kratos.PyDecl.not_AtomicClaim
#print axioms Kratos.PyDecl.not_AgainClaim
#print axioms Kratos.PyDecl.not_ClockClaim
#print axioms Kratos.Events.fields_exact
#print axioms Kratos.Events.action_exact
#print axioms Kratos.Events.transaction_exact
#print axioms Kratos.Events.values_exact
#print axioms Kratos.Events.extract_partial
#print axioms Kratos.Events.extract_text
#print axioms Kratos.Events.flag_partial
#print axioms Kratos.Events.entry_exact
#print axioms Kratos.Events.not_EachClaim
#print axioms Kratos.Events.not_CombClaim
#print axioms Kratos.Events.not_LastMatchClaim
#print axioms Kratos.EnumHelper.codes_exact
#print axioms Kratos.EnumHelper.defs_names
#print axioms Kratos.EnumHelper.defs_value
#print axioms Kratos.EnumHelper.given_width
#print axioms Kratos.EnumHelper.default_width_partial
#print axioms Kratos.EnumHelper.negative_refused
#print axioms Kratos.EnumHelper.declare_exact
#print axioms Kratos.EnumHelper.width_least
#print axioms Kratos.EnumHelper.names_partial
#print axioms Kratos.EnumHelper.zero_refused
#print axioms Kratos.EnumHelper.rounding_refused
#print axioms Kratos.EnumHelper.mixed_wrong
#print axioms Kratos.EnumHelper.repeat_wrong
#print axioms Kratos.EnumHelper.not_DistinctClaim
#print axioms Kratos.EnumHelper.not_AnyClaim
#print axioms Kratos.AssertPos.asserts_report
#print axioms Kratos.AssertPos.asserts_report_partial
#print axioms Kratos.AssertPos.not_reports
#print axioms Kratos.AssertPos.block_ok_iff
#print axioms Kratos.AssertPos.inject_only_reports
#print axioms Kratos.AssertPos.inject_ok_iff
#print axioms Kratos.AssertPos.property_reports_pass
#print axioms Kratos.AssertPos.not_property
#print axioms Kratos.Opt.if_to_case_counterexample
#print axioms Kratos.Opt.if_to_case_partial
#print axioms Kratos.Opt.case_order_irrelevant
#print axioms Kratos.Opt.if_to_case_wide_ub
#print axioms Kratos.AddChild.addChild_ok_iff
#print axioms Kratos.AddChild.addChild_does
#print axioms Kratos.AddChild.addChild_refused
#print axioms Kratos.AddChild.deferred_unwired
#print axioms Kratos.AddChild.all_wired_partial
#print axioms Kratos.AddChild.string_partial
#print axioms Kratos.AddChild.param_hides_port
#print axioms Kratos.AddChild.not_AtomicClaim
#print axioms Kratos.AddChild.not_DeferredClaim
#print axioms Kratos.AddChild.not_AllWiredClaim
#print axioms Kratos.AddChild.not_StringClaim
#print axioms Kratos.FuncCall.call_typed
#print axioms Kratos.FuncCall.call_keeps
#print axioms Kratos.FuncCall.first_call
#print axioms Kratos.FuncCall.call_partial
#print axioms Kratos.FuncCall.again_partial
#print axioms Kratos.FuncCall.stuck
#print axioms Kratos.FuncCall.not_PositionClaim
#print axioms Kratos.FuncCall.not_TranslatedClaim
#print axioms Kratos.FuncCall.not_AgainClaim
#print axioms Kratos.FuncCall.not_RetryClaim
#print axioms Kratos.Always.add_ok
#print axioms Kratos.Always.add_ok_iff
#print axioms Kratos.Always.add_refused
#print axioms Kratos.Always.bare_refused
#print axioms Kratos.Always.decorator_partial
#print axioms Kratos.Always.not_AtomicClaim
#print axioms Kratos.Always.not_QualifiedClaim
#print axioms Kratos.Always.not_DecoratorClaim
#print axioms Kratos.Remove.remove_in
#print axioms Kratos.Remove.remove_partial
#print axioms Kratos.Remove.batch
#print axioms Kratos.Remove.batch_partial
#print axioms Kratos.Remove.genRemove_gen
#print axioms Kratos.Remove.loop_kept
#print axioms Kratos.Remove.loop_reached
#print axioms Kratos.Remove.shared_kept
#print axioms Kratos.Remove.twice_kept
#print axioms Kratos.Remove.batch_twice
#print axioms Kratos.Remove.batch_return
#print axioms Kratos.Remove.not_RemoveClaim
#print axioms Kratos.Remove.not_BatchClaim
#print axioms Kratos.Sim.pulse_partial
#print axioms Kratos.Sim.cycle_partial
#print axioms Kratos.Sim.reset_partial
#print axioms Kratos.Sim.pulse_unique
#print axioms Kratos.Sim.no_clock
#print axioms Kratos.Sim.no_reset
#print axioms Kratos.Sim.demo_drives
#print axioms Kratos.Sim.demo_cycle
#print axioms Kratos.Sim.demo_reset
#print axioms Kratos.Sim.high_clock_lost
#print axioms Kratos.Sim.not_CycleClaim
#print axioms Kratos.Drivers.find_ends
#print axioms Kratos.Drivers.reported_reads
#print axioms Kratos.Drivers.plain_reported_partial
#print axioms Kratos.Drivers.driver_partial
#print axioms Kratos.Drivers.demo_design
#print axioms Kratos.Drivers.demo_linked
#print axioms Kratos.Drivers.demo_find
#print axioms Kratos.Drivers.slice_not_reported
#print axioms Kratos.Drivers.slice_target_missing
#print axioms Kratos.Drivers.cast_not_reported
#print axioms Kratos.Drivers.port_missing
#print axioms Kratos.Drivers.not_DriverClaim
#print axioms Kratos.DebugTable.walk_meets
#print axioms Kratos.DebugTable.debug_vars_partial
#print axioms Kratos.DebugTable.ext_fs
#print axioms Kratos.DebugTable.ext_plain
#print axioms Kratos.DebugTable.place_spec
#print axioms Kratos.DebugTable.hidden_file
#print axioms Kratos.DebugTable.demo_ok
#print axioms Kratos.DebugTable.string_taken_for_variable
#print axioms Kratos.DebugTable.slice_taken_for_value
#print axioms Kratos.DebugTable.parameter_not_shown
#print axioms Kratos.DebugTable.not_DebugVarsClaim
#print axioms Kratos.CaseCalls.case_runs
#print axioms Kratos.CaseCalls.case_accepted
#print axioms Kratos.CaseCalls.keyOf_ok
#print axioms Kratos.CaseCalls.atomic_partial
#print axioms Kratos.CaseCalls.print_partial
#print axioms Kratos.CaseCalls.not_AtomicClaim
#print axioms Kratos.CaseCalls.not_PrintClaim
#print axioms Kratos.Reduce.reduce_means
#print axioms Kratos.Reduce.concat_parts
#print axioms Kratos.Reduce.concat_signs
#print axioms Kratos.Reduce.few
#print axioms Kratos.Reduce.list_partial
#print axioms Kratos.Reduce.not_ListClaim
#print axioms Kratos.Opt.merge_if_counterexample_else
#print axioms Kratos.Opt.merge_if_counterexample_between
#print axioms Kratos.Opt.merge_if_partial
#print axioms Kratos.Opt.remove_empty_partial
#print axioms Kratos.Opt.remove_empty_both_ub
#print axioms Kratos.Opt.remove_empty_counterexample_ub
#print axioms Kratos.Opt.remove_empty_counterexample_wide
#print axioms Kratos.Opt.remove_empty_counterexample_nested
#print axioms Kratos.Opt.remove_empty_counterexample_default
#print axioms Kratos.MergeW.merge_drivers_partial
#print axioms Kratos.MergeW.merge_clocked_partial
#print axioms Kratos.MergeW.others_kept
#print axioms Kratos.MergeW.new_assignments_legal
#print axioms Kratos.MergeW.not_MergeClaim
#print axioms Kratos.MergeW.swap_lost
#print axioms Kratos.MergeW.blocking_reordered
#print axioms Kratos.MergeW.only_counted
#print axioms Kratos.Pipe.pipeline_partial
#print axioms Kratos.Pipe.pipeline_every_step_partial
#print axioms Kratos.Pipe.counter_slows_down
#print axioms Kratos.Pipe.not_PipelineClaim
#print axioms Kratos.Gate.enabled_same
#print axioms Kratos.Gate.clock_enable_partial
#print axioms Kratos.Gate.second_statement_not_gated
#print axioms Kratos.Gate.reset_gated
#print axioms Kratos.Gate.call_refused
#print axioms Kratos.Gate.not_EnableClaim
#print axioms Kratos.Gate.sync_off_same
#print axioms Kratos.Gate.sync_reset_partial
#print axioms Kratos.Gate.no_sync_reset
#print axioms Kratos.Gate.not_SyncClaim
#print axioms Kratos.Sort.sorted
#print axioms Kratos.Sort.sort_accepts
#print axioms Kratos.Sort.initial_sorted
#print axioms Kratos.Sort.StablySorted.unique
#print axioms Kratos.Zero.zero_exact_partial
#print axioms Kratos.Zero.zero_generator_partial
#print axioms Kratos.Zero.outputs_untouched
#print axioms Kratos.Zero.zero_total
#print axioms Kratos.Zero.stub_zeroed_partial
#print axioms Kratos.Zero.not_ZeroClaim
#print axioms Kratos.Zero.signed_stub_refused
#print axioms Kratos.Zero.enum_stub_refused
#print axioms Kratos.Zero.not_StubClaim
#print axioms Kratos.Zero.enum_refused
#print axioms Kratos.Zero.driven_by_parts_ub
#print axioms Kratos.Zero.irregular_refused
#print axioms Kratos.Zero.nested_array_wrong
#print axioms Kratos.Dead.outputs_unchanged_partial
#print axioms Kratos.Dead.dead_code_partial
#print axioms Kratos.Dead.dead_vars_partial
#print axioms Kratos.Dead.gone_candidate
#print axioms Kratos.Dead.varLoop_complete
#print axioms Kratos.Dead.unused_vars_unmentioned
#print axioms Kratos.Dead.unused_vars_complete
#print axioms Kratos.Dead.unused_stmts_tick
#print axioms Kratos.Dead.not_DeadClaim
#print axioms Kratos.Dead.clock_unwired
#print axioms Kratos.Dead.concat_target_lost
#print axioms Kratos.Dead.undriven_output_takes_reader
#print axioms Kratos.Dead.call_argument_lost
#print axioms Kratos.Dead.silent_instance_lost
#print axioms Kratos.Dead.unused_clock_removed
#print axioms Kratos.Dead.stale_slice_kept
#print axioms Kratos.Dead.black_box_removed
#print axioms Kratos.Dead.external_lost
#print axioms Kratos.Fanout.fanout_partial
#print axioms Kratos.Fanout.fanout_wires_partial
#print axioms Kratos.Fanout.input_lost
#print axioms Kratos.Fanout.output_lost
#print axioms Kratos.Fanout.output_twice
#print axioms Kratos.Fanout.loop_diverges
#print axioms Kratos.Fanout.not_FanoutClaim
#print axioms Kratos.PassT.pass_through_partial
#print axioms Kratos.PassT.not_PassClaim
#print axioms Kratos.PassT.latch_removed
#print axioms Kratos.PassT.slice_lost
#print axioms Kratos.PassT.clone_refused
#print axioms Kratos.Kinds.fixed
#print axioms Kratos.Kinds.kinds_partial
#print axioms Kratos.Kinds.rejected_only
#print axioms Kratos.Kinds.latch_not_checked
#print axioms Kratos.Kinds.not_KindClaim
#print axioms Kratos.Ssa.ssa_partial
#print axioms Kratos.Ssa.single_assignment
#print axioms Kratos.Ssa.convert_iff
#print axioms Kratos.Ssa.not_SsaClaim
#print axioms Kratos.Ssa.elseReads_wrong
#print axioms Kratos.Ssa.attrBranches_wrong
#print axioms Kratos.Ssa.partBranch_wrong
#print axioms Kratos.Check.function_return_partial
#print axioms Kratos.Check.function_return_accept_paths
#print axioms Kratos.Check.function_return_reject_paths
#print axioms Kratos.Check.function_return_counterexample_loop
#print axioms Kratos.Check.function_return_counterexample_break
#print axioms Kratos.Check.check_wide_ub
#print axioms Kratos.Check.latch_partial
#print axioms Kratos.Check.latch_paths_exact
#print axioms Kratos.Check.latch_counterexample_loop
#print axioms Kratos.Check.latch_slice_counterexample
#print axioms Kratos.Conn.connectivity_partial
#print axioms Kratos.Conn.connected_accepted
#print axioms Kratos.Conn.not_ConnectivityClaim
#print axioms Kratos.Conn.cast_part_refused
#print axioms Kratos.Conn.external_top
#print axioms Kratos.Drv.single_driver_partial
#print axioms Kratos.Drv.comb_accepted
#print axioms Kratos.Drv.concat_two_drivers
#print axioms Kratos.Drv.for_two_drivers
#print axioms Kratos.Drv.dyn_two_drivers
#print axioms Kratos.Drv.one_kind_partial
#print axioms Kratos.Drv.mixed_rejects
#print axioms Kratos.Drv.concat_not_checked
#print axioms Kratos.Drv.no_loop_partial
#print axioms Kratos.Drv.loop_rejected_rightly
#print axioms Kratos.Drv.two_step_loop
#print axioms Kratos.Drv.slice_loop
#print axioms Kratos.Drv.condition_loop
#print axioms Kratos.Enable.enable_exact_partial
#print axioms Kratos.Enable.no_condition_iff
#print axioms Kratos.Enable.enable_total
#print axioms Kratos.Enable.default_value
#print axioms Kratos.Enable.not_EnableClaim
#print axioms Kratos.Enable.blocking_not_seen
#print axioms Kratos.Enable.wide_predicate_refused
#print axioms Kratos.Enable.lone_default_ub
#print axioms Kratos.Verify.assignments_good
#print axioms Kratos.Verify.good_accepted
#print axioms Kratos.Verify.const_accepted
#print axioms Kratos.Drv.wire_xor_block
#print axioms Kratos.Fsm.moore_trace_partial
#print axioms Kratos.Fsm.moore_counterexample_hold
#print axioms Kratos.Fsm.reset_counterexample
#print axioms Kratos.Fsm.comb_step
#print axioms Kratos.Fsm.hw_reset
#print axioms Kratos.Fsm.mealy_outputs_partial
#print axioms Kratos.Fsm.mealy_counterexample_single
#print axioms Kratos.Fsm.mealy_counterexample_last
#print axioms Kratos.Fsm.mealy_counterexample_default
#print axioms Kratos.Fsm.states_exact
#print axioms Kratos.Fsm.search_terminates
#print axioms Kratos.Fsm.encodings_partial
#print axioms Kratos.Fsm.encodings_flat
#print axioms Kratos.Fsm.encodings_counterexample
#print axioms Kratos.Fsm.construct_partial
#print axioms Kratos.Fsm.next_ok_iff
#print axioms Kratos.Fsm.outputs_complete
#print axioms Kratos.Fsm.missing_output_rejected
#print axioms Kratos.Fsm.construct_counterexample
#print axioms Kratos.Gen.unique_name_is_fresh
#print axioms Kratos.Gen.unique_name_terminates
#print axioms Kratos.Gen.unique_name_shape
#print axioms Kratos.Gen.table_partial
#print axioms Kratos.Gen.names_partial
#print axioms Kratos.Gen.reindex_repairs
#print axioms Kratos.Gen.var_new
#print axioms Kratos.Gen.var_again
#print axioms Kratos.Gen.rename_moves
#print axioms Kratos.Gen.ports_out_of_step
#print axioms Kratos.Gen.port_over_variable
#print axioms Kratos.Gen.rename_drops_variable
#print axioms Kratos.Gen.failed_removal_loses_port
#print axioms Kratos.Gen.two_variables_one_name
#print axioms Kratos.Gen.same_array_twice_rejected
#print axioms Kratos.Gen.not_TableClaim
#print axioms Kratos.Port.wire_sound_partial
#print axioms Kratos.Port.wire_order_partial
#print axioms Kratos.Port.wire_rejects
#print axioms Kratos.Port.not_WireClaim
#print axioms Kratos.Port.not_WireClaim_order
#print axioms Kratos.Port.foreign_instance_wired
#print axioms Kratos.Port.foreign_variables_wired
#print axioms Kratos.Port.interface_second_drives_input
#print axioms Kratos.Port.inout_order_matters
#print axioms Kratos.Gen.index_partial
#print axioms Kratos.Gen.index_once
#print axioms Kratos.Gen.empty_name_breaks_index
#print axioms Kratos.Gen.not_IndexClaim
#print axioms Kratos.Gen.siblings_partial
#print axioms Kratos.Gen.listing_never_throws
#print axioms Kratos.Gen.add_duplicate_refused
#print axioms Kratos.Gen.rename_duplicate_refused
#print axioms Kratos.Gen.failed_add_clashes
#print axioms Kratos.Gen.added_twice_clashes
#print axioms Kratos.Gen.removes_wrong_child
#print axioms Kratos.Gen.not_SiblingsClaim
#print axioms Kratos.Gen.uniquify_names_partial
#print axioms Kratos.Gen.uniquify_terminates
#print axioms Kratos.Gen.reorder_perm
#print axioms Kratos.Gen.reorder_tracked_first
#print axioms Kratos.Gen.clone_left_behind
#print axioms Kratos.ModHash.assignment_partial
#print axioms Kratos.ModHash.const_partial
#print axioms Kratos.ModHash.op_partial
#print axioms Kratos.ModHash.operand_partial
#print axioms Kratos.ModHash.name_counts
#print axioms Kratos.ModHash.word_counts
#print axioms Kratos.ModHash.merged_iff
#print axioms Kratos.ModHash.like_same_hash
#print axioms Kratos.ModHash.not_MergeClaim
#print axioms Kratos.Graph.sorted_bottom_up
#print axioms Kratos.Graph.parallel_bottom_up
#print axioms Kratos.Graph.levels_are_depths
#print axioms Kratos.Graph.tree_accepted
#print axioms Kratos.Graph.shared_rejected
#print axioms Kratos.Graph.graph_nodes
#print axioms Kratos.Graph.graph_edges
#print axioms Kratos.Graph.struct_order
#print axioms Kratos.Graph.emitted_in_order
#print axioms Kratos.Graph.collect_spec
#print axioms Kratos.Graph.visits_once_partial
#print axioms Kratos.Graph.parents_first_in_trees
#print axioms Kratos.Graph.not_VisitorClaim
#print axioms Kratos.Graph.root_visited_twice
#print axioms Kratos.Graph.visit_s_repeats
#print axioms Kratos.Graph.visit_s_same_on_trees
#print axioms Kratos.Graph.removal_safe
#print axioms Kratos.Graph.removing_siblings_skips
#print axioms Kratos.StmtText.printed_iff
#print axioms Kratos.StmtText.text_reads
#print axioms Kratos.StmtText.reads_unique
#print axioms Kratos.StmtText.stmt_text_partial
#print axioms Kratos.StmtText.block_text_partial
#print axioms Kratos.StmtText.not_TextClaim
#print axioms Kratos.StmtText.sample_ok
#print axioms Kratos.ForText.for_text_iff
#print axioms Kratos.ForText.for_up_partial
#print axioms Kratos.ForText.for_down_partial
#print axioms Kratos.ForText.for_up_int_partial
#print axioms Kratos.ForText.for_down_int_partial
#print axioms Kratos.ForText.runs_unique
#print axioms Kratos.ForText.wrong_direction
#print axioms Kratos.ForText.down_by_two_forever
#print axioms Kratos.ForText.not_ForClaim
#print axioms Kratos.Inst.instance_partial
#print axioms Kratos.Inst.shared_partial
#print axioms Kratos.Inst.path_partial
#print axioms Kratos.Inst.negative_wraps
#print axioms Kratos.Inst.tied_then_set
#print axioms Kratos.Inst.enum_value
#print axioms Kratos.Inst.raw_default
#print axioms Kratos.Inst.not_InstClaim
#print axioms Kratos.Lines.lines_exact
#print axioms Kratos.Lines.lines_place_partial
#print axioms Kratos.Lines.lines_partial
#print axioms Kratos.Lines.bare_functions_shift
#print axioms Kratos.Lines.always_ff_before
#print axioms Kratos.Lines.starts_are_texts
#print axioms Kratos.Lines.file_lines
#print axioms Kratos.Lines.always_ff_line
#print axioms Kratos.Lines.bare_function_line
#print axioms Kratos.Lines.connection_line
#print axioms Kratos.Lines.not_LineClaim
#print axioms Kratos.Names.accepted_iff
#print axioms Kratos.Names.refused_iff
#print axioms Kratos.Names.accepted_partial
#print axioms Kratos.Names.declared_names_ok
#print axioms Kratos.Names.not_NameClaim
#print axioms Kratos.Names.empty_name_accepted
#print axioms Kratos.Names.rename_unchecked
#print axioms Kratos.Sim.seq_partial
#print axioms Kratos.Sim.seq_exact
#print axioms Kratos.Sim.seq_not_triggered
#print axioms Kratos.Sim.triggered_iff
#print axioms Kratos.Sim.not_SeqClaim
#print axioms Kratos.Sim.first_assignment_wins
#print axioms Kratos.Sim.two_blocks_race
#print axioms Kratos.Sim.settle_partial
#print axioms Kratos.Sim.settle_solves
#print axioms Kratos.Sim.settle_order_independent
#print axioms Kratos.Sim.solution_unique
#print axioms Kratos.Sim.demo_clean
#print axioms Kratos.Sim.demo_quiet
#print axioms Kratos.Sim.demo_acyclic
#print axioms Kratos.Sim.demo_covers
#print axioms Kratos.Sim.demo_known
#print axioms Kratos.Sim.not_SettleClaim
#print axioms Kratos.Sim.ternary_condition_ignored
#print axioms Kratos.Sim.constant_expression_ignored
#print axioms Kratos.Sim.oversized_value_not_told
#print axioms Kratos.Sim.static_partial
#print axioms Kratos.Sim.static_needs_values
#print axioms Kratos.Sim.static_depends_on_variable
#print axioms Kratos.Sim.not_StaticClaim
#print axioms Kratos.Sim.static_constant_slice_diverges
#print axioms Kratos.Sim.static_negative_constant
#print axioms Kratos.Sim.bit_select_wrong
#print axioms Kratos.Sim.range_select_fails
#print axioms Kratos.Sim.bit_write_clobbers
#print axioms Kratos.Sram.read_partial
#print axioms Kratos.Sram.large_partial
#print axioms Kratos.Sram.bank_has
#print axioms Kratos.Sram.write_shows
#print axioms Kratos.Sram.holes
#print axioms Kratos.Sram.capacity_of_bank
#print axioms Kratos.Sram.build_iff
#print axioms Kratos.Sram.single_refused
#print axioms Kratos.Sram.large_macro
#print axioms Kratos.Sram.not_BankClaim
#print axioms Kratos.Port.flip_partial
#print axioms Kratos.Port.duplicate_refused
#print axioms Kratos.Port.bundle_assign
#print axioms Kratos.Port.not_FlipClaim
#print axioms Kratos.Port.refused_inout_kept
#print axioms Kratos.Port.flip_forgets_name
#print axioms Kratos.Port.bundle_assign_not_atomic
#print axioms Kratos.Text.tokens_spec
#print axioms Kratos.Text.tokens_of_pieces
#print axioms Kratos.Text.tokens_join
#print axioms Kratos.Text.wrap_words
#print axioms Kratos.Text.wrap_reads_back
#print axioms Kratos.Text.wrap_width_partial
#print axioms Kratos.Text.wrap_width
#print axioms Kratos.Text.wrap_greedy
#print axioms Kratos.Text.wrap_after_long
#print axioms Kratos.Text.not_WrapClaim
#print axioms Kratos.Fault.fault_partial
#print axioms Kratos.Fault.fault_coverage
#print axioms Kratos.Fault.fault_again
#print axioms Kratos.Fault.fresh_new
#print axioms Kratos.Fault.fresh_addRun
#print axioms Kratos.Fault.switch_not_reported
#print axioms Kratos.Fault.late_state_ignored
#print axioms Kratos.Fault.not_FaultClaim
#print axioms Kratos.Util.clog2_least
#print axioms Kratos.Util.clog2_zero_ub
#print axioms Kratos.Util.is_2_power_iff
#print axioms Kratos.XXHash.streaming
#print axioms Kratos.XXHash.streaming_from
#print axioms Kratos.XXHash.is_xxh64
#print axioms Kratos.XXHash.add_empty
#print axioms Kratos.XXHash.add_nonempty
#print axioms Kratos.XXHash.buffer_bound
#print axioms Kratos.Pass.run_spec
#print axioms Kratos.Pass.register_refused_iff
#print axioms Kratos.Pass.add_refused_iff
#print axioms Kratos.Pass.run_twice
#print axioms Kratos.Pass.added_twice_runs_twice
#print axioms Kratos.Heap.no_twice
#print axioms Kratos.Heap.one_body
#print axioms Kratos.Heap.added
#print axioms Kratos.Heap.rejected
#print axioms Kratos.Heap.removed
#print axioms Kratos.Heap.tree_partial
#print axioms Kratos.Heap.tree_no_loops
#print axioms Kratos.Heap.shared_statement
#print axioms Kratos.Heap.loop_parent
#print axioms Kratos.Heap.self_inside
#print axioms Kratos.Heap.setChild_duplicates
#print axioms Kratos.Heap.setConst_same_case
#print axioms Kratos.Heap.generator_twice
#print axioms Kratos.Heap.not_TreeClaim
#print axioms Kratos.Port.typing_partial
#print axioms Kratos.Port.not_TypingClaim
#print axioms Kratos.Port.data_port_drives_clock
#print axioms Kratos.Port.slice_skips_typing
#print axioms Kratos.Gen.transfer_partial
#print axioms Kratos.Gen.transfer_keeps
#print axioms Kratos.Gen.transfer_free
#print axioms Kratos.Gen.transfer_loses_variable
#print axioms Kratos.Gen.not_TransferClaim
#print axioms Kratos.Graph.one_meaning_partial
#print axioms Kratos.Graph.conflict_rejected
#print axioms Kratos.Graph.conflicting_structs_accepted
#print axioms Kratos.Graph.not_OneMeaningClaim
#print axioms Kratos.Graph.same_layout
#print axioms Kratos.Graph.same_flat
#print axioms Kratos.Port.lvalue_partial
#print axioms Kratos.Port.lvalue_accepted
#print axioms Kratos.Port.constants_refused
#print axioms Kratos.Port.operators_refused
#print axioms Kratos.Port.not_LvalueClaim
#print axioms Kratos.Port.parameter_assignable
#print axioms Kratos.Port.constant_slice_assignable
#print axioms Kratos.Port.sum_slice_assignable
#print axioms Kratos.Port.constant_in_concat_assignable
#print axioms Kratos.Gate.clone_eq
#print axioms Kratos.StmtText.assert_value
#print axioms Kratos.StmtText.assert_property_swapped
#print axioms Kratos.StmtText.not_assert_property
#print axioms Kratos.Lines.comment_partial
#print axioms Kratos.Lines.comment_one_line
#print axioms Kratos.Lines.comment_truncated
#print axioms Kratos.Lines.comment_leaks
#print axioms Kratos.Lines.not_CommentClaim
#print axioms Kratos.Content.polarity_partial
#print axioms Kratos.Content.polarity_exact
#print axioms Kratos.Content.not_OwnListClaim
#print axioms Kratos.Content.not_WiresClaim
#print axioms Kratos.Content.not_DeclaredClaim
#print axioms Kratos.Content.not_OrderClaim
#print axioms Kratos.Content.sensitivity_exact
#print axioms Kratos.Content.remove_async_clocks
#print axioms Kratos.Content.remove_async_aligned
#print axioms Kratos.Content.remove_async_ignored
#print axioms Kratos.Content.not_WiredTypesClaim
#print axioms Kratos.Content.not_TriggerClaim
#print axioms Kratos.Content.synth_partial
#print axioms Kratos.Content.synth_refused_partial
#print axioms Kratos.Content.synth_missed
#print axioms Kratos.Content.not_SynthClaim
#print axioms Kratos.Content.not_SynthRefusalClaim
#print axioms Kratos.Replace.replace_exact
#print axioms Kratos.Replace.replace_ok
#print axioms Kratos.Replace.replace_partial
#print axioms Kratos.Replace.replace_frame
#print axioms Kratos.Replace.again
#print axioms Kratos.Replace.not_ReplaceClaim
#print axioms Kratos.Replace.not_MovableClaim
#print axioms Kratos.Replace.extend_lost
#print axioms Kratos.Replace.condition_lost
#print axioms Kratos.Replace.concat_lost
#print axioms Kratos.Replace.second_lost
#print axioms Kratos.Replace.cast_lost
#print axioms Kratos.Replace.index_lost
#print axioms Kratos.Replace.slice_lost
#print axioms Kratos.Replace.test_lost
#print axioms Kratos.Replace.index_refused
#print axioms Kratos.Replace.left_refused
#print axioms Kratos.Replace.call_refused
#print axioms Kratos.Replace.captured_wrong
#print axioms Kratos.Replace.resolve_self
#print axioms Kratos.Decouple.connect_partial
#print axioms Kratos.Decouple.connect_ports
#print axioms Kratos.Decouple.connect_plain
#print axioms Kratos.Decouple.connect_closed
#print axioms Kratos.Decouple.not_ConnectClaim
#print axioms Kratos.Decouple.extend_lost
#print axioms Kratos.Decouple.index_refused
#print axioms Kratos.Decouple.constant_connected
#print axioms Kratos.Decouple.constant_refused
#print axioms Kratos.Decouple.inout_refused
#print axioms Kratos.Decouple.unconnected_missed
#print axioms Kratos.Decouple.slice_wrong
#print axioms Kratos.Legal.legal_partial
#print axioms Kratos.Legal.legal_text_partial
#print axioms Kratos.Legal.legal_frame
#print axioms Kratos.Legal.slice_wrong
#print axioms Kratos.Legal.cast_wrong
#print axioms Kratos.Legal.index_wrong
#print axioms Kratos.Legal.write_wrong
#print axioms Kratos.Legal.test_wrong
#print axioms Kratos.Legal.test_lost
#print axioms Kratos.Legal.not_LegalClaim
#print axioms Kratos.Lift.lift_partial
#print axioms Kratos.Lift.lift_shape
#print axioms Kratos.Lift.driven_twice_wrong
#print axioms Kratos.Lift.unconnected_ub
#print axioms Kratos.Lift.swapped_wrong
#print axioms Kratos.Lift.follow_wrong
#print axioms Kratos.Lift.var_index_wrong
#print axioms Kratos.Lift.mixed_wrong
#print axioms Kratos.Lift.constant_ub
#print axioms Kratos.Lift.nested_ub
#print axioms Kratos.Lift.not_LiftClaim
#print axioms Kratos.Lift.blockName_ok
#print axioms Kratos.Lift.blockName_ub
#print axioms Kratos.Lift.no_common_name_ub
#print axioms Kratos.Elab.py_partial
#print axioms Kratos.Elab.not_PyClaim
#print axioms Kratos.Elab.drop_wrong
#print axioms Kratos.Elab.drop_hw_wrong
#print axioms Kratos.Elab.shadow_wrong
#print axioms Kratos.Elab.line_wrong
#print axioms Kratos.Elab.range_wrong
#print axioms Kratos.Elab.stale_wrong
#print axioms Kratos.Elab.not_flag_refused
#print axioms Kratos.Elab.mixed_refused
#print axioms Kratos.Elab.nested_refused
#print axioms Kratos.Asrt.remove_partial
#print axioms Kratos.Asrt.remove_crash_iff
#print axioms Kratos.Asrt.not_RemoveClaim
#print axioms Kratos.Asrt.guarded_ub
#print axioms Kratos.Asrt.empty_if_ub
#print axioms Kratos.Asrt.clocked_ub
#print axioms Kratos.Asrt.other_blocks_missed
#print axioms Kratos.Asrt.default_wrong
#print axioms Kratos.Iface.declare_partial
#print axioms Kratos.Iface.step_throws_iff
#print axioms Kratos.Iface.not_DeclareClaim
#print axioms Kratos.Iface.clash_wrong
#print axioms Kratos.Iface.misspelt_lost
#print axioms Kratos.Iface.inout_refused
#print axioms Kratos.Iface.modport_port_partial
#print axioms Kratos.Iface.modport_ref_partial
#print axioms Kratos.Iface.not_ModportRefClaim
#print axioms Kratos.Iface.modport_wire_wrong
#print axioms Kratos.Iface.wire_iff
#print axioms Kratos.Iface.inout_wrong
#print axioms Kratos.Iface.variables_wire_lost
#print axioms Kratos.Iface.modport_text_iff
#print axioms Kratos.Iface.both_text_wrong
#print axioms Kratos.Iface.empty_modport_refused
#print axioms Kratos.Iface.emit_partial
#print axioms Kratos.Iface.collect_iff
#print axioms Kratos.Iface.extract_partial
#print axioms Kratos.Iface.modports_lost
#print axioms Kratos.Iface.modport_only_lost
#print axioms Kratos.Iface.not_EmitClaim
#print axioms Kratos.Iface.header_partial
#print axioms Kratos.Iface.variables_header_lost
#print axioms Kratos.Iface.name_refused
#print axioms Kratos.Iface.name_reuse_wrong
#print axioms Kratos.Iface.clash_ub
#print axioms Kratos.Lists.header_partial
#print axioms Kratos.Lists.inout_ub
#print axioms Kratos.Lists.not_HeaderClaim
#print axioms Kratos.Lists.commas_spec
#print axioms Kratos.Lists.declared_partial
#print axioms Kratos.Lists.conns_partial
#print axioms Kratos.Lists.conns_once
#print axioms Kratos.Lists.conns_reproducible_partial
#print axioms Kratos.Lists.same_names_wrong
#print axioms Kratos.Lists.not_ReproducibleClaim
#print axioms Kratos.Enm.declare_partial
#print axioms Kratos.Enm.declared_stays
#print axioms Kratos.Enm.enum_ok_iff
#print axioms Kratos.Enm.value_partial
#print axioms Kratos.Enm.type_partial
#print axioms Kratos.Enm.foreign_wrong
#print axioms Kratos.Enm.port_type_wrong
#print axioms Kratos.Enm.port_type_partial
#print axioms Kratos.Enm.same_value_wrong
#print axioms Kratos.Enm.empty_wrong
#print axioms Kratos.Enm.resized_wrong
#print axioms Kratos.Enm.not_LegalClaim
#print axioms Kratos.Enm.shadow_wrong
#print axioms Kratos.Enm.not_ValueClaim
#print axioms Kratos.Enm.clash_wrong
#print axioms Kratos.Enm.keyword_wrong
#print axioms Kratos.Enm.legal_partial
#print axioms Kratos.Enm.range_text
#print axioms Kratos.Enm.order_partial
#print axioms Kratos.Enm.assign_var_iff
#print axioms Kratos.Enm.assign_const_partial
#print axioms Kratos.Enm.assign_partial
#print axioms Kratos.Enm.same_name_wrong
#print axioms Kratos.Enm.not_AssignClaim
#print axioms Kratos.Enm.get_iff
#print axioms Kratos.Hnd.handle_partial
#print axioms Kratos.Hnd.loop_wrong
#print axioms Kratos.Hnd.not_HandleClaim
#print axioms Kratos.Hnd.handle_unique
#print axioms Kratos.Hnd.relative_partial
#print axioms Kratos.Hnd.relative_refused
#print axioms Kratos.Hnd.sibling_wrong
#print axioms Kratos.Hnd.not_RelativeClaim
#print axioms Kratos.Hnd.reference_partial
#print axioms Kratos.Hnd.reference_wrong
#print axioms Kratos.Hnd.not_ReferenceClaim
#print axioms Kratos.Hnd.top_wrong
#print axioms Kratos.Bundle.struct_partial
#print axioms Kratos.Bundle.wanted_iff
#print axioms Kratos.Bundle.definitions_partial
#print axioms Kratos.Bundle.layout
#print axioms Kratos.Bundle.meaning
#print axioms Kratos.Bundle.accepts_partial
#print axioms Kratos.Bundle.own_output_lost
#print axioms Kratos.Bundle.test_lost
#print axioms Kratos.Bundle.not_StatementsClaim
#print axioms Kratos.Bundle.clash_ub
#print axioms Kratos.Bundle.mixed_ub
#print axioms Kratos.Bundle.not_AcceptsClaim
#print axioms Kratos.Bundle.text_ambiguous_wrong
#print axioms Kratos.Bundle.conflict_wrong
#print axioms Kratos.Bundle.not_DefinitionsClaim
#print axioms Kratos.Func.binds_partial
#print axioms Kratos.Func.binds_iff_adjacent
#print axioms Kratos.Func.decl_printed
#print axioms Kratos.Func.call_printed
#print axioms Kratos.Func.distinct_counts
#print axioms Kratos.Func.accepts_iff
#print axioms Kratos.Func.args_partial
#print axioms Kratos.Func.type_partial
#print axioms Kratos.Func.return_types
#print axioms Kratos.Func.children_partial
#print axioms Kratos.Func.child_lost
#print axioms Kratos.Func.pos_partial
#print axioms Kratos.Func.pos_wrong
#print axioms Kratos.Func.arity_partial
#print axioms Kratos.Func.same_text_wrong
#print axioms Kratos.Func.tie_wrong
#print axioms Kratos.Func.signed_wrong
#print axioms Kratos.Func.task_wrong
#print axioms Kratos.Func.arity_missed
#print axioms Kratos.Func.not_BindClaim
#print axioms Kratos.Func.not_ArgsClaim
#print axioms Kratos.Func.not_TypeClaim
#print axioms Kratos.Func.not_ChildrenClaim
#print axioms Kratos.Func.not_ArityClaim
#print axioms Kratos.Func.not_PosClaim
#print axioms Kratos.Func.types_fit
#print axioms Kratos.Func.value_iff
#print axioms Kratos.Func.value_partial
#print axioms Kratos.Func.wide_lost
#print axioms Kratos.Func.describes_partial
#print axioms Kratos.Func.import_exists
#print axioms Kratos.Func.order_wrong
#print axioms Kratos.Func.width_wrong
#print axioms Kratos.Func.second_refused
#print axioms Kratos.Func.not_ValueClaim
#print axioms Kratos.Func.not_DescribesClaim
#print axioms Kratos.Func.not_SharedClaim
#print axioms Kratos.Ssa.debug_partial
#print axioms Kratos.Ssa.accepted_iff
#print axioms Kratos.Ssa.settles
#print axioms Kratos.Ssa.fix_linear
#print axioms Kratos.Ssa.hidden_wrong
#print axioms Kratos.Ssa.neg_wrong
#print axioms Kratos.Ssa.added_wrong
#print axioms Kratos.Ssa.attr_refused
#print axioms Kratos.Ssa.not_DebugClaim
#print axioms Kratos.MergeConst.merge_partial
#print axioms Kratos.MergeConst.inverted_wrong
#print axioms Kratos.MergeConst.block_lost
#print axioms Kratos.MergeConst.slice_wrong
#print axioms Kratos.MergeConst.slice_refused
#print axioms Kratos.MergeConst.not_MergeClaim
#print axioms Kratos.Cache.order_free
#print axioms Kratos.Cache.again_copy
#print axioms Kratos.Cache.swapped_key
#print axioms Kratos.Cache.equal_key
#print axioms Kratos.Cache.swapped_wrong
#print axioms Kratos.Cache.equal_wrong
#print axioms Kratos.Cache.cache_partial
#print axioms Kratos.Cache.not_CacheClaim
#print axioms Kratos.Cache.init_iff
#print axioms Kratos.Cache.init_body_partial
#print axioms Kratos.Cache.init_again
#print axioms Kratos.Cache.wiring_lost
#print axioms Kratos.Cache.options_lost
#print axioms Kratos.Cache.sequential_refused
#print axioms Kratos.Cache.not_InitClaim
#print axioms Kratos.Cache.text_partial
#print axioms Kratos.Cache.uninitialised_wrong
#print axioms Kratos.Cache.clone_lost
#print axioms Kratos.Cache.not_TextClaim
#print axioms Kratos.Swap.accepted_same
#print axioms Kratos.Swap.swap_partial
#print axioms Kratos.Swap.swap_gone
#print axioms Kratos.Swap.swap_frame
#print axioms Kratos.Swap.count_refused
#print axioms Kratos.Swap.remove_partial
#print axioms Kratos.Swap.unwire_exact
#print axioms Kratos.Swap.refused_wrong
#print axioms Kratos.Swap.not_RefuseClaim
#print axioms Kratos.Swap.input_lost
#print axioms Kratos.Swap.test_lost
#print axioms Kratos.Swap.not_SwapClaim
#print axioms Kratos.Swap.index_refused
#print axioms Kratos.Swap.not_AcceptClaim
#print axioms Kratos.Swap.inner_lost
#print axioms Kratos.Swap.mention_wrong
#print axioms Kratos.Swap.not_RemoveClaim
#print axioms Kratos.Sva.text_reads
#print axioms Kratos.Sva.top_partial
#print axioms Kratos.Sva.below_partial
#print axioms Kratos.Sva.shared_wrong
#print axioms Kratos.Sva.not_TextClaim
#print axioms Kratos.Sva.range_wrong
#print axioms Kratos.Sva.middle_vacuous
#print axioms Kratos.Sva.docs_reading
#print axioms Kratos.Sva.infer_iff
#print axioms Kratos.Sva.infer_keeps
#print axioms Kratos.Sva.unclocked_wrong
#print axioms Kratos.Sva.same_clock_refused
#print axioms Kratos.Sva.not_ClockClaim
#print axioms Kratos.Sva.text_shape
#print axioms Kratos.Sva.declared_once
#print axioms Kratos.Sva.twice_wrong
#print axioms Kratos.Sva.build_partial
#print axioms Kratos.Sva.second_imply_ub
#print axioms Kratos.Sva.second_imply_lost
#print axioms Kratos.Sva.not_CallsClaim
#print axioms Kratos.Regs.regs_partial
#print axioms Kratos.Regs.regs_frame
#print axioms Kratos.Regs.next_accepted
#print axioms Kratos.Regs.other_type_refused
#print axioms Kratos.Regs.twice_wrong
#print axioms Kratos.Regs.foreign_wrong
#print axioms Kratos.Regs.low_wrong
#print axioms Kratos.Regs.not_RegClaim
#print axioms Kratos.Flatten.wrapper_exact_partial
#print axioms Kratos.Flatten.wrapper_accepted_partial
#print axioms Kratos.Flatten.wrapper_elements
#print axioms Kratos.Flatten.wrapper_scalars
#print axioms Kratos.Flatten.wrapper_only
#print axioms Kratos.Flatten.wrapper_transparent
#print axioms Kratos.Flatten.wrapper_covers
#print axioms Kratos.Flatten.wrapper_direction
#print axioms Kratos.Flatten.suffix_inj
#print axioms Kratos.Flatten.wrapper_refused
#print axioms Kratos.Flatten.wrapper_sign_lost
#print axioms Kratos.Flatten.wrapper_inout_wrong
#print axioms Kratos.Flatten.wrapper_unit_array_wrong
#print axioms Kratos.Flatten.not_FlattenClaim
#print axioms Kratos.Inline.inline_partial
#print axioms Kratos.Inline.collapse_partial
#print axioms Kratos.Inline.not_InlineClaim
#print axioms Kratos.Inline.register_lost
#print axioms Kratos.Inline.slice_refused
#print axioms Kratos.Inline.index_refused
#print axioms Kratos.Inline.parent_register_lost
#print axioms Kratos.Inline.test_wrong
#print axioms Kratos.Inline.direct_refused
#print axioms Kratos.Registry.registry_sound
#print axioms Kratos.Registry.registry_complete_partial
#print axioms Kratos.Registry.registry_exact_partial
#print axioms Kratos.Registry.not_ExactClaim
#print axioms Kratos.Registry.remove_wrong
#print axioms Kratos.Registry.slice_wrong
#print axioms Kratos.Registry.index_wrong
#print axioms Kratos.Registry.again_lost
#print axioms Kratos.Registry.shared_lost
#print axioms Kratos.SimLinks.rerun_sound
#print axioms Kratos.SimLinks.rerun_partial
#print axioms Kratos.SimLinks.overlap_missed
#print axioms Kratos.SimLinks.not_RerunClaim
#print axioms Kratos.SimLinks.overlap_lost
#print axioms Kratos.SimLinks.twice_lost
#print axioms Kratos.SimLinks.index_lost
#print axioms Kratos.SimLinks.condition_lost
#print axioms Kratos.SimLinks.call_lost
#print axioms Kratos.SimLinks.cast_ub
#print axioms Kratos.SimArrays.memory_partial
#print axioms Kratos.SimArrays.whole_events
#print axioms Kratos.SimArrays.element_ub
#print axioms Kratos.SimArrays.sub_read_refused
#print axioms Kratos.SimArrays.sub_write_refused
#print axioms Kratos.SimArrays.element_event_wrong
#print axioms Kratos.SimArrays.not_EventClaim
#print axioms Kratos.SimArrays.large_ub
#print axioms Kratos.SimArrays.wide_ub
#print axioms Kratos.SimArrays.sub_write_wrong
#print axioms Kratos.SimArrays.not_MemoryClaim
#print axioms Kratos.DebugScopes.breakpoints_partial
#print axioms Kratos.DebugScopes.saved_iff
#print axioms Kratos.DebugScopes.skipped_refused
#print axioms Kratos.DebugScopes.override_lost
#print axioms Kratos.DebugScopes.loop_wrong
#print axioms Kratos.DebugScopes.function_refused
#print axioms Kratos.DebugScopes.ignored_refused
#print axioms Kratos.DebugScopes.not_TableClaim
