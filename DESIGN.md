# Formal model of Kuree/kratos in Lean 4 — design

## 1. What is modelled, and how

kratos builds a hardware description in memory (variables, expressions,
statements, generators), runs passes over it, and prints SystemVerilog.  The
model follows the C++ function by function.  Each `def` carries a comment with
the file and lines it models and what was simplified.

Layout of `lean/Verif/`: one directory per area, each with

* `Model.lean` – the code, as total computable functions;
* `Spec.lean`  – a small independent specification (what the English property
  talks about: bit vectors, SystemVerilog statement semantics, state machines,
  memories …), written without looking at the model's helpers;
* `Lemmas.lean` – proofs' helper lemmas (where needed);
* `Props.lean` – the property theorems, each followed by an `example` that
  exhibits a concrete non-trivial case meeting its hypotheses.

Conventions

* C++ `uint64_t` arithmetic is `BitVec 64`; shifts by ≥ 64 bits, division by 0,
  null dereference … are the distinct outcome `Res.ub`; thrown exceptions are
  `Res.throw`.  Theorems say which outcome occurs.
* Mutation becomes state passing; `shared_ptr` identity becomes an explicit id
  where identity matters and is dropped where it does not.
* Iteration over `unordered_map`/`unordered_set` is modelled by an arbitrary
  permutation (the theorem quantifies over it), never by a fixed order.
* When the property is false of the code we prove the negation with a concrete
  witness (a theorem `not_…Claim` or one named after what goes wrong) and prove
  the strongest part we can (suffix `_partial`).  Those disagreements are collected in section 4.

## 2. Trusted base

* Lean 4.33.0 kernel (and the elaborator only as far as it states theorems).
* Axioms: `propext`, `Classical.choice`, `Quot.sound` at most
  (`lean/Verif/Audit.lean` prints them for every property theorem).
  No user axioms, no `sorry`, no `native_decide`/`bv_decide`.
* The faithfulness of the hand translation C++ → Lean: nothing ties the model
  to the binary.  Not modelled at all: pybind11 glue, file system, thread pool
  scheduling, memory management (`shared_ptr` lifetimes), floating point,
  DPI compilation, the VPI/debugger database, string formatting of attributes.

## 3. Plan per property

| id | modelled | proof idea |
|----|----------|-----------|
| C01–C04 | `eval.cc` over `BitVec 64` with explicit UB | reduce to `BitVec w` / `Int` via `toNat`, `omega`; counterexamples by `decide` |
| C05 | `Const` constructor and mutators as a state machine | invariant by induction on the call list |
| C06 | `Const::to_string` on character lists | round trip against a Verilog literal reader |
| C07 | `expr_to_string` to tokens | precedence-climbing reader of Verilog; round trip on the fragment without same-operator nesting of non-associative operators; counterexample `a-(b-c)` |
| C08, C09 | shapes, selection chains, flatten enumeration | induction on chains / dimension lists |
| C10 | struct layout (`bitmask` prefix sums) and SV packed struct layout | tiling by induction; mismatch with SV order as counterexample |
| C11 | `Expr` constructor checks | induction on the tree |
| C12 | parameter graph as a state machine | invariant on every history |
| C13–C16 | statement trees with SystemVerilog big-step semantics, the passes as functions on trees | semantic preservation by induction; counterexamples |
| C17 | pipeline registers as a synchronous machine | induction on time |
| C18, C19 | sequential statement trees, wrapping transformations | semantic preservation |
| C20 | top-level statement list with kinds | permutation, sortedness and stability of the emitted list |
| C21 | per-bit driver map and gap computation | induction on the sorted slice list |
| C22, C23 | netlists of assignments | simulation argument on valuations |
| C24 | visitor that fixes assignment kinds | tree induction |
| C25 | SSA visitor on a mini-AST | simulation relation; counterexample for reads in else branch |
| C26, C27 | `check_stmt_condition` and path semantics | soundness by induction on the tree; counterexamples (zero-trip loops, slices, ≥32-bit case targets) |
| C28–C31, C33 | checks as boolean functions on driver sets | iff theorems; counterexample for C31 |
| C32 | condition builder vs control-flow semantics | induction; counterexample for `default` |
| C34–C37 | FSM data, realization to if/switch, abstract machine | refinement on all input traces; counterexamples for Mealy defaults and nested names |
| C38–C42 | generator/context tables as state machines | invariants over histories |
| C43, C44 | uniquify loop, hash function | functional spec; collision witnesses |
| C45–C47 | graph traversals with arbitrary child order | topological-order theorem |
| C48–C52 | statement printing, line counter, identifiers | read-back theorems |
| C53–C55 | simulator core | NBA semantics, fixed point |
| C56–C65 | library pieces and utilities | refinement / algebraic laws |
| C66 | `transfer_content` on the two variable tables | invariant over the moved variables; counterexample: freshness is tested in the wrong table |
| C67 | the struct collection and `same` | functional spec of the collected table; counterexample with nested field names |
| C69 | `clone` of statements | equality of the copies' behaviour by induction |
| C70 | text of assertions | read back against the grammar of action blocks; counterexample: missing `else` |
| C71 | text of comments | functional spec on character lists; counterexamples with line breaks |
| C68 | the left-hand side checks of `assign_` on terms | induction on the term against an inductive lvalue grammar; counterexamples |

(The table is refined as the model grows; see section 5 for the current state.)

## 4. Where the code does not do what is claimed

Every row is a property whose full statement is false of the code, or proved in part.  The theorems in the third
column are machine-checked refutations (a concrete design, history or input); the fourth column says what is
true and what is missing.  `not_…Claim` negates the full statement, which is kept as a `def …Claim : Prop`.

| id | property | refutations | proved, and missing |
|----|----------|-------------|-------------------|
| C02 | Folded comparisons agree with integer order | `fold_order_counterexample` | false of the code for <=/>= on two equal negatives; the partial theorem excludes exactly that case |
| C03 | Folded division and shifts agree with Verilog | `fold_divide_zero_ub`, `fold_sshr_counterexample` | >>> of a negative operand is wrong in the code |
| C04 | Folded unary operators agree with Verilog | `fold_reduce_counterexample`, `fold_invert_64_ub` | reductions & and ^ use a 32-bit popcount and are wrong above 32 bits |
| C05 | A constant object never holds an unrepresentable value | `const_wide_ub`, `const_history_counterexample_width`, `const_history_counterexample_signed`, `const_string_counterexample` | widths up to 64 (wider ones shift out of range); the unchecked width/signed setters and the string setter break the invariant |
| C06 | A printed constant reads back as the same number | `const_text_counterexample_unsigned`, `const_text_counterexample_min` | false of the code for unsigned constants with the top bit of 64 set and for the minimum 64-bit value |
| C07 | A printed expression denotes the expression that was built | `expr_text_counterexample_right`, `expr_text_counterexample_neg`, `expr_text_counterexample_fuse`, `expr_text_counterexample_select`, `expr_text_counterexample_chain`, `not_ExprTextCorrect` | false of the code for the five families shown; proved, from characters to value, for every other expression |
| C08 | Slices select exactly the bits they name | `slice_counterexample_range`, `slice_counterexample_unit`, `not_SliceCorrect`, `slice_cache_counterexample`, `sim_position_counterexample` | false of the code for range selects of multi-dimensional arrays, trailing dimensions of size 1 and the struct slice cache; proved otherwise |
| C10 | Packed-struct fields tile the struct and match the emitted typedef | `struct_typedef_counterexample` | member ranges tile the struct; the emitted typedef lists the fields in the mirrored order, shown exactly |
| C100 | A loop index expression keeps its value where it is narrowed | `middle_wrong`, `corner_wrong`, `descending_wrong`, `divide_wrong`, `wrap_wrong`, `step_refused`, `down_refused`, `second_use_refused`, `not_NarrowClaim`, `not_AcceptClaim` | Proved for all sums and products of loop variables and constants over loops that count upwards, without 32-bit overflow at the last values, and whatever the static simulator remembers: an accepted assignment, index or operand has the width of the place and the value it had, in every iteration (assign_partial, index_partial, operator_partial); with step 1 everything that fits is accepted (accept_partial); a loop variable by itself, up or down, is decided exactly (variable_iff, variable_value). False of the code: only the ends are evaluated (middle_wrong), never two first values together (corner_wrong, descending_wrong), operands of a quotient are cut (divide_wrong), overflow hides the size (wrap_wrong); refused although fitting (step_refused, down_refused, second_use_refused); a refusal leaves a broken expression (refused_changes); array bounds are not looked at (range_unchecked). |
| C101 | The Python instance table shows the instances of the design | `replaced_rename_wrong`, `clash_wrong`, `removed_lost`, `replaced_lost`, `removed_refused`, `foreign_wrong`, `not_TableClaim`, `not_RaisingClaim` | Proved for all orderly histories (only parentless generators are placed, only children removed, only children that did not come in by replace renamed, to a free name; exceptions may occur): both tables agree (lookup_partial), each call has its effect and nothing else (effects_partial), and returns exactly when the name is free or taken as it must be (returns_iff_partial). False of the code outside: renaming a generator put in by replace reaches only the library, without an exception (replaced_rename_wrong, not_TableClaim); renaming to a taken name raises but Python has lost the sibling (clash_wrong, not_RaisingClaim); renaming a removed or replaced generator raises and drops another child (removed_lost, replaced_lost), or is refused (removed_refused); removing a foreign generator removes the child with its name (foreign_wrong). |
| C102 | The diagram and the table of a state machine show the machine | `collision_wrong`, `leaving_wrong`, `comma_wrong`, `not_DiagramClaim` | Proved for every machine without nesting, however built, whose start state is its own (diagram_flat), and for nested ones that no transition leaves and whose full names differ (diagram_partial, diagram_made): reading the text gives one node per state, the double circle for the start, one arrow per transition. The table reads back when each output has a value and no text has a comma (table_partial), which holds after realize (table_realized). False of the code: a start state of another machine throws (outside_start_throws, not_DiagramClaim), states k_s and s in k are drawn as one (collision_wrong), a state outside is drawn once per arrow to it, with all its arrows (leaving_wrong), a concatenation as value takes two columns (comma_wrong), defaults are missing before realize (default_throws), states of inner machines have no row (inner_missing). |
| C103 | The coverage report says how often every statement ran | `prefix_wrong`, `relative_wrong`, `relative_ub`, `shared_line_wrong`, `bare_block_wrong`, `uncomputed_wrong`, `not_ReportClaim` | The writer is right for every document (document_reads_back). The report is proved right when the coverage of all runs has been computed, no two statements share a line, blocks have debug information, and file names are absolute with no directory name the beginning of another one (report_partial). False of the code: /a is taken for the common directory of /a/y and /ab/x (prefix_wrong, not_ReportClaim), a relative file name for a directory (relative_wrong) or read past its end (relative_ub), of two statements on one line one is shown (shared_line_wrong), inside a block without debug information the block around it is counted and blocks covered can exceed blocks valid (bare_block_wrong), runs not analysed before are missing (uncomputed_wrong). Rates and time stamp are not modelled. |
| C104 | The declarations of ports and variables say what the user asked for | `shift_wrong`, `lone_wrong`, `raw_wrong`, `enum_wrong`, `not_PortClaim`, `not_VarClaim` | PortClaim and VarClaim (the full statements) are false of the code: four kinds of witnesses. Proved for ports whose parametrised width binds at least as tightly as a subtraction, and for variables without a type parameter, with an explicit array where a size parameter may be 1, and no arrays of enumerations. Parameter expressions are 32 bits wide; interface ports and the strings of before_var_str/after_var_str are not modelled. |
| C105 | Writing a design as a package leaves every file current, whatever happened before | `not_PackageClaim` | PackageClaim (the full statement) is false of the code: race gives a schedule of two threads with undefined behaviour, stale_fn a generator that does not learn the path of a file that was already right. Proved for one processor or at most one generator per level, and for the path when the file was missing or differed. The texts of modules, debug information and header are inputs; files can be opened, and module names are relative paths; generators of one name have the same texts, as the code assumes. |
| C106 | Importing a Verilog module gives exactly the ports it declares | `carry_wrong`, `line_end_wrong`, `inout_lost`, `not_ImportClaim`, `type_refused` | ImportClaim (the full statement) is false of the code: carry_wrong, line_end_wrong and inout_lost are legal modules imported wrongly, parameter_width_undefined is undefined behaviour, type_refused an exception. Proved for declarations whose tokens are set apart by commas and blanks, that begin with input or output and in which no port without a range follows one with a range. The regular expressions are modelled as scanners; the recursion limit of the engine is not. The assignment of port types behind the import is not modelled. |
| C107 | Assignments may use exactly the signals that exist where they stand | `not_ScopeClaim` | ScopeClaim (accepted iff legal) is false of the code: sibling_accepted, input_hidden and expression_hidden are illegal assignments that are accepted. Proved: every legal assignment is accepted, for all expressions; an accepted single signal or slice is legal if it is not of a sibling (variables and outputs) or is a port (inputs). Constants that were given a generator, and casts, are not modelled. |
| C108 | A coverage file is read into exactly the statements that were passed | `no_page_refused`, `count_lost`, `not_CoverageClaim` | CoverageClaim (every count below 2^63, files told apart by their path) is false of the code: count_lost and same_name. Proved for counts below 2^32 when no two blocks have the same line in files of the same name (coverage_partial), and with exact paths when no two files have the same name (coverage_exact_partial); cut_file for files cut off before the count of the last point; a cut inside the count is read as a smaller count. A missing file and systems without std::filesystem are not modelled. |
| C109 | Sequential and parallel hashing merge the same modules | `tracked_twice`, `not_StrategyClaim` | Proved for every design whose generators do not instantiate external ones by statements and that has no hashes yet, for every bottom-up order, every order within levels and every hash function. The rest is false of the code: with instantiation statements of a child marked external by hand the sequential strategy throws and the parallel one does not (external_child); while generated modules are tracked a design cannot be hashed twice (tracked_twice). |
| C11 | Expression construction computes Verilog self-determined widths and signs | `width_counterexample_shared`, `not_WidthCorrect`, `width_counterexample_logical`, `width_counterexample_cached`, `no_loss_counterexample_expr`, `no_loss_counterexample_const`, `not_NoSilentLoss` | false of the code for shared constants, logical operators, the cached width and silently truncated operands; proved otherwise, scalars without loop variables |
| C110 | Accepted clocked blocks can be built from flip-flops | `undriven_refused`, `not_FlipFlopClaim` | Shape of accepted blocks for all generators; exact (both directions) for conditions without ? : and case targets narrower than 32 bits (wider ones are undefined behaviour, C27). False of the code: an untested reset is accepted (untested_reset), a reset in the condition of a ternary is overlooked (ternary_hidden). Left sides indexed by a variable and statement functions are not modelled. |
| C111 | Every instance has its module in the emitted text, once | `not_EmitClaim` | Proved for every design hashed by either strategy in which no external module has the original name of a module of the design. Missing, because false: an internal and an external module of one name (external_clash: the emitted module of the design also serves the external instance). Clones are excluded by Design. |
| C112 | A written Verilog file holds every definition and its table points at the right lines | `not_FileClaim` | Proved: text, table and shifts of every single call, tracked or not; presence and uniqueness over every history of tracked calls on different files in which a name always has one text. Missing, because false: a definition and a module of one name (kinds_clash), a file written again with tracking (rewrite_loses), and a table left from an earlier call (stale_table). |
| C113 | The body of an emitted module holds the assignments and processes that were built | `not_ItemClaim` | Proved for all bodies whose clocked blocks have a condition and whose blocks satisfy the conditions of C48 on loops and labels; exact description of what is refused; delays in full. Missing, because false: a clocked block without conditions is printed as always_ff @() (no_clock), and a slice of an own input is accepted as a target (input_slice). |
| C114 | An ICC coverage report is read into exactly the branches that were taken | `busy_refused`, `far_lost`, `not_IccClaim` | icc_partial: for every report in which each section has a table and counts/origins are below 100000, blocks/lines below 10000, kinds shorter than 20, exactly the taken branches are returned, with the count of such a row; cut_report: prefixes of lines give subsets. The full claim is false of the code (not_IccClaim): busy_refused, far_lost, no_table. Missing files are not modelled |
| C115 | A port reports the ports it is connected to | `not_ConnectedClaim` | from_sound: for any history, what connected_from reports is an output of another generator in an assignment to the port; from_partial, to_partial, dual_partial, connected_partial: exact for the histories of C96 and expressions without slices, casts and calls. The full claim is false of the code (not_ConnectedClaim): slice_hidden, part_hidden, cast_hidden, index_reported, removed_reported |
| C116 | The extracted register names are the variables written at clock edges | `not_RegisterClaim` | var_names in full; registers_partial: exact for designs without cloned or external generators and unchecked clocked blocks in which nothing written in a clocked block is written elsewhere, for every order of the sets. The full claim is false of the code (not_RegisterClaim): initial_hides, unchecked_hidden, cloned_hidden. Generate loops are not modelled |
| C117 | Passes run in the order they need, and instances that share a module have the same body | `pipeline_lost`, `not_ShareClaim` | passes_exact and passes_ordered in full; share_partial: instances merged at the hash have equal final bodies if no pass behind the hash tells their annotations apart. The full claim is false of the code (not_ShareClaim, pipeline_lost). Passes that throw and the contents of the hash (C44) are abstracted |
| C118 | A dotted instance name becomes a hierarchy with that full name | `clash_refused`, `shared_refused`, `existing_wrong`, `not_MockClaim` | mock_partial: for paths of any length with different names none of which the context knows; mock_join_partial: the outermost may exist. The full claim is false of the code (not_MockClaim): repeated_endless, shared_refused, existing_wrong, removed_undefined |
| C119 | Names of the frontend are handed down to the statements inside | `shadow_wrong`, `loop_lost`, `not_ScopeClaim` | propagate_exact: exactly what is shown, for all nestings; propagate_partial: the claim without loops and clashes of names. The full claim is false of the code (not_ScopeClaim): shadow_wrong, loop_lost |
| C12 | Parameter updates reach everything that depends on the parameter | `params_counterexample_expr`, `not_ParamsCorrect`, `params_counterexample_untie`, `params_counterexample_retie`, `params_counterexample_reparent`, `params_counterexample_atomic` | false of the code for width expressions, untying, re-tying, re-parenting and rejected values deeper in the chain; proved for all other histories |
| C120 | Recorded simulation values go to the variables their names denote | `state_refused`, `negative_refused`, `packed_refused`, `not_NameClaim`, `not_RefuseClaim` | select_partial: for all hierarchies and names where no instance has the name of the variable and the variable is not a packed array; select_sound and mark_iff in full. The full claims are false of the code (not_NameClaim, not_RefuseClaim): instance_hides, packed_refused, mark_unknown, empty_undefined. What Simulator::set does with the value is C40 |
| C121 | A port copied into a parent generator follows the parent's parameters | `wider_wrong`, `not_PortClaim`, `not_VarClaim` | follows_partial: for all trees of ordinary operators whose operands have equal widths and whose parameters are set from parameters of the parent declared alike, for all later values; accepted: such copies are accepted; accepted_clean and accepted_linked: nothing else is. The full claims are false of the code (not_PortClaim, not_VarClaim): conditional_undefined, concat_undefined, wider_wrong, refused_leaves, clash_undefined, var_untied |
| C122 | Inlined variables keep the parametrisation of their shapes | `width_expression_wrong`, `not_VarClaim`, `not_PortClaim` | width_partial, size_partial: for shapes that are a parameter set from the parent's, for all later values; plain_width, size_frozen: what is not parametrised stays. The full claims are false of the code (not_VarClaim, not_PortClaim): size_expression_frozen, width_expression_wrong, retied and port_frozen say what happens instead |
| C123 | A concatenation means its operands, whatever was built or moved before | `mixed_refused`, `not_ConcatClaim`, `not_LocalClaim`, `not_WidthClaim` | concat_partial: for all histories in which the readers of the first operand were not moved; others_keep_partial: for statements that share no expression object with the moved ones; width_partial, mixed_refused: when readers move only to variables of the same width and sign. The full claims are false of the code (not_ConcatClaim, not_LocalClaim, not_WidthClaim); stale says what concat hands out after a move |
| C124 | The hierarchical name of an expression names every signal by its path | `handle_index_wrong`, `handle_cast_wrong`, `handle_param_wrong`, `not_HandleClaim`, `not_RelativeClaim` | handle_partial: variables, slices and elements at constant indices, constants, operators, concatenations and conditionals over plain conditions; relative_partial: the same without operators. handle_diverges_iff says exactly when the call never returns. The full claims are false of the code (not_HandleClaim, not_RelativeClaim, with the causes in the other theorems) |
| C125 | The debug table of a module gives for each line what is printed there | `not_SoundClaim`, `not_CompleteClaim` | entry_iff says what every entry is; sound_partial: if everything reached from the module is printed in it; complete_partial: for the kinds of objects the visitor knows. The full claims are false of the code (not_SoundClaim, not_CompleteClaim) |
| C126 | A declaration from Python gives the signal that was asked for | `again_size_wrong`, `enum_wrong`, `struct_wrong`, `not_AskedClaim`, `not_AtomicClaim`, `not_AgainClaim`, `not_ClockClaim` | declare_partial: for a name not in use and arguments that have an effect, the call gives exactly the signal asked for, or is refused and changes nothing; again_iff says what a second declaration does. The full claims are false of the code (the not_ theorems) |
| C127 | The events extracted from a design are those the user fired | `not_EachClaim`, `not_CombClaim`, `not_LastMatchClaim` | extract_partial: every event of the design once, in the order first met; extract_text and flag_partial: if no event is shared by two blocks. The full claims are false of the code (the not_ theorems) |
| C128 | An enumeration declared from Python has the codes and the width of its definition | `negative_refused`, `zero_refused`, `rounding_refused`, `mixed_wrong`, `repeat_wrong`, `not_DistinctClaim`, `not_AnyClaim` | names_partial: two or more different names get the codes 0, 1, 2, … and the least width; defs_value says what any list gives, repeated names included; given_width and default_width_partial say which definitions are accepted, declare_exact and width_least what they give. The full claims are false of the code (mixed lists collide, a single state is refused) |
| C129 | A failing assertion reports where it is written | `not_reports`, `not_property` | asserts_report_partial: functions with no assert_ inside a test; asserts_report says for every function which position each assertion reports. The full claims are false of the code (nested assert_, asserted properties) |
| C13 | If-to-case conversion preserves behaviour | `if_to_case_counterexample`, `if_to_case_wide_ub` | false of the code when a label repeats in the chain; proved for chains without repeated labels |
| C130 | Instantiating a child with keyword arguments sets and wires what was asked | `addChild_refused`, `not_AtomicClaim`, `not_DeferredClaim`, `not_AllWiredClaim`, `not_StringClaim` | addChild_ok_iff and addChild_does say when a call on a generator that is no copy is accepted and what it does; all_wired_partial: every keyword naming a port and no parameter is wired; the other claims are false of the code and refuted |
| C131 | Calling a method decorated with @function or @task | `not_PositionClaim`, `not_TranslatedClaim`, `not_AgainClaim`, `not_RetryClaim` | call_typed, call_keeps and first_call hold in every state; call_partial for generators with distinct names that are kept and consistent methods; the unrestricted claims are false of the code and refuted |
| C132 | Adding a block of code gives the block that its decorator asks for | `add_refused`, `bare_refused`, `not_AtomicClaim`, `not_QualifiedClaim`, `not_DecoratorClaim` | add_ok and add_ok_iff say when a call is accepted and what it does, for every environment; decorator_partial if names mean the same at definition and at addition; the other claims are false of the code and refuted |
| C133 | Removing a statement takes exactly that statement out of the design | `batch_twice`, `not_RemoveClaim`, `not_BatchClaim` | Removal proved exact after every careful history except directly inside an added loop; batches characterised for every sequence of calls, and equal to immediate removal if nothing is twice or comes back. The five failures are theorems. |
| C134 | Cycling and resetting the simulator from Python advance a synchronous design | `high_clock_lost`, `not_CycleClaim` | false: if the clock is high before, the first cycle of cycle() makes no rising edge and is lost; proved for a low clock (an inactive reset), one register block on it, values known and the conditions of C54 |
| C135 | The driver table names the variables that drive each variable | `not_DriverClaim` | completeness is false: a variable read through a slice, a cast or a variable index, or that is a port or an enumeration variable, is not told as a driver, and a variable assigned through slices only, or a port, has no entry; soundness and termination are proved for all designs, completeness for whole variables assigned expressions of variables, constants and operators |
| C136 | The debug database shows the Python attributes of each generator | `not_DebugVarsClaim` | false: a Python string equal to the name of a variable is shown as that variable, a slice (or any signal that is not a variable of the generator) as a constant string, a parameter not at all; proved otherwise, with the walk and the places for all inputs |
| C137 | A switch built from Python runs the statements given for each value | `not_AtomicClaim`, `not_PrintClaim` | case_runs and case_accepted hold for all accepted calls; false: a call refused for a later argument leaves the earlier ones in the switch, and an empty block makes a case that cannot be printed |
| C138 | Reducing or concatenating several signals from Python takes all of them in order | `not_ListClaim` | everything but the last sentence is proved; false: a list of two or more objects is given back as it is |
| C14 | Merging adjacent ifs preserves behaviour | `merge_if_counterexample_else`, `merge_if_counterexample_between` | false of the code when an if has an else or statements in between write the predicate; proved otherwise |
| C15 | Removing empty blocks preserves behaviour | `remove_empty_both_ub`, `remove_empty_counterexample_ub`, `remove_empty_counterexample_wide`, `remove_empty_counterexample_nested`, `remove_empty_counterexample_default` | false of the code for the four families shown; proved for all other trees |
| C16 | Merging bit-wise wire assignments preserves every bit | `not_MergeClaim`, `swap_lost` | When every merged statement connects equal bit positions, each bit keeps exactly its drivers, and a clocked (non-blocking) block commits the same registers. The full claim is false: slice indices are never compared (a bit swap becomes a copy), only the number of statements is, and in a block of blocking assignments the merged statement moves behind its readers. |
| C17 | Inserted pipeline stages delay outputs by exactly n cycles | `not_PipelineClaim` | Every module without output reads: any number of stages, any inputs and edges. False when the module reads its own output (a counter): the feedback is delayed too. |
| C18 | Clock-enable insertion gates every register and nothing else | `call_refused`, `not_EnableClaim` | Enabled: unconditional. Disabled/reset: blocks whose reset is the only statement and that are not hand-gated; counterexamples for both exceptions. |
| C19 | Synchronous-reset insertion resets and otherwise preserves | `not_SyncClaim` | Deasserted: unconditional. Asserted: single reset-if blocks; blocks with a statement after the reset get no synchronous reset. |
| C21 | Zeroing unconnected inputs drives every and only undriven bits | `not_ZeroClaim`, `signed_stub_refused`, `enum_stub_refused`, `not_StubClaim`, `enum_refused`, `driven_by_parts_ub`, `irregular_refused`, `nested_array_wrong` | exact for ports without dimensions or with one; a fully driven port that is driven in parts is undefined behaviour, nested arrays are zeroed wrongly |
| C22 | Removing unused variables and dead statements preserves outputs | `not_DeadClaim`, `concat_target_lost`, `call_argument_lost`, `silent_instance_lost`, `unused_clock_removed`, `black_box_removed`, `external_lost` | Dead-code elimination over the flattened design: for every schedule of assignments, clock ticks and input changes every variable that is left keeps its value, for designs with one target per assignment where no removable variable is an event control or a call argument and no assignment reads an undriven instance output. False in general: the clock port of an instance is not a registered reader and is unwired (not_DeadClaim), every external module loses all its ports (black_box_removed, external_lost), and four further witnesses. |
| C23 | Removing fan-out-one wires and pass-through modules preserves connectivity | `input_lost`, `output_lost`, `output_twice`, `loop_diverges`, `not_FanoutClaim`, `not_PassClaim`, `latch_removed`, `slice_lost`, `clone_refused` | Wires: proved for chains without ports in the middle. Pass-through modules: proved for modules whose statements are top-level assignments of whole ports. The full claim is false: an input or output port in a wire chain loses its connection, a cycle of wires never ends, a module with a latch or with a sliced output is taken for a pass-through and its readers are deleted, and clones of a removed module are refused. |
| C24 | Assignment-kind inference is total and consistent | `latch_not_checked`, `not_KindClaim` | Exact effect on every design; kinds fixed by the user in latches, initial/final blocks or unchecked blocks are not checked. |
| C25 | SSA conversion of a combinational block preserves behaviour | `not_SsaClaim`, `elseReads_wrong`, `attrBranches_wrong`, `partBranch_wrong` | False of the code in general (three witnesses: reads in an else branch of variables assigned in the then branch, attributes assigned under an if, slices assigned under an if). ssa_partial proves it for all other bodies; single_assignment and convert_iff hold for all bodies. |
| C26 | Accepted functions return on every path | `function_return_counterexample_loop`, `function_return_counterexample_break`, `check_wide_ub` | loops that run zero times and break make the claim false of the code; proved for the rest, and exact on control paths |
| C27 | Accepted combinational blocks infer no latch | `latch_counterexample_loop`, `latch_slice_counterexample`, `check_wide_ub` | combinational blocks; zero-trip loops and slice assignments make the claim false of the code |
| C28 | Connectivity check is exact | `not_ConnectivityClaim`, `cast_part_refused` | exact for variables, constant slices and slices of whole variables by a variable; concatenations and casts on the left count as driving everything, parts of casts are refused |
| C29 | No bit of an accepted design has two drivers | `concat_two_drivers`, `for_two_drivers`, `dyn_two_drivers` | Plain targets outside for loops, any visiting order; counterexamples for concatenations, for loops and variable slices. |
| C30 | A variable is never driven both blocking and non-blocking | `concat_not_checked` | All targets but concatenations and parts of casts; counterexample for concatenations. |
| C31 | Accepted designs have no combinational loop | `two_step_loop`, `slice_loop`, `condition_loop` | Exactly the direct loops are found; counterexamples for longer loops, slices and ternary conditions. |
| C32 | Enable conditions describe exactly when a statement runs | `not_EnableClaim`, `wide_predicate_refused`, `lone_default_ub` | exact for non-blocking code, loops that run and do not feed the conditions, and default cases with one other case; default cases of larger switches are compared with 1 (default_value, not_EnableClaim) |
| C34 | A realized Moore FSM behaves like the state diagram | `moore_counterexample_hold`, `reset_counterexample` | whole-history theorem for the register and the outputs; false of the code for states that hold their outputs, for active-low non-port resets and for colliding enum names, each shown by a counterexample |
| C35 | A realized Mealy FSM shows the outputs of the state being entered | `mealy_counterexample_single`, `mealy_counterexample_last`, `mealy_counterexample_default` | false of the code around unconditional transitions; proved for guarded ones |
| C36 | Distinct FSM states have distinct encodings | `encodings_counterexample` | full for machines without child FSMs; nested machines can have colliding names |
| C37 | FSM construction rejects ill-formed machines | `construct_counterexample` | a second unconditional transition is accepted (and leads to undefined behaviour) |
| C39 | The variable table stays consistent | `not_TableClaim` | the full claim (TableClaim) is false of the code: five histories break it; proved for every history of calls avoiding those |
| C40 | Wiring two ports orients the assignment from source to sink | `not_WireClaim`, `not_WireClaim_order` | false for interface ports given second, foreign variables, foreign instances with a shared name and (order) inout; proved for everything else |
| C41 | The context's name index is always in step with generator names | `not_IndexClaim` | false for generators renamed from the empty name; proved for every other history |
| C42 | Instance names are unique among siblings | `add_duplicate_refused`, `rename_duplicate_refused`, `not_SiblingsClaim` | false after a refused add, adding a child to two parents, or removing a foreign child; proved for all other histories |
| C43 | Uniquification gives one name per distinct module | `clone_left_behind` | proved for registered, named generators; clones keep the old name (counterexample) |
| C44 | Structurally different modules are never merged | `not_MergeClaim` | False of the code (not_MergeClaim: modules computing a - b and b - a under one name are given one module name). like_same_hash lists, for all bodies, the differences the hash does not read; merged_iff: merged exactly when the hashes agree; the _partial theorems: a difference in one assignment at any depth is seen in modules with at most three hash entries. Missing: larger modules (hash collisions exist by counting). |
| C47 | The IR visitor visits each node once, ancestors first | `not_VisitorClaim`, `root_visited_twice` | exactly once and after a parent; with sharing a node is visited before its second parent (counterexample) |
| C48 | Emitted statement text parses back to the same statement | `not_TextClaim` | Reading back is proved for every printable statement (no hypothesis), as a recursive-descent reader of the standard's grammar; behaviour is proved for every statement whose loops are good in the sense of C49 and whose case labels differ. The full claim is false: not_TextClaim. Expressions are single tokens (their text is C06/C07). |
| C49 | Emitted for-loops iterate the declared sequence | `down_by_two_forever`, `not_ForClaim` | for_text_iff is an exact characterisation for bounds that fit the declared type; the full claim is false: `for (int unsigned i = 5; i > 0; i -= 2)` does not end, and a loop with a step in the wrong direction runs. |
| C50 | Instantiations reproduce parameter values | `not_InstClaim` | Proved for every tame history and every depth of instances, also when the module is printed from another generator with the same declarations. False in general: a parameter set from its parent's and then to a number, parameters of enumeration type, raw types with a default, negative values. |
| C51 | Recorded line numbers point at the emitted statement | `not_LineClaim` | False of the code: always_ff blocks are recorded one line early, every connection but the first at the line of the first, and a function without ports puts everything after it one line short; in a combined file top-level statements are not moved. Exact offsets proved for every module; the claim proved for modules without these. |
| C52 | Emitted identifiers are legal | `not_NameClaim` | The check refuses exactly the 248 reserved words of IEEE 1800-2017; it does not look at characters, and renaming a variable is not checked at all. |
| C53 | Simulated sequential blocks use non-blocking semantics | `not_SeqClaim` | false: the first assignment of a block wins, and blocks on one clock see each other's updates; proved for one block that updates no variable twice (exact result otherwise) |
| C54 | Simulated combinational logic settles to a fixed point | `not_SettleClaim` | false: ternary conditions are not dependencies, constant expressions are never evaluated, oversized values are not propagated; proved for designs without these, after every history, in every iteration order |
| C55 | Static evaluation agrees with simulation semantics | `not_StaticClaim`, `static_constant_slice_diverges`, `bit_select_wrong` | value correct for closed slice-free expressions; negation and slice defects shown |
| C56 | A banked SRAM behaves like one large SRAM | `holes`, `single_refused`, `not_BankClaim` | Reads: for every nesting of banks, every number of copies, sizes and history a read of an existing address shows the last value written, bit for bit, and the output holds while idle; same as one large macro. False of the code: the output after a write differs from that of one macro, and with a number of copies that is not a power of two capacity() counts addresses that do not exist. |
| C57 | Flipping a port bundle is an involution that swaps directions | `duplicate_refused`, `not_FlipClaim` | members proved for in/out histories; the flipped bundle loses its name and a refused inout member stays behind |
| C59 | Comment wrapping preserves the words and the width limit | `not_WrapClaim` | Words are always preserved; the width limit holds for texts without over-long words. An over-long word makes the remaining-space counter wrap below zero and nothing after it is broken. |
| C60 | Fault localisation reports exactly the suspicious statements | `not_FaultClaim` | Exact for designs without switch statements while computed coverage is current; blocks inside switch statements are never reported, and data added to a run after the first analysis is ignored. |
| C64 | Building statement trees keeps them well formed | `no_twice`, `generator_twice`, `not_TreeClaim` | No duplicates and one body per case value hold for every history (set_child, constant changes excepted); single holder, right parents and acyclicity for every history that adds only detached statements. Five ways the full claim fails are proved. |
| C65 | Ports are connected by type-safe assignments only | `not_TypingClaim` | false for port sources (any port type is accepted) and slices of the port; proved otherwise |
| C66 | Inlining an instance keeps all its variables | `not_TransferClaim` | false when the prefixed name is taken in the parent; proved otherwise |
| C67 | A struct type name has one meaning in a design | `not_OneMeaningClaim` | false for nested structs: field and type names are not compared; proved for flat structs, layout agreement in general |
| C68 | Only assignable things are accepted on the left of an assignment | `constants_refused`, `operators_refused`, `not_LvalueClaim` | all lvalues are accepted; refusal fails for parameters, parts of constants and expressions, and constants inside concatenations |
| C69 | Cloning a statement copies its behaviour |  | Behaviour copied exactly; delays (dropped by the code, src/stmt.cc:217) are not in the model. |
| C70 | The action attached to an assertion runs when it fails | `not_assert_property` | Holds for immediate assertions; for properties the keyword else is missing, so the action is read as the one to run on success. |
| C71 | Comments are printed whole and stay comments | `not_CommentClaim` | False of the code: a comment with a line break keeps only its first character and what follows the last break, and a leading line break turns the rest into code. Proved exactly; the claim holds for comments without line breaks. |
| C72 | Resets are used with one polarity | `not_OwnListClaim`, `not_WiresClaim`, `not_DeclaredClaim`, `not_OrderClaim` | One edge per asynchronous reset, as declared, and tests with its polarity: proved for all designs, with an exact characterisation of the accepted ones. False of the code: a block may test an asynchronous reset it is not triggered by; resets wired together are not compared; synchronous resets may be tested against their declaration; the verdict depends on the order of blocks. |
| C73 | Sensitivity lists hold clocks and resets, and asynchronous resets can be made synchronous | `not_WiredTypesClaim`, `not_TriggerClaim` | Exact characterisation of the check, and all that is claimed of the pass. In addition, false of the code: wired ports keep equal types (the port of a parent without registers stays an asynchronous reset), and every block keeps a trigger. |
| C74 | Content that cannot be synthesized is found | `synth_missed`, `not_SynthClaim`, `not_SynthRefusalClaim` | False of the code both ways: final blocks, delay statements and calls in returns, assertions, arguments and slices are missed, and every system function in an expression is refused, also clog2. Proved for what is visited. |
| C75 | Replacing a variable replaces every reference to it | `not_ReplaceClaim`, `not_MovableClaim`, `extend_lost`, `condition_lost`, `concat_lost`, `second_lost`, `cast_lost`, `index_lost`, `slice_lost`, `test_lost`, `index_refused`, `left_refused`, `call_refused`, `captured_wrong` | False of the code: references inside extensions, casts and indices below an operator, slices in concatenations and conditions, second occurrences in a concatenation and variables tested directly by if or case are kept, and indices and calls are refused. Proved: the call removes all references exactly if they are in the places that are looked at, and then the text is the old one with the new name; other generators are untouched. |
| C76 | Instances are connected to what was wired | `not_ConnectClaim`, `extend_lost`, `index_refused`, `constant_refused`, `inout_refused`, `unconnected_missed`, `slice_wrong` | Equivalence of statements before with connections and statements after, for all wirings both passes accept, and one connection per input and per output read; the parent mentions no port of a child if all references were where C75 finds them. False in full: some references keep the child's name, indices are refused, undriven inputs get a floating wire. Interface ports and packed structs are not modelled. |
| C77 | Reading an input of an instance in the parent reads what drives it | `slice_wrong`, `cast_wrong`, `index_wrong`, `write_wrong`, `test_wrong`, `test_lost`, `not_LegalClaim` | False of the code: a slice, cast or index of the port is replaced as if it were the port itself, so x = child.in[0] becomes x = net; tests keep the port. Proved for statements that read the port by itself or under an operator, for all values and all meanings of operators; the text claim needs the positions of C75. |
| C78 | Turning instances into a generate loop keeps their connections | `driven_twice_wrong`, `unconnected_ub`, `swapped_wrong`, `follow_wrong`, `var_index_wrong`, `mixed_wrong`, `constant_ub`, `nested_ub`, `not_LiftClaim`, `blockName_ub`, `no_common_name_ub` | False of the code: the indices of different ports are checked separately, so instances from a[0] to b[1] and from a[1] to b[0] become a loop from a[i] to b[i]; an output is followed through any expression and its assignment stays, so the part is driven twice. Proved when each instance uses one index and followed assignments are copies. The block name is the longest common beginning without underscore at the end; without one the behaviour is undefined. |
| C79 | A block written as a Python function does what the function says | `not_PyClaim`, `drop_wrong`, `drop_hw_wrong`, `shadow_wrong`, `line_wrong`, `range_wrong`, `stale_wrong`, `not_flag_refused`, `mixed_refused`, `nested_refused` | The block does what the function says if no operand of and/or is `not` of a Python value, loop variables are used in their loops only, and no loop line is met twice. False in general: `first and not last` and `x == 1 and not flag` lose the `not` operand; names are looked up outside the function first; kept loops are identified by their line, so copies made by an unrolled loop around them share one body and one range; a loop variable used after its loop is not the last value. |
| C80 | Removing assertions or events leaves everything else | `not_RemoveClaim`, `guarded_ub`, `empty_if_ub`, `clocked_ub`, `other_blocks_missed`, `default_wrong` | Everything else keeps its effect and none is left in combinational and clocked blocks and at the top, where pruning is right (C15). The crash is characterised exactly: an if with nothing left in both branches, as in `if (c) assert(x)`. False of the code further: assertions directly in initial, final, latch and function blocks stay, and removing assertions reads the event controls of clocked blocks as statements. |
| C81 | Interfaces and modports keep their signals and directions | `not_DeclareClaim`, `clash_wrong`, `misspelt_lost`, `inout_refused`, `not_ModportRefClaim`, `modport_wire_wrong`, `inout_wrong`, `variables_wire_lost`, `both_text_wrong`, `empty_modport_refused`, `modports_lost`, `modport_only_lost`, `not_EmitClaim`, `variables_header_lost`, `name_refused`, `name_reuse_wrong`, `clash_ub` | False of the code: get_modport_ref looks up the name of the modport instead of that of the signal (all variables become outputs); a signal may be both input and output, or port and variable; modports are not compared between same-named interfaces; an interface used only through modports is not emitted; a port interface with only variables is neither listed in the header nor wired. Proved: what is declared is exactly what was set, directions of a modport used as a port, wiring, text of an interface, agreement of same-named interfaces in any order. |
| C82 | The lists in the emitted text are complete and in a reproducible order | `inout_ub`, `not_HeaderClaim`, `same_names_wrong`, `not_ReproducibleClaim` | False of the code: the comparison 'input before output' is not a strict weak ordering once an input, a bidirectional port and an output are present, so std::stable_sort is undefined; connections of two interfaces with a port of the same name come out in address order. Proved: completeness and uniqueness of the order in all other cases. std::sort and std::stable_sort are modelled by their contract. |
| C83 | Enumerations are legal, unambiguous and type safe | `foreign_wrong`, `port_type_wrong`, `same_value_wrong`, `empty_wrong`, `resized_wrong`, `not_LegalClaim`, `shadow_wrong`, `not_ValueClaim`, `clash_wrong`, `keyword_wrong`, `same_name_wrong`, `not_AssignClaim` | False of the code: duplicate values, no members, keywords as members and a variable named like a member are accepted; assigning a member to a wider plain variable resizes the literal in the type declaration; members of the context can be shadowed by those of a generator; assignments compare only the names of enums, which two generators may share; the type of a port declared in its own generator is not visible in the header. Proved: everything that holds within one scope, for all histories. |
| C84 | Hierarchical names identify and resolve | `loop_wrong`, `not_HandleClaim`, `relative_refused`, `sibling_wrong`, `not_RelativeClaim`, `reference_wrong`, `not_ReferenceClaim`, `top_wrong` | False of the code: in a generate loop the index is put on the instance instead of the block; a relative name is given to variables of siblings whose name continues that of the scope; a reference printed from the top is captured by a child of the same name, and a variable of the top is printed without a path. Proved: everything else, for all hierarchies. |
| C85 | Port bundles become structs with the same members | `own_output_lost`, `test_lost`, `not_StatementsClaim`, `clash_ub`, `mixed_ub`, `not_AcceptsClaim`, `text_ambiguous_wrong`, `conflict_wrong`, `not_DefinitionsClaim` | False of the code: an output the module reads itself and a condition that is a port of the bundle keep naming the removed port; a variable with the name of the bundle and a port used both in part and as a whole are undefined behaviour; the text hashed for a definition is ambiguous. Proved: which bundles are converted, the new port, its members and layout, what else changes (nothing), the renaming of every well placed statement and its meaning, and that the pass goes through when names are free and uses are not mixed. |
| C86 | Calls of functions bind their arguments | `child_lost`, `pos_wrong`, `same_text_wrong`, `tie_wrong`, `signed_wrong`, `task_wrong`, `arity_missed`, `not_BindClaim`, `not_ArgsClaim`, `not_TypeClaim`, `not_ChildrenClaim`, `not_ArityClaim`, `not_PosClaim` | False of the code: FunctionCallVar::to_string sorts the texts of the arguments by a table keyed by text, so f(a=x, b=y, c=x) is printed f(x, x, y); positional arguments of a built-in are keyed by the decimal text of their position, so from the eleventh argument on they are permuted; a place may be given twice; arguments without a port are accepted; a signed result is declared unsigned; a task can be used as a value; the arity of void built-ins is not checked; creating a built-in twice hides the next function from every traversal. Proved: binding for distinct texts and places, the exact condition on texts, exactly which calls are accepted, the types of returns and calls, and the traversal of histories without a repeated built-in. |
| C87 | DPI imports describe the functions | `wide_lost`, `order_wrong`, `width_wrong`, `second_refused`, `not_ValueClaim`, `not_DescribesClaim`, `not_SharedClaim` | False of the code: byte, shortint, int and longint are signed, so an unsigned port of exactly 8, 16, 32 or 64 bits with its top bit set arrives as a negative number, and ports over 64 bits are cut off; the visitor compares neither widths nor results nor orders of two declarations of a name; in Python the second generator that calls a DPI function gets a declaration without ports, so the extraction refuses the design. Proved: exactly which values arrive, that the line has the ports, directions, signs and attribute of every function of the name, that it describes the function it was made from, and that a line can always be printed. |
| C88 | Breakpoints in single-assignment form show the function | `hidden_wrong`, `neg_wrong`, `added_wrong`, `attr_refused`, `not_DebugClaim` | False of the code: the mapping of names to versions is carried along linearly, so the second branch of an if shows the versions of the first branch; the condition of the second branch is the bitwise complement of the test, so a breakpoint there also stops when a test of several bits is true; the statements that the conversion adds are breakpoints too. Proved for all bodies, worlds and settled states (which exist from every start): a breakpoint at a written assignment stops exactly if the assignment runs and shows the right values except for names hidden by the first branch of an if, when complements are negations; the functions accepted are exactly those that are converted and assign whole variables. |
| C89 | Wiring constants to instances keeps their values | `inverted_wrong`, `block_lost`, `slice_wrong`, `slice_refused`, `not_MergeClaim` | False of the code: what the port reads is not looked at, so child.p = ~v with v = 0 becomes child.p = 0; a constant for one bit of the wire is stretched to the port; a wire of which the port reads one bit makes the pass throw; a wire assigned in an always_comb block loses its declaration but not its assignment. Proved for all designs in which the statements of the wires taken out stand directly in the generator, assign the whole wire and read the wire itself: accepted, exactly these wires removed, none mentioned any more, all other values the same for every meaning of operators and blocks. |
| C90 | Generators taken from the cache are the ones asked for | `swapped_wrong`, `equal_wrong`, `not_CacheClaim`, `wiring_lost`, `options_lost`, `sequential_refused`, `not_InitClaim`, `uninitialised_wrong`, `clone_lost`, `not_TextClaim` | False of the code: the key is an exclusive or, so for every hash function create(k=a, l=b) and create(k=b, l=a) share a key, and so do (k=a, l=a) and (k=b, l=b): the second call returns a copy of the first generator; a copy writes add_child's connections and add_always' options (sensitivity among them) down without them, and replaying sequential raises half way; an uninitialized copy visited before its definition is written out with an empty body, and a clone() whose definition is part of another design is not written out at all. Proved: the exact condition under which initialization gives the constructor's generator; for all histories without colliding keys, every generator has a complete definition with its arguments; the text is right when names tell arguments apart and definitions come first. |
| C91 | Replacing or removing an instance keeps the rest of the design | `count_refused`, `refused_wrong`, `not_RefuseClaim`, `input_lost`, `test_lost`, `not_SwapClaim`, `index_refused`, `not_AcceptClaim`, `inner_lost`, `mention_wrong`, `not_RemoveClaim` | False of the code: ports are moved one by one while they are compared, so that a replacement refused because of a later port has already connected the earlier ones to the new generator; statements of the parent that read an input of the instance, and an if on an output, keep mentioning the old instance; an output in the index of a slice makes the call throw; removing an instance deletes the statements inside of it that read its own outputs, while tests and reads of inputs stay in the parent. Proved for all interfaces and statements: an accepted call had equal interfaces; where the parent drives inputs and reads outputs in the places looked at, equal interfaces are accepted and all statements are renamed, simultaneously and nothing else; no other generator is touched; what remains after a removal; unwire is exact. |
| C92 | Properties check the sequence that was built | `shared_wrong`, `not_TextClaim`, `range_wrong`, `unclocked_wrong`, `same_clock_refused`, `not_ClockClaim`, `twice_wrong`, `second_imply_ub`, `second_imply_lost`, `not_CallsClaim` | False of the code: conditions without a wait, and all but the first, are written with the path from the top even in the module they belong to, so in a module with two instances the property of the second one is about the first one's variables; a wait from 3 to 1 is accepted and the text is not legal; a property of one condition is written without a clock; two children with the same clock count as two clocks and the design is refused; generating twice declares every property twice; a second imply destroys the object the first one returned. Proved for all sequences, hierarchies and executions: the text has one reading with the delays and order asked for; in the top module, and in a unique instance whose path resolves, it holds exactly when the sequence does; exact condition of clock inference; chained calls build what they say. |
| C93 | Register helpers make the registers they describe | `other_type_refused`, `twice_wrong`, `foreign_wrong`, `low_wrong`, `not_RegClaim` | False of the code: a second call with the same name is accepted and drives the same variable twice; enables are told apart by name only, so an enable of another generator is used for registers asked for with the enable of the same name here, and the other way round; reg_init takes every reset for active high. Proved for all histories of calls without these and all executions: every register does exactly what its call says, whatever the other calls are, and nothing else is driven. |
| C94 | The flattened wrapper exposes every element of every port | `wrapper_refused`, `wrapper_sign_lost`, `wrapper_inout_wrong`, `wrapper_unit_array_wrong`, `not_FlattenClaim` | False of the code: an array a and a scalar a_0 clash and the wrapper is refused; elements of signed arrays and of arrays of clocks become unsigned data ports; inout ports are only driven outwards; an explicit array of one element stays an array. Proved for all port lists of any shapes: refused exactly when two flattened names are equal (never, if no array's name followed by _ begins another port's name), and otherwise exactly one scalar port per element with direction and width, every bit connected once, transparent. |
| C95 | Inlining an instance keeps the behaviour of the design | `not_InlineClaim`, `register_lost`, `slice_refused`, `index_refused`, `parent_register_lost`, `test_wrong`, `direct_refused` | False of the code: a child that reads its own connected output loses those statements (a counter disappears); children that read a slice of a port by itself, or use a port as an index on the left, are refused; a register of the parent that copies one variable and feeds the child is replaced by that variable; tests are left with a removed variable; two inlined children connected directly are refused. Proved for all designs without these: only the connections and connected ports disappear, everything else is the old text with ports substituted, and the last loop removes a continuous copy correctly. Connections to slices, constants and expressions are not modelled. |
| C96 | The drivers and readers recorded for a variable are those in the design | `not_ExactClaim`, `remove_wrong`, `slice_wrong`, `index_wrong`, `again_lost`, `shared_lost` | After any calls a recorded driver writes the variable and a recorded reader reads it; with statements added only when they are nowhere and were never unwired, every statement in the design is recorded for everything it writes and reads; exact if moreover remove_stmt is not used and what is unwired or cleared has no slices on the right and no index on the left. The full claim is false: remove_stmt leaves the statement recorded, unwiring or clearing a = b[3:0] leaves it a reader of b (VarSlice::remove_sink calls remove_source), a[i] = b leaves a reader of i, an unwired statement added again is not recorded, and a statement in two blocks is lost when one is cleared. |
| C97 | The simulator runs a statement again when what it reads changes | `overlap_missed`, `not_RerunClaim`, `overlap_lost`, `twice_lost`, `index_lost`, `condition_lost`, `call_lost`, `cast_ub` | What is run always depends on a changed bit; a process without conditional expressions, calls and expressions as index is run if no two slices in the design need the changed bit (for their place or as index). The full claim is false: a bit is linked to one slice only, so of x = a[7:0], y = a[3:0] (or x = a[i], y = b[i]) only one is computed again, in whatever order (overlap_missed is general); conditions of conditional expressions, arguments of calls and expressions as index are not registered; a cast is undefined behaviour. C54 treats a slice as a reader of the whole variable. |
| C98 | Simulated arrays read back what was written | `element_ub`, `sub_read_refused`, `sub_write_refused`, `element_event_wrong`, `not_EventClaim`, `large_ub`, `wide_ub`, `sub_write_wrong`, `not_MemoryClaim` | Proved for every array of elements of up to 32 bits and every history of whole writes, word writes (packed, up to 64 bits) and element writes (arrays of up to 64 bits): the array and each element read back as the specification's row-major memory. whole_events: for every whole write the changed bits are exactly those that differ. False of the code beyond that: a changing element write in an array of more than 64 bits shifts a word by 64 or more (element_ub, for all such arrays), an element write reports the bits counted from the element and not from the array (element_event_wrong, not_EventClaim), elements of more than 32 bits shift a 32-bit mask too far (wide_ub), a part that is itself an array cannot be read (sub_read_refused), nor set in an unpacked array (sub_write_refused), and in a packed one the wrong elements are overwritten (sub_write_wrong). |
| C99 | Breakpoints in the debug table show the variables in scope | `skipped_refused`, `override_lost`, `loop_wrong`, `function_refused`, `ignored_refused`, `not_TableClaim` | Proved for all statement trees: a saved table has exactly the assignments as breakpoints, in order, with their place and condition also after file names are compressed, and each shows the variables in scope, provided no name gets back a meaning it had before (breakpoints_partial). saved_iff: a table is made exactly when no recorded statement is inside one that gets no scope, otherwise an exception. False of the code: assignments in functions, loops, initial blocks and latches, or in a block marked debug-ignore, make saving fail (skipped_refused, function_refused, ignored_refused); a second loop over the same name shows the last value of the first (loop_wrong); override of a scope variable has no effect (override_lost). |

Proved in full: C01 (Folded arithmetic is two's-complement arithmetic), C09 (Element selections of an array tile it), C20 (Statement reordering is a stable permutation), C33 (Type-checked assignments have equal width and sign), C38 (Generated names never clash), C45 (Modules are emitted after the modules they instantiate), C46 (Struct types are declared before use), C58 (Tokenising a string drops only delimiters), C61 (clog2 gives the smallest sufficient width), C62 (Streaming a hash in pieces gives the hash of the whole), C63 (Passes run once each in the order added).

## 5. Current state: which code is modelled where

Per module: the source files its definitions cite and the number of theorems.  A definition's own comment gives the
lines and what was simplified; code not cited by any definition is not modelled.

| module | models | theorems |
|--------|--------|----------|
| `Verif.Base` | src/except.cc, src/except.hh | 1 |
| `Verif.Check.Content` | src/analysis.cc, src/expr.cc, src/expr.hh, src/generator.cc, src/ir.cc, src/stmt.cc, src/stmt.hh | 0 |
| `Verif.Check.ExecLemmas` | (specification and lemmas) | 24 |
| `Verif.Check.FlipFlop` | src/analysis.cc | 34 |
| `Verif.Check.Lemmas` | (specification and lemmas) | 15 |
| `Verif.Check.Model` | src/analysis.cc | 0 |
| `Verif.Check.Props` | (specification and lemmas) | 16 |
| `Verif.Check.Resets` | src/analysis.cc, src/formal.cc, src/generator.cc, src/generator.hh, src/ir.cc | 52 |
| `Verif.Check.Scope` | src/analysis.cc, src/expr.cc | 14 |
| `Verif.Check.Spec` | (specification and lemmas) | 0 |
| `Verif.Check.Synth` | src/analysis.cc, src/expr.hh, src/stmt.cc, src/stmt.hh, src/syntax.cc | 18 |
| `Verif.Const.Model` | src/expr.cc, src/expr.hh | 0 |
| `Verif.Const.Props` | (specification and lemmas) | 27 |
| `Verif.Const.Spec` | (specification and lemmas) | 0 |
| `Verif.Eval.Lemmas` | (specification and lemmas) | 38 |
| `Verif.Eval.Model` | src/eval.cc, src/expr.hh, src/util.hh | 0 |
| `Verif.Eval.Props` | src/sim.cc | 23 |
| `Verif.Eval.Spec` | (specification and lemmas) | 0 |
| `Verif.Fsm.Construct` | (specification and lemmas) | 24 |
| `Verif.Fsm.Diagram` | src/fsm.cc | 58 |
| `Verif.Fsm.Examples` | (specification and lemmas) | 20 |
| `Verif.Fsm.Lemmas` | (specification and lemmas) | 32 |
| `Verif.Fsm.Mealy` | (specification and lemmas) | 5 |
| `Verif.Fsm.Model` | src/fsm.cc, src/fsm.hh, src/generator.cc, src/stmt.cc | 0 |
| `Verif.Fsm.Props` | (specification and lemmas) | 18 |
| `Verif.Fsm.Spec` | (specification and lemmas) | 0 |
| `Verif.Gen.Children` | src/generator.cc | 0 |
| `Verif.Gen.ChildrenProps` | (specification and lemmas) | 29 |
| `Verif.Gen.Ctx` | src/context.cc, src/generator.cc, src/pass.cc | 0 |
| `Verif.Gen.CtxProps` | (specification and lemmas) | 39 |
| `Verif.Gen.Dpi` | kratos/func.py, src/analysis.cc, src/codegen.cc, src/stmt.cc | 31 |
| `Verif.Gen.Emit` | src/codegen.cc, src/ir.cc | 18 |
| `Verif.Gen.Enums` | src/codegen.cc, src/context.cc, src/expr.cc, src/expr.hh, src/generator.cc, src/port.cc, src/stmt.cc | 40 |
| `Verif.Gen.Flatten` | src/codegen.cc, src/generator.cc, src/port.hh | 38 |
| `Verif.Gen.Functions` | src/codegen.cc, src/expr.cc, src/expr.hh, src/generator.cc, src/generator.hh, src/stmt.cc, src/stmt.hh, src/syntax.cc, src/syntax.hh | 0 |
| `Verif.Gen.FunctionsProps` | kratos/func.py | 118 |
| `Verif.Gen.Inline` | src/generator.cc, src/optimize.cc | 5 |
| `Verif.Gen.Interface` | src/analysis.cc, src/codegen.cc, src/generator.cc, src/interface.cc, src/interface.hh, src/port.hh | 0 |
| `Verif.Gen.InterfaceProps` | (specification and lemmas) | 77 |
| `Verif.Gen.Strategy` | src/context.cc, src/hash.cc | 28 |
| `Verif.Gen.Swap` | src/expr.cc, src/generator.cc, src/stmt.cc | 53 |
| `Verif.Gen.Table` | src/expr.cc, src/expr.hh, src/generator.cc, src/pass.cc | 0 |
| `Verif.Gen.TableProps` | (specification and lemmas) | 45 |
| `Verif.Graph.Dfs` | src/graph.cc | 12 |
| `Verif.Graph.Drivers` | src/debug.cc, src/expr.cc, src/expr.hh, src/port.hh, src/stmt.cc | 31 |
| `Verif.Graph.GenOrder` | src/graph.cc, src/ir.cc | 0 |
| `Verif.Graph.GenProps` | (specification and lemmas) | 15 |
| `Verif.Graph.Levels` | (specification and lemmas) | 14 |
| `Verif.Graph.StructProps` | (specification and lemmas) | 28 |
| `Verif.Graph.Structs` | src/analysis.cc, src/expr.cc, src/expr.hh, src/graph.cc | 0 |
| `Verif.Graph.Visitor` | src/ir.cc | 16 |
| `Verif.Ir.Lemmas` | (specification and lemmas) | 29 |
| `Verif.Ir.Reads` | (specification and lemmas) | 5 |
| `Verif.Ir.Rename` | src/expr.cc | 11 |
| `Verif.Ir.Semantics` | (specification and lemmas) | 0 |
| `Verif.Ir.Syntax` | src/expr.cc, src/expr.hh, src/stmt.hh | 0 |
| `Verif.Lib.Sram` | src/expr.cc, src/generator.cc, src/lib.cc | 19 |
| `Verif.Misc.DebugScopes` | src/debug.cc, src/ir.cc, src/stmt.cc, src/stmt.hh | 56 |
| `Verif.Misc.DebugTable` | kratos/debug.py, src/debug.cc, src/util.cc | 29 |
| `Verif.Misc.Events` | src/event.cc, src/event.hh, src/generator.cc, src/generator.hh, src/ir.cc, src/stmt.cc, src/stmt.hh | 36 |
| `Verif.Misc.Fault` | src/fault.cc, src/fault.hh | 15 |
| `Verif.Misc.Flow` | kratos/passes.py, src/hash.cc, src/optimize.cc, src/pass.cc | 20 |
| `Verif.Misc.HandleExpr` | src/expr.cc, src/expr.hh | 25 |
| `Verif.Misc.Handles` | src/codegen.cc, src/expr.cc, src/generator.cc | 23 |
| `Verif.Misc.Mock` | src/context.cc, src/debug.cc, src/generator.cc | 19 |
| `Verif.Misc.ModuleHash` | src/expr.hh, src/generator.cc, src/generator.hh, src/hash.cc, src/ir.cc | 50 |
| `Verif.Misc.Names` | src/expr.cc, src/generator.cc, src/syntax.cc | 9 |
| `Verif.Misc.Package` | kratos/passes.py, src/codegen.cc, src/ir.cc, src/util.cc | 44 |
| `Verif.Misc.PassManager` | src/pass.cc, src/pass.hh | 11 |
| `Verif.Misc.Propagate` | src/debug.cc, src/ir.cc, src/stmt.cc, src/stmt.hh | 25 |
| `Verif.Misc.Registers` | src/analysis.cc, src/generator.cc, src/ir.cc | 21 |
| `Verif.Misc.Report` | src/fault.cc | 92 |
| `Verif.Misc.RunNames` | src/fault.cc | 33 |
| `Verif.Misc.XXHash` | src/hash.cc | 17 |
| `Verif.Misc.Xml` | src/fault.cc | 33 |
| `Verif.Opt.Lemmas` | (specification and lemmas) | 25 |
| `Verif.Opt.Lemmas2` | (specification and lemmas) | 16 |
| `Verif.Opt.MergeLemmas` | (specification and lemmas) | 21 |
| `Verif.Opt.Model` | src/ir.cc, src/optimize.cc, src/stmt.cc | 0 |
| `Verif.Opt.Props` | (specification and lemmas) | 13 |
| `Verif.Opt.Spec` | (specification and lemmas) | 0 |
| `Verif.Param.Copy` | kratos/generator.py, src/expr.cc, src/expr.hh, src/generator.cc, src/sim.cc | 36 |
| `Verif.Param.Inline` | src/generator.cc | 51 |
| `Verif.Param.Instance` | src/codegen.cc, src/expr.cc, src/expr.hh | 29 |
| `Verif.Param.Lemmas` | (specification and lemmas) | 12 |
| `Verif.Param.Model` | src/expr.cc, src/expr.hh, src/sim.cc | 0 |
| `Verif.Param.Props` | (specification and lemmas) | 17 |
| `Verif.Param.Spec` | (specification and lemmas) | 0 |
| `Verif.Pass.Asserts` | src/debug.cc, src/event.cc, src/optimize.cc, src/stmt.cc, src/stmt.hh | 42 |
| `Verif.Pass.Bundle` | src/context.hh, src/expr.cc, src/expr.hh, src/generator.cc, src/port.cc, src/port.hh, src/stmt.cc, src/stmt.hh, src/transform.cc | 100 |
| `Verif.Pass.Connect` | src/analysis.cc, src/ir.cc | 17 |
| `Verif.Pass.DeadCode` | src/expr.cc, src/generator.hh, src/optimize.cc, src/stmt.cc | 96 |
| `Verif.Pass.Decouple` | src/expr.cc, src/expr.hh, src/stmt.cc, src/transform.cc | 122 |
| `Verif.Pass.Drivers` | src/analysis.cc, src/expr.cc, src/expr.hh | 20 |
| `Verif.Pass.Enable` | src/analysis.cc, src/expr.cc | 51 |
| `Verif.Pass.Fanout` | src/expr.cc, src/optimize.cc, src/stmt.cc | 39 |
| `Verif.Pass.Inline` | src/expr.cc, src/generator.cc, src/optimize.cc, src/stmt.cc | 66 |
| `Verif.Pass.Kinds` | src/ir.cc, src/stmt.hh, src/transform.cc | 18 |
| `Verif.Pass.Legal` | src/transform.cc | 23 |
| `Verif.Pass.Lift` | src/expr.cc, src/transform.cc | 34 |
| `Verif.Pass.MergeConst` | src/generator.cc, src/optimize.cc, src/stmt.cc | 23 |
| `Verif.Pass.MergeWire` | src/expr.hh, src/optimize.cc | 36 |
| `Verif.Pass.PassThrough` | src/expr.cc, src/generator.cc, src/optimize.cc | 26 |
| `Verif.Pass.Replace` | src/codegen.cc, src/expr.cc, src/expr.hh, src/stmt.cc | 65 |
| `Verif.Pass.Shared` | src/expr.cc, src/expr.hh, src/stmt.cc | 79 |
| `Verif.Pass.Sort` | src/stmt.hh, src/transform.cc | 10 |
| `Verif.Pass.Verify` | src/analysis.cc, src/expr.cc | 7 |
| `Verif.Pass.Zero` | src/port.cc, src/stmt.cc, src/transform.cc | 24 |
| `Verif.Port.Model` | kratos/generator.py, src/expr.cc, src/expr.hh, src/generator.cc, src/port.cc, src/port.hh | 0 |
| `Verif.Port.Props` | (specification and lemmas) | 32 |
| `Verif.Print.Decl` | src/codegen.cc, src/expr.hh, src/port.hh, src/util.cc | 89 |
| `Verif.Print.File` | kratos/passes.py | 41 |
| `Verif.Print.ForText` | src/codegen.cc, src/expr.cc, src/stmt.cc | 23 |
| `Verif.Print.Items` | src/codegen.cc, src/stmt.cc | 24 |
| `Verif.Print.LexLemmas` | (specification and lemmas) | 33 |
| `Verif.Print.LineTable` | src/debug.cc, src/ir.cc | 21 |
| `Verif.Print.Lines` | kratos/passes.py, src/codegen.cc, src/codegen.hh, src/graph.cc, src/util.cc | 109 |
| `Verif.Print.Lists` | src/codegen.cc, src/generator.cc, src/port.hh | 23 |
| `Verif.Print.Model` | src/expr.cc, src/util.cc | 0 |
| `Verif.Print.ParseLemmas` | (specification and lemmas) | 42 |
| `Verif.Print.ParseMain` | (specification and lemmas) | 19 |
| `Verif.Print.Props` | (specification and lemmas) | 11 |
| `Verif.Print.Spec` | (specification and lemmas) | 0 |
| `Verif.Print.StmtText` | src/codegen.cc, src/stmt.cc, src/tb.hh | 67 |
| `Verif.Print.Sva` | src/codegen.cc, src/expr.cc, src/generator.cc, src/tb.cc, src/tb.hh, src/transform.cc | 28 |
| `Verif.Py.AddChild` | kratos/generator.py | 25 |
| `Verif.Py.Always` | kratos/generator.py, kratos/pyast.py, src/stmt.cc | 34 |
| `Verif.Py.AssertPos` | kratos/pyast.py, kratos/tb.py, src/codegen.cc, src/debug.cc, src/generator.cc, src/tb.cc, src/tb.hh | 23 |
| `Verif.Py.Cache` | kratos/generator.py, src/codegen.cc, src/generator.cc | 45 |
| `Verif.Py.CaseCalls` | kratos/stmts.py, kratos/util.py, src/codegen.cc, src/stmt.cc, src/stmt.hh | 22 |
| `Verif.Py.Decl` | kratos/generator.py, src/expr.cc, src/expr.hh, src/generator.cc, src/port.cc | 28 |
| `Verif.Py.Elab` | kratos/generator.py, kratos/pyast.py, src/stmt.cc | 52 |
| `Verif.Py.EnumAccept` | (specification and lemmas) | 16 |
| `Verif.Py.EnumHelper` | kratos/generator.py, kratos/util.py | 20 |
| `Verif.Py.FuncCall` | kratos/func.py, kratos/generator.py, kratos/pyast.py, src/expr.cc, src/generator.cc, src/stmt.cc | 28 |
| `Verif.Py.Reduce` | kratos/util.py, src/expr.cc | 15 |
| `Verif.Py.Regs` | kratos/generator.py, src/generator.cc | 27 |
| `Verif.Py.Ssa` | kratos/pyast.py | 69 |
| `Verif.Py.SsaDebug` | kratos/pyast.py, src/analysis.cc, src/debug.cc | 40 |
| `Verif.Py.Tree` | kratos/generator.py, src/generator.cc | 28 |
| `Verif.Seq.Gate` | src/optimize.cc, src/port.hh, src/stmt.cc | 21 |
| `Verif.Seq.Pipeline` | src/optimize.cc | 37 |
| `Verif.Sim.Arrays` | src/expr.cc, src/sim.cc | 32 |
| `Verif.Sim.Cycle` | kratos/sim.py, src/sim.cc, src/sim.hh | 33 |
| `Verif.Sim.Engine` | (specification and lemmas) | 15 |
| `Verif.Sim.ExprProps` | (specification and lemmas) | 10 |
| `Verif.Sim.Links` | src/expr.cc, src/sim.cc | 20 |
| `Verif.Sim.Model` | src/expr.cc, src/sim.cc, src/sim.hh | 0 |
| `Verif.Sim.Seq` | (specification and lemmas) | 19 |
| `Verif.Sim.Settle` | (specification and lemmas) | 34 |
| `Verif.Sim.SettleProps` | (specification and lemmas) | 34 |
| `Verif.Sim.Static` | (specification and lemmas) | 10 |
| `Verif.Slice.Lemmas` | (specification and lemmas) | 19 |
| `Verif.Slice.Model` | src/analysis.cc, src/expr.cc, src/expr.hh, src/util.cc | 0 |
| `Verif.Slice.Props` | (specification and lemmas) | 25 |
| `Verif.Slice.Spec` | (specification and lemmas) | 0 |
| `Verif.Stmt.Connected` | src/expr.cc, src/expr.hh, src/ir.cc, src/port.cc, src/port.hh | 21 |
| `Verif.Stmt.Heap` | src/generator.cc, src/stmt.cc, src/stmt.hh | 3 |
| `Verif.Stmt.HeapProps` | (specification and lemmas) | 52 |
| `Verif.Stmt.Registry` | src/expr.cc, src/expr.hh, src/generator.cc, src/stmt.cc | 81 |
| `Verif.Stmt.Remove` | src/generator.cc, src/generator.hh, src/optimize.cc, src/stmt.cc, src/stmt.hh, src/transform.cc, src/util.cc | 34 |
| `Verif.Text.Coverage` | src/fault.cc, src/util.cc | 46 |
| `Verif.Text.Digits` | (specification and lemmas) | 11 |
| `Verif.Text.Icc` | src/fault.cc | 57 |
| `Verif.Text.Import` | src/expr.cc, src/generator.cc, src/util.cc | 63 |
| `Verif.Text.Tokens` | src/util.cc, src/util.hh | 29 |
| `Verif.Util.Clog2` | src/util.cc, src/util.hh | 0 |
| `Verif.Util.Clog2Props` | (specification and lemmas) | 5 |
| `Verif.Util.Map` | (specification and lemmas) | 19 |
| `Verif.Width.Lemmas` | (specification and lemmas) | 25 |
| `Verif.Width.Loop` | src/codegen.cc, src/expr.cc, src/sim.cc, src/stmt.cc | 40 |
| `Verif.Width.Model` | src/expr.cc, src/expr.hh | 0 |
| `Verif.Width.Props` | (specification and lemmas) | 16 |
| `Verif.Width.Spec` | (specification and lemmas) | 0 |

Lines of each source file cited by some definition or theorem (a lower bound on what was read, an upper bound on
what is modelled):

| file | cited lines |
|------|------------|
| kratos/debug.py | 28 of 79 |
| kratos/func.py | 115 of 153 |
| kratos/generator.py | 650 of 1104 |
| kratos/passes.py | 172 of 251 |
| kratos/pyast.py | 795 of 1381 |
| kratos/sim.py | 28 of 45 |
| kratos/stmts.py | 24 of 85 |
| kratos/tb.py | 11 of 47 |
| kratos/util.py | 45 of 298 |
| src/analysis.cc | 1479 of 1595 |
| src/codegen.cc | 1028 of 1539 |
| src/codegen.hh | 24 of 198 |
| src/context.cc | 90 of 162 |
| src/debug.cc | 666 of 841 |
| src/eval.cc | 114 of 129 |
| src/event.cc | 98 of 136 |
| src/event.hh | 10 of 45 |
| src/expr.cc | 1692 of 2395 |
| src/expr.hh | 554 of 906 |
| src/fault.cc | 654 of 706 |
| src/fault.hh | 41 of 58 |
| src/formal.cc | 47 of 54 |
| src/fsm.cc | 592 of 763 |
| src/fsm.hh | 130 of 142 |
| src/generator.cc | 908 of 1363 |
| src/generator.hh | 7 of 356 |
| src/graph.cc | 216 of 248 |
| src/hash.cc | 405 of 442 |
| src/interface.cc | 115 of 214 |
| src/interface.hh | 30 of 160 |
| src/ir.cc | 131 of 195 |
| src/lib.cc | 141 of 161 |
| src/optimize.cc | 1373 of 1422 |
| src/pass.cc | 91 of 237 |
| src/pass.hh | 5 of 159 |
| src/port.cc | 202 of 296 |
| src/port.hh | 68 of 225 |
| src/sim.cc | 703 of 839 |
| src/sim.hh | 11 of 63 |
| src/stmt.cc | 594 of 1057 |
| src/stmt.hh | 211 of 643 |
| src/syntax.cc | 281 of 305 |
| src/tb.cc | 53 of 80 |
| src/tb.hh | 92 of 125 |
| src/transform.cc | 983 of 1072 |
| src/util.cc | 333 of 628 |
| src/util.hh | 10 of 97 |
