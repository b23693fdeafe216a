#!/usr/bin/env python3
"""Source of /verif/properties.jsonl.  Run: python3 tools/props.py > properties.jsonl"""
import json
P = []
def p(title, statement, quantifier, why, *anchors):
    P.append(dict(id="C%02d" % (len(P) + 1), title=title, statement=statement,
                  quantifier=quantifier, why_tests_cant=why, anchors=list(anchors)))

# ---- A. constant folding -------------------------------------------------
p("Folded arithmetic is two's-complement arithmetic",
  "Evaluating +, -, *, &, |, ^ and == on two w-bit values gives the w-bit two's-complement result of that operator, for signed and for unsigned operands; the evaluator never leaves the w-bit range.",
  "every width 1..64, every pair of operands that fit in the width, both signednesses",
  "2^128 operand pairs per width and operator; overflow and sign corner cases are exactly the ones sampled tests miss",
  "src/eval.cc:eval_bin_op", "src/eval.cc:two_complement", "src/eval.cc:invert", "src/eval.hh")
p("Folded comparisons agree with integer order",
  "Evaluating <, <=, >, >= on two w-bit values returns 1 exactly when the integers those bit patterns denote (signed or unsigned) stand in that order.",
  "every width, every operand pair, both signednesses, all four operators",
  "the operand space is exponential in the width and the answer depends on sign combinations including equality",
  "src/eval.cc:eval_bin_op (GreaterEqThan, LessEqThan, LessThan, GreaterThan)")
p("Folded division and shifts agree with Verilog",
  "Evaluating / truncates toward zero (signed) or floors (unsigned); >> shifts in zeros; >>> on a signed value divides by a power of two rounding down.",
  "every width, every operand pair, every shift amount",
  "shift amounts range up to the width and past it; sign and remainder cases multiply",
  "src/eval.cc:eval_bin_op (Divide, SignedShiftRight, LogicalShiftRight)")
p("Folded unary operators agree with Verilog",
  "Evaluating ~, unary -, unary +, !, and the reductions &, |, ^ on a w-bit value gives the Verilog result for w bits.",
  "every width 1..64 and every operand that fits",
  "reduction operators depend on every bit; wide operands are rarely tested",
  "src/eval.cc:eval_unary_op", "src/eval.cc:invert", "src/eval.cc:two_complement")
# ---- B. constants and text -------------------------------------------------
p("A constant object never holds an unrepresentable value",
  "constant(value,width,signed) is accepted exactly when value is representable in that width and signedness, and after any sequence of set_value / set_width calls (accepted or rejected) the constant still holds a representable value.",
  "every 64-bit value, width, signedness and every history of mutator calls",
  "range limits move with width and signedness, and the object is mutated by passes at any time",
  "src/expr.cc:Const::is_legal", "src/expr.cc:Const::Const", "src/expr.cc:Const::set_value", "src/expr.cc:Const::set_width")
p("A printed constant reads back as the same number",
  "The Verilog literal printed for a constant denotes, under Verilog literal rules, the value and width of the constant.",
  "every width and every representable value, signed and unsigned",
  "round-trip over all values; negative literals and hex boundaries",
  "src/expr.cc:Const::to_string")
p("A printed expression denotes the expression that was built",
  "Reading the printed text of an expression with Verilog operator precedence and associativity gives an expression with the same value as the expression object, for every environment.",
  "every finite expression tree over the operators, every assignment of values to variables",
  "infinitely many trees; wrong parenthesisation only shows for particular nestings and values",
  "src/expr.cc:expr_to_string", "src/expr.cc:ConditionalExpr::to_string", "src/util.cc:ExprOpStr")
# ---- C. slices and layout -------------------------------------------------
p("Slices select exactly the bits they name",
  "Every accepted chain of index / range selections on a variable denotes a non-empty bit range inside the variable; bit k of the slice is bit low+k of the variable, selecting twice composes, selecting the same range twice yields the same slice, and out-of-range selections are rejected.",
  "every variable shape (element width, dimensions), every chain of selections, every index",
  "arbitrary nesting depth and dimension lists",
  "src/expr.cc:Var::operator[]", "src/expr.cc:VarSlice::VarSlice", "src/util.cc:compute_var_high_low", "src/expr.cc:VarSlice::var_low")
p("Element selections of an array tile it",
  "The selections of all indices of the outermost dimension are pairwise disjoint and together cover every bit of the variable; likewise the flattened index lists enumerate each leaf element exactly once, in row-major order.",
  "every dimension list and element width",
  "any number of dimensions of any size",
  "src/util.cc:get_flatten_slices", "src/expr.cc:VarSlice::VarSlice", "src/codegen.cc:create_wrapper_flatten")
p("Packed-struct fields tile the struct and match the emitted typedef",
  "The fields of a packed struct occupy pairwise-disjoint bit ranges that cover its width, and a field selected through the API is the same bits as the same member of the emitted SystemVerilog struct type.",
  "every packed struct definition (any number and width of fields)",
  "any number of fields; bit order is invisible to textual tests",
  "src/expr.cc:PackedStruct", "src/expr.cc:PackedSlice", "src/codegen.cc:create_stub / struct emission")
p("Expression construction computes Verilog self-determined widths and signs",
  "An operator expression is accepted exactly when its operand widths are compatible; its width is 1 for relational and logical operators, the common operand width otherwise, a concatenation's width is the sum, and it is signed only when both operands are.",
  "every pair of operand widths/signs and every operator, every expression tree",
  "unbounded trees; invariants must survive arbitrary composition",
  "src/expr.cc:Expr::Expr", "src/expr.cc:VarConcat", "src/expr.cc:VarExtend", "src/expr.cc:VarDuplicated")
p("Parameter updates reach everything that depends on the parameter",
  "After a parameter's value is set, every variable whose width was tied to it and every parameter derived from it reports the new value; a non-positive value is rejected when it is used as a width and nothing changes.",
  "every dependency graph of parameters and variables, every sequence of updates",
  "arbitrary dependency graphs and histories",
  "src/expr.cc:Param::set_value", "src/expr.cc:Var::set_width_param")
# ---- D. statement transforms ----------------------------------------------
p("If-to-case conversion preserves behaviour",
  "Replacing a chain of `if (v == constant)` by a case statement leaves the effect of the block unchanged for every value of every variable.",
  "every statement tree and every store",
  "every nesting, constant set (including repeated constants), and else shape",
  "src/optimize.cc:transform_if_to_case")
p("Merging adjacent ifs preserves behaviour",
  "Merging consecutive if statements in a block leaves the block's effect unchanged.",
  "every statement list and every store",
  "depends on overlap of conditions, on else bodies and on data dependence between bodies",
  "src/optimize.cc:MergeIfVisitor", "src/optimize.cc:merge_if_block")
p("Removing empty blocks preserves behaviour",
  "Deleting empty branches, cases and blocks leaves the effect of the remaining program unchanged and terminates without fault.",
  "every statement tree and every store",
  "negation of multi-bit conditions and doubly-empty branches are only reached by particular trees",
  "src/optimize.cc:remove_empty_block")
p("Merging bit-wise wire assignments preserves every bit",
  "When per-bit assignments are merged into one whole-variable assignment, every bit of the target is driven by the same source bit as before.",
  "every set of per-bit assignments between two variables",
  "all permutations of bit connections",
  "src/optimize.cc:merge_wire_assignments")
p("Inserted pipeline stages delay outputs by exactly n cycles",
  "With n pipeline stages inserted, each output equals the value the original output had n clock edges earlier, for every input sequence and clock-enable sequence.",
  "every n, every input history",
  "histories are unbounded",
  "src/optimize.cc:insert_pipeline_stages")
p("Clock-enable insertion gates every register and nothing else",
  "After automatic clock-enable insertion a sequential block behaves as before when enabled, keeps all state when disabled, and reset still takes effect regardless of the enable.",
  "every sequential block, every state, every input",
  "every nesting of reset and data logic",
  "src/optimize.cc:auto_insert_clock_enable")
p("Synchronous-reset insertion resets and otherwise preserves",
  "After automatic synchronous-reset insertion, asserting the synchronous reset on a clock edge loads the same values as the asynchronous reset branch, and with it deasserted the block is unchanged.",
  "every sequential block, every state, every input",
  "every block shape",
  "src/optimize.cc:auto_insert_sync_reset")
p("Statement reordering is a stable permutation",
  "Reordering keeps every top-level statement exactly once, orders kinds as documented and keeps the relative order inside each kind.",
  "every list of top-level statements",
  "any number and interleaving of statements",
  "src/transform.cc:sort_stmts", "src/transform.cc:sort_initial_stmts")
p("Zeroing unconnected inputs drives every and only undriven bits",
  "After zeroing generator inputs, each bit of each input is driven exactly once, bits that were driven keep their driver, and the others are 0.",
  "every pattern of partially driven bits of every port width",
  "2^w connection patterns per port",
  "src/transform.cc:zero_generator_inputs", "src/transform.cc:zero_out_stubs")
p("Removing unused variables and dead statements preserves outputs",
  "Removing variables nobody reads, together with their assignments, leaves the value of every output unchanged.",
  "every network of assignments",
  "arbitrary dependency graphs, including chains that become dead only after earlier removals",
  "src/optimize.cc:remove_unused_vars", "src/optimize.cc:remove_unused_stmts", "src/optimize.cc:dead_code_elimination")
p("Removing fan-out-one wires and pass-through modules preserves connectivity",
  "After removing a single-reader wire or a pass-through module, every remaining sink is driven by the same ultimate source as before.",
  "every chain/net of such wires and modules, in every removal order",
  "arbitrarily long chains and removal orders",
  "src/optimize.cc:remove_fanout_one_wires", "src/optimize.cc:remove_pass_through_modules")
p("Assignment-kind inference is total and consistent",
  "After assignment-type fixing every assignment in a sequential block is non-blocking and every other assignment is blocking, or the design is rejected because the user fixed the opposite kind.",
  "every statement tree",
  "unbounded nesting of blocks",
  "src/transform.cc:fix_assignment_type", "src/stmt.cc:StmtBlock::add_stmt")
p("SSA conversion of a combinational block preserves behaviour",
  "Converting an always_comb function to single-assignment form gives every assigned variable the same final value as executing the original function in order, and each introduced variable is assigned exactly once.",
  "every block of assignments and nested ifs, every store",
  "every nesting of branches and read/write order",
  "kratos/pyast.py:transform_always_comb_ssa")
# ---- E. analyses ---------------------------------------------------------
p("Accepted functions return on every path",
  "If the function-return check accepts a function, every execution of its body reaches a return statement; if some path has none it is rejected.",
  "every statement tree, every input value",
  "all paths through arbitrarily nested control flow",
  "src/analysis.cc:check_function_return", "src/analysis.cc:check_stmt_condition")
p("Accepted combinational blocks infer no latch",
  "If the latch check accepts a combinational block, every variable assigned anywhere in the block is assigned on every execution of the block.",
  "every statement tree, every store",
  "all paths; slices; loops that run zero times",
  "src/analysis.cc:check_inferred_latch", "src/analysis.cc:check_stmt_condition")
p("Connectivity check is exact",
  "The connectivity check accepts a design exactly when every bit of every port that must be driven has a driver.",
  "every hierarchy and every set of full or partial assignments",
  "all partial-assignment patterns",
  "src/analysis.cc:verify_generator_connectivity", "src/analysis.cc:connected")
p("No bit of an accepted design has two drivers",
  "If the multiple-driver check accepts, no bit of any variable is driven from two different top-level processes.",
  "every set of assignments at any bit ranges in any scopes",
  "all overlaps of bit ranges between scopes",
  "src/analysis.cc:check_multiple_driver")
p("A variable is never driven both blocking and non-blocking",
  "If the mixed-assignment check accepts, all assignments driving a variable use the same kind.",
  "every variable and assignment set",
  "arbitrary many drivers",
  "src/analysis.cc:check_mixed_assignment")
p("Accepted designs have no combinational loop",
  "If the combinational-loop check accepts, no variable's combinational value depends on itself through any chain of assignments.",
  "every assignment graph",
  "loops of any length",
  "src/analysis.cc:check_combinational_loop")
p("Enable conditions describe exactly when a statement runs",
  "The enable condition computed for a statement evaluates to true exactly in those states in which control reaches the statement.",
  "every statement tree, every statement in it, every store",
  "all nestings of if/case including default branches",
  "src/analysis.cc:compute_enable_condition")
p("Type-checked assignments have equal width and sign",
  "After assignments are verified, every assignment has equal widths and signedness on both sides and constants were only resized when their value is representable.",
  "every assignment set",
  "arbitrary designs",
  "src/analysis.cc:verify_assignments")
# ---- F. FSM ---------------------------------------------------------------
p("A realized Moore FSM behaves like the state diagram",
  "For every input sequence, the emitted registers and logic follow the transitions the user declared (first matching condition in declaration order, unconditional transition as default, stay otherwise), start in the start state on reset and show the current state's outputs.",
  "every FSM (any number of states, transitions, outputs), every input history",
  "input histories are unbounded; all transition graphs",
  "src/fsm.cc:FSM::realize", "src/fsm.cc:FSM::generate_state_transition", "src/fsm.cc:FSM::generate_output")
p("A realized Mealy FSM shows the outputs of the state being entered",
  "For every input, a Mealy FSM's outputs are those of the state the declared transition selects.",
  "every FSM, every input history",
  "all transition shapes including default transitions",
  "src/fsm.cc:FSM::generate_output", "src/fsm.cc:FSM::output_function")
p("Distinct FSM states have distinct encodings",
  "Every state, including states of nested FSMs, gets its own encoding that fits in the state register.",
  "every (nested) FSM and every choice of names",
  "all name combinations",
  "src/fsm.cc:FSM::realize", "src/fsm.cc:FSM::get_all_child_states")
p("FSM construction rejects ill-formed machines",
  "Transitions are accepted only with 1-bit guards, at most one transition per guard and no guarded transition after the unconditional one; every declared output has a value in every state or the machine is rejected.",
  "every sequence of construction calls",
  "all call orders",
  "src/fsm.cc:FSMState::next", "src/fsm.cc:FSMState::check_outputs")
# ---- G. hierarchy and names -----------------------------------------------
p("Generated names never clash",
  "Asking a generator for a unique variable name returns a name no existing variable has, for any set of existing names, and always terminates.",
  "every set of existing names, every prefix and base name",
  "any adversarial set of pre-existing names",
  "src/generator.cc:Generator::get_unique_variable_name")
p("The variable table stays consistent",
  "After any sequence of declaring, renaming and removing variables and ports, each variable is found under its own name, no two variables share a name, and every port is in the port list.",
  "every history of var/port/rename/remove calls",
  "unbounded histories",
  "src/generator.cc:Generator::var", "src/generator.cc:Generator::port", "src/generator.cc:Generator::rename_var", "src/generator.cc:Generator::remove_var")
p("Wiring two ports orients the assignment from source to sink",
  "wire(a,b) produces an assignment whose left side can legally be driven in that scope and whose right side can be read, whichever order the arguments are given, and rejects pairs with no legal orientation.",
  "every combination of port directions, hierarchy relations and argument orders",
  "many combinations of parent/child/sibling, direction and port/variable",
  "src/generator.cc:Generator::correct_wire_direction", "src/generator.cc:correct_port_direction", "src/generator.cc:wire_ports")
p("The context's name index is always in step with generator names",
  "After any sequence of creating, cloning, renaming and removing generators, looking up a name returns exactly the generators currently carrying it.",
  "every history of context operations",
  "unbounded histories",
  "src/context.cc:Context::change_generator_name", "src/context.cc:Context::add", "src/context.cc:Context::remove")
p("Instance names are unique among siblings",
  "After any sequence of adding, removing and renaming child generators, no two children of one parent have the same instance name.",
  "every history of child operations",
  "unbounded histories",
  "src/generator.cc:Generator::add_child_generator", "src/generator.cc:Generator::rename_child_generator")
p("Uniquification gives one name per distinct module",
  "After uniquification two generators have the same module name exactly when they have the same original name and equal structural hash, new names never collide with existing ones, and the first occurrence keeps its name.",
  "every multiset of generators with any names and hashes",
  "arbitrary collections of names, including names that already look uniquified",
  "src/pass.cc:uniquify_generators", "src/context.cc")
p("Structurally different modules are never merged",
  "If two generators with the same name are given the same module name, their emitted bodies are the same.",
  "every pair of generators",
  "hash collisions caused by the hashing scheme only show for particular pairs",
  "src/hash.cc:hash_var", "src/hash.cc:HashVisitor", "src/pass.cc:uniquify_generators")
# ---- H. orders --------------------------------------------------------------
p("Modules are emitted after the modules they instantiate",
  "The generator order used by bottom-up passes lists every generator exactly once and every child before its parent, whatever the iteration order of hash maps.",
  "every instance tree and every container iteration order",
  "iteration order of unordered containers is not controllable by tests",
  "src/graph.cc:GeneratorGraph::get_sorted_generators", "src/graph.cc:GeneratorGraph::get_leveled_generators")
p("Struct types are declared before use",
  "Struct definitions are emitted so that every struct type appears after the struct types its fields use.",
  "every acyclic struct dependency graph and every iteration order",
  "iteration order and arbitrary DAGs",
  "src/graph.cc:PackedStructGraph", "src/analysis.cc:extract_struct_info")
p("The IR visitor visits each node once, ancestors first",
  "A pass visitor is called exactly once for every node reachable from the root (shared nodes included), parents before children.",
  "every IR tree / DAG",
  "arbitrary shapes and sharing",
  "src/ir.cc:IRVisitor::visit_root", "src/ir.cc:IRVisitor::visit_generator_root")
# ---- I. code generation -------------------------------------------------------
p("Emitted statement text parses back to the same statement",
  "Reading back the emitted if/else/case/for/assign text with SystemVerilog rules (dangling else included) gives a statement with the same behaviour.",
  "every statement tree",
  "all nestings of if/else and single-statement bodies",
  "src/codegen.cc:SystemVerilogCodeGen::stmt_code", "src/codegen.cc:SystemVerilogCodeGen::block_code")
p("Emitted for-loops iterate the declared sequence",
  "The emitted for header runs the body for exactly start, start+step, ... up to (excluding) end and terminates.",
  "every start, end, step accepted by the API",
  "all sign combinations and off-by-one ends",
  "src/codegen.cc:SystemVerilogCodeGen::stmt_code(ForStmt)", "src/stmt.cc:ForStmt::ForStmt")
p("Instantiations reproduce parameter values",
  "Elaborating the emitted instance with the emitted parameter overrides gives each parameter of the child the value it has in the generator.",
  "every parameter set and value",
  "all initial/current value combinations and parameter chains",
  "src/codegen.cc:generate_module_instantiation params", "src/stmt.cc:ModuleInstantiationStmt")
p("Recorded line numbers point at the emitted statement",
  "The source line recorded for each statement is the line on which its text starts in the emitted file.",
  "every module",
  "any size and mix of statements",
  "src/codegen.cc:Stream", "src/codegen.cc:SystemVerilogCodeGen")
p("Emitted identifiers are legal",
  "Variable names accepted for emission are never SystemVerilog keywords and contain only identifier characters.",
  "every string",
  "infinitely many names",
  "src/syntax.cc:is_valid_verilog", "src/syntax.cc:is_valid_variable_name", "src/codegen.cc:check_yosys_src")
# ---- J. simulator -----------------------------------------------------------
p("Simulated sequential blocks use non-blocking semantics",
  "On a clock edge all right-hand sides are read before any register changes and, when one register is assigned several times, the last executed assignment wins.",
  "every sequential block and every state",
  "all interleavings of reads and writes between registers",
  "src/sim.cc:Simulator::process_stmt", "src/sim.cc:nba_values_", "src/sim.cc:Simulator::trigger_event")
p("Simulated combinational logic settles to a fixed point",
  "When evaluation ends, every continuous assignment and combinational block is consistent with current values, independently of the order events were queued.",
  "every acyclic design and every stimulus order",
  "all event orders",
  "src/sim.cc:Simulator::eval", "src/sim.cc:Simulator::trigger_event")
p("Static evaluation agrees with simulation semantics",
  "Statically evaluating a constant expression returns the value of the expression under the evaluator's operator semantics or reports it as not static; it never returns a value depending on variables.",
  "every expression tree",
  "all tree shapes and parameter values",
  "src/sim.cc:Simulator::static_evaluate_expr")
# ---- K. libraries and utilities ---------------------------------------------
p("A banked SRAM behaves like one large SRAM",
  "A memory composed of several smaller SRAMs returns, on every read, the last value written to that address, as one large SRAM would, for every history of reads and writes.",
  "every number of banks, sizes, and access history",
  "unbounded histories and all bank counts",
  "src/lib.cc:SinglePortSRAM", "src/lib.cc:SRAM::num_chunks")
p("Flipping a port bundle is an involution that swaps directions",
  "flip() turns every input into an output and vice versa, keeps names and widths, and flipping twice restores the original.",
  "every bundle definition",
  "any set of ports",
  "src/port.cc:PortBundleDefinition::flip")
p("Tokenising a string drops only delimiters",
  "Splitting a string at delimiters and concatenating the pieces gives the string without delimiters, no piece is empty and no piece contains a delimiter; splitting at delimiters what was joined from non-empty delimiter-free pieces with a separator made of delimiters gives the pieces back.",
  "every string and delimiter set",
  "all strings",
  "src/util.cc:string::get_tokens", "src/util.cc:string::join")
p("Comment wrapping preserves the words and the width limit",
  "Wrapping a comment emits the same words in the same order and no emitted line exceeds the width unless it is a single word.",
  "every text and every width",
  "all texts",
  "src/util.cc:line_wrap")
p("Fault localisation reports exactly the suspicious statements",
  "The reported statements are exactly those executed in some failing run and in no passing run.",
  "every set of runs",
  "any number of runs and coverage maps",
  "src/fault.cc:FaultAnalyzer::compute_fault_stmts_from_coverage")
p("clog2 gives the smallest sufficient width",
  "clog2(n) is the least number of bits (at least 1) that distinguishes n values.",
  "every n",
  "2^32 inputs; off-by-one at powers of two",
  "src/util.cc:clog2", "src/util.cc:is_2_power")
p("Streaming a hash in pieces gives the hash of the whole",
  "Feeding bytes to the 64-bit hash in any number of pieces gives the same hash as feeding them at once.",
  "every byte string and every way of splitting it",
  "all splits relative to the 32-byte buffer",
  "src/hash.cc:XXHash64")
p("Passes run once each in the order added",
  "Running the pass manager runs exactly the added passes, in the order added, with unknown or duplicate names rejected.",
  "every history of register/add/run calls",
  "unbounded histories",
  "src/pass.cc:PassManager")
p("Building statement trees keeps them well formed",
  "After any sequence of API calls that add, move or remove statements, every statement has one parent, no block contains a statement twice, and a switch has at most one body per case value.",
  "every history of statement-construction calls",
  "unbounded histories",
  "src/stmt.cc:StmtBlock::add_stmt", "src/stmt.cc:SwitchStmt::add_switch_case", "src/stmt.cc:IfStmt")
p("Ports are connected by type-safe assignments only",
  "An assignment to a clock, reset or enable port is accepted only from a constant, a port of the same kind or an explicit cast to that kind.",
  "every pair of port/variable kinds",
  "all combinations and assignment histories",
  "src/port.cc:Port::assign__")
p("Inlining an instance keeps all its variables",
  "Inlining a child instance moves every variable of the child into the parent under some name that is free there; no variable of the child or of the parent is lost and no two end up under one name.",
  "every parent, child and instance name",
  "all coincidences between parent names, child names and prefixed child names",
  "src/generator.cc:Generator::transfer_content", "src/optimize.cc:inline_instance")
p("A struct type name has one meaning in a design",
  "If two struct variables of a design use the same type name with different definitions, emission is refused; otherwise the one definition emitted for the name describes every variable of that type.",
  "every list of struct definitions, nested to any depth",
  "all pairs of definitions and all nestings",
  "src/analysis.cc:PortPackedVisitor", "src/expr.cc:PackedStruct::same", "src/expr.cc:PackedStructFieldDef::same")
p("Only assignable things are accepted on the left of an assignment",
  "An assignment is accepted exactly when its left side is a variable, a port, a part of one, or a concatenation of such; constants, parameters and other expressions (and parts of them) are refused.",
  "every left-hand expression of any depth",
  "all nestings of slices, casts, concatenations and operators",
  "src/expr.cc:Var::assign_", "src/expr.cc:AllConcat", "src/expr.cc:VarCasted::assign__")
p("Cloning a statement copies its behaviour",
  "A clone of a statement, at any nesting depth, does exactly what the original does; a statement that cannot be cloned is refused.",
  "every statement tree",
  "unbounded nesting",
  "src/stmt.cc:clone")
p("The action attached to an assertion runs when it fails",
  "The statement a user attaches to an assertion as its else action is emitted so that it runs exactly when the assertion fails, for immediate assertions and for properties.",
  "every statement attached to every assertion, in every context of the emitted text",
  "all statement trees; a test with one golden file compares text, not what it means",
  "src/codegen.cc:SystemVerilogCodeGen::stmt_code", "src/tb.hh:AssertPropertyStmt")
p("Comments are printed whole and stay comments",
  "The comment set on a statement, port or variable appears in front of it in the generated file as one comment line that contains the whole text with line breaks removed; no part of a comment becomes code.",
  "every comment text",
  "A test checks one comment, usually without line breaks; the property ranges over every text.",
  "src/util.cc: strip_newline", "src/codegen.cc: Stream::operator<<, SystemVerilogCodeGen::stmt_code")

p("Resets are used with one polarity",
  "If check_active_high accepts a design, every asynchronous reset triggers blocks with one edge only, the one it is declared with, and is tested by if statements with that polarity only, in blocks that it triggers; resets wired together agree; a synchronous reset triggers nothing and is tested as declared; and the verdict does not depend on the order in which blocks were added.",
  "all designs: any hierarchy, any statements, any sensitivity lists, any port types and declarations",
  "a test shows single designs; the check keeps state while it walks the design, so its verdict depends on combinations and orders of blocks",
  "src/analysis.cc:ActiveVisitor", "src/analysis.cc:check_active_high")
p("Sensitivity lists hold clocks and resets, and asynchronous resets can be made synchronous",
  "check_always_sensitivity accepts a design exactly if every trigger of every always_ff block is a clock or an asynchronous reset. After remove_async_reset such a design is still accepted by this check and check_active_high, blocks are triggered by clocks only, and as long as resets change together with clock edges all registers behave as before.",
  "all designs and all histories of signal values",
  "histories are unbounded, and the interplay of the two checks with the pass has to hold for every design",
  "src/analysis.cc:check_always_sensitivity", "src/formal.cc:remove_async_reset")
p("Content that cannot be synthesized is found",
  "check_non_synthesizable_content refuses exactly the designs that contain something for simulation only: delays, traced events, initial, final or general-purpose blocks, or a call of an imported or simulation-only system function anywhere.",
  "all designs: any nesting of statements and expressions",
  "the content may be at any depth of any statement or expression of any module",
  "src/analysis.cc:SynthesizableVisitor", "src/syntax.cc:builtin_functions_info", "src/stmt.hh:EventDelayStmt")
p("Replacing a variable replaces every reference to it",
  "Moving the readers of a variable to another one (as decoupling, pipelining and pass-through removal do) makes every statement of the generator read as before with the new name in place of the old, in every position: operands, slices, indices, concatenations, extensions, conditions, casts, calls, if and case tests; nothing else changes.",
  "all expressions, statements and variables",
  "expressions nest to any depth and the replacement has to reach every position of every statement",
  "src/expr.cc:Var::move_sink_to", "src/expr.cc:change_var_expr", "src/expr.cc:set_slice_var_parent", "src/expr.cc:stmt_set_right", "src/expr.cc:VarConcat::replace_var")
p("Instances are connected to what was wired",
  "After decouple_generator_ports and create_module_instantiation, the port connections of the instances together with the statements left in the parent allow exactly the signal values the parent's statements allowed, with new wires added; every input is connected exactly once, every output that is read exactly once, to names that may stand in a connection; and the parent's text does not mention ports of the children otherwise.",
  "all parents, all sets of children and ports, all wirings including slices, expressions, blocks and child-to-child connections, all signal values and all meanings of operators and blocks",
  "wirings are unbounded and each port visited changes the statements the next one sees",
  "src/transform.cc:GeneratorPortVisitor", "src/transform.cc:ModuleInstantiationVisitor", "src/stmt.cc:InstantiationStmt::process_port", "src/expr.cc:Var::move_src_to", "src/expr.cc:Var::move_sink_to")
p("Reading an input of an instance in the parent reads what drives it",
  "Verilog does not let a parent read an input port of an instance. After port_legality_fix every statement of the parent that read such a port reads the signal connected to it instead, in the same position of the statement, so that the values the statements allow are unchanged and no statement mentions an input of an instance.",
  "all parents, instances, connections and statements, all signal values and all meanings of operators and blocks",
  "statements and expressions are unbounded, and every reference in every position has to be replaced by one with the same value",
  "src/transform.cc:PortLegalityVisitor", "src/transform.cc:port_legality_fix", "src/expr.cc:change_var_expr")
p("Turning instances into a generate loop keeps their connections",
  "When lift_genvar_instances replaces several instances of a module by a generate loop, turn k of the loop is connected to the same signals as one of the instances, every instance is some turn, nothing is driven twice because of it, and the name of the block is a proper name common to the instances.",
  "all groups of instances of a module, all connections, all signal values and all behaviours of the module",
  "the number of instances and ports is unbounded, and the check looks at each port on its own while the claim is about their combination",
  "src/transform.cc:LiftGenVarInstanceVisitor", "src/transform.cc:lift_genvar_instances")
p("A block written as a Python function does what the function says",
  "When a Python function is used as the code of an always block, running the created statements, with tests and loops over hardware values evaluated in hardware, has the effect of running the function as ordinary Python on the values of the variables: tests known in advance choose the same branch, tests on hardware are kept with the same meaning, loops run for the same values in the same order, and break leaves the same loop.",
  "all functions of assignments, ifs, fors and breaks nested to any depth, all tests built from comparisons, and, or and not, all choices of loops to keep, all states",
  "functions are unbounded programs, and the effect has to agree for all values of the hardware variables",
  "kratos/pyast.py:StaticElaborationNodeForVisitor", "kratos/pyast.py:StaticElaborationNodeIfVisitor", "kratos/pyast.py:LogicOperatorVisitor", "kratos/pyast.py:Scope", "kratos/pyast.py:transform_stmt_block")
p("Removing assertions or events leaves everything else",
  "After remove_assertion (remove_event_stmts) no assertion (event) is left in the generator, and every other statement is still there, in the same order and with the same effect; blocks that contained nothing else are gone.",
  "all generators, all statements nested to any depth, all states",
  "statements nest without bound and emptying a block changes the statement around it",
  "src/debug.cc:AssertionRemoval", "src/debug.cc:remove_assertion", "src/event.cc:EventRemoval", "src/event.cc:remove_event_stmts", "src/optimize.cc:RemoveEmptyBlockVisitor")
p("Interfaces and modports keep their signals and directions",
  "An interface that was declared without an exception has exactly the ports, variables and modports that were declared, and a modport lists exactly the signals that were set on it, each existing and in one direction. A modport used as the interface of a child, or obtained from an instance, offers each signal in the direction the modport gives it. Wiring two interfaces connects every port of the child to the signal of the same name of the parent, inputs from it and outputs to it. The emitted design contains each interface it uses once, with all its signals and modports, and refuses two different interfaces of the same name; a module lists its port interfaces in its header; no name is declared twice.",
  "every sequence of declaration calls on an interface, every set of uses of interfaces in a design and every order in which the (parallel) visitor meets them, every pair of wired interfaces",
  "declaration sequences and sets of uses are unbounded and the visiting order depends on threads and hashing; tests build one interface with two modports",
  "src/interface.cc:InterfaceDefinition,InterfaceModPortDefinition,InterfaceRef::get_modport_ref", "src/generator.cc:Generator::interface,Generator::wire_interface", "src/analysis.cc:extract_interface_info", "src/codegen.cc:generate_ports")
p("The lists in the emitted text are complete and in a reproducible order",
  "The header of an emitted module lists every port exactly once, inputs before outputs and each by name, with a comma after all but the last; the declarations list every plain variable once, by name; an instance connects exactly the ports that were mapped, an interface once and only if all its ports are wired to one interface. The order depends on the names and directions only, not on addresses or on the order in which containers are traversed, so generating twice gives the same text.",
  "all sets of ports, variables and connections, all orders in which they are stored, every result the sorting functions of the C++ standard library may produce",
  "the order of containers keyed by addresses differs from run to run, and undefined behaviour of a sort shows only for some inputs and libraries",
  "src/codegen.cc:SystemVerilogCodeGen::generate_ports", "src/codegen.cc:SystemVerilogCodeGen::generate_variables", "src/codegen.cc:SystemVerilogCodeGen::generate_port_interface", "src/generator.cc:Generator::get_vars")
p("Enumerations are legal, unambiguous and type safe",
  "An enum that was accepted is a legal SystemVerilog enumeration with exactly the declared members, values and width, and stays so however its members are used; within a module the names of enums and members each mean the declared type or value; an enum variable or port can only be assigned members or variables of its own enum, so it always holds one of its values; the emitted type lists all members by value.",
  "every sequence of enum and variable declarations in the context and in any number of generators and of uses of members, every assignment",
  "declaration sequences are unbounded, and names are resolved by scoping rules of the emitted language that depend on everything else declared in the module",
  "src/expr.cc:Enum::Enum,Enum::verify_naming_conflict,Enum::get_enum,EnumVar::assign_", "src/context.cc:Context::enum_", "src/generator.cc:Generator::enum_", "src/port.cc:EnumPort::assign_", "src/stmt.cc:AssignStmt::AssignStmt", "src/codegen.cc:SystemVerilogCodeGen::enum_code_")
p("Hierarchical names identify and resolve",
  "The handle name of a generator or variable is its hierarchical name in the emitted design; two generators or variables never share one; a variable has a name relative to a generator exactly if it is inside of it, and that name is the rest of its path; a variable of another generator printed in the text of a generator denotes that variable.",
  "all design hierarchies of any depth and all instance and variable names, all positions of the reference",
  "paths are unbounded and names can be prefixes of each other or be reused at several levels",
  "src/generator.cc:Generator::handle_name", "src/expr.cc:Var::handle_name", "src/codegen.cc:Stream::var_str")
p("Port bundles become structs with the same members",
  "When the flow turns port bundles into packed structs, exactly the bundles whose ports are all inputs or all outputs and no arrays are turned; each becomes one port of the bundle's name and direction whose type has, member for member, the names, widths and signs of the old ports and gives every bit to exactly one of them; bundles that share a definition name but differ are refused; and every statement of the design that used a port means the same with the member in its place.",
  "all designs with any number of bundles and generators, all definitions, all statements, all values of the signals, all hash functions without collisions",
  "the pass rewrites statements in place across two levels of hierarchy in an order given by hash tables, and memory errors show only for some orders",
  "src/transform.cc:PortBundleVisitor,merge_bundle_mapping,change_port_bundle_struct", "src/generator.cc:Generator::port_packed", "src/expr.cc:PackedSlice::set_up,Var::move_src_to,Var::move_sink_to,Var::move_linked_to")
p("Calls of functions bind their arguments",
  "A call of a function, task or built-in that was accepted is printed so that each port of the emitted declaration receives the argument that the call names for it, and each argument is used; positional arguments of built-ins are printed in the order given. The call is accepted exactly if all ports have an argument of the same width and sign and a built-in gets a number of arguments it takes; the expression has the width and sign of the emitted declaration; all return statements of a function have one type; a traversal meets every declared function once.",
  "every history of declarations, ports, port orderings and return statements, every list of arguments, every result the sorting functions of the standard library may produce",
  "arguments pass through ordered maps and are sorted by their text, so which call goes wrong depends on names, on equal texts and on the number of arguments",
  "src/stmt.cc:FunctionStmtBlock::set_port_ordering,ReturnStmt::set_parent", "src/expr.cc:FunctionCallVar", "src/generator.cc:Generator::call,Generator::function,Generator::builtin_function,Generator::get_child", "src/codegen.cc:SystemVerilogCodeGen::stmt_code(FunctionStmtBlock*)", "src/syntax.cc:builtin_functions_info")
p("DPI imports describe the functions",
  "The emitted header has one import line for each name of a DPI function, and it describes every function of the design with that name: the same ports in the order of the calls, with their directions, types that have room for their values and keep the number that a port holds, the type of the result and the attribute. Designs whose declarations of a name differ are refused, and several generators of a design may call one function.",
  "all designs with any number of generators and declarations of one name, all orders of visiting, all widths and values, all Python call sequences over two generators",
  "declarations live in different generators and are compared pairwise in the order of the traversal; C types round widths up and have their own signs",
  "src/analysis.cc:DPIVisitor,extract_dpi_function", "src/codegen.cc:generate_sv_package_header", "kratos/func.py:_DPIFunctionCall")
p("Breakpoints in single-assignment form show the function",
  "For a function converted to single-assignment form with debugging on, in every settled state of the emitted block there is one breakpoint per assignment of the function; it stops exactly if the assignment runs, and every variable then shows the value it has before the assignment when the function is run as written. Functions that cannot be shown are refused.",
  "all function bodies with any nesting of if statements, all values and conversions, all settled states",
  "the versions shown depend on the whole history of branches before a statement, and on which branches ran",
  "src/debug.cc:ssa_transform_fix,process_always_comb", "kratos/pyast.py:AlwaysCombSSA.create_new_var,visit_If,visit_Assign", "src/analysis.cc:compute_enable_condition")
p("Wiring constants to instances keeps their values",
  "The pass that connects constants directly to inputs of instances accepts every design, removes exactly the wires that only connect a constant to such an input, leaves no statement that mentions a removed wire, and no other signal of the design changes its value.",
  "all generators with any statements and expressions, all meanings of operators and of procedural blocks, all values of the signals",
  "whether a wire is bypassed depends on the number of its readers and writers only, so the expressions around it decide whether the values stay",
  "src/optimize.cc:merge_const_port_assignment,MergeConstPortVisitor", "src/generator.cc:Generator::remove_stmt,Generator::remove_var", "src/stmt.cc:AssignStmt::AssignStmt")
p("Generators taken from the cache are the ones asked for",
  "A generator obtained with create() or clone() stands for a generator that was built from the arguments given, in whatever order; asking again with the same arguments gives a copy. A copy that is initialized becomes the generator its constructor describes, and initializing it again changes nothing. Every module of a design is written out with what its constructor says, also when instances of it are copies.",
  "all classes of generators and hash functions, all histories of new, create, clone, initialize_clone and clear_context, all constructors, all orders in which a hierarchy is visited",
  "the key of the cache mixes all arguments, so which calls collide depends on pairs of earlier calls; what a copy forgets shows only in constructors that use particular options",
  "kratos/generator.py:Generator.create,clone,__cached_py_generator,initialize_clone,add_always,add_child_generator,sequential", "src/generator.cc:Generator::clone", "src/codegen.cc:UniqueGeneratorVisitor")
p("Replacing or removing an instance keeps the rest of the design",
  "Replacing an instance by another generator succeeds exactly when both have the same interface; afterwards every statement of the parent is what it was with the new instance's ports in the place of the old one's, and no statement mentions the old instance. A refused replacement changes nothing. Removing an instance removes exactly the connections of the parent to it; removing a connection removes that connection and no other.",
  "all interfaces of the two generators, all statements of the parent and of other generators, all expressions over the ports",
  "which statements are found depends on the shape of every expression a port is used in, and whether a refusal is clean depends on which port differs",
  "src/generator.cc:Generator::replace,remove_child_generator,unwire", "src/expr.cc:Var::move_src_to,move_sink_to", "src/stmt.cc:IfStmt::remove_stmt")
p("Properties check the sequence that was built",
  "The text written for a property is a SystemVerilog property that holds of an execution exactly if the sequence built with imply and wait is met from every start, about the variables of the instance it is in, for every instance of the module. Every property is clocked: by the clock given, or by the clock of the design if there is one only. Every property is declared once, and asserted, assumed or covered exactly if that was asked for. No order of calls on the objects returned is undefined.",
  "all sequences and delays, all histories of imply and wait, all hierarchies and instances sharing a module, all executions, all sets of clocks",
  "a property is judged by what it says about executions of any length, and the names in it are resolved where the module is instantiated, which no test of the text looks at",
  "src/tb.cc:Sequence::imply,wait,to_string,Property", "src/generator.cc:Generator::property", "src/transform.cc:change_property_into_stmt,infer_property_clocking", "src/codegen.cc:SystemVerilogCodeGen::stmt_code(AssertPropertyStmt*),Stream::var_str")
p("Register helpers make the registers they describe",
  "After any calls of reg_next, reg_init and reg_enable, each call's register follows its variable at every rising edge of its clock: always, except in reset where it has the initial value at once, or only while the enable is set. No call changes what the register of another call does, and nothing else is driven.",
  "all histories of calls with any names, variables, clocks, resets and enables; all executions",
  "the helpers share one block per clock, reset or enable, so what one call does depends on all calls before",
  "kratos/generator.py:Generator.reg_next,reg_init,reg_enable,__get_port_name_type,__create_new_var", "src/generator.cc:Generator::var")
p("The flattened wrapper exposes every element of every port",
  "create_wrapper_flatten gives a generator whose ports are scalars: each element of each array port of the wrapped design is exactly one port, named after its indices, with the direction, width, sign and type of the element and connected to exactly its bits; scalar ports are there unchanged; the wrapper is transparent in both directions.",
  "all port lists, all numbers and sizes of dimensions, all values",
  "the wrapper is built from all index tuples of all ports of arbitrary shape, and names are made up from indices",
  "src/codegen.cc:create_wrapper_flatten", "src/util.cc:get_flatten_slices", "src/generator.cc:Generator::port,add_port_name", "src/expr.cc:VarSlice::VarSlice")
p("Inlining an instance keeps the behaviour of the design",
  "inline_instance succeeds on a design whose ports are connected to variables of the parent; afterwards the connecting assignments and the connected ports are gone, and every other assignment, test and sensitivity list of the child and of the parent is there as before, with each connected port replaced by the parent's variable.",
  "all sets of ports and connections, all statements and expressions of child and parent",
  "the pass substitutes variables in arbitrary expressions and deletes statements it finds through the variables' lists of drivers and readers",
  "src/optimize.cc:InlineGeneratorVisitor,inline_instance", "src/expr.cc:Var::move_sink_to,Var::move_src_to,Var::clear_sources,Var::clear_sinks", "src/generator.cc:Generator::transfer_content,remove_var")
p("The drivers and readers recorded for a variable are those in the design",
  "After any sequence of creating assignments, adding them to generators and blocks, removing, unwiring and clearing them, and creating or changing the condition of an if or the target of a case, sources() and sinks() of a variable hold exactly the statements in the design that write it and that read it (an index on the left is read).",
  "every sequence of such calls, every expression on either side",
  "the lists are kept up to date by a dozen overrides that each pass the registration down; all passes trust them, and a wrong entry shows only in particular call histories",
  "src/expr.cc: add_sink, add_source, remove_sink, remove_source of all variables and expressions", "src/stmt.cc: AssignStmt::set_parent, AssignStmt::clear, StmtBlock::add_stmt, StmtBlock::clear, IfStmt::set_predicate", "src/generator.cc: Generator::add_stmt, remove_stmt, unwire")
p("The simulator runs a statement again when what it reads changes",
  "When some bits of a variable change in the simulator, every statement or block whose result may depend on one of these bits, through the variable, a slice, an index, a condition or an argument, is run again, and no statement that depends on none of them is.",
  "every design, every order in which its statements are visited, every set of changed bits",
  "a stale value appears only for particular combinations of slices and indices in one design",
  "src/sim.cc: DependencyVisitor, Simulator::trigger_event")
p("Simulated arrays read back what was written",
  "In the simulator, after any sequence of set calls on an array variable - with a value for every element, with one word holding all the elements of a packed array, or on single elements - reading the array or any of its elements gives what was written last, and setting an array reports as changed exactly the bits that differ, so that what reads them is run again.",
  "all arrays, element widths and dimensions, all sequences of set calls, all values and indices",
  "Arrays have unbounded dimensions and any history of writes; the row-major position is computed by wrapping 32-bit products along the chain of indices.",
  "src/sim.cc: Simulator::set_value_, get_value_, set_complex_value_, get_complex_value_, compute_var_high_low")
p("Breakpoints in the debug table show the variables in scope",
  "The debug table saved for a design has, for every assignment that is not marked to be left out, a breakpoint with its source file, line and condition, in source order, and at each breakpoint every frontend variable in the scope of the assignment is shown with the value it has there.",
  "all statement trees, scopes, names, values, source places and conditions",
  "Scopes nest without bound, and what a breakpoint shows depends on everything recorded before it in its scope and in the scopes around it.",
  "src/debug.cc: DebugDatabase::save_database, StmtScopeVisitor, StmtFileNameVisitor; src/stmt.cc: Stmt::add_scope_variable; extern/hgdb/include/json.hh: SymbolTable::has_same_var, compress")
p("A loop index expression keeps its value where it is narrowed",
  "Where an expression of loop variables is assigned to, indexes into, or is combined with something of another width, the expression the library accepts has that width and the same value as the one written, in every iteration of the loops; and an expression whose value fits in every iteration is accepted.",
  "all expressions of loop variables and constants, all loop bounds and steps, all widths, all iterations, and all earlier uses of the checker",
  "The number of iterations, the depth of the nest and the size of the expression are unbounded; the checker looks at a few points only, so whether those are enough has to be argued for all of them.",
  "src/expr.cc: IterVar::safe_to_resize, safe_to_resize_, extract_iter_var, IterVar::fix_width, VarVarSlice::VarVarSlice, Expr::Expr, resize_var; src/stmt.cc: AssignStmt::AssignStmt, ForStmt::ForStmt")
p("The Python instance table shows the instances of the design",
  "After any history of adding, renaming, replacing and removing instances through Python, whether or not calls raised exceptions, looking an instance up by name in Python gives exactly the instance the library holds under that name, and that instance has that name and parent; a call that returns changes the lookup of its own names only.",
  "all histories of add_child, instance_name, replace and remove_child_generator calls over any number of generators and names",
  "The two tables are updated separately and in a different order, so each call is right only relative to what all earlier calls left in both; the histories are unbounded.",
  "kratos/generator.py: Generator.__getitem__, Generator.instance_name, Generator.add_child_generator, Generator.remove_child_generator, Generator.replace; python/kratos_generator.cc: init_generator; src/generator.cc: Generator::add_child_generator, Generator::rename_child_generator, Generator::replace, Generator::remove_child_generator")
p("The diagram and the table of a state machine show the machine",
  "The state diagram has exactly one node with its full name for each state of the machine, a double circle for the start state only, one colour for each machine, and exactly one arrow with the guard as label for each transition; the output table has one column for each output and one row for each state with the values the state gives; both can be read back from the text.",
  "all machines built by any sequence of API calls, of any number of states, transitions, outputs and levels of nesting, and all names and guard texts",
  "The text is assembled from names and lists of unbounded size; whether two states, arrows or cells can be confused or repeated depends on all of them together.",
  "src/fsm.cc: FSM::dot_graph, FSM::output_table, FSM::get_all_child_states, FSMState::handle_name, get_state_color; kratos/fsm.py: FSM.dot_graph, FSM.output_table")
p("The coverage report says how often every statement ran",
  "The coverage report is a well-formed XML document that reads back as written whatever the names and paths are; it has, for every assignment in a conditional block and every such block with debug information, one line under the generator's name and the file (source directory plus file name) the debug information gives, with the number of runs that executed it; it has no other lines; its totals are the numbers of statements and blocks and of those executed.",
  "all designs, debug information, file names, sets of runs and coverage sets, and all texts in the document",
  "The text of the report depends on all statements, files and runs together; the common directory is computed from all file names.",
  "src/fault.cc: XMLWriter, CoverageStatVisitor, has_parent, longestPath, get_filename_after_root, FaultAnalyzer::output_coverage_xml")
p("The declarations of ports and variables say what the user asked for",
  "The text emitted for a port or a variable, read by the rules of SystemVerilog, is a declaration with the direction, the type (logic, the struct, the enumeration or the type parameter), the sign, the packed and unpacked dimensions in order, the width and the name that the user gave, and for all values of the parameters the ranges have as many elements as the expressions of the parametrised width and sizes say. False of the code: a parametrised width such as P << Q is printed [P << Q-1:0], which is a shift by Q - 1; a variable whose length is a parameter with value 1 loses its dimension; a variable loses its type parameter; an array of an enumeration gets the width of the enumeration as one more dimension.",
  "all ports and variables (names, kinds, signs, widths, any number of dimensions, parametrised widths and sizes with any printable expressions) and all positive values of the parameters",
  "tests compare the text of a few declarations at the values the parameters have; the claim is about all attribute combinations and all later overrides of the parameters",
  "src/codegen.cc:get_var_width_str", "src/codegen.cc:get_width_str", "src/codegen.cc:get_var_size_str", "src/codegen.cc:get_port_str", "src/codegen.cc:Stream::get_var_decl")
p("Writing a design as a package leaves every file current, whatever happened before",
  "Generating a design as a package (one file per module, an optional file of debug information per module, a header) from any state of the directory completes under every schedule of the threads that visit the design. Afterwards the file of every module that is not external, the header and, if asked for, the debug files have the current text; a module file or header that was right keeps its content and its time stamp; no other file is touched. If the process dies at any point, also inside a write, every file is as before or holds a beginning of its new text, so the next run repairs the directory. Generators with debug information know the path of their file. A package with the name of the top module is refused. False of the code: two threads insert into one unlocked map (a data race), and a generator whose file was already right does not learn its path.",
  "all uniquified designs, directories and earlier contents, all schedules on any number of processors, all crash points",
  "a data race, a crash point or a directory left by an earlier crash depends on the schedule and the history, which a test does not control",
  "src/codegen.cc:generate_verilog_pkg", "src/codegen.cc:UniqueGeneratorVisitor", "src/codegen.cc:output_pkg_debug_info", "src/ir.cc:IRVisitor::visit_generator_root_p", "src/util.cc:fs::join")
p("Importing a Verilog module gives exactly the ports it declares",
  "Importing a module by name from a Verilog file uses the text of the first module of that name, whatever modules stand before and behind it, and fails when there is none; the imported generator then has exactly the declared ports, with the declared direction and the width of the declared range (1 without a range), whether the declarations stand in the header or in the body, and however blanks and line ends are laid out. False of the code: the range of a port is used for later ports of the same header without a range, a line end in a header becomes a port, a declaration that begins with inout is not seen, a width that is not a number reads behind the end of a list (undefined), and input logic a is refused.",
  "all files with any number of modules, all lists of declarations, names, ranges and layouts, and all texts between the declarations in which input and output are not followed by a blank or bracket",
  "tests import four small modules; the scanner works on free text, where every layout, every name that contains a keyword and every neighbouring module matters",
  "src/util.cc:get_port_from_verilog", "src/util.cc:get_port_from_mod_def", "src/generator.cc:Generator::from_verilog")
p("Assignments may use exactly the signals that exist where they stand",
  "The check of assignments accepts every assignment whose right-hand side uses only constants, signals of the module in which it is written (the parent for an input of an instance, else the module of the driven signal) and ports of instances there, whatever the expression; and it refuses the others. The second half is false of the code: a port of a sibling instance is accepted for a variable, a variable inside a sibling is accepted for an input, and a variable inside an instance is accepted when a signal of the module stands to its right.",
  "all trees of generators, all driven signals, all expressions built from constants, signals, slices and operators",
  "the generator of an expression is computed from its shape, so the verdict depends on the order and nesting of operands in expressions of any depth; tests try two or three",
  "src/analysis.cc:MixedAssignmentVisitor::check_var_parent", "src/analysis.cc:MixedAssignmentVisitor::has_non_port", "src/expr.cc:Expr::set_parent")
p("A coverage file is read into exactly the statements that were passed",
  "Reading a coverage file of Verilator reports exactly the blocks of the design at whose line, in a file of the same name, a point of line coverage with a non-zero count is recorded, whatever comments, other points, fields and layouts the file has; the number reported is the count of such a point. No text leads to undefined behaviour, a point without a type is refused, and when the simulation is stopped while it writes the last point, before its count, the file is refused or read as if that point was not there. False of the code: a count that is a multiple of 2^32 is taken for zero, and of two files with the same name in different directories only the blocks of the first are ever reported, also for points of the second.",
  "all designs, all lists of lines and points with any fields and counts, all orders of the set, all places where the file is cut off",
  "the reader is a small machine over free text; tests read one file of eleven lines",
  "src/fault.cc:parse_verilator_coverage", "src/fault.cc:reverse_map_stmt", "src/fault.cc:CollectScopeStmtVisitor")
p("Sequential and parallel hashing merge the same modules",
  "Hashing a design before uniquification gives the same result with the sequential and with the parallel strategy: both succeed, every generator that is not external gets the same hash (the hash of its name if no other generator carries the name, and otherwise the hash of its body computed after those of its instances), and uniquification then renames and merges the same modules.",
  "every design, every order in which the hierarchy's containers are iterated, every schedule of the worker threads of a level, every hash function",
  "Tests hash a few designs with whichever order the containers and threads happen to give; agreement must hold for all hierarchies and orders.",
  "src/hash.cc: hash_generators_context, hash_generator, hash_generator_name, hash_generator_src", "src/context.cc: Context::add_hash, Context::get_hash, Context::is_unique", "src/graph.cc: get_sorted_nodes, get_leveled_nodes")
p("Accepted clocked blocks can be built from flip-flops",
  "When a design passes the checks, every clocked block has a shape synthesis tools map to flip-flops: an if on the top level stands alone; every reset in the sensitivity list is tested; and every register that is given a value under a reset is also assigned when the reset is not active. Clocked blocks of this shape are never refused. False of the code: a reset that is in the sensitivity list but never tested is accepted (it then acts as a second clock), and a reset tested in the condition of a conditional expression is overlooked.",
  "all generators and clocked blocks with statements nested to any depth, all sensitivity lists, all conditions, all orders of the visitor's containers",
  "The checks search statement trees and expressions of any depth; tests try a few blocks.",
  "src/analysis.cc:LatchVisitor::check_sequential", "src/analysis.cc:IfVisitor::has_var", "src/analysis.cc:CheckFlipFlopAlwaysFFVisitor::check_always_ff", "src/analysis.cc:check_stmt_condition")
p("Every instance has its module in the emitted text, once",
  "After hashing (sequential or parallel) and uniquification, generate_verilog returns a table of modules in which no module is defined twice, every non-external instance of the design finds a module under its final name whose text is that of a generator that had the same original name and an equal body, nothing outside the design is emitted, and no external module is defined.",
  "all designs (trees of generators built by any history of context calls), both hashing strategies and every order of the containers involved",
  "the tables are indexed by names that uniquification changes; whether a collision remains depends on the whole context and on the order of unordered containers",
  "src/codegen.cc:UniqueGeneratorVisitor", "src/codegen.cc:generate_verilog_no_pkg", "src/ir.cc:visit_generator_root", "src/pass.cc:uniquify_generators")
p("A written Verilog file holds every definition and its table points at the right lines",
  "verilog(..., filename=f) leaves in f exactly the definitions of the design followed by its modules in the order of their names; each entry of f.debug names the line of the file that the recorded line of the module became, and recorded line numbers of generators are shifted by the lines before their module. With tracking of generated definitions, a history of calls on different files writes every definition and module of every call once.",
  "all designs, texts and line tables; all histories of calls, files and tracking flags",
  "the line arithmetic depends on all texts written before, and what is left out depends on the whole history of calls",
  "kratos/passes.py:output_verilog", "kratos/passes.py:verilog", "kratos/passes.py:clear_context", "src/codegen.cc:fix_verilog_ln")
p("The body of an emitted module holds the assignments and processes that were built",
  "The text of the statements of a module reads back, one for one and in order, as the statements of the generator: continuous assignments with their target and value, and always_ff/always_comb/always/always_latch/initial/final processes with the same sensitivity list, label and behaviour. Non-blocking, undecided or delayed continuous assignments, and assignments of a module to its own input ports, are refused; delays stand where the user put them.",
  "all lists of statements of a generator, of any nesting, all sensitivity lists, labels and delays",
  "the text is nested and of unbounded length; that it reads back is a property of a grammar, not of an example",
  "src/codegen.cc:Stream", "src/codegen.cc:stmt_code", "src/codegen.cc:block_code", "src/codegen.cc:block_label", "src/stmt.cc:EventControl")
p("An ICC coverage report is read into exactly the branches that were taken",
  "After parse_icc_coverage on a report of the ICC format (sections with a 'File name:' line, a table headed 'Count  Block Line  Kind ...' with one row per block, and an empty line), the statement blocks returned are exactly those for which the report has a row of kind 'true part of', 'false part of' or 'a case item of' with a positive count at the block's line in a file of the same base name; the count of such a row is returned; nothing is refused. A report cut off between two lines gives a subset. False: a count of 100000 or a line or block number of 10000 fills its column, so that the row is refused or silently lost, and a section without a table passes its file name on to the next section.",
  "all designs, all reports with any number of sections and rows, all numbers, all source texts, all orders of the set, all cut-off points",
  "The vectors in the repository have one report with small numbers; the fixed-width columns only break on long runs or large files.",
  "src/fault.cc:parse_icc_coverage", "src/fault.cc:get_icc_tokens", "src/fault.cc:reverse_map_stmt")
p("A port reports the ports it is connected to",
  "After any sequence of creating, adding, unwiring and clearing assignments, connected_from of an input port is the set of output ports of other generators that some assignment in the design passes to it (alone or in an expression), connected_to of an output port is the set of input ports of other generators to which some assignment passes it, the two agree (q is in p.connected_to iff p is in q.connected_from), and connected() says whether an input is driven or another port is read. False: a port reached through a slice, an index, a cast or a function call is not reported (so the two directions disagree), an index on the left is reported as a connection, and a removed assignment is still reported.",
  "all histories of calls, all expressions of any depth on both sides, all ports and generators",
  "The repository has one test with a direct connection; the answer depends on the shape of every expression and on the whole history of calls.",
  "src/port.cc:Port::connected_from", "src/port.cc:Port::connected_to", "src/port.cc:Port::connected", "src/ir.cc:IRVisitor::visit_root")
p("The extracted register names are the variables written at clock edges",
  "extract_register_names returns, for every instance below the top, the full hierarchical name of every variable that is written in a clocked block, and nothing else; extract_var_names returns the full name of every variable of every instance. The result does not depend on the order in which assignments are stored. False: only one arbitrary assignment of a variable is looked at, so a register that also has an initial value may be missing from run to run; registers of clocked blocks with check_assignment=false and of cloned generators are missing.",
  "all hierarchies, all designs with any nesting of statements, all orders of the sets of assignments",
  "The order of the sets is the order of addresses in memory, which changes from run to run; tests see one of them.",
  "src/analysis.cc:extract_register_names", "src/analysis.cc:extract_var_names", "src/analysis.cc:GeneratorVarVisitor", "src/transform.cc:fix_assignment_type")
p("Passes run in the order they need, and instances that share a module have the same body",
  "For every choice of options, verilog() runs each built-in pass exactly when its option asks for it, once, and never before a pass it relies on (state machines are realized before unused variables go, connections verified after inputs are zeroed, assignment kinds inferred before they are checked, hashes taken before names are given, names given before instantiations). Whatever the passes do, two instances that were given one module name have the same body when the module is printed. The last part is false: names are decided by the bodies at the hash, and passes behind the hash, such as pipeline insertion and inlining, read attributes that are not hashed, so an instance that asked for pipeline stages can share the module of one that did not.",
  "all combinations of options, all designs, annotations and pass semantics",
  "Over twenty independent options give millions of pass lists; tests run a handful, and seldom two equal instances with different attributes.",
  "kratos/passes.py:verilog", "src/optimize.cc:insert_pipeline_stages", "src/hash.cc:HashVisitor", "src/optimize.cc:inline_instance")
p("A dotted instance name becomes a hierarchy with that full name",
  "mock_hierarchy on a top generator with a dotted instance name makes parents so that the full name of the generator is that path, with the outermost name replaced if one is given; the generator is found by following the names down from the outermost, other generators are untouched, a plain instance name is left alone and a second call does nothing. False in general: parents are looked up by module name in the context, so a path with a name twice makes a generator its own parent and asking for the full name never ends, a second generator below a shared path is refused, a module that happens to have the name contributes its own instance name, and a name whose generators were removed is undefined behaviour.",
  "all contexts, all generators, all paths of any length, all top names",
  "Tests mock one path of three different names in an empty context.",
  "src/debug.cc:mock_hierarchy", "src/generator.cc:Generator::add_child_generator", "src/context.cc:Context::get_generators_by_name", "src/generator.cc:Generator::handle_name")
p("Names of the frontend are handed down to the statements inside",
  "After propagate_scope_variable every statement shows its own names and those of the statements around it, the nearest first; names a statement has keep their meaning and no statement is added or removed. False in part: the pass goes from the outside in and never replaces, so a name that an inner conditional gives another meaning shows the meaning of the outermost one inside of it, and loops do not hand anything on, so nothing inside of a loop shows the names of the conditionals around the loop. Proved exactly what is shown, for all nestings.",
  "all nestings of conditionals, switches, blocks and loops, all contexts",
  "Needs all nestings and all clashes of names; tests have one conditional.",
  "src/debug.cc:propagate_scope_variable", "src/stmt.cc:Stmt::add_scope_variable", "src/stmt.cc:IfStmt::add_scope_variable", "src/stmt.cc:StmtBlock::add_scope_variable", "src/stmt.cc:SwitchStmt::add_scope_variable")
p("Recorded simulation values go to the variables their names denote",
  "In fault analysis a recorded value with the hierarchical name top.i1...in.v.k1...km is given to exactly the bits v[k1]...[km] of variable v of instance i1...in; whatever a name finds is what its pieces say; a state with an unknown name is refused; marking a value as wrong needs a recorded state, marks the variable that was found, and refuses unknown names. False in part: a variable with the name of an instance beside it is not found, arrays are packed by default and packed arrays are refused, characters behind an index are ignored, marking an unknown name dereferences a null pointer and the empty name reads an empty list.",
  "all hierarchies, all variables and shapes, all names, all recorded states",
  "Needs all shapes of hierarchies and all names including clashing and malformed ones; tests use two or three names that exist.",
  "src/fault.cc:SimulationRun::select", "src/fault.cc:SimulationRun::select_gen", "src/fault.cc:SimulationRun::add_simulation_state", "src/fault.cc:SimulationRun::mark_wrong_value")
p("A port copied into a parent generator follows the parent's parameters",
  "port_from_def gives the new port the width and sizes of the original, written with the parameters of the generator it is copied into, so that both have the same shape whatever values the parameters take later; with the check on, a port whose parameters are not set from that generator is refused, with the check off it keeps its present width for good. var_from_def does the same for variables. False in part: var_from_def copies no parametrisation at all, a conditional, concatenated or extended width is read through an object of the wrong class, a parent parameter declared with another width changes the value, a refused copy leaves the new port behind, and a copy onto the name of a variable uses a destroyed object.",
  "all parameter expressions, all parameter values now and later, all generators, all operator semantics",
  "Needs every expression tree and every later assignment of the parameters; tests copy one port with one parameter and look at the text once.",
  "src/expr.cc:copy_var_const_parm", "src/expr.cc:Var::copy_meta_data", "src/generator.cc:Generator::port(const Port&)", "src/generator.cc:Generator::var(const Var&)")
p("Inlined variables keep the parametrisation of their shapes",
  "When an instance is inlined (attribute inline), a variable of it whose width or dimension is made of parameters set from parameters of the parent has, after inlining and whatever values are given to parameters later, the width or size that the same expression of the parent's parameters gives, and is written with the parent's parameters only; every other width and dimension keeps its present value for good. The same holds for the variable that takes the place of a port. False in part: expressions are turned into numbers (a width even into a number that later becomes the raw value of the parameter), a dimension is written with the parameter of the vanished instance again once the parent's parameter gets a new value, and the variable that replaces a port has no parametrisation at all.",
  "all histories of declarations before, all parameter trees, all expressions, all values given later",
  "Needs every tree of parameters and every later value; tests inline one instance and look at the text once.",
  "src/generator.cc:set_var_params", "src/generator.cc:Generator::transfer_content", "src/expr.cc:Var::set_width_param", "src/expr.cc:Var::set_size_param", "src/expr.cc:Param::set_value")
p("A concatenation means its operands, whatever was built or moved before",
  "a.concat(b) is written {a, b} (and a concatenation is continued), is as wide as its elements together, is refused when the signs differ, and changes nothing written before, for every program of declarations, operators, concatenations, assignments and moves of readers (Var::move_sink_to). Moving the readers of a variable in one generator does not change the statements of another. False in part: a variable keeps the concatenations made from it and hands them out again; a replacement changes these objects in place and leaves them in the table of the old variable, so after the readers of a were moved to n, a.concat(b) is {n, b}; a statement of another generator that holds the same object is changed with it; and a concatenation keeps its width when an element is replaced by one of another width.",
  "all programs, all expression trees, all generators, all later calls",
  "Needs every interleaving of building, sharing and replacing; tests build each concatenation once.",
  "src/expr.cc:Var::concat", "src/expr.cc:VarConcat::concat", "src/expr.cc:VarConcat::replace_var", "src/expr.cc:change_var_expr", "src/expr.cc:Var::move_sink_to")
p("The hierarchical name of an expression names every signal by its path",
  "handle_name of an expression is the text of the expression with every signal under its hierarchical name, and handle_name(scope) the text with every signal under its name in that scope, for every expression of signals, slices, elements, casts, parameters, constants, operators, concatenations, extensions, repetitions and conditionals. False in part: the name of an operator in a scope has bare local names (the scope is passed as another argument), so c.o == d.o reads o == o and signals out of reach are not refused; an extension or a repetition as an operand makes handle_name recurse for ever; an index signal, a parameter and a cast are written without their path or with it in the wrong place; and a conditional as a condition loses its parentheses, so two expressions of different meaning have the same text.",
  "all expression trees, all hierarchies, all scopes",
  "Needs all nestings of the kinds of expressions; tests call handle_name on plain signals.",
  "src/expr.cc:Expr::handle_name", "src/expr.cc:expr_to_string", "src/expr.cc:VarConcat::handle_name", "src/expr.cc:ConditionalExpr::handle_name", "src/expr.cc:Var::handle_name", "src/expr.hh:Const::handle_name")
p("The debug table of a module gives for each line what is printed there",
  "After code generation the table of a module (extract_debug_info, and the .sv.debug files) has for a line of the module the positions in the user's program of what is printed on that line, and for line 1 those of the generator; everything printed on a line of its own that has a position is in it; the table of a design has one table for each module name with a position. False in part: the variables of other modules that a statement refers to are entered with the line of their own module and, being first, hide what is really on that line; loops, assertions and always_latch blocks are never entered.",
  "all trees of statements, expressions, variables and functions, all line numbers and positions, all designs",
  "Depends on which of all reachable objects is met first for each line; tests look up a few lines of one module.",
  "src/debug.cc:extract_debug_info", "src/debug.cc:extract_debug_info_gen", "src/debug.cc:DebugInfoVisitor", "src/debug.cc:GeneratorDebugVisitor", "src/ir.cc:IRVisitor::visit_content", "src/ir.cc:IRVisitor::visit_root")
p("A declaration from Python gives the signal that was asked for",
  "Generator.var, port, input and output give a signal with the type, direction, width, sizes, sign and packing in the call, where widths and sizes may be parameters, and touch no other signal; what cannot be declared (keywords, width 0, wide clocks, local enumerations in ports, structures in port) is refused and changes nothing. False in part: a second var call with the same total width returns the first variable whatever its sizes, and repacks it; the same array cannot be declared twice; var under the name of a port returns the port; a port under the name of a variable does not outlive the call; enumerations lose size, sign and port type; a refused size leaves the variable behind; a clock may have a parameter as width.",
  "all sequences of declarations with all arguments, all parameter values",
  "Depends on what was declared before under the same name and on every combination of arguments.",
  "kratos/generator.py:Generator.var", "kratos/generator.py:Generator.port", "kratos/generator.py:Generator.input", "kratos/generator.py:Generator.output", "src/generator.cc:Generator::var", "src/generator.cc:Generator::port", "src/expr.cc:Var::set_size_param", "src/expr.cc:Var::set_width_param")
p("The events extracted from a design are those the user fired",
  "An event has the name and fields it was fired with, starts (ends) a transaction iff it was told to, and belongs to the last transaction named, in whatever order the methods are chained. extract_event_info lists every event of the design that is not in an imported module, once, in the order of the text, and says whether it is inside an always_ff block. False in part: an event shared by two blocks (a cloned block shares its events with the original) is listed once and with the place it was added to last; the events of initial blocks, latches and functions are reported as combinational; a field is matched with the first value given, later ones are ignored.",
  "all sequences of method calls on an event, all trees of generators, blocks and statements, all ways of sharing events",
  "Depends on the order of chained calls, the nesting of statements and the sharing of objects.",
  "src/event.cc:Event::fire", "src/event.cc:extract_event_info", "src/event.cc:EventVisitor", "src/stmt.cc:EventTracingStmt", "src/ir.cc:IRVisitor::visit_root", "src/stmt.cc:Stmt::clone")
p("An enumeration declared from Python has the codes and the width of its definition",
  "enum(name, definition) and Generator.enum give an enumeration whose members are those of the definition: with a dictionary the codes in it, with a list of names 0, 1, 2, … in that order, with pairs the codes in them; if no width is given, it is the least that holds every code. False in part: in a list that mixes names and pairs, or repeats a name, two states can get the same code; an enumeration with the single state 0 is refused because the width computed is 0; if the floating point logarithm is rounded down the definition is refused.",
  "all definitions (lists, pairs, dictionaries), all widths, all enumerations declared before",
  "Depends on the values of all codes and their order in the definition.",
  "kratos/generator.py:enum", "kratos/generator.py:Generator.enum", "kratos/util.py:clog2", "kratos/util.py:max_value", "src/context.cc:Context::enum_", "src/generator.cc:Generator::enum_")
p("A failing assertion reports where it is written",
  "In debug mode, every assert_ and raise Exception(...) of a Python block comes out as one assertion, in order, which reports the file and line it is written on to the debugger when it fails and nothing when it holds; putting in the reports changes nothing else. False in part: an assert_ inside an if is not rewritten, so it reports a line of the temporary text compiled by the library (or nothing); and for asserted properties the word else is missing, so the report is made whenever the property holds and never when it fails.",
  "every body of a Python block (nested tests, any number of assertions), every starting line, every variable asserted; every list of statements with any positions, and every function table",
  "tests use one block with one assertion at the top; nesting, positions and the reading of the emitted text by SystemVerilog range over unboundedly many blocks",
  "kratos/pyast.py: AssertNodeVisitor, ExceptionNodeVisitor, Scope.assert_", "kratos/tb.py: assert_", "src/debug.cc: inject_assertion_fail", "src/codegen.cc: stmt_code(AssertBase*), stmt_code(AssertPropertyStmt*)")
p("Instantiating a child with keyword arguments sets and wires what was asked",
  "parent.add_child(name, child, key=value, ...) adds the instance, gives every parameter named the value given and leaves the others, and wires every port, bundle or interface named to its value (a string being the port or variable of the parent with that name), in the order of the keywords and nothing else; it is refused exactly if the name is taken, the library refuses the instance, a parameter refuses its value, a keyword names nothing, or a wire is refused. False in part: a refused call leaves the instance and the wires made so far; on a copy of a generator the keywords are forgotten, so the replay wires nothing; with python_only, or for a port with the name of a parameter, keywords are ignored; and a string cannot name a bundle or interface.",
  "every parent and child with any tables of names, every list of keywords, every behaviour of wiring and of setting parameters, and every state of the parent",
  "tests pass two or three keywords that all work; refusals in the middle, copies and name clashes range over all lists of keywords",
  "kratos/generator.py: Generator.add_child_generator, PortProxy, VarProxy, ParamProxy, Generator.initialize_clone")
p("Calling a method decorated with @function or @task",
  "Every accepted call of such a method is a call of the SystemVerilog function of that name in the generator, with each port connected to an argument of its width and sign and each argument connected once; the first call is accepted exactly if it has as many arguments as the method, the body can be translated for their types, and something is returned (unless it is a task); calls never change a function that exists. As long as generators have distinct names and keep them, and a name in a generator stands for one method with the same keywords, every accepted call connects its arguments by position and calls the translation of its method. False in general: two generators with the same name share one table of argument names, so arguments can be crossed; the keywords of later calls are ignored; after a generator is renamed its functions cannot be called again; and a refused first call leaves a function behind that can never be called.",
  "every history of calls, renamings, direct declarations and clear_context over any number of generators, every method, list of arguments and keywords, and every way of translating bodies",
  "tests call one or two functions in one generator; the shared table goes wrong only for particular histories of several generators",
  "kratos/func.py: FunctionCall.__call__, TaskCall, clear_context", "kratos/pyast.py: transform_function_block, declare_var_definition, extract_arg_name_order_from_ast, FuncScope, TaskScope", "src/expr.cc: FunctionCallVar::FunctionCallVar", "src/generator.cc: Generator::call, Generator::function")
p("Adding a block of code gives the block that its decorator asks for",
  "gen.add_always(fn, ...) is accepted exactly if the function gets its arguments, its decorator (or the keyword sensitivity) asks for a kind of block and for events that exist, the body can be translated and taken by the block, and the label is new; it then appends one block of that kind, waiting for exactly those events without repetitions, with the statements of the body in order, the comment, an attribute for every other true keyword, and the label. A refused call leaves the labels alone. False in part: a refused call can leave a block behind (empty, if a name in the list is unknown); a function without decorator is always refused although the interface only warns; a decorator written with its module is refused; and the events are read from the text of the decorator where the block is added, so a name bound to another signal meanwhile changes them.",
  "every function, decorator text, keyword list, local environment, table of variables, translation of bodies and refusal of statements",
  "tests use always_ff with one or two signals in the same frame; the text is evaluated again in another frame, over all environments and spellings",
  "kratos/generator.py: Generator.add_always, CodeBlock, SequentialCodeBlock, Generator.mark_stmt, always_ff", "kratos/pyast.py: extract_sensitivity_from_dec, transform_stmt_block, AlwaysWrapper", "src/stmt.cc: SequentialStmtBlock::add_condition")
p("Removing a statement takes exactly that statement out of the design",
"stmt.remove_from_parent(), remove_stmt_from_parent(stmt) and container.remove_stmt(stmt) take the statement out of the list of statements that has it (a generator, a block, a branch of an if, a case of a switch), keep the others in their order and change nothing else; and removing in a batch, as passes do while they walk a generator, ends with the same statements as removing at once. False in part: a statement directly inside a loop that has been added stays there (and the second function throws); a statement that was added to two blocks stays in the first; one that is twice in a generator stays once when removed at once and goes altogether in a batch; and one that is removed and added again during a batch is lost. Whatever is added and removed during a batch, the result is the old and new statements in order without those removed at any time, the batch is empty afterwards and removal is immediate again.",
"every history of building calls that adds only detached statements, every statement and container; every list of statements of a generator and every sequence of additions and removals during a batch",
"Tests remove one statement from one fresh block; whether parent pointers and lists agree depends on the whole history.",
"src/stmt.cc:Stmt::remove_from_parent", "src/util.cc:remove_stmt_from_parent", "src/stmt.cc:IfStmt::remove_stmt", "src/stmt.cc:SwitchStmt::remove_stmt", "src/generator.cc:Generator::clear_remove_stmt_cache", "src/transform.cc:GeneratorStmtCacheVisitor")
p("Cycling and resetting the simulator from Python advance a synchronous design",
"Simulator(gen) remembers the clock port if there is exactly one and the asynchronous reset port if there is exactly one; otherwise cycle() and reset() raise. With the clock low and the design settled, cycle(n) makes n clock cycles: in each the block clocked by it is executed once with the values before the edge, all its registers change at the same moment, inputs and all other registers keep their values, and at the end the combinational logic has settled and the clock is low again. With the reset inactive, reset(reset_high) executes the block once with the reset active. The outcome does not depend on the order in which processes are evaluated if the combinational logic has no loops.",
"every design whose clock (reset) drives one register block and is not computed by the design, every reachable settled state, every number of cycles, both polarities, every evaluation order",
"tests cycle fixed designs from a fresh simulator; a claim about every settled state finds the lost cycle when the clock was left high",
"kratos/sim.py: Simulator", "src/sim.cc: Simulator::set, Simulator::eval, process_stmt(SequentialStmtBlock)")
p("The driver table names the variables that drive each variable",
"find_driver_signal(top) returns a table from variables to the variables that drive them. Every variable is told once, with each driver once; every driver told for v is a variable that one of the assignments to v reads; and every variable read by an assignment to v is told for v.",
"every design, every order of the assignments of a variable",
"the test looks at one design of concatenations (and its expected count already omits a variable read only through slices); which shapes of expression hide a driver is a question about every expression",
"src/debug.cc: find_driver_signal, VarSourceVisitor", "src/ir.cc: IRVisitor::visit_root", "src/expr.cc: Var::get_child")
p("The debug database shows the Python attributes of each generator",
"dump_debug_database(gen, file) walks all generators still in the hierarchy, each once, and for every generator in debug mode lists exactly its Python attributes: a variable as self.<name> with its RTL name - all elements of an array, all fields of a struct - marked as a signal, and a bool, int or string with its value, marked as not a signal. A statement's place is its first one in a Python file.",
"every tree of generators, every set of attributes and variables, every list of source places",
"tests dump one generator with well-chosen names; which attributes are mistaken for others is a question about every set of attributes",
"kratos/debug.py: extract_symbol_table, dump_debug_database", "src/debug.cc: set_break_points, set_variable_mapping, create_variables, save_database", "src/util.cc: fs::get_ext")
p("A switch built from Python runs the statements given for each value",
"switch_(target) followed by calls of case_(cond, *stmts) gives a case statement that runs, for every value of the target, exactly the statements given for this value, in the order they were given, and has the statements given for the default as its default. A call is accepted exactly when its condition is a number of the target's width and sign, or None, it has at least one statement, and none is in this case already; a call that raises changes nothing; a switch whose calls were accepted can be printed.",
"every width up to 63 bits and sign of the target, every sequence of calls with any integers, statements, blocks and wrong arguments, every value of the target",
"tests build a few cases with small positive numbers; signs, repeated conditions, blocks and refused arguments can be combined in any order",
"kratos/stmts.py: SwitchStmt.case_, switch_", "src/stmt.cc: SwitchStmt::add_switch_case, StmtBlock::add_stmt", "kratos/util.py: const", "src/codegen.cc: stmt_code(SwitchStmt*)")
p("Reducing or concatenating several signals from Python takes all of them in order",
"reduce_or, reduce_and, reduce_add and reduce_mul of one or more objects of one width give an object of this width, signed exactly when all of them are, whose value is the bitwise or, the bitwise and, the sum or the product, modulo two to the width, of all their values. concat of two or more objects of one sign gives one concatenation of all of them in their order, as wide as all together and of their sign; it refuses objects of different signs. One object is its own result, no object is refused, and no object that exists changes. A list can be handed over instead of its elements.",
"every heap of variables and expressions built by the API, every non-empty list of objects of every width and sign, with repetitions, and every value of the objects",
"tests reduce three or four fixed signals; the result is a chain of expressions of any length over any expressions, and its value ranges over all values of the signals",
"kratos/util.py: reduce_or, reduce_and, reduce_add, reduce_mul, concat", "src/expr.cc: Expr::Expr, Var::concat, VarConcat::concat")
for x in P: print(json.dumps(x))
