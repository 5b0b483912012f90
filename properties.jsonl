{"id": "C01", "title": "CNF conversion keeps the truth value", "statement": "symbolic::conjunctive_normal_form(c) either throws CNFException or returns clauses whose conjunction of disjunctions is true in exactly the symbol valuations in which c is true.", "quantifier": "every condition built from comparisons, And, Or, Not; every integer valuation of its symbols", "why_tests_cant": "conditions are unbounded trees and valuations are infinite", "anchors": ["sdfg/src/symbolic/conjunctive_normal_form.cpp: conjunctive_normal_form, distribute_or"]}
{"id": "C02", "title": "minimum/maximum are sound bounds", "statement": "For an expression e and a valuation that satisfies the declared lower/upper bounds of all symbols, minimum(e) <= value(e) <= maximum(e) whenever the calls return a (finite) result; the same for minimum_new/maximum_new.", "quantifier": "every expression, every set of assumptions, every parameter set, every valuation meeting the assumptions", "why_tests_cant": "bounds feed dependence tests and must hold for all valuations, not sampled ones", "anchors": ["sdfg/src/symbolic/extreme_values.cpp: minimum, maximum, minimum_new, maximum_new"]}
{"id": "C03", "title": "is_monotonic / is_contiguous classify loop updates correctly", "statement": "If series::is_contiguous(update,i) answers true the update adds exactly 1 to i; if series::is_monotonic(update,i) answers true the update moves i strictly upwards for every reachable i.", "quantifier": "every update expression, symbol, assumption set and valuation", "why_tests_cant": "the answer gates tiling, normalization and parallelization for all runtime values", "anchors": ["sdfg/src/symbolic/series.cpp: is_contiguous, is_monotonic, affine_int_coeffs"]}
{"id": "C04", "title": "maps::intersects never hides a collision", "statement": "If maps::intersects(e1,e2,i) returns false then no two different values of i make both subscripts address the same element.", "quantifier": "every pair of subscripts, every valuation and every two distinct iterations", "why_tests_cant": "a single missed collision is a data race; the space of subscripts is infinite", "anchors": ["sdfg/src/symbolic/maps.cpp: intersects, is_disjoint_monotonic, is_monotonic"]}
{"id": "C05", "title": "delinearize separates dimensions faithfully", "statement": "When delinearize splits a linear subscript into several dimensions, two accesses have the same linear address only if they agree in every dimension.", "quantifier": "every subscript expression, assumption set and pair of valuations within the assumed bounds", "why_tests_cant": "injectivity quantifies over all index pairs", "anchors": ["sdfg/src/symbolic/utils.cpp: delinearize"]}
{"id": "C06", "title": "polynomial_div returns quotient and remainder", "statement": "polynomial_div(offset, stride) = (q, r) satisfies offset = q*stride + r as polynomials, for every offset and stride.", "quantifier": "all polynomials in any number of symbols", "why_tests_cant": "polynomials are unbounded in degree and number of terms", "anchors": ["sdfg/src/symbolic/polynomials.cpp: polynomial_div, get_leading_term"]}
{"id": "C07", "title": "symbolic::simplify keeps the value", "statement": "The expression returned by symbolic::simplify has the same value as its argument in every valuation.", "quantifier": "every expression and valuation", "why_tests_cant": "rewriting must be right at all operand values incl. negative ones", "anchors": ["sdfg/src/symbolic/symbolic.cpp: simplify"]}
{"id": "C08", "title": "divide_ceil covers every element", "statement": "divide_ceil(n, d) evaluates to the smallest k with k*d >= n for n >= 0 and d > 0 (tile and grid counts), both in the constant and the symbolic code path.", "quantifier": "all n >= 0, d > 0", "why_tests_cant": "off-by-one shows only at particular residues", "anchors": ["sdfg/src/symbolic/symbolic.cpp: divide_ceil, div"]}
{"id": "C09", "title": "substitution and symbol use are semantic", "statement": "symbolic::subs(e, x, r) evaluates like e with x bound to the value of r, and an expression for which uses(e, x) is false does not change value when x changes.", "quantifier": "every expression, symbol, replacement, valuation", "why_tests_cant": "structural induction over unbounded trees", "anchors": ["sdfg/src/symbolic/symbolic.cpp: subs, uses, atoms"]}
{"id": "C10", "title": "affine coefficients reconstruct the expression", "statement": "affine_coefficients of the polynomial of e in the given symbols returns coefficients with e = sum coeff_s * s + constant, or {} if e is not affine; affine_inverse inverts exact affine maps.", "quantifier": "every polynomial and every order in which the caller lists the symbols", "why_tests_cant": "the association of exponents to symbols depends on orderings a test fixes once", "anchors": ["sdfg/src/symbolic/polynomials.cpp: affine_coefficients, affine_inverse"]}
{"id": "C11", "title": "canonical_bound describes the loop condition", "statement": "If LoopAnalysis::canonical_bound returns b, the loop condition holds exactly when indvar < b.", "quantifier": "every loop condition that is accepted and every valuation", "why_tests_cant": "conditions are unbounded conjunctions", "anchors": ["sdfg/src/analysis/loop_analysis.cpp: canonical_bound, stride"]}
{"id": "C12", "title": "type assumptions cover every value of the type", "statement": "Assumption::create(sym, type) yields bounds that every value representable in that scalar type satisfies.", "quantifier": "all primitive types and all their values", "why_tests_cant": "value ranges up to 2^128", "anchors": ["sdfg/src/symbolic/assumptions.cpp: Assumption::create"]}
{"id": "C13", "title": "SequenceFusion keeps program meaning", "statement": "Running SequenceFusion on any structured SDFG leaves the final memory and control outcome of every execution unchanged.", "quantifier": "every structured SDFG and initial state", "why_tests_cant": "programs are unbounded trees with loops", "anchors": ["sdfg/src/passes/structured_control_flow/sequence_fusion.cpp", "sdfg/src/builder/structured_sdfg_builder.cpp: move_children, remove_child"]}
{"id": "C14", "title": "DeadCFGElimination removes only dead control flow", "statement": "DeadCFGElimination leaves every terminating execution's final memory unchanged.", "quantifier": "every structured SDFG and initial state", "why_tests_cant": "needs induction over program structure and execution length", "anchors": ["sdfg/src/passes/structured_control_flow/dead_cfg_elimination.cpp"]}
{"id": "C15", "title": "ConditionElimination keeps program meaning", "statement": "Replacing `if (c) { loop }` by `loop` preserves every execution (up to the loop variable).", "quantifier": "every guarded loop and state", "why_tests_cant": "loops of any trip count", "anchors": ["sdfg/src/passes/structured_control_flow/condition_elimination.cpp"]}
{"id": "C16", "title": "CommonAssignmentElimination keeps program meaning", "statement": "Hoisting an assignment that ends all branches behind the if-else leaves every execution's final memory unchanged.", "quantifier": "every if-else and state", "why_tests_cant": "all branch outcomes and right-hand sides", "anchors": ["sdfg/src/passes/structured_control_flow/common_assignment_elimination.cpp"]}
{"id": "C17", "title": "LoopNormalization keeps the executed iterations", "statement": "LoopNormalization (condition to CNF, != to <, shift to zero, reversal) executes the loop body for the same sequence of original index values.", "quantifier": "every for-loop with affine update, every start state", "why_tests_cant": "iteration counts are unbounded", "anchors": ["sdfg/src/passes/structured_control_flow/loop_normalization.cpp"]}
{"id": "C18", "title": "WhileToForConversion keeps program meaning", "statement": "Converting a do-while shaped While into a For preserves every execution.", "quantifier": "every accepted while loop and state", "why_tests_cant": "any number of iterations", "anchors": ["sdfg/src/passes/structured_control_flow/while_to_for_conversion.cpp"]}
{"id": "C19", "title": "LoopTiling visits the same iterations in the same order", "statement": "After LoopTiling with any tile size accepted by can_be_applied the body is executed for the same index values in the same order.", "quantifier": "all tile sizes, bounds, initial values and bodies", "why_tests_cant": "boundary tiles depend on residues of symbolic bounds", "anchors": ["sdfg/src/transformations/loop_tiling.cpp"]}
{"id": "C20", "title": "LoopInterchange keeps program meaning", "statement": "If LoopInterchange::can_be_applied accepts a nest, exchanging the loops preserves the final memory.", "quantifier": "all accepted nests and states", "why_tests_cant": "legality is about all pairs of iterations", "anchors": ["sdfg/src/transformations/loop_interchange.cpp"]}
{"id": "C21", "title": "LoopSkewing keeps the executed iterations", "statement": "If LoopSkewing::can_be_applied accepts a nest, the skewed nest runs the body for the same (i,j) pairs in the same order.", "quantifier": "all skew factors, bounds, updates", "why_tests_cant": "all index pairs", "anchors": ["sdfg/src/transformations/loop_skewing.cpp"]}
{"id": "C22", "title": "LoopDistribute keeps program meaning", "statement": "Splitting the first child of a loop body into its own preceding loop preserves the final memory when can_be_applied accepts.", "quantifier": "all accepted loops and states", "why_tests_cant": "reorders unboundedly many body instances", "anchors": ["sdfg/src/transformations/loop_distribute.cpp"]}
{"id": "C23", "title": "A loop turned into a Map is order independent", "statement": "If For2Map converts a loop, executing its iterations in any order gives the same memory as the sequential loop.", "quantifier": "all permutations of iterations, all states", "why_tests_cant": "schedules are factorially many", "anchors": ["sdfg/src/passes/structured_control_flow/for2map.cpp", "sdfg/src/analysis/data_dependency_analysis.cpp"]}
{"id": "C24", "title": "Generated transition code means simultaneous assignment", "statement": "The code emitted for a transition (one C assignment per entry, in hash-map order) has an effect independent of that order.", "quantifier": "every assignment map and every enumeration order", "why_tests_cant": "hash order differs between runs and library versions", "anchors": ["sdfg/src/codegen/dispatchers/sequence_dispatcher.cpp", "sdfg/src/structured_control_flow/sequence.cpp: Transition::validate"]}
{"id": "C25", "title": "Row-major strides address a tensor bijectively", "statement": "For a tensor built from a shape, the address offset + sum idx*stride is a bijection between in-range index tuples and 0..total_elements-1.", "quantifier": "every rank and shape", "why_tests_cant": "all index tuples of all shapes", "anchors": ["sdfg/src/types/tensor.cpp: strides_from_shape, total_elements"]}
{"id": "C26", "title": "Tensor views address the right elements", "statement": "newaxis/unsqueeze/squeeze/flip return layouts that address, at each view index, exactly the element numpy semantics prescribes; flip twice restores the layout.", "quantifier": "every layout, axis and index", "why_tests_cant": "all index tuples and layouts", "anchors": ["sdfg/src/types/tensor.cpp: newaxis, squeeze, flip, unsqueeze"]}
{"id": "C27", "title": "reshape keeps the element order", "statement": "Tensor::reshape returns a layout whose k-th element in row-major order is the k-th element of the original tensor.", "quantifier": "every layout accepted by reshape and every new shape with equal size", "why_tests_cant": "non-contiguous layouts are easily forgotten", "anchors": ["sdfg/src/types/tensor.cpp: reshape"]}
{"id": "C28", "title": "primitive type tables are consistent", "statement": "primitive_type_from_string inverts primitive_type_to_string, unknown names are rejected, signed/unsigned conversions keep bit width, and sizeof is ceil(bits/8).", "quantifier": "all primitive types and all strings", "why_tests_cant": "all strings are rejected except the names", "anchors": ["sdfg/include/sdfg/types/type.h"]}
{"id": "C29", "title": "infer_type is compositional", "statement": "Indexing a type by s1++s2 gives the type obtained by indexing by s1 and then by s2 and fails exactly when one of them fails; only an outermost pointer is followed (by the first index), so a pointer reached in between makes the longer subset fail. recombine_array_type replaces the element below a given number of array levels and keeps those levels.", "quantifier": "all types and subsets", "why_tests_cant": "types nest arbitrarily deep", "anchors": ["sdfg/src/types/utils.cpp: infer_type, infer_type_internal"]}
{"id": "C30", "title": "base64 round trip", "statement": "base64_decode(base64_encode(b)) = b for every byte string b whose encoding has fewer than 2^31 characters (the range of the implementation's int counters).", "quantifier": "all byte strings of any length", "why_tests_cant": "infinitely many inputs; tail lengths and byte values interact", "anchors": ["arg-capture-io/src/base64.cpp"]}
{"id": "C31", "title": "base64 output is well formed", "statement": "base64_encode yields 4*ceil(n/3) characters of the standard alphabet with exactly (3 - n mod 3) mod 3 trailing '='.", "quantifier": "all byte strings", "why_tests_cant": "all lengths", "anchors": ["arg-capture-io/src/base64.cpp"]}
{"id": "C32", "title": "capture invocation counting and strategy", "statement": "The k-th enter of a region has invocation number k-1 (modulo 2^32) regardless of other regions; strategy 'once' asks for capture exactly at the first of fewer than 2^32 entries of each region, 'all' always, 'never' never.", "quantifier": "every interleaving of enter/capture/exit calls over all regions", "why_tests_cant": "arbitrary call histories", "anchors": ["rtl/src/capture.cpp", "arg-capture-io/src/arg_capture_io.cpp: invocation"]}
{"id": "C33", "title": "small captures stay inline in the index", "statement": "After capture_raw of a value of at most 32 bytes, the capture recorded for that argument carries the bytes inline; larger values carry a file reference with exactly the captured bytes; the latest capture of an argument wins.", "quantifier": "every sequence of capture calls", "why_tests_cant": "histories with repeated arguments", "anchors": ["rtl/src/capture.cpp: capture_raw", "arg-capture-io/src/arg_capture_io.cpp: create_and_capture_inline, create_and_capture_to_file"]}
{"id": "C34", "title": "capture index round trip", "statement": "write_index followed by from_index restores every capture (argument, direction, type, dims, data or file).", "quantifier": "every set of captures", "why_tests_cant": "all maps of captures", "anchors": ["arg-capture-io/src/arg_capture_io.cpp: serialize_into, parse_from, write_index", "arg-capture-io/include/daisy_rtl/arg_capture_io.h: from_index"]}
{"id": "C35", "title": "all_simple_paths is sound and complete", "statement": "graph::all_simple_paths(src,dst) lists exactly the edge paths from src to dst that do not revisit a vertex.", "quantifier": "every finite directed multigraph and pair of vertices", "why_tests_cant": "all graphs, incl. cyclic and with parallel edges", "anchors": ["sdfg/src/graph/graph.cpp: all_simple_paths, all_simple_paths_dfs"]}
{"id": "C36", "title": "element ids stay unique", "statement": "In an SDFG built by any sequence of StructuredSDFGBuilder calls no two elements have the same element id.", "quantifier": "every sequence of builder calls", "why_tests_cant": "arbitrary histories of insertions, conversions, moves", "anchors": ["sdfg/src/builder/structured_sdfg_builder.cpp", "sdfg/src/builder/function_builder.cpp: new_element_id", "sdfg/src/structured_control_flow/structured_loop.cpp"]}
{"id": "C37", "title": "sequences keep child/transition pairing", "statement": "After any sequence of builder add/remove/move calls each Sequence has as many transitions as children and each moved child keeps its own transition; moves lose and duplicate nothing.", "quantifier": "every sequence of builder calls", "why_tests_cant": "arbitrary histories", "anchors": ["sdfg/src/builder/structured_sdfg_builder.cpp: move_child, move_children, remove_child, add_*"]}
{"id": "C38", "title": "find_new_name is fresh", "statement": "FunctionBuilder::find_new_name returns a name not used by any container, for every prefix and every set of existing names.", "quantifier": "all name sets", "why_tests_cant": "adversarial existing names", "anchors": ["sdfg/src/builder/function_builder.cpp: find_new_name"]}
{"id": "C39", "title": "DebugInfo::merge covers both ranges", "statement": "Merging two debug ranges of the same file yields a range starting no later and ending no earlier than both, independent of argument order.", "quantifier": "all ranges", "why_tests_cant": "line/column ties", "anchors": ["sdfg/src/element.cpp: DebugInfo::merge"]}
{"id": "C40", "title": "JSON serialization round trip", "statement": "serialize() writes every structured SDFG, and deserialize() of the document restores an SDFG with the same name, counter, type, return type, structures, containers, arguments, externals and their linkage, metadata, assumptions and element tree (ids, debug ranges, graphs, expressions, schedules).", "quantifier": "every structured SDFG the builder can produce", "why_tests_cant": "SDFGs are unbounded trees with unbounded tables and expressions", "anchors": ["sdfg/src/serializer/json_serializer.cpp: JSONSerializer::serialize, deserialize, LibraryNodeSerializerRegistry", "sdfg/src/data_flow/library_nodes: *Serializer", "sdfg/src/builder/function_builder.cpp: add_container, add_external, add_structure"]}
{"id": "C41", "title": "captures of an open region are not lost", "statement": "A capture recorded for a region stays recorded (with its bytes) until that region is entered again or the same argument is captured again, also when other regions are entered in between.", "quantifier": "every history of enter/capture/exit calls", "why_tests_cant": "nesting patterns are unbounded", "anchors": ["rtl/src/capture.cpp: enter, exit", "arg-capture-io/src/arg_capture_io.cpp: clear"]}
{"id": "C42", "title": "capture files do not collide", "statement": "Captures that differ in target, region, invocation, argument or direction are written to different files.", "quantifier": "all names, region ids, invocation numbers, arguments", "why_tests_cant": "string collisions depend on arbitrary names and digits", "anchors": ["rtl/src/capture.cpp: generate_arg_capture_output_filename"]}
{"id": "C43", "title": "type equality and clone", "statement": "Type comparison is an equivalence relation that ignores exactly storage, alignment (except of references) and initializers; clone() returns a type with the same structure and attributes at every level.", "quantifier": "all types, nested to any depth", "why_tests_cant": "types are unbounded trees", "anchors": ["sdfg/src/types/scalar.cpp, array.cpp, structure.cpp, pointer.cpp, function.cpp, tensor.cpp: operator==, clone", "sdfg/src/codegen/utils.cpp: Reference"]}
{"id": "C44", "title": "get_type_size is the byte size", "statement": "get_type_size(t) returns an expression that evaluates to the number of bytes of a value of t, for all values of symbolic extents; without compile-time evaluation it answers only when the size needs no structure layout, and answers the same.", "quantifier": "all types nested to any depth, all valuations of extents", "why_tests_cant": "extents and nesting are unbounded", "anchors": ["sdfg/src/types/utils.cpp: get_type_size"]}
{"id": "C45", "title": "peel_to_innermost_element follows the requested pointers", "statement": "With follow_ptr = -1 the result contains no array, reference or typed pointer level; by default only an outermost pointer is followed.", "quantifier": "all types nested to any depth", "why_tests_cant": "nesting depth is unbounded", "anchors": ["sdfg/src/types/utils.cpp: peel_to_innermost_element"]}
{"id": "C46", "title": "types declared contiguous hold no pointers", "statement": "If is_contiguous_type accepts a type, the (peeled) element contains no pointer, not even inside nested structures and arrays; such values can be captured as raw bytes.", "quantifier": "all types and structure tables", "why_tests_cant": "structure nesting is unbounded", "anchors": ["sdfg/src/types/utils.cpp: is_contiguous_type", "sdfg/src/codegen/instrumentation/arg_capture_plan.cpp: analyze_arguments"]}
{"id": "C47", "title": "symbolic div and mod are C division", "statement": "symbolic::div(l,r) and symbolic::mod(l,r) evaluate to the truncating quotient and the C remainder of the operand values whenever the divisor is not zero, whatever shortcut (divisor 1, dividend 0, constants) is taken.", "quantifier": "all operand expressions and valuations", "why_tests_cant": "all operand signs and shapes", "anchors": ["sdfg/src/symbolic/symbolic.cpp: div, mod"]}
{"id": "C48", "title": "the users analysis misses no access", "statement": "Every container an executed node, loop header, condition or transition reads or writes is recorded as a read/write user of it; a container without recorded writes keeps its content, a container without recorded reads does not influence anything else.", "quantifier": "all structured SDFGs and all their executions", "why_tests_cant": "programs and executions are unbounded", "anchors": ["sdfg/src/analysis/users.cpp: Users::traverse"]}
{"id": "C49", "title": "a complete if-else always takes a case", "statement": "If IfElse::is_complete() answers true, in every state at least one case condition holds.", "quantifier": "all if-else nodes, all states", "why_tests_cant": "conditions range over all symbol values", "anchors": ["sdfg/src/structured_control_flow/if_else.cpp: is_complete"]}
{"id": "C50", "title": "the reported stride is the step of the loop", "statement": "If LoopAnalysis::stride returns an integer n, the loop update adds exactly n to the loop variable in every state.", "quantifier": "all loops and states", "why_tests_cant": "values are unbounded", "anchors": ["sdfg/src/analysis/loop_analysis.cpp: stride"]}
{"id": "C51", "title": "replace is substitution", "statement": "replace(x, r) on any control flow node renames x everywhere when r is an unused symbol, and otherwise gives a node that behaves like the original with x bound to the value of r.", "quantifier": "all nodes, symbols, expressions, states and executions", "why_tests_cant": "programs and executions are unbounded", "anchors": ["sdfg/src/structured_control_flow/sequence.cpp, structured_loop.cpp, if_else.cpp, return.cpp: replace", "sdfg/src/data_flow/access_node.cpp, memlet.cpp, data_flow_graph.cpp: replace"]}
{"id": "C52", "title": "update_schedule_type sets the schedule", "statement": "After update_schedule_type(map, s) the schedule type of the map is s: same value, same properties, same category.", "quantifier": "all maps and schedules", "why_tests_cant": "schedules carry arbitrary property maps", "anchors": ["sdfg/include/sdfg/structured_control_flow/map.h: ScheduleType::operator=, set_property", "sdfg/src/builder/structured_sdfg_builder.cpp: update_schedule_type"]}
{"id": "C53", "title": "schedulers only see compatible nests", "statement": "A loop scheduler is only offered loop nests in which every map already has a schedule of a category the scheduler declares compatible; nests that are compatible are all offered.", "quantifier": "all lists of outermost loop nests, all compatibility sets", "why_tests_cant": "number and order of nests are unbounded", "anchors": ["opt/src/passes/scheduler/loop_scheduling_pass.cpp: run_pass", "sdfg/src/analysis/loop_analysis.cpp: descendants"]}
{"id": "C54", "title": "container table stays consistent", "statement": "After any sequence of add_container, add_external, remove_container, rename_container and change_type calls, every argument and external is an existing container, is listed once, is not both, and exactly the externals have a linkage type; add and rename affect only the named containers.", "quantifier": "all histories of container calls", "why_tests_cant": "histories are unbounded", "anchors": ["sdfg/src/builder/function_builder.cpp: add_container, add_external, remove_container, rename_container, change_type", "sdfg/src/function.cpp: is_argument, is_external, is_transient, linkage_type"]}
{"id": "C55", "title": "a failed container call changes nothing", "statement": "A container call that throws leaves containers, arguments, externals, linkage and assumptions as they were.", "quantifier": "all states, all calls", "why_tests_cant": "every failing call from every state", "anchors": ["sdfg/src/builder/function_builder.cpp: add_container, rename_container", "sdfg/src/symbolic/symbolic.cpp: symbol"]}
{"id": "C56", "title": "assumptions follow from container types", "statement": "The assumption the function reports for a container holds for every value of the container's type.", "quantifier": "all histories of container calls, all values", "why_tests_cant": "values and histories are unbounded", "anchors": ["sdfg/src/symbolic/assumptions.cpp: Assumption::create", "sdfg/src/builder/function_builder.cpp: add_container, remove_container, rename_container, change_type"]}
{"id": "C57", "title": "loop-carried dependencies are complete", "statement": "If two iterations of a loop touch the same location and the earlier one writes it, the loop-carried dependencies the data-dependency analysis reports for the loop contain an entry for that container.", "quantifier": "all loops, all pairs of iterations, all states", "why_tests_cant": "iterations and states are unbounded", "anchors": ["sdfg/src/analysis/data_dependency_analysis.cpp: visit_for, dependencies, visit_sequence, loop_carried_depends"]}
{"id": "C58", "title": "the loop tree is the nesting of the loops", "statement": "loops() lists every loop exactly once and a loop is followed at once by all loops inside it; children(l), descendants(l), parent_loop(l), outermost_loops(), outermost_maps(), is_outermost_loop(l) and loop_tree_paths(l) are exactly the directly nested loops, all nested loops, the directly enclosing loop, the loops in no loop, the Maps in no Map, and the chains down to innermost loops.", "quantifier": "all functions, any number and nesting of loops, sequences and conditionals", "why_tests_cant": "programs are unbounded trees and the work lists reorder them", "anchors": ["sdfg/src/analysis/loop_analysis.cpp: run, children, descendants, outermost_loops, outermost_maps, is_outermost_loop, loop_tree_paths"]}
{"id": "C59", "title": "loop nest summaries are correct", "statement": "loop_info of each outermost loop reports the number of loops, Maps, Fors and Whiles of the nest, its depth, whether it is perfectly nested, all parallel, elementwise, and whether it contains a side effect; the nests are numbered in program order.", "quantifier": "all functions, any number and nesting of loops", "why_tests_cant": "programs are unbounded trees", "anchors": ["sdfg/src/analysis/loop_analysis.cpp: run, loop_info", "sdfg/include/sdfg/analysis/loop_analysis.h: LoopInfo"]}
{"id": "C60", "title": "topological_sort is an execution order", "statement": "On an acyclic data flow graph topological_sort() never throws and lists every node exactly once, with the source of every memlet before its destination (this is the order in which the block is emitted).", "quantifier": "all data flow graphs: any number of access nodes, tasklets, library nodes and memlets", "why_tests_cant": "graphs are unbounded", "anchors": ["sdfg/src/data_flow/data_flow_graph.cpp: topological_sort", "sdfg/src/codegen/dispatchers/block_dispatcher.cpp: dispatch"]}
{"id": "C61", "title": "the code emitted for a tasklet computes its operation", "statement": "For every tasklet operation and all operand bit patterns the emitted C/C++/CUDA block is defined and stores the value of the operation: integer operations wrap and interpret the bits as signed or unsigned as the operation says, casts extend or truncate, ordered comparisons are false on NaN.", "quantifier": "all 52 operations, all integer types of operands and results, all operand values, all floating point formats", "why_tests_cant": "operand values are unbounded in number and C conversion rules depend on every type", "anchors": ["sdfg/src/codegen/language_extensions/c_language_extension.cpp: tasklet, primitive_type", "sdfg/src/codegen/dispatchers/block_dispatcher.cpp: dispatch_tasklet", "sdfg/include/sdfg/data_flow/tasklet.h: TaskletCode, is_unsigned"]}
{"id": "C62", "title": "promotion of tasklets to symbolic assignments keeps the block's effect", "statement": "If SymbolPromotion accepts a block, replacing the tasklet by the symbolic assignment on a new transition in front of the block leaves the final contents of all containers unchanged, whenever the emitted tasklet is defined; and the pass never fails on a block it accepts.", "quantifier": "all blocks with one tasklet (operation, operand and result types, memlet types and subsets, constants), all other nodes of the block, all memory contents", "why_tests_cant": "operand values, types and the rest of the block are unbounded", "anchors": ["sdfg/src/passes/symbolic/symbol_promotion.cpp: can_be_applied, is_safe_constant_assign, apply, as_symbol", "sdfg/src/data_flow/tasklet.cpp: is_zext, is_trunc", "sdfg/src/symbolic/symbolic.cpp: div, mod, zext_i64, trunc_i32"]}
{"id": "C63", "title": "symbol evolution keeps the program's results", "statement": "Replacing a symbol that a loop updates once per iteration by a closed form in the loop variable (SymbolEvolution) leaves every value the program computes unchanged, inside the loop and behind it, and the pass never crashes.", "quantifier": "all loops, symbols, updates, initial expressions, states and numbers of iterations", "why_tests_cant": "iteration counts and states are unbounded", "anchors": ["sdfg/src/passes/symbolic/symbol_evolution.cpp: scalar_evolution, eliminate_symbols", "sdfg/src/symbolic/polynomials.cpp: polynomial, affine_coefficients", "sdfg/src/analysis/loop_analysis.cpp: stride"]}
{"id": "C64", "title": "dead data elimination keeps the program's results", "statement": "Removing the definitions that the data-dependency analysis reports as unread (DeadDataElimination) leaves every other container, the control flow and the returned value unchanged, and a container that is removed from the function is not written any more.", "quantifier": "all programs, all dead definitions, all states, all executions incl. non-terminating loops left by break or return", "why_tests_cant": "programs and executions are unbounded", "anchors": ["sdfg/src/passes/dataflow/dead_data_elimination.cpp: run_pass", "sdfg/src/analysis/data_dependency_analysis.cpp: definitions, visit_block, visit_for, visit_if_else, visit_while, visit_return, visit_sequence", "sdfg/src/builder/structured_sdfg_builder.cpp: clear_node"]}
{"id": "C65", "title": "the C text of a symbolic expression has its value", "statement": "The C text emitted for a symbolic expression (loop bounds, subsets, assignments) or condition is read by C with the operators nested as in the expression, is defined, and evaluates to the value of the expression; conditions are true in C exactly if they hold.", "quantifier": "all symbolic expressions and conditions of any size, all variable types, all values", "why_tests_cant": "expressions and values are unbounded and C conversion rules depend on every type", "anchors": ["sdfg/src/codegen/language_extensions/c_language_extension.cpp: CSymbolicPrinter, expression", "rtl/include/daisy_rtl/daisy_rtl.h: __daisy_min, __daisy_max, __daisy_sym_pow"]}
{"id": "C66", "title": "expansion of elementwise, transpose and broadcast nodes computes the tensor", "statement": "Expanding an elementwise tensor node, a fill, a TransposeNode or a BroadcastNode into loops yields code that stores exactly the elements the node denotes (op of the inputs' elements at the same index; the element at the permuted index; the element with index 0 in stretched dimensions), for every layout of the operands, and changes nothing else.", "quantifier": "all shapes (any rank, symbolic extents), strides, offsets, permutations, operands and memory contents", "why_tests_cant": "ranks, extents and layouts are unbounded", "anchors": ["sdfg/src/data_flow/library_nodes/math/tensor/elementwise_node.cpp: expand", "sdfg/src/data_flow/library_nodes/math/tensor/transpose_node.cpp: expand, validate", "sdfg/src/data_flow/library_nodes/math/tensor/broadcast_node.cpp: expand", "sdfg/src/passes/dataflow/tensor_to_pointer_conversion.cpp"]}
{"id": "C67", "title": "expansion of reductions computes the reduction", "statement": "Expanding a reduction over axes (Sum, Max, Min, Mean) yields code in which every output element is the reduction of exactly the input elements with the same kept coordinates (for Mean: their sum divided by their number), for negative axes and with or without kept dimensions, and nothing else changes; axes out of bounds are rejected.", "quantifier": "all shapes (any rank, symbolic extents), axes, layouts and memory contents", "why_tests_cant": "ranks, extents, axes and layouts are unbounded", "anchors": ["sdfg/src/data_flow/library_nodes/math/tensor/reduce_node.cpp: expand, validate", "sdfg/src/data_flow/library_nodes/math/tensor/reduce_ops/sum_node.cpp: expand_reduction", "sdfg/src/data_flow/library_nodes/math/tensor/reduce_ops/max_node.cpp: expand_reduction", "sdfg/src/data_flow/library_nodes/math/tensor/reduce_ops/mean_node.cpp: expand"]}
{"id": "C68", "title": "expansion of GEMM and MatMul multiplies the matrices", "statement": "Expanding a GEMM node yields code that stores alpha * sum_k A[i][k] * B[k][j] + beta * C[i][j] in every element of C, for the declared element order and leading dimensions; expanding a MatMul node yields code (through a GEMM) that stores the matrix product of every batch, for every layout of the inputs and of the output; nothing else changes.", "quantifier": "all extents, leading dimensions, strides, offsets, batch dimensions, factors and memory contents", "why_tests_cant": "extents, ranks and layouts are unbounded", "anchors": ["sdfg/src/data_flow/library_nodes/math/blas/gemm_node.cpp: expand", "sdfg/src/data_flow/library_nodes/math/tensor/matmul_node.cpp: copy_if_view, expand, m, n, k"]}
{"id": "C69", "title": "the assumptions reported at an element hold whenever it is executed", "statement": "Whenever control reaches an element of the program, every bound (lower, upper, tight) that the assumptions analysis reports there for a symbol holds of the symbol's current value; a symbol it reports as constant keeps its value while the element runs; a reported parameter keeps its value during the whole program.", "quantifier": "all programs (any nesting of loops, conditionals and sequences), all elements, all executions, all user-supplied assumptions that hold at entry", "why_tests_cant": "programs, iteration counts and states are unbounded", "anchors": ["sdfg/src/analysis/assumptions_analysis.cpp: run, traverse, traverse_structured_loop, propagate, cnf_to_upper_bound, determine_parameters, get"]}
{"id": "C70", "title": "structuring a state machine keeps its behaviour", "statement": "Converting an unstructured SDFG (states and conditional edges with assignments) to a structured SDFG either fails with an exception or yields a program that, started in any memory, terminates exactly if the state machine reaches a return state, and then returns the same data with the same final memory.", "quantifier": "all state machines (any number of states, any edges, loops of any nesting), all memories, all executions of any length", "why_tests_cant": "graphs, executions and memories are unbounded", "anchors": ["sdfg/src/builder/structured_sdfg_builder.cpp: traverse, structure_region, determine_loop_nodes, post_dominates", "sdfg/src/graph/graph.cpp: back_edges, dominator_tree, post_dominator_tree"]}
{"id": "C71", "title": "dominance means 'performed before'", "statement": "If DominanceAnalysis::dominates(a, b) answers true for two uses of containers, then in every execution, terminating or not, whenever b is performed, a has been performed before.", "quantifier": "all programs (any nesting of loops, conditionals, breaks, continues, returns), all pairs of uses, all executions of any length", "why_tests_cant": "programs and executions are unbounded", "anchors": ["sdfg/src/analysis/dominance_analysis.cpp: run, dominates", "sdfg/src/analysis/users.cpp: traverse"]}
{"id": "C72", "title": "the uses listed after a use, or between two uses, are complete", "statement": "If an execution performs use v and later use b, Users::all_uses_after(v) lists b; if it does not perform a in between, Users::all_uses_between(a, b) lists v.", "quantifier": "all programs, all uses, all executions of any length", "why_tests_cant": "programs and executions are unbounded", "anchors": ["sdfg/src/analysis/users.cpp: traverse, all_uses_after, all_uses_between"]}
{"id": "C73", "title": "post-dominance means 'performed afterwards'", "statement": "If DominanceAnalysis::post_dominates(a, v) answers true, then every execution that performs v and ends, at the end of the function or with a return, performs a after v.", "quantifier": "all programs, all pairs of uses, all terminating executions", "why_tests_cant": "programs and executions are unbounded", "anchors": ["sdfg/src/analysis/dominance_analysis.cpp: run, post_dominates", "sdfg/src/analysis/users.cpp: traverse"]}
{"id": "C74", "title": "a users view lists the uses inside a node", "statement": "UsersView on a control flow node (loop, loop body, case of a conditional, block) lists every use that an execution of the node performs and nothing that lies outside the node.", "quantifier": "all programs, all nodes in them, all executions of the node", "why_tests_cant": "programs and executions are unbounded", "anchors": ["sdfg/src/analysis/users.cpp: UsersView::UsersView, uses"]}
{"id": "C75", "title": "propagating symbols preserves the program", "statement": "When SymbolPropagation replaces a read of a symbol x by the expression e assigned to it (forward), by e with later assignments to its symbols inverted, or moves an assignment b = a to the two assignments of a (reverse), the program computes what it computed before.", "quantifier": "all programs, all symbols, assignments and reads the pass accepts, all states", "why_tests_cant": "programs, states and executions are unbounded", "anchors": ["sdfg/src/passes/symbolic/symbol_propagation.cpp: run_pass, inverse"]}
{"id": "C76", "title": "removing a repeated definition preserves the program", "statement": "When ConstantPropagation finds two identical definitions of a container and removes the dominated one, the program computes what it computed before.", "quantifier": "all programs, all pairs of definitions (assignments of transitions and tasklets) the pass accepts, all states", "why_tests_cant": "programs, states and executions are unbounded", "anchors": ["sdfg/src/passes/dataflow/constant_propagation.cpp: run_pass, inputs"]}
{"id": "C77", "title": "fusing two blocks preserves what they compute", "statement": "When BlockFusion merges two neighbouring blocks into one data flow graph, executing the fused block, in the order in which its nodes are dispatched, leaves the same state as executing the first and then the second block.", "quantifier": "all pairs of data flow graphs the pass accepts, all dispatch orders that respect the memlets, all states", "why_tests_cant": "graphs and states are unbounded", "anchors": ["sdfg/src/passes/structured_control_flow/block_fusion.cpp: can_be_applied, apply", "sdfg/src/data_flow/data_flow_graph.cpp: post_dominators, topological_sort"]}
{"id": "C78", "title": "fusing assignments into tasklets preserves the block", "statement": "When TaskletFusion removes an assignment t = x[...] (operands) or y[...] = t (results) together with the scalar t that is accessed nowhere else, executing the block leaves the same values in every other container.", "quantifier": "all data flow graphs and access nodes the pass accepts, all dispatch orders that respect the memlets, all states", "why_tests_cant": "graphs and states are unbounded", "anchors": ["sdfg/src/passes/dataflow/tasklet_fusion.cpp: accept, container_allowed_accesses"]}
{"id": "C79", "title": "unifying loop exits preserves the state machine", "statement": "UnifyLoopExits, which redirects the exits of a loop to one new state that dispatches on a new symbol, changes neither the returned data nor the final contents of any existing container, whether the machine returns, nor the states of the loop; a loop it was applied to is left to one state only, and when it reports that nothing was applied every loop has at most one exit state.", "quantifier": "all state machines (any states, edges, conditions, nesting of loops, reducible or not), all initial memories, all executions, all iteration orders of the hash sets", "why_tests_cant": "graphs, executions and memories are unbounded", "anchors": ["sdfg/src/passes/structured_control_flow/unify_loop_exits.cpp: run_pass, determine_loop_nodes", "sdfg/src/builder/sdfg_builder.cpp: add_state, add_edge, remove_edge"]}
{"id": "C80", "title": "inserting states and loops into a state machine does what it says", "statement": "SDFGBuilder::add_state_before and add_state_after insert an empty state without changing what the machine computes, add_return_state_after lets the machine return there, and add_loop inserts exactly the loop for (i = init; cond; i = update) around the returned body state.", "quantifier": "all state machines, states, loop bounds and updates, all memories and executions", "why_tests_cant": "graphs, iteration counts and memories are unbounded", "anchors": ["sdfg/src/builder/sdfg_builder.cpp: add_state_before, add_state_after, add_return_state_after, add_loop, add_edge"]}
{"id": "C81", "title": "dropping truncations preserves the program", "statement": "TypeMinimization, which removes a truncation to 32 bits from memlet subsets and For conditions when the assumptions bound its argument between 0 and 2^31 - 1, changes neither the outcome nor the final memory of the program.", "quantifier": "all programs, declared assumptions, truncated expressions, initial memories and executions, all iteration orders of the hash map", "why_tests_cant": "programs, expressions and executions are unbounded", "anchors": ["sdfg/src/passes/symbolic/type_minimization.cpp: is_safe_trunc, accept", "sdfg/src/symbolic/extreme_values.cpp: minimum_new, maximum_new"]}
{"id": "C82", "title": "rewriting memlets keeps the memory they access", "statement": "MemletLinearization (nested array subscripts to one linear index), TensorToPointerConversion (tensor indices to offset plus strides) and TrivialArrayElimination (removing array dimensions of extent 1 from containers and memlets) leave, for every memlet, the storage, byte address and scalar type it accesses unchanged, never throw on valid memlets, and keep the size of every container.", "quantifier": "all types, shapes, strides, offsets, subsets, structure layouts, symbol values, programs and sets of containers", "why_tests_cant": "types, subsets and symbol values are unbounded", "anchors": ["sdfg/src/passes/dataflow/memlet_linearization.cpp: accept", "sdfg/src/passes/dataflow/tensor_to_pointer_conversion.cpp: accept", "sdfg/src/passes/dataflow/trivial_array_elimination.cpp: run_pass", "sdfg/src/codegen/language_extensions/c_language_extension.cpp: subset"]}
{"id": "C83", "title": "fusing a map into the loop after it preserves the results", "statement": "When MapFusion::can_be_applied accepts a map and the loop after it, apply, which recomputes in the loop each element the map stored instead of loading it, changes the final contents of no container of the program.", "quantifier": "all maps and loops it accepts, all loop bounds, subsets, initial memories and iteration counts, all iteration orders of the hash sets", "why_tests_cant": "loop bounds, subsets and memories are unbounded", "anchors": ["sdfg/src/transformations/map_fusion.cpp: can_be_applied, apply", "sdfg/src/symbolic/polynomials.cpp: affine_coefficients", "sdfg/src/analysis/arguments_analysis.cpp"]}
{"id": "C84", "title": "reported access ranges cover every access", "statement": "If MemAccessRanges::get reports, for a container and a region, a range that is not undefined, every element of the container that an execution of the region reads or writes lies within the reported bounds, evaluated at the entry of the region; hence copying the elements within the ranges is enough to run the region elsewhere.", "quantifier": "all regions, containers, contexts, initial memories and executions (terminating or not)", "why_tests_cant": "programs, subsets and executions are unbounded", "anchors": ["sdfg/src/analysis/mem_access_range_analysis.cpp: get, process_workItem, process_direct_users", "sdfg/src/symbolic/extreme_values.cpp: minimum_new, maximum_new", "sdfg/src/analysis/assumptions_analysis.cpp"]}
{"id": "C85", "title": "arguments and locals of a region describe what it exchanges with the program", "statement": "ArgumentsAnalysis reports as locals of a region only containers that neither the signature nor the code outside the region mentions, and as arguments all others it uses; its flags say exactly which are read, used and written; an execution of the region changes only output arguments and locals and depends only on explicitly read arguments and locals; hence executing the region as a separate function that gets the arguments by value and hands back the outputs does not change the program.", "quantifier": "all programs, regions of them, signatures, initial memories, contents of uninitialised memory and executions", "why_tests_cant": "programs and executions are unbounded", "anchors": ["sdfg/src/analysis/arguments_analysis.cpp: arguments, locals, collect_arg_metadata", "sdfg/include/sdfg/analysis/arguments_analysis.h: DataRwFlags", "sdfg/src/analysis/users.cpp: Users, UsersView"]}
{"id": "C86", "title": "offloading a map to a device preserves the program", "statement": "When OffloadTransform::can_be_applied accepts a map, apply (allocating device buffers of the computed sizes, copying the pointer arguments in, renaming them in the map, copying the outputs back, everything else being private to the device) changes neither the outcome of the program nor the final contents of any container but the locals of the map, whatever the uninitialised device memory contains.", "quantifier": "all programs, maps, arguments, element extents, initial memories, contents of device memory and executions", "why_tests_cant": "programs, sizes and executions are unbounded", "anchors": ["opt/src/transformations/offloading/offload_transform.cpp: can_be_applied, apply, update_map_containers", "opt/src/transformations/offloading/cuda_transform.cpp: copy_to_device_with_allocation, copy_from_device_with_free", "sdfg/src/analysis/arguments_analysis.cpp: collect_arg_sizes"]}
{"id": "C87", "title": "launching a map as a CUDA kernel executes each iteration once", "statement": "A map (or nest of maps) scheduled on CUDA, launched with the computed grid and block sizes and boundary checks, leaves the same memory as the sequential map, for every number of iterations, block size and order of the threads; CUDAParallelizeNestedMap keeps this when it accepts a nested map.", "quantifier": "all nests of maps, bounds, block sizes, bodies with independent iterations, initial memories and orders of the threads", "why_tests_cant": "iteration counts, block sizes, memories and thread orders are unbounded", "anchors": ["opt/src/targets/cuda/cuda_map_dispatcher.cpp: dispatch_node, dispatch_kernel_body, dispatch_kernel_preamble, find_nested_cuda_blocksize, find_nested_cuda_iterations", "opt/src/transformations/offloading/cuda_parallelize_nested_map.cpp: can_be_applied, apply", "sdfg/src/symbolic/symbolic.cpp: divide_ceil"]}
{"id": "C88", "title": "pipelines stop at a fixed point and report what they did", "statement": "When a Pipeline returns, none of its passes would change the program any more, it returned true exactly if the program was changed, the analyses left in the manager are those of the new program, running it again changes nothing, and everything all passes preserve is preserved; the pipeline DeadCodeElimination returns on every program.", "quantifier": "all lists of passes, all programs, all caches of analyses", "why_tests_cant": "programs and numbers of rounds are unbounded", "anchors": ["sdfg/src/passes/pipeline.cpp: run, dead_code_elimination", "sdfg/src/passes/pass.cpp: run, invalidates", "sdfg/src/passes/structured_control_flow/dead_cfg_elimination.cpp: run_pass", "sdfg/src/passes/structured_control_flow/sequence_fusion.cpp: run_pass"]}
{"id": "C89", "title": "clearing a node removes exactly what computed it", "statement": "StructuredSDFGBuilder::clear_node on a tasklet or library node removes the node, its memlets and the access nodes left without memlets; on an access node it removes the memlets into it, the tasklets and library nodes that computed it with their memlets, and the access nodes left without memlets; nothing else changes, every remaining memlet connects remaining nodes, and no destroyed node is touched.", "quantifier": "all data flow graphs, all nodes, any number of parallel memlets", "why_tests_cant": "graphs are unbounded", "anchors": ["sdfg/src/builder/structured_sdfg_builder.cpp: clear_node", "used by DeadDataElimination, DeadReferenceElimination, ConstantPropagation, SymbolPromotion, AllocationManagement"]}
{"id": "C90", "title": "removing dead references preserves the program", "statement": "DeadReferenceElimination, which removes the assignments of transient pointers that are never read, together with the pointers, changes neither the outcome of the program nor the final contents of any other container; the removed pointers are not mentioned any more; it returns true exactly if it changed something.", "quantifier": "all programs, sets of containers, initial memories and executions", "why_tests_cant": "programs and executions are unbounded", "anchors": ["sdfg/src/passes/dataflow/dead_reference_elimination.cpp: run_pass", "sdfg/src/analysis/users.cpp: traverse, num_reads, num_writes, num_views, moves"]}
{"id": "C91", "title": "uses of references become uses of what they refer to", "statement": "ReferencePropagation, which rewrites the uses of a transient pointer assigned p = &A[i] into accesses to A, keeps for every rewritten memlet the accessed memory and its type, and changes neither the outcome of the program nor the contents of any container.", "quantifier": "all types, subsets, structures, access nodes, programs, memories and executions", "why_tests_cant": "types, index expressions, programs and executions are unbounded", "anchors": ["sdfg/src/passes/dataflow/reference_propagation.cpp: run_pass, compatible_type", "sdfg/src/analysis/reference_analysis.cpp: run, visit_*, defined_by"]}
{"id": "C92", "title": "keeping a container in local storage during a loop preserves the program", "statement": "When OutLocalStorage::can_be_applied accepts a loop and a container, apply (copying the accessed element, or one element per iteration, into a local scalar or array before the loop, using it in the loop, and copying it back) changes neither the outcome of the program nor the final contents of any other container, and accesses the local array within its bounds.", "quantifier": "all loops, containers, subsets, transitions, initial memories and executions", "why_tests_cant": "loop bounds, subsets, programs and memories are unbounded", "anchors": ["sdfg/src/transformations/out_local_storage.cpp: can_be_applied, apply, apply_scalar, apply_array", "sdfg/src/transformations/utils.cpp: get_iteration_count"]}
{"id": "C93", "title": "pushing the map condition below thread barriers preserves the kernel", "statement": "When GPUConditionPropagation::can_be_applied accepts a CUDA map with thread barriers, apply (which drops the test of the map condition around the body and puts it around the parts of the body that use the map variable) completes; a thread inside the iteration space computes what it did before; a thread outside it changes no memory and passes the same barriers as the threads inside.", "quantifier": "all map bodies, conditions, thread indices, memories and executions", "why_tests_cant": "bodies, thread indices and executions are unbounded", "anchors": ["opt/src/transformations/offloading/gpu_condition_propagation.cpp: can_be_applied, apply, BarrierFinder", "opt/src/targets/cuda/cuda_map_dispatcher.cpp: dispatch_kernel_body", "sdfg/src/builder/structured_sdfg_builder.cpp: add_if_else_before, move_child"]}
{"id": "C94", "title": "dropping transfers between host and device preserves the program", "statement": "DataTransferMinimization (dropping a copy-in of what was just copied out, and the copy-out if the host container is not read any more, letting the new device pointer refer to the old buffer) and RemoveRedundantTransfersPass (dropping a copy-out that is overwritten by an equal one) change neither the outcome of the program nor the final contents of any container a caller or a kernel can observe.", "quantifier": "all programs, transfers, sizes, buffers, memories and executions", "why_tests_cant": "programs, sizes and memories are unbounded", "anchors": ["opt/src/passes/offloading/data_transfer_minimization_pass.cpp: accept", "opt/src/passes/offloading/remove_redundant_transfers_pass.cpp: run_pass", "opt/src/targets/offloading/data_offloading_node.cpp: redundant_with, equal_with, remove_free", "opt/src/targets/cuda/cuda_data_offloading_node.cpp: redundant_with, equal_with"]}
{"id": "C95", "title": "moving allocations to the entry and deallocations to the exits preserves the function", "statement": "When AllocationManagementPass makes an allocation managed (the generators then allocate at the entry of the function, with the size evaluated there) or a deallocation managed (the generators then free at the end and before every return), the function computes what it did before: every execution ends in the same way with the same contents of all other containers, every access sees a block of the same size, and exactly the blocks that were allocated before are allocated and freed.", "quantifier": "all functions, containers, sizes, initial memories, early returns and executions", "why_tests_cant": "functions, sizes and executions are unbounded, and the effect depends on every path to an exit", "anchors": ["sdfg/src/passes/memory/allocation_management.cpp: can_be_applied_allocation, apply_allocation, can_be_applied_deallocation, apply_deallocation, accept", "sdfg/src/codegen/code_generators/c_code_generator.cpp: dispatch_schedule", "sdfg/src/codegen/dispatchers/while_dispatcher.cpp: ReturnDispatcher::dispatch_node"]}
{"id": "C96", "title": "heap blocks that stay in the function and their last use", "statement": "EscapeAnalysis reports a heap block as not escaping only if no execution hands it out, and the use it reports as the last one is the last in every execution: a block allocated outside loops is not used afterwards, one allocated in a loop is not used afterwards in that iteration or later; hence freeing the block there changes nothing, and every execution that allocates the block gets there.", "quantifier": "all functions, containers, initial memories and executions (terminating or not)", "why_tests_cant": "functions and executions are unbounded", "anchors": ["sdfg/src/analysis/escape_analysis.cpp: run, escapes, last_use, non_escaping_allocations", "sdfg/src/analysis/users.cpp: all_uses_after, UsersView"]}
{"id": "C97", "title": "precise FLOP counts are exact", "statement": "When FlopAnalysis::precise() holds, the expression FlopAnalysis::get reports for the program, evaluated with the values of the symbols at entry, is the number of floating point operations every terminating execution performs (floating point tasklets count one, fused multiply-adds two, library nodes what flop() tells).", "quantifier": "all programs, symbol values, initial memories and executions", "why_tests_cant": "programs, symbol values and iteration counts are unbounded", "anchors": ["sdfg/src/analysis/flop_analysis.cpp: run, visit, visit_sequence, visit_block, visit_structured_loop, visit_structured_loop_with_scope, visit_if_else, visit_while, get_scope_parameters, is_parameter_expression, choose_bounds, replace_loop_indices", "sdfg/src/analysis/assumptions_analysis.cpp: traverse_structured_loop"]}
{"id": "C98", "title": "sorting blocks preserves the program", "statement": "BlockSortingPass leaves every execution of the program as it was (same outcome, same final contents of all containers), whatever library nodes the program contains; it only permutes blocks without assignments inside a sequence (all other children keep their place), leaves the program untouched if it reports that it did nothing, and afterwards no block before a jump can be moved down any further.", "quantifier": "all programs, library nodes, initial memories and executions", "why_tests_cant": "programs, priorities and executions are unbounded", "anchors": ["opt/src/passes/offloading/code_motion/block_sorting.cpp: bubble_up, bubble_down, sort, run_pass, can_be_bubbled_up, can_be_bubbled_down, get_prio_and_order, is_reference_block, is_libnode_block, is_libnode_side_effect_white_listed", "sdfg/src/builder/structured_sdfg_builder.cpp: move_child"]}
{"id": "C99", "title": "hoisting blocks out of maps and if-elses preserves the program", "statement": "BlockHoisting (taking a pointer load, a view or an allowed library node - memset, memcpy, memmove, alloca, transfers - out of the front or back of a map, or a common first or last block out of the cases of a complete if-else) leaves every execution of the program as it was: same outcome and same final contents of all containers.", "quantifier": "all programs, maps, if-elses, library nodes, initial memories and executions", "why_tests_cant": "programs, iteration counts and memories are unbounded", "anchors": ["opt/src/passes/offloading/code_motion/block_hoisting.cpp: accept, map_invariant_front, map_invariant_back, if_else_invariant_front, if_else_invariant_back, is_invariant_move, is_invariant_view, is_invariant_libnode, equal_offloading_nodes, if_else_extract_invariant_libnode_front, if_else_extract_invariant_libnode_back", "opt/include/sdfg/passes/offloading/code_motion/block_hoisting.h"]}
{"id": "C100", "title": "the control flow graph agrees with executions", "statement": "When ControlFlowAnalysis::dominates(a, b) holds, every execution visits node a before its first visit of node b; the query always ends; an execution that ends, ends at a node ControlFlowAnalysis::exits() lists; and the vertex the dominator tree is rooted at is the first node of the program.", "quantifier": "all programs, pairs of nodes, initial memories and executions", "why_tests_cant": "programs and executions are unbounded", "anchors": ["sdfg/src/analysis/control_flow_analysis.cpp: traverse, run, exits, dom_tree, dominates", "sdfg/src/graph/graph.cpp: dominator_tree"]}
{"id": "C101", "title": "pointer iterators can be replaced by subscripts", "statement": "PointerEvolution (a for loop whose body advances a pointer p by one element becomes a loop that accesses p[indvar - init] and does not advance p) leaves every execution of the program as it was: same outcome and same final contents of all containers.", "quantifier": "all loops, bodies, initial values, strides, initial memories and executions", "why_tests_cant": "programs, iteration counts and memories are unbounded", "anchors": ["sdfg/src/passes/structured_control_flow/pointer_evolution.cpp: IteratorToIndvar::accept", "sdfg/include/sdfg/passes/structured_control_flow/pointer_evolution.h"]}
{"id": "C102", "title": "scopes are the nesting of the control flow nodes", "statement": "ScopeAnalysis::parent_scope(n) is the node that has n as a child (null exactly for the root and for nodes that are not in the function); ancestor_scopes(n) terminates and lists exactly the nodes around n, each once, from the innermost to the root; the analysis throws only for unknown classes of nodes.", "quantifier": "all functions, any nesting of sequences, conditionals and loops, all nodes", "why_tests_cant": "programs are unbounded trees; termination of the climb depends on the whole map", "anchors": ["sdfg/src/analysis/scope_analysis.cpp: run, parent_scope, ancestor_scopes", "sdfg/include/sdfg/analysis/scope_analysis.h"]}
{"id": "C103", "title": "a deep copy is the same program with new nodes, and the mapping finds them", "statement": "StructuredSDFGDeepCopy::copy() (insert()) leaves what is in the target and adds one node (the children) that executes exactly like the source; all its nodes are new; the returned mapping sends every node of the source to the node at the same place of the copy; neither throws for valid nodes (insert: sequences).", "quantifier": "all sources and targets, any nesting of control flow", "why_tests_cant": "programs are unbounded trees", "anchors": ["sdfg/src/deepcopy/structured_sdfg_deep_copy.cpp: append, insert, copy", "sdfg/src/builder/structured_sdfg_builder.cpp: add_block, add_dataflow, add_case, add_while, add_for, add_map"]}
{"id": "C104", "title": "the type found for an opaque pointer is the type at which it is used", "statement": "TypeAnalysis::get_outer_type(c) is the declared type of containers whose type tells what they hold; for opaque pointers and pointer-like structures it is, up to storage attributes, the type at which every memlet in the scope that tells a type uses c, and it is null exactly if no memlet tells a type or two tell different types.", "quantifier": "all containers, all sets of access nodes and memlets in the scope, all types", "why_tests_cant": "types and the number of uses are unbounded", "anchors": ["sdfg/src/analysis/type_analysis.cpp: run, get_outer_type", "sdfg/src/types/structure.cpp: is_pointer_like"]}
{"id": "C105", "title": "references in bytes keep the memory that is accessed", "statement": "ByteReferenceElimination (accesses to a pointer p = &A[c bytes] become accesses to A with c divided by the element size added to the index) and TrivialReferenceConversion (references &x[0] of pointers to pointers become references of bytes) leave the address of every memlet, and the type of every access, unchanged, and never fail.", "quantifier": "all offsets, element types and sizes, subsets, structure layouts, symbol values and addresses held by the pointers", "why_tests_cant": "offsets, sizes and addresses are unbounded", "anchors": ["sdfg/src/passes/dataflow/byte_reference_elimination.cpp: run_pass", "sdfg/src/passes/dataflow/trivial_reference_conversion.cpp: accept", "sdfg/src/types/utils.cpp: get_type_size"]}
