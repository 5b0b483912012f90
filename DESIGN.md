# Formal model of daisytuner/docc in Lean 4 -- design

## 1. Trusted base

* **Proof assistant.** Lean 4.33.0; everything is accepted by the kernel.  No own axioms, no `native_decide`, no `bv_decide`.
  Every theorem depends on a subset of `propext`, `Classical.choice`, `Quot.sound` and nothing else (`vcheck` reports
  `n_trusts_compiler: 0`; `#print axioms` on any theorem named in `MANIFEST.json` lists only these three).
* **Transcription.** The definitions under `lean/Verif/` must describe the cited C++.  Each definition carries a
  `file:lines` citation into `/repo` and its simplifications.  Nothing was compiled or run: `/repo` was read as text.
* **C++ library.** Standard containers behave as finite maps, sets and vectors.  Where the iteration order of an
  `unordered_map` matters the theorem quantifies over the order.  `nlohmann::json` text (`dump`/`parse`) is lossless.
* **Integers** are mathematical (`Int`/`Nat`).  Host overflow is modelled only where the definition says so (base64 counters,
  capture invocation counters, peel sentinel).
* **Partiality and undefined behaviour** are outcomes of their own (`Option`, `Res`, `Out.ok = false`, `undef`), never a default
  value that could make a theorem true by accident.

### Contracts of external engines (hypotheses of theorems, never axioms)

| contract | file | what is assumed |
|---|---|---|
| `Engine.Sound` | Sym/Simplify | SymEngine's canonicalisation and `simplify` keep the value of an expression |
| `PolyEngine.Sound`, `NormSound` | Sym/Poly, Sym/Series | polynomial construction and `expand` keep the value; exponents and coefficients describe it |
| `DEngine.Sound` | Sym/Delin | `is_true(Ge(a,b))`, `simplify(expand e)` and the divisibility test are right when they answer |
| `IslSound` | Sym/Maps | ISL answers emptiness of the relation it is given; the relation (parameters, constraints, access map) is the modelled `Query`, the renaming `x -> x_1` is assumed not to clash |
| `DepOracle.True`, `DepOk` | IR/DataDep, IR/For2MapViol | `is_disjoint`, `is_subset`, `maps::intersects` answer truthfully about the subscripts they see |
| `LNE.Sound` | IR/LoopNorm | the relational constructors of SymEngine (`Lt`, `And`, ...) keep truth values |
| `OrEngine.Sound`, `DCE.OneSound`, `CE.Sound`, `CAE.Sound`, `W2F.Sound` | IR/* | syntactic equality of canonical terms implies equality of values; `Or` is disjunction |
| `Codec.OkE`, `Codec.OkC` | Ser/Json | for the expressions that occur, `SymEngine::parse` reads the printed text back |

Type-code dispatch (`is_a<Integer>(*e)` and the like) is modelled as a pattern match on the tree SymEngine would have built.

### Not modelled at all

LLVM/MLIR front ends, Python bindings, CUDA/ROCm/Tenstorrent/AVX templates and dispatchers, HTTP transport, instrumentation,
file system and process execution, tensor library-node expansion, pointer aliasing (container names do not alias; views and
references are outside the IR fragment), floating point (tasklets are uninterpreted functions on `Int` values), SDFG text
parsing of types by the C code generator.

## 2. Layout

| directory | models |
|---|---|
| `Verif/Util` | association lists, decimal printing, JSON of the capture index |
| `Verif/Sym` | `sdfg/src/symbolic/*`: expressions with value semantics `eval`, conditions, CNF, extreme values, series, maps, delinearization, polynomials, simplification, assumptions |
| `Verif/Types` | `sdfg/src/types/*`: primitive tables, type trees, tensor layouts, inference, sizes, peeling, contiguity |
| `Verif/Capture` | `arg-capture-io`, `rtl/src/capture.cpp`: base64, capture bookkeeping, index |
| `Verif/Graph` | `sdfg/src/graph`: simple paths |
| `Verif/Builder` | `sdfg/src/builder/*`, `element.cpp`, `function.cpp`: element ids, sequences, container table, debug ranges, fresh names |
| `Verif/IR` | structured control flow, its meaning, analyses, passes and transformations |
| `Verif/Opt` | map schedules and the loop scheduling pass |
| `Verif/Ser` | JSON serializer: types, library nodes, graphs, control flow, whole SDFG |
| `Verif/**/*Props.lean` | property theorems, small separate specifications, an `example` beside each theorem showing its hypotheses are met, and refutations |

Definitions are total and computable.  Recursion that C++ bounds dynamically is modelled with the same bound; other recursion is
structural or carries fuel that a theorem shows sufficient.

### How the main models work

* **Expressions** (`Sym/Expr`): trees of integers, symbols, sums, products, powers, `min`/`max` and the docc functions (`idiv`,
  `imod`, `zext_i64`, `trunc_i32`, `sizeof`, `malloc_usable_size`).  `eval : Val -> Expr -> V` where `V` is an integer, an
  infinity or undefined (division by zero, overflow of a cast).
* **IR** (`IR/Syntax`, `IR/Sem`): blocks of statements over scalars and array elements, sequences with transitions, if-else, loops
  (`For`/`Map`), while, break, continue, return.  The meaning of a node is a relation between start and final state with an
  outcome (`Rel`), built from `upd`, `seq`, `ite`, `iter`, `forever`, following the code the dispatchers emit.  There is no fuel: a
  run that does not terminate has no final state.  An undefined expression evaluates to an arbitrary but fixed value of the
  environment (`Env.undef`), so theorems hold whatever undefined operations do.  `Seq.run` is an interpreter proved sound for `Rel`;
  it produces the concrete runs in refutations.
* **Equivalence.**  Passes are proved with simulations in both directions (`Rel.bis`, `Rel.sim`): every terminating run of one
  program is matched by a run of the other with the same outcome and the same memory (off names the pass declares dead).
* **Maps** (`IR/Par`): `Rel.Foot` bounds the locations a run reads and writes; `RunPar` runs the iterations of a loop in a given
  order, each in its own copy of the private containers; `Independent`/`RowsIndependent` state Bernstein's conditions between
  iterations; `any_order` shows that they make the order irrelevant.
* **Builder** (`Builder/Tree`): a heap of sequence objects addressed by position, with the exact vector operations of each builder
  call; properties are invariants over all histories of calls, including calls that throw.
* **Container table** (`Builder/Containers`): the five maps of a `Function` and the calls that change them, over all histories.
* **Serializer** (`Ser`): writers to and readers from JSON values, library node by library node; the reader replays the builder
  calls (and their exceptions) of the container model.

**When the code violates a property** the negation is proved on a concrete witness (suffix `_violated`, `_unsound`, ...) in the same
model, and a `_partial` theorem states the extra hypotheses under which the property holds.  The note in `MANIFEST.json` says which
part is missing.

## 3. Properties

| id | property | modules | method |
|---|---|---|---|
| C01 | CNF conversion keeps the truth value (proved) | Sym/Cond, CNFProps | structural induction; every literal of the result is a literal or negated literal of the input |
| C02 | minimum/maximum are sound bounds (partial) | Sym/Extreme, ExtremeProps | induction on the depth fuel, interval arithmetic in the extended reals; function arguments refuted |
| C03 | is_monotonic / is_contiguous classify loop updates correctly (partial) | Sym/Series, SeriesProps | affine normal form; refuted for other shapes |
| C04 | maps::intersects never hides a collision (partial) | Sym/Maps, MapsProps | monotonicity over integers + ISL contract; refuted cases listed |
| C05 | delinearize separates dimensions faithfully (partial) | Sym/Delin, DelinProps | mixed-radix uniqueness; refuted where the code's bound test is too weak |
| C06 | polynomial_div returns quotient and remainder (proved) | Sym/Poly, PolyProps | sum over monomials |
| C07 | symbolic::simplify keeps the value (partial) | Sym/Simplify, SimplifyProps | structural induction over the rewrite; zext folding refuted |
| C08 | divide_ceil covers every element (proved) | Sym/Simplify, SimplifyProps | integer division lemmas |
| C09 | substitution and symbol use are semantic (proved) | Sym/Expr, ExprProps | structural induction |
| C10 | affine coefficients reconstruct the expression (partial) | Sym/Poly, PolyProps | monomials over ordered generators; refuted for unsorted generators |
| C11 | canonical_bound describes the loop condition (proved) | IR/LoopInfo, LoopInfoProps | case analysis of clause shapes over the CNF |
| C12 | type assumptions cover every value of the type (proved) | Sym/Assumptions, AssumptionsProps | cases per primitive type (complete) |
| C13 | SequenceFusion keeps program meaning (partial) | IR/SeqFusion, SeqFusionProps | simulation; dropped transition refuted |
| C14 | DeadCFGElimination removes only dead control flow (partial) | IR/DeadCFG, DeadCFGProps | simulation; trivial maps and permissive mode refuted |
| C15 | ConditionElimination keeps program meaning (partial) | IR/CondElim, CondElimProps | bisimulation off dead loop variables; refuted with trailing assignments |
| C16 | CommonAssignmentElimination keeps program meaning (partial) | IR/CommonAssign, CommonAssignProps | simulation with independence; refuted otherwise |
| C17 | LoopNormalization keeps the executed iterations (partial) | IR/LoopNorm, LoopNormProps | substitution of the loop variable, CNF soundness; seven refutations |
| C18 | WhileToForConversion keeps program meaning (partial) | IR/WhileToFor, WhileToForProps | unfolding of `forever` against `iter`; first-iteration refutation |
| C19 | LoopTiling visits the same iterations in the same order (partial) | IR/Tiling, TilingProps | induction on iterations, tile by tile; three refutations |
| C20 | LoopInterchange keeps program meaning (partial) | IR/Interchange, InterchangeProps, Par | row independence, reordering of merged rows; three refutations |
| C21 | LoopSkewing keeps the executed iterations (partial) | IR/Skew, SkewProps | substitution of the inner variable; two refutations |
| C22 | LoopDistribute keeps program meaning (partial) | IR/Distribute, DistributeProps | footprints + dependency analysis model; four refutations |
| C23 | A loop turned into a Map is order independent (partial) | IR/For2Map, DataDep, For2MapProps, For2MapViol, Par | dependency analysis complete on straight-line bodies implies Bernstein's conditions; five refutations |
| C24 | Generated transition code means simultaneous assignment (partial) | IR/TransProps | permutation induction; cross-dependent entries refuted |
| C25 | Row-major strides address a tensor bijectively (proved) | Types/Tensor, TensorProps | induction on the shape |
| C26 | Tensor views address the right elements (proved) | Types/Tensor, TensorProps | induction on the axes |
| C27 | reshape keeps the element order (partial) | Types/Tensor, TensorProps | linear index algebra; strided layouts refuted |
| C28 | primitive type tables are consistent (proved) | Types/Primitive, PrimitiveProps | all values of the enumeration, all strings |
| C29 | infer_type is compositional (proved) | Types/Ty, TyProps | structural induction on types and subsets |
| C30 | base64 round trip (proved) | Capture/Base64, Base64Props | strong induction on three-byte groups |
| C31 | base64 output is well formed (proved) | Capture/Base64, Base64Props | strong induction on three-byte groups |
| C32 | capture invocation counting and strategy (proved) | Capture/Ctx, CtxInv, CtxProps | invariant over histories of calls |
| C33 | small captures stay inline in the index (partial) | Capture/Ctx, CtxInv, CtxProps | refinement of 'latest capture'; inline half refuted |
| C34 | capture index round trip (proved) | Capture/Ctx, CtxProps | round trip of the index, entry by entry |
| C35 | all_simple_paths is sound and complete (partial) | Graph/Paths, PathsProps | soundness and completeness by induction on paths; cycles through the source refuted |
| C36 | element ids stay unique (partial) | Builder/Tree, TreeProps | invariant over histories; public counter setter refuted |
| C37 | sequences keep child/transition pairing (partial) | Builder/Tree, TreeWF, TreeProps | heap invariant (parallel vectors, forest) over histories; self-moves refuted |
| C38 | find_new_name is fresh (proved) | Builder/Misc, MiscProps | pigeonhole on used names |
| C39 | DebugInfo::merge covers both ranges (partial) | Builder/Misc, MiscProps | case analysis; same-line ranges refuted |
| C40 | JSON serialization round trip (partial) | Ser/* | structural induction with fuel = document size; ten refutations |
| C41 | captures of an open region are not lost (partial) | Capture/CtxProps | history argument; refuted in general |
| C42 | capture files do not collide (proved) | Capture/CtxProps, Util/Dec | injectivity of the file name |
| C43 | type equality and clone (proved) | Types/TyProps | structural induction |
| C44 | get_type_size is the byte size (proved) | Types/TyProps | structural induction |
| C45 | peel_to_innermost_element follows the requested pointers (partial) | Types/TyProps | structural induction; the -100 sentinel refuted |
| C46 | types declared contiguous hold no pointers (partial) | Types/TyProps | well-founded structure nesting; array members refuted |
| C47 | symbolic div and mod are C division (proved) | Sym/SimplifyProps | integer division lemmas |
| C48 | the users analysis misses no access (proved) | IR/Users, UsersProps | frame and non-interference over all runs |
| C49 | a complete if-else always takes a case (proved) | IR/Users, UsersProps | truth of the disjunction |
| C50 | the reported stride is the step of the loop (proved) | IR/LoopInfo, LoopInfoProps | value of the update |
| C51 | replace is substitution (partial) | IR/Replace, ReplaceProps | bisimulation; data accesses refuted |
| C52 | update_schedule_type sets the schedule (partial) | Opt/Schedule, ScheduleProps | map equality; category refuted |
| C53 | schedulers only see compatible nests (partial) | Opt/Schedule, ScheduleProps | induction on the worklist; refuted with two incompatible nests |
| C54 | container table stays consistent (partial) | Builder/Containers, ContainersProps | invariant over histories; renames onto containers refuted |
| C55 | a failed container call changes nothing (partial) | Builder/Containers, ContainersProps | case analysis; reserved names refuted |
| C56 | assumptions follow from container types (partial) | Builder/Containers, ContainersProps | invariant over histories; three refutations |
| C57 | loop-carried dependencies are complete (partial) | IR/DataDep, For2MapProps, For2MapViol | induction over the visit; branches and overlaps refuted |
| C58 | the loop tree is the nesting of the loops (proved) | IR/LoopTree, IR/LoopTreeProps | functional induction over the work list; structural specification inside/direct/topMaps; permutation equalities; fuel of the upward and downward walks shown sufficient |
| C59 | loop nest summaries are correct (partial) | IR/LoopTree, IR/LoopTreeProps | structural specification depth/Perfect/eff; two witnesses for the refuted parts; assignments on the transition behind the inner loop are not part of the perfect-nest notion of the code and are not modelled |
| C60 | topological_sort is an execution order (partial) | Flow/Topo, Flow/TopoLemmas, Flow/TopoDfs, Flow/TopoProps | invariants of the reversed DFS (list = nodes whose single-reader chain ends in the start), of the queue loop and of the stitching stack; fuel shown sufficient; weakly_connected_components of boost is a parameter with its contract; a kernel-evaluated witness for the wrong order |
| C61 | the code emitted for a tasklet computes its operation (partial) | Codegen/CExpr, Codegen/Tasklet, Codegen/TaskletSpec, Codegen/TaskletLemmas, Codegen/TaskletProps | a semantics of C11 integer and floating point expressions (promotions, usual conversions, undefined behaviour; 32-bit int, gcc/clang choices) against an LLVM-like specification on bit vectors; the emitted text is shown to be the text of the evaluated expression with correct precedence; floating point formats are abstract (NaN laws only) |
| C62 | promotion of tasklets to symbolic assignments keeps the block's effect (partial) | Codegen/Signed, Codegen/Promote, Codegen/PromoteLemmas, Codegen/PromoteProps | C semantics of C61 on operands of signed type is exact whenever defined (by operator); the symbolic right-hand side has that value; the stored value is compared after conversion to the container type; other nodes of the block are arbitrary partial functions on memory with a footprint condition; types are element type plus number of dimensions |
| C63 | symbol evolution keeps the program's results (partial) | IR/Evolution, IR/EvolutionProps | head relation (memories equal except for the symbol, which is F(i)) preserved by one iteration for each of the four patterns; both directions by induction on loop executions; dominance and whole-function write counts are parameters of the model; ten kernel-evaluated witnesses |
| C64 | dead data elimination keeps the program's results (partial) | IR/Defs, IR/DefsLemmas, IR/DefsSim, IR/DefsProps, IR/DefsViol | reaching-definitions analysis modelled with undefined/open/closed sets and position-labelled users; simulation with outcome-dependent sets of dirty scalars, both directions, induction on programs and loop executions; container removal by induction on programs; eight kernel-evaluated witnesses |
| C65 | the C text of a symbolic expression has its value (partial) | Codegen/SymC, Codegen/SymCLemmas, Codegen/SymCProps, Codegen/SymCText, Codegen/SymCMain | the printed text as a C expression with its own precedence check, evaluated by the C semantics of C61 extended by casts, conditionals, the min/max macros and the loop of __daisy_sym_pow; induction on expressions with the invariant: signed type, exact value if defined, defined if the expression on absolute values stays below 2^31; SymEngine's StrPrinter for sums, products and comparisons is modelled from its documentation |
| C66 | expansion of elementwise, transpose and broadcast nodes computes the tensor (partial) | Expand/Nest, Expand/Tensor, Expand/TensorLemmas, Expand/TensorProps, Expand/TensorViol | the expansions generate programs of the IR of C10 ff.; a nest of loops is shown to be the fold of its body over the index box by induction on depth and trip counts; elements are addressed through strides and offset; eight kernel-evaluated witnesses; library functions called by a tasklet are an uninterpreted operation |
| C67 | expansion of reductions computes the reduction (partial) | Expand/Reduce, Expand/ReduceProps, Expand/MeanProps | two loop nests in the IR; the iterations that update one output element are the lexicographically ordered fibre of its kept coordinates (induction on the mask); counting of fibres against the product of extents; three kernel-evaluated witnesses |
| C68 | expansion of GEMM and MatMul multiplies the matrices (partial) | Expand/Gemm, Expand/GemmProps, Expand/MatMul, Expand/MatMulProps, Expand/GemmViol | the expansions generate programs of the IR; nests with scratch variables (Nest.runNest_acc) around a body with an inner accumulation loop; a pointer made by a reference memlet is a variable holding the element offset; malloc/free of copies not modelled; five kernel-evaluated witnesses |
| C69 | the assumptions reported at an element hold whenever it is executed (partial) | IR/AssumAn, IR/Visit, IR/AssumAnLemmas, IR/AssumAnProps, IR/AssumAnViol | the states in which an element is entered are defined from the relational semantics (vis); a mutual induction over nodes, sequences and branches, with an invariant over loop heads, carries the propagated assumption maps; fourteen kernel-evaluated witnesses of wrong bounds |
| C70 | structuring a state machine keeps its behaviour (partial) | Struct/Mach, Struct/Props, Struct/Correct, Struct/Main, Struct/Nested, Struct/Viol | a fuelled model of structure_region emits programs of the IR and, as ghost output, the jumps it emits; an inductive description of its successful runs; forward simulation by induction on the number of machine steps, backward by induction on loop rounds; well-nestedness implies that every emitted jump reaches its machine target; five kernel-evaluated counterexamples with the true dominator trees |
| C71 | dominance means 'performed before' (partial) | IR/UGraph, IR/UGraphLemmas, IR/UGraphDom, IR/UGraphDomProps, IR/UGraphViol | the users graph is built as in users.cpp; executions are given a second semantics that records the uses they perform (performs_iff: same executions); induction over programs and loop rounds: every performed use is reached from the entry over uses performed before; is_complete and the dominator tree enter by their contracts; kernel-evaluated witnesses |
| C72 | the uses listed after a use, or between two uses, are complete (partial) | IR/UGraphFlow, IR/UGraphFlowProps, IR/UGraphRun, IR/UGraphViol | between any two performed uses there is a path in the users graph over the uses performed in between (induction over programs and loop rounds) |
| C73 | post-dominance means 'performed afterwards' (partial) | IR/UGraphPost, IR/UGraphPostProps, IR/UGraphViol | as C72, with paths to the vertex of the return or the end; these have no successor (numbering of vertices) |
| C74 | a users view lists the uses inside a node (partial) | IR/UView, IR/UViewProps | edges into the vertices of a node enter at its first vertex (numbering), so the backward search stays inside; from every use in the node the last vertex is reachable without passing the first (induction over programs) |
| C75 | propagating symbols preserves the program (partial) | IR/SymProp, IR/SymPropLemmas, IR/SymPropProps, IR/SymPropMain, IR/SymPropViol | executions with the history of performed uses (C72); invariant: if w is the last relevant use of the history then x has the value of e; rewritten and original program related at states that an execution of the whole program reaches, induction over programs and over loop executions; code's criterion reduced to 'no write between' by dominance; counterexamples by evaluation |
| C76 | removing a repeated definition preserves the program (partial) | IR/ConstProp, IR/ConstPropProps, IR/ConstPropViol | as C75 with the invariant: if the last relevant use of the history is one of the two definitions, the defined element holds the value; graph argument: what dominates the first definition cannot lie between the two; counterexamples by evaluation |
| C77 | fusing two blocks preserves what they compute (partial) | IR/Exchange, IR/BlockFusion, IR/BlockFusionProps, IR/BlockFusionCrit, IR/BlockFusionViol | computations without a common written container commute; two orders of the same computations that agree on conflicting pairs have the same effect (bubble argument by induction on the order); the fused graph keeps the operands of all computations and the paths of both graphs; counterexample by evaluation of the dispatch order |
| C78 | fusing assignments into tasklets preserves the block (partial) | IR/TaskletFusion, IR/TaskletFusionIn, IR/TaskletFusionOut, IR/TaskletFusionViol | simulation along an order of the original block (invariant: the removed scalar holds the value of the operand), conflicting computations stay connected in the fused graph (induction along the order), exchange theorem of C77 for all other orders; counterexample by evaluation of the dispatch order |
| C79 | unifying loop exits preserves the state machine (proved) | Struct/Unify, Struct/UnifyProps | two-way simulation between the machines (one exit step = two steps through the new state), memories agree but for the new symbol; the backward search is shown to find exactly the states with a path to the latch that avoids the header (saturation argument) |
| C80 | inserting states and loops into a state machine does what it says (partial) | Struct/Edit, Struct/EditProps, Struct/EditViol | two-way simulations as in C79; loop: runs through the six new states correspond to executions of the structured loop, by induction on the run and on the loop execution; counterexamples by evaluation of deterministic machines |
| C81 | dropping truncations preserves the program (partial) | Sym/ExtremeClosed, IR/Rewrite, IR/TypeMin, IR/TypeMinProps, IR/TypeMinViol | bounds without functions are right (C02); substitution of equal values; two programs of the same shape agree from a state if blocks and conditions agree in the states the execution visits (induction over programs, loops by induction on the execution); counterexample by evaluation |
| C82 | rewriting memlets keeps the memory they access (partial) | Types/Memlet, Types/MemletProps, Types/MemletProps2 | independent C layout semantics of subsets (byte offset and type, Size of C44, tensor addresses of C25); induction over array nests; loop over containers by induction with the invariant that array containers are indexed directly; counterexamples by evaluation |
| C83 | fusing a map into the loop after it preserves the results (partial) | IR/MapFusion, IR/MapFusionLemmas, IR/MapFusionProps, IR/MapFusionViol | relational proof: the producer block run twice (original iteration and copy with substituted subsets) from memories that agree on its inputs gives the same product; invariant of the map (every written element holds the recomputed product), then both second loops in step with memories that agree but for the temporaries; the index mapping evaluates to the producing iteration by C10 and C47; counterexamples by evaluation |
| C84 | reported access ranges cover every access (partial) | Sym/ExtremeShape, IR/Ranges, IR/RangesLemmas, IR/RangesProps, IR/RangesUse, IR/RangesViol | bounds are terms over the region's unwritten symbols (induction over extreme_values), hence have the same value at every visited block and at the entry; soundness of the bounds at the block by C02 and the assumptions of C69; min/max over all subsets; the copy theorem by a simulation of two runs that agree off the elements that are not accessed |
| C85 | arguments and locals of a region describe what it exchanges with the program (partial) | IR/Args, IR/ArgsProps, IR/Fresh, IR/ArgsViol | the uses of the program are a permutation of the uses of the region and of the program without it (induction over paths), so counting uses decides whether a container is mentioned outside; dependence by users_read_complete / users_write_complete (C14); the outlined program is the program with the region replaced by a relation, related to the original by a simulation up to the locals; a definite-assignment check over the structure, proved sound, gives the hypothesis |
| C86 | offloading a map to a device preserves the program (partial) | IR/Offload, IR/OffloadLemmas, IR/OffloadProps, IR/OffloadViol | the kernel's memory is a function of the host's; the run of the map is transported in four steps: arbitrary locals (C85), elements outside the copies are not accessed (C84, row-major offsets bounded by the size), unused containers, renaming of all pointer arguments (induction with C51's renaming bisimulation); the program by the simulation of C85 for replacing a region |
| C87 | launching a map as a CUDA kernel executes each iteration once (partial) | IR/Cuda, IR/CudaLemmas, IR/CudaGrid, IR/CudaProps, IR/CudaViol, IR/CudaNest | threads of the grid are in bijection with the index tuples below grid * block; arithmetic of the ceiling division shows they cover the bounds and the boundary checks cut off exactly the rest; induction over the threads (any order) and over the sequential nest, both keep the invariant that the memory holds what the finished instances wrote; counterexamples by evaluation |
| C88 | pipelines stop at a fixed point and report what they did (partial) | IR/Pipeline, IR/PipelineLemmas, IR/PipelineProps | the three nested loops are inductive relations; fixed point, determinism and composition by induction on them; termination by strong induction on a measure; for DeadCFGElimination and SequenceFusion the reported flag is modelled beside the rewriting and shown to be equivalent to a strictly smaller program (nodes plus assignments) |
| C89 | clearing a node removes exactly what computed it (partial) | Builder/Clear, Builder/ClearProps | the work queue of clear_node is a well-founded loop over graphs; an invariant relates the current graph, the visited code nodes and the queue to the initial graph; use after free is a distinct outcome; counterexamples by evaluation |
| C90 | removing dead references preserves the program (partial) | IR/DeadRef, IR/DeadRefProps | bisimulation up to the scalar values of the deleted pointers, by induction over the program; the users left and the reported flag by induction over the program; counterexamples by evaluation |
| C91 | uses of references become uses of what they refer to (partial) | Types/RefProp, Types/RefPropProps, IR/RefFlow, IR/RefFlowProps, IR/RefLine | memlets: byte addresses of typed accesses (Acc/Size of C17) composed by induction on the subset, so that A[move ++ use] is at the address p + use; flow: pointers encoded as address symbols, the pass as one step of symbol propagation (C75), ReferenceAnalysis as a function on programs; counterexamples by evaluation |
| C92 | keeping a container in local storage during a loop preserves the program (partial) | IR/OutLocal, IR/OutLocalLemmas, IR/OutLocalProps, IR/OutLocalArray, IR/OutLocalThm | bisimulation between accesses at C[s] and at the moved place, composed with the renaming bisimulation (C38); the array variant carries an invariant relating C(s(v)) to L[v] for all iterations v; copy loops by induction on the iterations; counterexamples by evaluation |
| C93 | pushing the map condition below thread barriers preserves the kernel (partial) | IR/GpuCond, IR/GpuCondProps, IR/GpuCondThm | the rewriting as a function on bodies with distinct failures (exception, undefined behaviour); inside: bisimulation under the invariant that the condition holds; outside: invariant per container; barriers: simulation between a thread inside and one outside with a ghost counter of barriers; counterexamples by evaluation, the non-terminating one by an invariant |
| C94 | dropping transfers between host and device preserves the program (partial) | IR/Xfer, IR/XferProps, IR/XferThm, IR/XferViol | transfers as library nodes copying the elements below a size; two-sided simulation whose relation changes along the sequence (equal, equal up to the host container with the buffer copied, renamed buffer), composed with the frame, reading (C48) and renaming (C38) theorems; counterexamples by evaluation |
| C95 | moving allocations to the entry and deallocations to the exits preserves the function (partial) | IR/Untouched, IR/Leads, IR/Alloc, IR/AllocLemmas, IR/AllocProps, IR/AllocMain, IR/AllocThm, IR/AllocViol | allocation and deallocation as library nodes on the pointer, managed containers as entry and exit code; executions that perform no use of a container are insensitive to it (induction over traces); the dominance answers give that the code before the allocation and behind the deallocation performs none (C71, C73, and paths to the end in the graph of the users); counterexamples by evaluation |
| C96 | heap blocks that stay in the function and their last use (partial) | IR/Escape, IR/EscapeLemmas, IR/EscapeProps, IR/EscapeViol | the analysis as a relation on the graph of the users (uses come in no fixed order); completeness of all_uses_after (C72) and the body of a loop as a subgraph; a use outside loops is performed at most once (induction over traces); free: the code behind the block performs no use, so it is insensitive to the container (C95); counterexamples by evaluation and closed sets of vertices |
| C97 | precise FLOP counts are exact (partial) | IR/Flop, IR/FlopCost, IR/FlopLemmas, IR/FlopProps, IR/FlopViol | the analysis over the assumptions analysis (C69); a counting semantics as specification (erasing the counter gives the meaning of IR/Sem); induction over the program with the states that agree with the entry state on everything not written, a loop being the number of iterations times a constant; counterexamples by evaluation |
| C98 | sorting blocks preserves the program (partial) | IR/BlockSort, IR/BlockSortProps, IR/BlockSortViol | the pass on the lists of children; every move is an exchange of neighbouring blocks that use no common container and have no hidden accesses, hence commute (IR/Exchange); insertion sort invariant for the stability; counterexample by evaluation of the renamed program |
| C99 | hoisting blocks out of maps and if-elses preserves the program (partial) | IR/Hoist, IR/HoistProps, IR/HoistMap, IR/HoistThm, IR/HoistViol | the pass on a child and its transition; for if-elses induction over the cases; for maps idempotence of a computation that does not read what it writes, and an invariant of the iterations (the computation is done) or a bisimulation off the containers it writes; counterexamples by evaluation |
| C100 | the control flow graph agrees with executions (partial) | IR/Cfa, IR/CfaProps, IR/CfaThm, IR/CfaTree, IR/CfaExit, IR/CfaExitProps, IR/CfaViol | the graph built by traverse and a semantics that records the nodes visited; every visit is reached over edges from visits before it (induction over programs, iterations); dominance then follows from paths, and the walk along the tree by transitivity and asymmetry of dominance; the tree of Boost enters only as a hypothesis (its entries dominate); counterexamples by evaluation |
| C101 | pointer iterators can be replaced by subscripts (partial) | IR/PtrEvo, IR/PtrEvoProps, IR/PtrEvoThm, IR/PtrEvoViol | the pass on loops, where a pointer is seen through the window of elements behind it and advancing shifts this window; bisimulation whose offset is the number of iterations so far, by induction over bodies and iterations; counterexamples by evaluation, with post-dominance proved on their graphs |
| C102 | scopes are the nesting of the control flow nodes (proved) | IR/Scope, IR/ScopeProps, IR/ScopeThm | trees of nodes with addresses; the assignments made by the traversal are exactly the pairs of child and parent (mutual induction), the climb follows the chain of enclosing nodes, whose length bounds it; specification by subtrees |
| C103 | a deep copy is the same program with new nodes, and the mapping finds them (partial) | IR/DeepCopy, IR/DeepCopyProps, IR/DeepCopyThm | the recursive copy with a counter for new addresses and the list of assignments to node_mapping; induction over trees where the children of a loop body count as children: equal erasure to IR/Syntax, increasing new addresses, entries = pairs at the same position; counterexample: a loop body |
| C104 | the type found for an opaque pointer is the type at which it is used (partial) | Types/Outer, Types/OuterProps, Types/OuterViol | the contributions of all memlets and the set built up to operator== (an equivalence by C43); specification: the type of the container seen from one memlet, with infer_type for references; invariant of the insertion loop (pairwise different, covers all contributions); counterexamples by evaluation |
| C105 | references in bytes keep the memory that is accessed (partial) | Types/ByteRef, Types/ByteRefProps, Types/ByteRefViol | the rewriting of one memlet over the C layout semantics of C82 (byte offsets, sizes by C44), with the conversions to int; arithmetic of exact division; counterexamples by evaluation of addresses |

## 4. Testing the theorems

`seeded/LOG.jsonl` records every wrong program tried against the theorems: the edited definition, the edit, the claim it breaks, the
theorems that stopped proving and the theorems that were tightened.  Each batch runs on a scratch copy of the project.
