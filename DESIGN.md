# Formal model of phate/jlm in Lean 4 — design

## Method

The code in /repo (C++) is read as text. Each modelled function is a total, computable Lean
definition in `lean/Verif/<Area>/Model.lean` whose doc comment cites file and lines; every
simplification is stated there. Specifications that the theorems use (what a *user* would say:
"the value modulo 2^n", "reachable", "least solution") live in `Spec.lean` files or are plain
Lean/Mathlib notions (`Nat`, `BitVec`, `Relation.ReflTransGen`, …). The theorems listed in
MANIFEST.json live in `Props.lean` files, apart from helper lemmas, each with an `example` showing
that its hypotheses are met by a concrete non-trivial case.

C++ behaviour that is not a value is an explicit outcome of the model: a thrown exception is
`none`/`Except.error`, undefined behaviour (null dereference, signed overflow, out-of-bounds
access, failed `JLM_ASSERT`) is a separate constructor, never silently totalised away.

`std::unordered_set/map` are modelled by duplicate-free lists in an arbitrary order (all theorems
hold for every order); hash functions, allocation, pointers-as-identity are abstracted to natural
number identifiers.

## Trusted base

* Lean 4.33.0 kernel; axioms at most `propext`, `Classical.choice`, `Quot.sound` (checked by vcheck).
* The faithfulness of the hand-written models to the cited lines (nothing is executed here).
* The behaviour of the C++ standard library containers as stated above.

## Plan per property

| id | model | proof |
|----|-------|-------|
| C01–C04 | `Bits`: list of four-valued bits, lsb first, every loop as structural recursion | refinement to `Nat`/`Int` value by induction on the list; division by loop invariant |
| C05 | same | concretisation relation; Galois-style soundness by induction; counterexample for division |
| C06 | `Bits` constructors/conversions on `BitVec 64`/`Int` | round trip by induction |
| C07 | `BitExpr`: slice/concat expressions and the rewrites | denotation equality |
| C08 | `Reduce`: the list algorithms of reduction-helpers.hpp / binary.cpp | fold invariants |
| C09,C10 | `Gamma`: gamma node with match predicate, branch wiring | denotation equality; negation with witness where the code is wrong |
| C11–C13 | `Util.HashSet/BijectiveMap/DisjointSet` as state machines | invariants + refinement by induction over histories |
| C14 | `Util.Tarjan`: the iterative algorithm as a step function | loop invariant, termination measure, reachability |
| C15 | `Util.Worklist` | refinement to finite sets with time stamps |
| C16 | `Util.Math` on `Int`/`BitVec 64` | direct |
| C17,C18 | `Traverser`: tracker + region with observer callbacks | invariant by induction over events |
| C19 | `Region`: graph of nodes, prune loop | invariant + reachability |
| C20–C24 | `Andersen`: pointer object set, constraints, solvers | union-find invariants, least fixpoint, confluence |
| C25 | `Types`: inductive type tree, layout | mutual induction |
| C26 | `Llvm/Unroll*`: what `LoopUnrollInfo::create` extracts, the compile-time arithmetic on the modelled `BitValueRepresentation`, the emitted gamma/theta structure as programs with big-step semantics | execution = iteration; the counting-loop arithmetic gives every test outcome; shifting and splitting iterations; counterexamples outside the counting loops |
| C27 | `Opt/Tree`: whole RVSDG graphs as trees of regions and their denotation (values of all exports as functions of arbitrary meanings of the operations, loops of any length, recursion unfolded to any depth); `Opt/DneModel`: mark and sweep of `DeadNodeElimination.cpp` | mark phase: the marks are closed and justified (fuel never runs out); sweep: induction on the tree, masked environments agree on everything alive; minimality against an independent dependence relation (`Opt/DneSpec`) |
| C28 | same graphs and denotation; congruence sets of `CommonNodeElimination.cpp`; `strict` = repaired program (finding 33) | `Opt/CneCert`: what a congruence is, simulation of the diverted module; `Opt/CneMark(All)`: the mark phase finds one; `Opt/CneEqual`: equal values in every executed region; `Opt/CneLoopFree`: /repo on modules without loops |
| C29 | same graphs; `Opt/Refine`: refinement of values (a redirected user of a loop output no longer waits for the loop to end, so the result is *at least as defined*), `Opt/IvrModel`: the pass with the theta-gamma correlation; not modelled: `redirectCallOutputs` | monotonicity of the denotation; local lemma for each redirection, then induction on the tree for any enumeration order; completeness against an independent definition of invariant outputs |
| C30 | `Llvm.Const`: the nest of extension/truncation operations over a constant | induction on the nest, using C06 and C16 |
| C31 | `Aa/Pipeline`: composition of the models of C22 and C23 | composition of their theorems; the counterexample is evaluated by the kernel |
| C32 | `Aa/LocalAaModel`: tracing of pointer origins, the filters, full traceability and the query; executions (`LocalAaSpec`) give every output an object and an offset per iteration; `traceOutput` is a parameter with the value it must preserve | invariant of the tracing (everything recorded is closed under its successors), then induction on the time at which a value is computed; for full traceability the same induction; potential argument for termination; counterexamples in the kernel |
| C33 | `Front/ConvertModel`: read/write sets, demand sets, conversion of three address codes, branches, loops and functions into the RVSDG trees of `Opt/Tree`; `ConvertSpec` is an interpreter for aggregation trees (terminating executions only) | induction on the tree with the invariant that map and environment agree on the live variables (`conv_sound`), loops by induction on the execution; separate inductions for success (`conv_total`) and well-formedness (`conv_shape`); counterexample for a failing lookup in the kernel |
| C34 | `Front/AggModel`: graph and aggregation map as one object, linear, branch and loop reduction, the walk over an acyclic region, loops by strongly connected components (an oracle parameter), normalization; `AggSpec` executes graphs block by block | the program makes steps on a graph with a stack of regions (`Step`); each step preserves executions of the graph in which removed repetition edges are added again, in both directions (`Step.preserves`); that no removed node is needed again follows backwards from the success of the whole aggregation (`Steps.alive`). Only successful aggregations: that every structured graph is aggregated is not proved |
| C35 | `Front/CfgModel`, `Front/SsaModel`: graphs with phi operations, merging of blocks, removal of empty and of unreachable blocks, destruction of SSA form with new blocks and variables from counters; `CfgSpec` executes phi operations in parallel on the edge | each single step (merge, skip, split of one phi block) simulates the old graph in both directions; validity is kept, so the steps can be repeated; the search for reachable blocks by an invariant over the visited set. `C35_prepare` puts the five transformations in a row, in the order of /repo. Assumption: the first block is entered from the entry only (the LLVM conversion creates it, LlvmModuleConversion.cpp:2470) |
| C36 | `Front/RestructModel`: all of ControlFlowRestructuring.cpp (loops with any number of entries and exits, tail-controlled loops, extraction and reinsertion of loops, branches with one or several continuation points); orders of traversal and components are a parameter; failed assertions and lack of fuel are `none` | `RestructDetour`: a graph in which edges are replaced by detours over new blocks has the same executions. `RestructStage`: an invariant of the graph with the extracted loops imagined in place (`ghost`), kept by every elementary step; `RestructLoops`, `RestructBranches`, `RestructExtract`: the procedures; `Restruct`: the whole, and `C36_function_partial`, all of ConvertControlFlowGraph. Claimed is the correctness of successful runs, not that restructuring succeeds or that its result is properly structured. Partial: false in /repo for match operations with several mappings (finding 37); `C36_restructure_fixed` has no such restriction |
| C37 | `Llvm/FoldModel`: the folding functions over the model of `BitValueRepresentation` (C01–C06), on well-typed trees of integer operations with variables | `FoldSpec` gives LLVM's instructions on machine words (`none` = poison or undefined behaviour). `FoldProps`: each operation by C01–C06, then induction over places and sequences of reductions; termination by size; completeness by induction. Partial: folding throws for shift amounts of 2^64 and more (finding 38) |
| C38 | `Mem/NormModel`: one region as a list of nodes with value and state operands, every normalization as a function from region and node to the replacement, and `ReduceNode`; `Mem/NormBarrier`: the bounds test | `NormSpec` gives bytes, emission orders (topological permutations of the live nodes) and race freedom through state edges, independently of the rewrites. `Sched`: a race-free region computes the same in every order. `Rewrite`, `Core`, `Replace`: one theorem for replacing a node, from conditions on the flow of states. `NormProps`, `NormStores`, `NormExit`: the normalizations. `NormExamples`: counterexamples. Partial: findings 39–44; `NormalizeNestedSplits` is not modelled |
| C39 | `Back/DestructModel`: the graph under construction (blocks, last processed block), the variable map, the conversion of simple, gamma and theta nodes, `CreateControlFlowGraph` | `DestructSpec` says when the (strict) execution of a body ends; the values are those of `Opt/Tree`, executions of graphs those of `Front/CfgSpec`. `Rep`: a relation between nodes and the blocks of the finished graph; `Sim`: simulation in both directions by induction over the tree and over the iterations; `Grow`: what a conversion may change in the graph, validity of phi operations; `Emit`: the conversion establishes `Rep`; `Total`: no assertion fails. Partial: finding 45; declarations, phi and delta nodes of the module level are not modelled |
| C40 | `Opt/CopyModel`: substitution maps, `copy` of simple, gamma and theta nodes and of regions | `Copy`: simultaneous induction over nodes, lists of nodes and subregions with a relation between the environments of the original and of the copy. Partial: finding 27 (a branch that uses its match variable cannot be copied); lambda, phi and delta nodes are not copied in the model |
| C41 | `Opt/PullModel`: owner, single successor, number of branches that use a node, the step (new entry variables, copies, removed entry variables), the loops of `pull` and `pullin_top`, the traversal of nested regions | `PullStep`: the values of one branch and of all branches after the step, with the copies of C40; `PullProps`: the step keeps the values of everything but the moved node, then induction over the loop, the nodes and the nesting; `PullEnd`: a weight that no step increases bounds the nesting. Partial: finding 27 (moving a gamma node whose branch uses its match variable throws); `sinkDependentNodesIntoGamma`, used by no pass, is not modelled |
| C42 | `Opt/UnswitchModel`: `IsUnswitchable` (with a flag for the missing check of finding 46), routing and sinking, the eight stages with the copies of C40, the default heuristic; the traversal is a relation that leaves the order and the moments of pruning open | `Swap`: replacing a node by nodes that give at least its values, in any context; `UnswitchSink`: routing and sinking keep the loop; `UnswitchStages`: the k-th state of the new loop is the k-th state of the old one seen from the middle of the iteration (`loop_core`); `UnswitchProps`: induction over the relation. Partial: findings 46-48 |
| C43 | `Opt/PcModel`: the correlations of `IvrModel`, the two handlers, the loop over redirections, the traversal | `PcProps`: one redirection keeps the selected alternative wherever the predicate is produced; loops that differ only in the value of the predicate; the position of the producer decreases, so the loop ends; structural induction. Constants of 2^64 and more are not modelled (finding 49) |
| C44 | `Opt/HoistModel`: the marks (`markNodes`), the copy of one node out of a theta or gamma node with its routing, any sequence of such steps | `HoistRegion`, `HoistProps`: one step refines the meaning of the module (the memory state of a hoisted operation may be read again, `Repeats`); `HoistMarks`: what the marks of a whole function imply about operands. `C44_hoisting_partial` is about steps whose operands are really invariant; the marks also allow steps that are not (finding 50, `C44_null_comparison_unsound`) |
| C45 | `Scev/Model`: SCEV trees, folding of sums and products (`ApplyAddFolding`, `ApplyMulFolding`, `ComputeProductOfChrecs`), trees from expressions, dependencies, steps and chains of one loop; constants are unbounded integers | `Scev/Spec`: values of chains in a commutative ring, runs of a loop. `Fold`, `Mul`, `Prod`: folding is addition and multiplication (the product rule by induction on the iteration); `Step`, `Main`: by induction over the iterations, `C45_variable_partial` and `C45_expression_partial` under the hypothesis that the body increments every variable that gets a chain; the code does not check this (`C45_reset_accepted`, `C45_geometric_accepted`). Chains across loops are not modelled except in `C45_sum` and `C45_nested_product` |
| C46 | `Util/IListModel`: the link fields of all elements (one heap), first and last of every list, the operations as in the header | `Util/IListSpec`: operations on sequences. Invariant: links of each list form a ring through a sentinel, no element is in two lists; `unlink` and `link` keep it, all operations are combinations of them; `C46_history` by induction on the history, `C46_divert_users` on the number of users |
| C47 | `Opt/InlineModel`: `inlineCall` as a function (barriers, operands of context variables, copy of the body, new origins), `Into`: routing of the context variables to the call through theta, gamma, lambda and phi nodes, `Inlines`: any sequence of inlined calls. Not modelled: moving inlined allocas to the top of the function, rerouting of memory state merges and splits around the call, calls through recursion variables | `Opt/InlineSpec` (what calls and barriers mean). `InlineStrip`: the body does not notice that the operands lost the function they stand for, by induction on the body; `InlineHere`: the nodes that replace a call compute what the function computes (using C40's copy theorem); `InlineProps`: by induction on the routing, with the knowledge that the callee is the function value of the call as invariant; `C47_inlining_partial` |
| C48 | `Tooling/JlcModel`: file paths, options, compilations, edges of the command graph, breadth first order, effects of the commands on a file system with arbitrary contents. Not modelled: options other than `-c` and `-o`, dependency files, printing of commands | `C48_bfs`: the order is by distance from the entry node (loop invariant, for every graph); `C48_jlc_links`, `C48_jlc_compiles`, `C48_jlc_compiles_to`, `C48_jlc_objects`: results for source files or object files alone, by induction on the commands run; false in general: `C48_mixed_fails` (source and object files), `C48_same_base`, `C48_object_c` |
| C49 | `ModRef/Model`: nodes of functions as a list with their structural nodes, any points-to graph, mod/ref sets with flags and sizes, simple allocas, call graph (with C14's components), blocklists, constraints, worklist with any policy, read-only memory, materialization. Not modelled: the switches in environment variables, statistics, I/O states and phi nodes, the tracing of call targets and constant counts | `ModRef/Spec`: what nodes may do to memory, as an inductive relation without sets or constraints. `C49_simple_allocas`, `C49_reachable`, `C49_recursion`, `C49_blocked_iff`: the loops compute the inductive notions. `C49_terminates` by a potential; `C49_blocklists`, `C49_precise` by properties that constraints hand on; `C49_memory_node_partial`, `C49_conflicts_partial` by induction on the relation at a solution. Partial because what the analysis hides is not always hidden: `C49_nested_alloca` |
| C50 | `ModRef/EncModel`: regions with their nodes in traversal order, state maps, the encoding of simple nodes, allocations with joins, gamma, theta and lambda nodes. Not modelled: phi and delta nodes (nothing happens there), the merge node after the entry split, the removal of dead nodes (C27), the materialized split and merge nodes of calls (a call and its merge and split are one node), different sets for entry and exit | `ModRef/EncSpec`: program order semantics against a data flow semantics without order or memory; `C50_encode` (iff) by mutual induction on nodes and regions with the invariant that the current states carry the memory; `C50_closed`; `C50_escape` shows that the condition on allocations is needed |
| C51 | `Front/DomModel`: `postorder`, `reverse_postorder`, `intersect` (its three loops as one), the passes over the nodes, `build_domtree` with any order of leaves | `Front/DomSpec`: walks, dominators, immediate dominators. `C51_rpo`, `C51_rpo_order` by induction on the recursion; `C51_domtree_partial`, `C51_dominators_partial` with an invariant in each step of a pass (chains of later nodes agree with those of their forward predecessors from the current node on; a new evaluation only shrinks chains; dominators stay in chains) and a potential. Partial because graphs whose exit cannot be reached are closed, but fail: `C51_unreachable`, `C51_endless` |
| C52 | `Scev/TripModel`: the ten comparisons, the sign tests of the step, the backedge count of affine and quadratic recurrences, the quadratic equation; `double` is a parameter, undefined behaviour a result | `Scev/TripSpec`: comparisons of words (`BitVec`), trip counts, the range in which `double` is exact. `C52_trip_partial` by completing the square (the result is the first iteration where the polynomial is not negative) and monotonicity; `C52_loop_partial` composes it with C45; `C52_found`, `C52_endless_partial`. Partial because of findings 65-68 |
| C53 | `Opt/SvfModel`: tracing of the memory states of a load through stores, loads, joins, allocas, gamma and theta nodes with its three maps, creation of exit and loop variables, and the replacement. Not modelled: the check of region predicates (switched off by an environment variable), routing of outputs through regions (regions may use outer outputs), several loads after each other, loads without memory states | `Opt/SvfSpec`: execution with memories carried by states, undefined values, right alias answers. `C53_forward_partial`: the maps after tracing are justified locally (`SvfTrace`), all the variables needed have been created (`SvfMake`), and a simulation over executions with the invariant that every traced state that covers the address has the value of its origin there (`SvfSound`, `SvfSim`, `SvfNodes`, `SvfRun`). Partial: the address must be the same in all iterations of the loops tracing leaves, which the code does not check (finding 69) |
| C54 | `Opt/SroaModel`: type check, tracing of the address of an alloca and of its elements through regions, element allocas, replacement of GetElementPtr operations. Not modelled: memory states (nodes are listed in an order of execution), routing of the new addresses (only whether the alloca is visible), removal of dead nodes; allocas with a dynamic count are opaque operations | `Opt/SroaSpec`: execution with objects of bytes; operations are arbitrary functions of their operands and the memory that do not access objects whose address they cannot know. `C54_split_partial`: elements lie at the offsets of C25 and are disjoint (`SroaLeaves`), tracing closes the set of outputs that may contain addresses (`SroaTrace`), and a simulation with a partial map from executions of split allocas to objects (`SroaSim`, `SroaRun`). Partial: the addresses must belong to the alloca and accesses must fit the element, which the code does not check (finding 71); undefined bytes are one fixed value |
| C55 | `Util/IHashModel`: all functions of `IntrusiveHash` over a heap of anchors, except constant iterators (they do not compile); `size_t` does not overflow; `OwnerIntrusiveHash` is not modelled (it does not compile, finding 75) | `Util/IHashSpec`: operations on sequences in insertion order. `C55_history`: invariant that bucket i is the subsequence of the elements whose hash ends in i; `rehash` splits every bucket into two, in order; each bucket is a list of C46. `C55_erase_order`, `C55_eraseRange`, `C55_disjoint` |
| C56 | `Scev/LsrModel`: candidates, hoisting, new loop variables, replacement, for one loop (values of one width, on top of the chains of C45). Not modelled: chains of other loops (`HoistChrec`), sign extensions between widths, `prune` | `Scev/LsrSpec`: loops with arbitrary other nodes, memory and predicate, run by one function before and after. `C56_iteration_partial`, `C56_result_partial`, `C56_replaced_partial`: simulation; key lemma (`LsrInv`, `LsrChain`): in a chain with at most two operands the step mentions initial values of invariant variables only. False in general: `C56_zext`, `C56_sext_wrap`, `C56_reset` |
| C57 | `Mem/LcsModel`: what precedes a memory state as a tree of nodes (states are used linearly, as the encoder produces them); the classification of loops and the separation of chains | `Mem/LcsSpec`: order of nodes, schedules, arbitrary node semantics with the condition that nodes that do not commute are ordered by a state that one of them writes (C50). `C57_order_partial`, `C57_schedules_partial` for loops without calls; `C57_no_new_order`, `C57_schedule_exists`, `C57_separates` for all programs. False in general: `C57_call_in_loop` |
| C58 | `Rvsdg/TracerModel`: graphs of nodes and regions, the step, the loop, the recursion into subregions and the cache, all configurations | `Rvsdg/TracerSpec`: executions as instances of regions with values (branch taken, iterations, calls); `C58_sound_partial`, `C58_within`, `C58_around`, `C58_order`, `C58_terminates`, `C58_no_assertion` by an invariant on the cache and induction on depth and fuel; `C58_cache` by simulation with an uncached tracer; `C58_maximal`. False where the content of a match is used: `C58_wrong_match`. The assumption of C32 on `traceOutput` is what C58 states |
| C59 | `Rvsdg/PredTraceModel`: ranges, the memoized recursion with the ranges recorded per region, the caches, the observed regions and what clears them | `Rvsdg/PredTraceSpec`: executions with instances of regions; `Seen`: what an instance can see without back edges; the steps that a predicate value takes as a relation. `C59_assign_exact`, `C59_required_exact`, `C59_check_exact_partial` (all histories of checks and changes, without changes of invariant loop variables), `C59_unreachable_partial` (no gamma node hands the predicate through). False in general: `C59_handed_through_unsound`, `C59_back_edge_unsound`, `C59_stale`, `C59_assign_stale` |
| C60 | `Aa/PtgModel`: the graph with its maps, lists and counters, alias queries; `Aa/PtgBuild`: the construction from a pointer object set | `Aa/PtgSpec`: what a sequence of calls creates (`created`, `Targets`, `Legal`), supergraphs in terms of the things that nodes represent, memories of disjoint objects. `C60_nodes`, `C60_targets`, `C60_registers`, `C60_counts`, `C60_legal`, `C60_results`, `C60_query`, `C60_query_symmetric`, `C60_query_sound`, `C60_supergraph`, `C60_supergraph_order`, `C60_supergraph_query`; `C60_construct_total`, `C60_construct_partial` and `C60_pipeline_sound_partial` need that no register is unified into an object that cannot point. False without: `C60_construct_counterexample`, and without right sizes: `C60_declared_size_counterexample` |
| C61 | `Opt/IobeModel`: marking and sweeping, the test for known allocations | `Opt/IobeSpec`: which loads lose their barrier (`Says`, `Loses`), executions of a region in any order with calls that stop (`Run`, `Starts`, `Safe`), the shape of translated functions (`ProgramOrder`). `C61_exact`; `C61_safe_partial` needs that loads without barrier have valid addresses and that validity does not change during the call. False without: `C61_inlined_counterexample`, `C61_freed_counterexample`. `C61_removable_partial` for offsets that are not negative; `C61_negative_counterexample` |
| C62 | `Hls/ForkModel`: sinks, forks with the loop over the list of users, the verification | `Hls/ForkSpec`: readers of an output, nested regions, what it means that a graph extends another by forks and sinks. `C62_extends`, `C62_values`, `C62_once`, `C62_constant`, `C62_idle`, `C62_check_exact`, `C62_check`. The check ignores region arguments: `C62_check_arguments_counterexample`. Address queues and buffers are not modelled |
| C63 | `Hls/GammaModel`: the decision to speculate, the conversion of nested gammas to a list of operations, branches and muxes | `Hls/GammaSpec`: what a region computes (only the selected subregion is evaluated), streams of tokens and what branch, mux and operations do with them. `C63_convert` by induction on the nesting, with a clock for each region; `C63_speculation`, `C63_speculation_complete`. `C63_unselected`: nodes of a subregion take tokens only for the instances that select it. That no further tokens appear is shown for all wires but those that depend on constants only. Loops are operations here and channels unbounded |

## Disagreements between code and property found while modelling

(see section "Findings" at the end; each is a theorem with a concrete witness)

1. `HashSet::IsSubsetOf` (util/HashSet.hpp) iterates over *other* and asks *other*: it answers
   `|this| ≤ |other|`, not inclusion.
2. `perform_invariant_reduction` (rvsdg/gamma.cpp) tests `!argument && argument->input() != input`
   (should be `||`): different entry variables are merged, a non-argument origin is a null dereference.
3. `perform_control_constant_reduction` (rvsdg/gamma.cpp) inverts a match mapping that need not be
   injective and forgets the default when its alternative is also a mapped one.
4. `BottomUpTraverser::onNodeCreate` does not mark the new node visited, so a node created during
   the traversal can be returned, contrary to its documentation.
5. `udiv`/`umod`/`sdiv`/`smod` on unknown bits produce known quotient bits.
6. `unroll_unknown_theta` (llvm/opt/unroll.cpp) turns a do-while loop into a while loop.
7. `GetElementPtrOperation::getIndexedType` accepts index == number of fields.
8. `NormalizeFlattenedBinaryOperation` rebuilds a *binary* node from n-ary operands.
9. OVS treats a register flagged "points to external" with empty points-to set as direct.
10. `UnionWithAndClear` returns whether the *larger* set changed, not whether `*this` changed.
11. Load/Store `ApplyDirectly` iterate over a hash set that the loop body may insert into.
12. `BitValueRepresentation(nbits, value)` accepts negative values below -2^(nbits-1), e.g. (1,-2).
13. `RoundUpToMultipleOf` can overflow in its intermediate sum although the result fits
    (C16_roundUpToMultipleOf_ub); `truncateAnd*Extend` with zero bits passes the assertion and shifts by 64.
14. `FlattenBitConcatOperation` asserts that unchanged operands are exactly two and changed operands
    more than two; concat nodes with one or ≥3 operands (which `distributeSlice`/`bitconcat` create)
    violate that (C07_flattenConcat_aborts). `NormalizeBinaryOperation` on a concat with more than two
    operands aborts after a partial reduction (C07_normalizeConcat_aborts).
15. `reduce_parallel` rotates the operands, so it needs commutativity although flattened operations
    only promise associativity (C08_reduce_parallel_order: [a,b,c] becomes c∘(a∘b)).
16. `IfConversion` passes the 64-bit case value as `int64_t`; for match operands wider than 64 bits a
    case value ≥ 2^63 is sign-extended (C10_wide_match_wrong).
17. Match-content arguments of gamma subregions have no input; the invariant reduction and
    `IfConversion` dereference `argument->input()` without a check (modelled as `abort`).
18. `GetElementPtrOperation::Constant::getOffsetInBytes` is `noexcept` and throws for a path through a
    vector type, which `getIndexedType` accepts (C25_vector_terminates).
19. `tryGetConstantSignedInteger` is wrong or asserts for values wider than 64 bits
    (C30_wide_wrong: `zext i64 -1 to i128` is -1; C30_wide_fails).
20. `TopDownTraverser` loses nodes when `RemoveInputs` removes several inputs in one call: every
    `onInputDestroy` callback still sees the old `ninputs()` (topDown_incomplete_on_bulk_removal).
21. `Node::RemoveInputs` with a non-empty index set on a node without inputs adds the node to the list
    of top nodes again (C19_removeInputs_top_corrupt).
22. Offline variable substitution unifies everything on a cycle through `*p` even when `p` points to
    nothing, where the cycle carries no pointers: pointees are added (C23_ovs_empty_counterexample).
23. With the edges `*sub -> *sup` the substitution records for hybrid cycle detection that all pointees
    of `sup` shall be unified with a node that only pointees of `sub` exchange values with: the solver
    with hybrid cycle detection finds more pointees than the naive one (C22_hybrid_counterexample).
24. `LoopUnrollInfo::niterations` ignores the direction of the comparison, the match polarity, wrap
    around, the subtraction's operand order and a zero step (it compares the *pointer* with 0): C26 holds
    for counting loops (`Counts`) and fails otherwise, one counterexample theorem per ignored aspect
    (C26_direction/_polarity/_wrap/_zero_step_counterexample).
25. A do-while loop whose first test would fail on the initial value gets trip count 0 and
    `unroll_body(…, 0)` never returns (C26_zero_trip_counterexample); a factor the loop's width cannot
    represent throws (C26_wide_factor_counterexample).
26. Unknown trip counts: besides finding 6, the guards put the induction variable first whatever the
    source's operand order, wrap near the end of the range, and step over the end for `!=`, which turns
    a finite loop into an infinite one (C26_unknown_*_counterexample).
27. `GammaNode::copy` (jlm/rvsdg/gamma.cpp:478-506) does not map the match variables of the branches.
28. `determineGammaSubregionRoles` (PredicateCorrelation.cpp:211-270) looks at the first alternative
    only: if both branches give the same alternative, `redirectThetaGammaOutputs` routes the value of the
    wrong branch around the gamma (C29_roles_unsound).
29. `computeMatchCorrelation` (PredicateCorrelation.cpp:130-152) accepts a gamma that uses the match
    output as an entry variable, not as its predicate (C29_match_user_unsound).
30. Common node elimination redirects invariant loop variables of I/O state type, which
    `InvariantValueRedirection` deliberately keeps (cpp:207).
31. `tryGetGammaExitVarCongruenceSet` (CommonNodeElimination.cpp:693) dereferences `argument->input()`,
    which is null for match variables.
32. "It is irrelevant in which order we handle the nodes" (InvariantValueRedirection.cpp:129-130) is true
    of correctness (C29_ivr_refines) but not of what is achieved (C29_order_matters).
33. When the body of a loop is marked again, `markSimpleNode` (CommonNodeElimination.cpp:490-532) may make
    a node follow a leader that comes later in the traversal, whose inputs still have the congruence sets
    of the previous pass. Leaders are never looked at again, so the two stay congruent although their
    inputs are not: a miscompilation (C28_stale_leader_unsound). The comment at cpp:97-98 says that leaders
    come first; with that enforced (`strict`) C28 holds, and modules without loops are not affected.
34. Marking a gamma for the third time can ask to turn a leader into a follower, which throws
    (C28_leader_to_follower_throws).
35. `LocalAliasAnalysis::Query` compares the offsets from a single shared origin (cpp:105-112) even if the
    pointers come from different iterations, in which the origin has different values: it answers MustAlias
    for two different mallocs (C32_wrong_mustalias) and NoAlias for equal pointers (C32_wrong_noalias).
    If origins do not change between iterations, or no loop variable was passed on the way, C32 holds.
36. `AnnotateDemandSet` of a branch (Annotation.cpp:440-444) does not remove the variables that all cases
    write from the working set. Inside a loop or an enclosing case, an earlier branch that writes such a
    variable in some cases only then gets it as input variable although it was never defined there, and the
    conversion fails at the lookup (C33_demand_crash). With the removal every function is converted
    (C33_repaired_total); without it, functions in which no variable is of both kinds are (C33_total_partial).
37. `invertMatchOperation` (ControlFlowRestructuring.cpp:250-267), which is called when the edge that repeats a
    tail-controlled loop has index 0, keeps only the first mapping of the match operation.
    `convertSwitchInstruction` (LlvmModuleConversion.cpp:794-837) uses one out-edge for several case values, so
    `switch (x) { case 1: case 2: continue; default: break; }` at the end of a loop is a match {1→0, 2→0} default 1,
    and is turned into {1→1} default 0: the loop is left for x = 2 (`C36_restructure_counterexample`).
38. Folding a shift calls `to_uint()` on the amount (IntegerOperations.cpp:51-56), which throws `std::range_error`
    for amounts of at least 2^64. `shl i128 %x, 18446744073709551616` is poison, not undefined behaviour, so it may
    stand in a legal program (in a branch that is not taken or whose result is not used); node reduction then
    terminates the compiler with an uncaught exception (`C37_fold_total_counterexample`).
39. `NormalizeLoadAlloca` (Load.cpp:138-168) returns the states of the new load first and the states that bypass it
    after them, but the caller replaces the outputs by position. When a state of another alloca precedes a state
    that is kept, the chains are swapped and a later store to the loaded alloca may be emitted before the load
    (`C38_load_alloca_wrong`; with the results in the order of the operands: `C38_load_alloca_fixed`).
40. `NormalizeStoreAlloca` (Store.cpp:105-124) returns the elements of an `unordered_set` in the order of iteration
    as the outputs of the store, again replaced by position (`C38_store_alloca_wrong`; fixed: `C38_store_alloca_fixed`).
41. `NormalizeLoadStoreState` (Load.cpp:170-200) drops a state because it comes from a store to another alloca, but
    that state may also order a store to the loaded alloca further up (`C38_load_store_state_wrong`).
42. `normalizeStoreStore` (Store.cpp:165-219) checks that the states that lead from the first store to the second
    have one user, but not the other outputs of the first store: the first store then stays and is no longer ordered
    before the second one (`C38_store_store_wrong`).
43. `NormalizeStoreMux` (Store.cpp:43-60, 86-103) returns one output for a store with several states (an assertion in
    `divert_users` fails, `C38_store_mux_wrong`) and asserts that a store has states (`C38_store_mux_crash`).
    `NormalizeSplitMerge` forgets that a merge orders all its operands before all its users
    (`C38_split_merge_wrong`).
44. `normalizeIOBarrierAddress` (Load.cpp:385-395, Store.cpp:298-308) converts the signed offset to `size_t` and adds
    the size, which wraps: a four byte access at offset -4 passes the test although it lies before the object
    (`C38_io_barrier_wrong`, exact condition in `C38_io_barrier_negative`).
45. `ConvertGammaNode` (RvsdgToIpGraphConverter.cpp:289-306) inserts variables for the entry variables of a gamma node
    but none for its match variable (`GammaNode::GetMatchVar`, argument 0 of every branch). If a branch uses it, the
    assertion in `GetVariable` fails (`C39_matchVar_fails`).
46. `IsUnswitchable` (LoopUnswitching.cpp:95-104) and `computeMatchCorrelation` (PredicateCorrelation.cpp:135-148) take
    any gamma node that uses the output of the match node, also as entry variable. A gamma node that is controlled by
    something else is then turned inside out and the function returns another value (`C42_unchecked_unsound`).
47. `CollectPredicateNodes` (LoopUnswitching.cpp:159-168) collects all nodes of the loop but the gamma node, also
    nodes that depend on it. Such a node is dead, but it makes `SubstitutionMap::lookup` throw in stage 1. The same
    happens when a branch uses the match variable of the gamma node (`C42_throws`).
48. `computeThetaGammaPredicateCorrelation` may return a correlation with another gamma node than `IsUnswitchable`
    (the one that computes the operand of the match node). The default heuristic then refuses, because the gamma node
    of the loop is a structural node; a heuristic that accepts such loops would make `UnswitchLoop` take the subregion
    roles from the wrong gamma node (LoopUnswitching.cpp:218, 256-260).
49. `extractConstantAlternatives` (PredicateCorrelation.cpp:52, 64) calls `to_uint()` on constants, which throws
    `std::range_error` for values of at least 2^64. A loop whose predicate matches an `i128` that a gamma node selects
    from such constants terminates the compiler (in PredicateCorrelation, InvariantValueRedirection and
    LoopUnswitching).
50. `NodeHoisting::isInvariantMemoryStateLoopVar` (push.cpp:102-107) compares two results of
    `TryGetOwnerNode<SimpleNode>`. Both are null if the only user of the memory state and the producer of its next value
    are structural nodes, even different ones. A load in a first inner loop is then hoisted out of the outer loop although a
    second inner loop writes to memory, and the function returns a stale value (`C44_null_comparison_unsound`). The check
    also does not ask whether the input and the output of the node belong to the same state.
51. `NodeHoisting` hoists every simple node without state operands out of branches, including divisions: a division that is
    guarded by a test of the divisor is executed before the test. In the model operations are total functions, so the
    trap is not visible.
52. `NodeHoisting` hoists `alloca` nodes with invariant sizes out of loops: every iteration then gets the same
    memory. In the model operations are functions of their operands, so the two are not told apart.
53. `ScalarEvolution::CanCreateChainRecurrence` (ScalarEvolution.cpp:1916-1939) accepts a loop variable whose update does not
    mention the variable at all: `x = 5` with start value 0 gets `{0,+,5}` (`C45_reset_accepted`), `x = y` gets `{x,+,y}`.
    `GetOrCreateChainRecurrence` always prepends the start value.
54. `FindDependenciesForSCEV` (cpp:1099-1126) records only the innermost operation around a variable: `x = (x + 1) * 2`
    passes the check against geometric variables and gets `{x,+,2}` (`C45_geometric_accepted`). `LoopStrengthReduction`
    rewrites multiplications on the base of such chains.
55. `IsUnknown` (cpp:1990) looks at the left operand of a binary expression twice and never at the right one.
56. `ComputeProductOfChrecs` (cpp:1673-1681) takes the step of a chain with two operands for a recurrence of the same loop if
    it is a chain, even if it is a chain of another loop: products of chains in nested loops are wrong
    (`C45_nested_product`).
57. `GetOrCreateSCEVForOutput` (cpp:964-969) treats sign and zero extensions as the identity, so chains of extended values are
    wrong when the narrow variable wraps around.
58. `CommandGraph::SortNodesTopological` (CommandGraph.cpp:57-80) is a breadth first search, not a topological sort: for
    `jlc a.c b.o` the entry node has an edge to the linker, which then runs before jlm-opt and llc (`C48_mixed_fails`).
59. `ToObjectFile` (CommandLine.hpp:625-629) uses the name up to its first dot: `jlc a.1.c a.2.c` compiles both files to `a.o` and
    links one of them twice (`C48_same_base`).
60. `jlc -c b.o -o x` runs the linker on `x` (`C48_object_c`). A file named `o` counts as an object file.
61. `FilePath::Dirname` (file.hpp:143-167) differs from GNU's dirname for repeated slashes: `a//b` gives `a/`, `a//` gives `a`.
62. `CreateNonReentrantAllocaSets` (RegionAwareModRefSummarizer.cpp:1277-1337) takes a simple alloca in a gamma or theta node for
    invisible outside of the region if the function is not recursive or no *argument* of the region leads to it. A pointer may leave
    through a *result* of the region: then the store inside and a load outside share no memory node and are not ordered
    (`C49_nested_alloca`).
63. A constant `i32` count of `memcpy` or `memset` of 2^31 or more is sign-extended (RegionAwareModRefSummarizer.cpp:1600-1647), so that
    no memory node of known size is considered large enough (read from the code, not modelled).
64. `domtree` (domtree.cpp:91-150) takes closed graphs, but `is_closed` (cfg-structure.cpp:566-577) says only that each node has a
    predecessor. For a function with an endless loop the exit is not in the order, and the assertion `index == 0` fails; without
    assertions `build` recurses for ever on the null pointer (`C51_endless`).
65. Trip counts: if the constant is the left operand of the comparison, the operands are swapped but not the comparison
    (ScalarEvolution.cpp:446-454): `10 < i` counts as `i < 10` (`C52_constant_left`). The mapping of the match operation is not looked
    at either, so `match(0 -> 1, 1 -> 0)` gets the count of the negated loop (`C52_inverted_match`).
66. Quadratic recurrences with `c > 2b` (such as the sum `{0,+,0,+,1}` of 0, 1, 2, ...): the smaller root is taken, it is negative, and
    is set to 0 (cpp:749): the count is 1 instead of 3 (`C52_irregular`). `{5,+,0,+,1} == 5` counts 2 instead of 3
    (`C52_eq_first_step_zero`).
67. Undefined behaviour: a quadratic recurrence whose last operand is 0 divides by zero (cpp:745, `C52_division_by_zero`, for all such
    recurrences); `!=` with a value that moves away from the bound converts a negative `double` to `size_t` (cpp:638, called in cpp:561
    before the direction is tested; `C52_negative_double`).
68. Trip counts ignore the width of the type and that constants are stored as signed numbers: `C52_unsigned`, `C52_wrap`.
69. Store value forwarding: tracing goes around the back edge of a loop, but the alias analysis compares addresses within one iteration:
    in `do { q = p; p = p + 1; x = *q; *p = 7; } while (--n)` over an uninitialised array the store does not alias the load (same base,
    other constant offset), and the load is replaced by an undefined value, although it reads the 7 of the previous iteration
    (StoreValueForwarding.cpp:646-690,871-888; `C53_vary_counterexample`).
70. Store value forwarding (cpp:1404-1424): `createdExitVars.emplace` returns an iterator that is used after recursive calls have
    inserted into the same `unordered_map`; formally invalid after a rehash (by reading, not part of the model).
71. Aggregate alloca splitting merges different allocas: the address of a gamma output is followed, but nothing checks that the other
    branch gives the address of the same alloca, so that `(c ? &a : &b)->x` always becomes `a.x` (AggregateAllocaSplitting.cpp:171-245,
    552-579; `C54_merged`). The pointee type of the GetElementPtr is ignored (`C54_otherTy`), and so is the size of loads and stores: an
    access that covers two fields gets out of bounds (`C54_wide`).
72. `isSplitableType` returns at the first aggregate element (cpp:107-113): `struct { struct { int }; int[2]; }` is accepted, and a
    GetElementPtr into the array makes `elementAllocaMap.at` throw `std::out_of_range` (`C54_arrayBehind_throws`); the same happens for
    the address of an inner struct (`C54_subStruct_throws`). With the array in front, the type is rejected (`C54_array_order`).
73. An alloca in a loop whose address leaves the loop: the address of its element cannot be routed to the GetElementPtr outside, and
    `RouteToRegion` throws (`C54_leaves_throws`).
74. A GetElementPtr with a single index, or one whose first index is not 0, on a struct alloca passes `isSplitable` but violates the
    assertions at cpp:559,563; one with an index that is not a constant violates the assertion at cpp:235 (by reading; in a build
    without assertions `at`, or `value`, throws; in the model such a GetElementPtr is `op`, and the alloca is not split).
75. intrusive-hash.hpp: `cbegin`, `cend` and the constant `find` name `const_iterator`, but the class is called `ConstIterator`; the
    whole of `OwnerIntrusiveHash` uses `internal_hash_type::const_iterator` and `iterator`, which do not exist, so that it cannot be
    instantiated. Its `unlink` initialises a `unique_ptr` from a raw pointer by copy (explicit constructor), and its
    `erase(begin, end)` unlinks the elements without deleting them (hpp:461-481,487,650-725; by reading).
76. LoopStrengthReduction.cpp:267-284: `newIV = &newIVOpt.value()` points into a local variable of the enclosing block; it is used after
    the block has ended (`output.divert_users(newIV->pre)`): a dangling pointer (by reading).
77. ScalarEvolution ignores `sext` and `zext`, and LoopStrengthReduction replaces operations on their results by variables of the wide
    type: `zext16(i) * 4` with an 8-bit `i` that starts at 254 becomes `{-8,+,4}` (`C56_zext`); `sext16(i) * 4` is wrong after `i` has
    wrapped around (`C56_sext_wrap`).
78. LoopStrengthReduction inherits finding on overwritten variables from ScalarEvolution: `do { use(j * 4); j = 5 }` uses 40 instead of
    20 in the third iteration (`C56_reset`).
79. `HoistSCEVExpresssion` for the initial value of a variable of another loop hoists the value the variable has in the current iteration
    of that loop (`initLoopVar.pre`, cpp:374-386), not its initial value (by reading).
80. LoadChainSeparation.cpp:424-430: for a `CallOperation` the result of the recursive trace is dropped and the call is not recorded as a
    modification. A loop whose body calls a function (and does not store itself) is therefore recorded as a reference, and loads after
    the loop lose their dependency on it: `for (...) f(&x); y = x;` may read `x` before the loop (`C57_call_in_loop`).
81. gamma.cpp:343-359 `mapBranchArgumentToInput` maps argument 0 of a branch, the content of the match, to the predicate: in a debug build
    its assertion about types fails for every content that is not of control type (also for `UnitType`, the default); in a release build
    the output tracer takes the content for the predicate, and an exit variable with the contents is traced to the predicate
    (`C58_wrong_match`).
82. RegionPredicateTrace.cpp:102-136,214-229: a range is recorded for a region as soon as *one* of its results can be the predicate. If a
    gamma node `g1` between hands the value of gamma node `g0` through in one branch and sets the predicate in the other branch, the range
    recorded for a branch of `g0` lacks the value that `g1` sets. `CheckPredicatesSatisfiable` then denies a path that is taken, and
    `StoreValueForwarding` (StoreValueForwarding.cpp:804) treats the store in that branch as if it never reached the load
    (`C59_handed_through_unsound`).
83. RegionPredicateTrace.cpp:201-204: when an invariant loop variable is traced from the output to the input of a theta node, the region of
    the theta node is not observed: the answer stays in the cache after the loop variable was connected to something else (`C59_stale`).
    `GetRegionPredicateAssignConstraints` does not observe the region of the predicate either (`C59_assign_stale`); only
    `CheckPredicatesSatisfiable` does, with `GetRegionSatRequired`.
84. RegionPredicateTrace.hpp:165-189 promises reachability without a restriction; the answers are wrong for regions in earlier iterations of
    a loop (`C59_back_edge_unsound`). `StoreValueForwarding` asks only as long as no back edge was taken.
85. Andersen.cpp:1731,1751-1765: the node of a group of registers gets the points-to set of the unification root, but is skipped if the *root*
    cannot point. If a memory object that cannot point (an alloca of an integer, a function) is the root of a unification with a register, all
    targets of the register are lost and `Query` answers `NoAlias` for accesses to the same memory (`C60_construct_counterexample`). On equal
    ranks the first argument of `UnifyPointerObjects` becomes the root, so cycle elimination without preferred implicit pointees can
    do this; we found no way with the default configuration of the solver.
86. PointsToGraph.cpp:100-112,128-142: the declared type of an import (and of a weak or common definition, which the linker may replace) is taken
    as the exact size of the object. An access in bounds of the larger definition in the other module is then excluded by the size test, and
    `Query` answers `NoAlias` for accesses to the same bytes (`C60_declared_size_counterexample`). Only arrays declared
    with length 0 are recognised as of unknown size.
87. IOBarrierElimination.cpp:159-182 with inlining.cpp:306-325: a load without barrier counts as proof that its address is valid in the whole
    function. `f(p) { return p->next->x; }` loses both barriers; when it is inlined behind a call of `g`, only the pointer *argument* gets a new
    barrier, and when the pass runs again on the caller (which loads `p` at its entry) the remaining barrier goes too. The load of `x` can
    then run before `g`, although `g` exits if `p->next` is null (`C61_inlined_counterexample`).
88. IOBarrierElimination.cpp:186-223: a load at the entry of a function says nothing about the time after the memory is freed. In
    `a = *p; free(p); g(); b = *p;` the second load loses its dependency on `g`, which may exit (`C61_freed_counterexample`).
89. Load.cpp:385-395: the offset is an `int64_t` stored in a `size_t`, and the sum with the size of the load wraps: 4 bytes at offset -4 are "in
    bounds" of every allocation (`C61_negative_counterexample`). The same test uses the declared type of imports (cf. 86), which may be null
    (`extern_weak`) or smaller in the defining module.
90. check-rhls.cpp:38-71: `check_rhls` looks at the outputs of nodes only. A region argument that is read twice or not at all passes the
    verification (`C62_check_arguments_counterexample`). A function that is exported under two names gets a fork in the root region and then
    fails the verification with "Root should have only one node now" (`C62_exported_twice`).
