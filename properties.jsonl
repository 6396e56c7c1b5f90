{"id": "C01", "title": "Compile-time bit arithmetic is two's-complement arithmetic", "statement": "For fully known operands of equal width n>0, add, sub, neg, mul, land, lor, lxor and lnot of a BitValueRepresentation return the n-bit value whose unsigned interpretation is the mathematical result modulo 2^n (bitwise ops: bit by bit); for unequal widths the binary ones report an error.", "quantifier": "all widths n, all pairs of n-bit values", "why_tests_cant": "2^(2n) operand pairs at every width; unit tests check a few 8/32-bit literals", "anchors": ["jlm/rvsdg/bitstring/value-representation.hpp: BitValueRepresentation::add,sub,neg,mul,land,lor,lxor,lnot"]}
{"id": "C02", "title": "Compile-time comparisons decide the mathematical order", "statement": "For fully known operands of equal width, ult/ule/ugt/uge/eq/ne return '1' exactly when the relation holds between the unsigned interpretations, and slt/sle/sgt/sge exactly when it holds between the two's-complement interpretations, and '0' otherwise.", "quantifier": "all widths, all operand pairs", "why_tests_cant": "sign-boundary and carry cases at every width cannot be enumerated", "anchors": ["jlm/rvsdg/bitstring/value-representation.hpp: ult,ule,ugt,uge,slt,sle,sgt,sge,eq,ne"]}
{"id": "C03", "title": "Shifts, slices and extensions act on the integer value as documented", "statement": "shl/shr/ashr by any shift amount (also >= width), slice, concat, zext, sext and trunc return the width they promise and the value that multiplication/floor division by powers of two, resp. zero/sign extension prescribe; an out of range slice reports an error.", "quantifier": "all widths, all values, all shift amounts and slice bounds", "why_tests_cant": "unbounded family of widths and amounts", "anchors": ["jlm/rvsdg/bitstring/value-representation.hpp: shl,shr,ashr,slice,concat,zext,sext,trunc"]}
{"id": "C04", "title": "Compile-time division is division", "statement": "For fully known operands of equal width and a non-zero divisor, udiv/umod return the unsigned quotient/remainder and sdiv/smod the quotient truncated toward zero and the remainder with the sign of the dividend (modulo 2^n); umulh/smulh return the high half of the 2n-bit product.", "quantifier": "all widths, all operand pairs with non-zero divisor", "why_tests_cant": "bit-serial restoring division has an invariant per step; overflow of the shifted remainder only shows for particular operands", "anchors": ["jlm/rvsdg/bitstring/value-representation.hpp: udiv,umod,sdiv,smod,umulh,smulh"]}
{"id": "C05", "title": "Unknown bits never turn into wrong known bits", "statement": "If an operand contains bits 'D' (defined but unknown) or 'X', then every bit that an operation (logic, add, sub, neg, mul, shifts, comparisons, division) reports as '0' or '1' has that value for every way of replacing the unknown bits by '0'/'1'.", "quantifier": "all widths, all four-valued operands and all their concretisations", "why_tests_cant": "exponentially many concretisations per operand", "anchors": ["jlm/rvsdg/bitstring/value-representation.hpp: lor,land,lxor,carry,add,ult,ule,ne,mul,udiv", "jlm/rvsdg/bitstring/bitoperation-classes.cpp: BitCompareOperation::foldConstants"]}
{"id": "C06", "title": "Integer <-> bit-string conversions are lossless or reported", "statement": "Constructing an n-bit representation from an int64 either reports an error (n=0 or value not representable) or yields the unique n-bit pattern of the value; to_uint/to_int return exactly the unsigned/signed value or report that it is out of range or contains unknown bits; str followed by the string constructor gives back an equal value; equality is bitwise equality.", "quantifier": "all widths, all int64 values, all strings", "why_tests_cant": "round-trip laws over unbounded domains", "anchors": ["jlm/rvsdg/bitstring/value-representation.hpp: BitValueRepresentation(size_t,int64_t),BitValueRepresentation(const char*),operator==,str", "jlm/rvsdg/bitstring/value-representation.cpp: to_uint,to_int"]}
{"id": "C07", "title": "Bit slice/concat rewrites preserve the value", "statement": "The normalisations of slice and concat nodes (full slice is identity, slice of slice, slice of constant, distributing a slice over a concat, merging adjacent slices, folding adjacent constants, flattening nested concats) produce an expression with the same value and width for every valuation of the operands.", "quantifier": "all expressions, slice bounds and operand valuations", "why_tests_cant": "the bounds arithmetic ranges over all split positions", "anchors": ["jlm/rvsdg/bitstring/slice.cpp: BitSliceOperation::normalizeIdempotent,foldConstant,narrowSlice,distributeSlice", "jlm/rvsdg/bitstring/concat.cpp: BitConcatOperation::reduce_operand_pair,FlattenBitConcatOperation"]}
{"id": "C08", "title": "Flattening and operand reduction of binary operations preserve the value", "statement": "Flattening an associative operation, reducing adjacent (or, for commutative operations, arbitrary) operand pairs and expanding the flattened operation again linearly or as a tree all yield a result equal to the original left fold, for every operand list and any sound pair reduction; the node created has as many operands as its operation requires.", "quantifier": "all operand lists, all associative (commutative) operators, all sound pair reductions", "why_tests_cant": "arbitrary list lengths and arbitrary pair reductions", "anchors": ["jlm/rvsdg/reduction-helpers.hpp: pairwise_reduce,commutative_pairwise_reduce,associative_flatten", "jlm/rvsdg/binary.cpp: FlattenAssociativeBinaryOperation,NormalizeBinaryOperation,reduce_parallel,reduce_linear"]}
{"id": "C09", "title": "Gamma reductions preserve program results", "statement": "ReduceGammaWithStaticallyKnownPredicate, ReduceGammaInvariantVariables and ReduceGammaControlConstant leave the value of every output of the region unchanged for every input.", "quantifier": "all gamma nodes (any number of branches, any match mapping) and all input valuations", "why_tests_cant": "needs every match mapping and every branch wiring", "anchors": ["jlm/rvsdg/gamma.cpp: perform_predicate_reduction,perform_invariant_reduction,is_control_constant_reducible,perform_control_constant_reduction", "jlm/rvsdg/control.hpp: MatchOperation::alternative"]}
{"id": "C10", "title": "If-conversion preserves the value of every converted output", "statement": "For a two-way gamma, each exit variable that IfConversion replaces by a select (or by its common origin) has, for every predicate value and operand values, the value the gamma would have produced.", "quantifier": "all match widths, case values, case/default subregions and operand values", "why_tests_cant": "unbounded match widths/case values", "anchors": ["jlm/llvm/opt/IfConversion.cpp: IfConversion::HandleGammaNode"]}
{"id": "C11", "title": "HashSet behaves as a mathematical set", "statement": "After any sequence of insert, Remove, RemoveWhere, Clear, UnionWith, UnionWithAndClear, IntersectWith(AndClear), DifferenceWith, a HashSet contains exactly the elements of the corresponding finite set; Size is its cardinality; insert/Remove/UnionWith report whether the set changed; ==, Contains and IsSubsetOf decide equality, membership and inclusion.", "quantifier": "all operation histories and element types", "why_tests_cant": "unbounded histories", "anchors": ["jlm/util/HashSet.hpp: HashSet"]}
{"id": "C12", "title": "BijectiveMap stays a bijection", "statement": "After any sequence of Insert, InsertPairs, RemoveKey, RemoveValue, Erase, Remove*Where and Clear, LookupKey and LookupValue are mutually inverse, a failed Insert changes nothing, and Size equals the number of pairs.", "quantifier": "all operation histories", "why_tests_cant": "unbounded histories", "anchors": ["jlm/util/BijectiveMap.hpp: BijectiveMap"]}
{"id": "C13", "title": "DisjointSet is the finest partition generated by the merges", "statement": "After any sequence of insert, find and merge, two elements have the same representative iff they are connected by the merged pairs; nvalues/nsets/nmembers count elements, classes and class members; iterating a set visits exactly its members once; find always terminates and does not change the partition.", "quantifier": "all operation histories", "why_tests_cant": "unbounded histories; path compression mutates inside const methods", "anchors": ["jlm/util/disjointset.hpp: DisjointSet::insert,find,merge,Set::root,MemberIterator"]}
{"id": "C14", "title": "Strongly connected components are computed correctly", "statement": "For every finite directed graph (optionally with unified nodes), FindStronglyConnectedComponents terminates, gives two root nodes the same index iff each reaches the other, numbers components so that every edge goes to an equal or smaller index, returns the number of components and lists each root node exactly once in non-descending index order.", "quantifier": "all finite graphs, all successor iteration orders, all unification maps", "why_tests_cant": "infinitely many graphs; the iterative version re-pushes and re-visits nodes", "anchors": ["jlm/util/TarjanScc.hpp: FindStronglyConnectedComponents"]}
{"id": "C15", "title": "Worklists are duplicate-free and lose nothing", "statement": "For every history of pushes and pops, each worklist (LIFO, FIFO, LRF, two-phase LRF) holds exactly the set of items pushed since they were last popped, HasMoreWorkItems tells whether it is empty, a pop returns an item of the set; LIFO/FIFO pop the most/least recently added, LRF pops an item whose last pop is oldest.", "quantifier": "all push/pop histories", "why_tests_cant": "unbounded histories and arbitrary interleavings", "anchors": ["jlm/util/Worklist.hpp: LifoWorklist,FifoWorklist,LrfWorklist,TwoPhaseLrfWorklist,Workset"]}
{"id": "C16", "title": "Integer helper functions meet their contracts", "statement": "log2Floor, RoundUpToPowerOf2, RoundUpToMultipleOf, BitsRequiredToRepresent, truncateAndSignExtend and truncateAndZeroExtend return the values their documentation states for every input in range, and the inputs outside of which the arithmetic overflows are exactly characterised.", "quantifier": "all integers of the type", "why_tests_cant": "2^64 inputs", "anchors": ["jlm/util/Math.hpp"]}
{"id": "C17", "title": "Top-down traversal visits every node exactly once after its predecessors", "statement": "Traversing an unmodified region with TopDownTraverser returns every node exactly once, each after all nodes it depends on; under graph mutation by the visitor no node is returned twice, no node created during the traversal is returned, and a returned node had all its predecessors visited at that time.", "quantifier": "all acyclic regions, all mutation histories", "why_tests_cant": "all graphs and all interleavings of mutation and traversal", "anchors": ["jlm/rvsdg/traverser.cpp: TopDownTraverserGeneric,TraversalTracker", "jlm/rvsdg/node.cpp: Input::divert_to,Node::addInput,Node::RemoveInputs"]}
{"id": "C18", "title": "Bottom-up traversal visits every node exactly once before its predecessors", "statement": "Traversing an unmodified region with BottomUpTraverser returns every node exactly once, each after all its users; nodes created during traversal are never returned.", "quantifier": "all acyclic regions, all mutation histories", "why_tests_cant": "all graphs and all interleavings of mutation and traversal", "anchors": ["jlm/rvsdg/traverser.cpp: BottomUpTraverserGeneric,TraversalTracker", "jlm/rvsdg/traverser.hpp: BottomUpTraverserGeneric"]}
{"id": "C19", "title": "Pruning removes exactly the dead code", "statement": "Region::prune removes exactly the nodes from which no region result is reachable, keeps the origins of all results, and afterwards no node is without users; removal of inputs/outputs/arguments/results by index keeps the order of the remaining ones and renumbers them consecutively.", "quantifier": "all acyclic regions, all index sets", "why_tests_cant": "all graphs; order of removals is unspecified", "anchors": ["jlm/rvsdg/region.cpp: Region::prune,RemoveArguments,RemoveResults,insertArgument", "jlm/rvsdg/node.cpp: Node::RemoveInputs,RemoveOutputs"]}
{"id": "C20", "title": "Unified pointer objects share one points-to set forever", "statement": "After any sequence of unifications, lookups and insertions, members of a unification report the same root, points-to set and flags, objects never unified (transitively) keep separate sets, unifying loses no pointee and no flag, and root lookup terminates.", "quantifier": "all operation histories", "why_tests_cant": "unbounded histories; path halving mutates in const methods", "anchors": ["jlm/llvm/opt/alias-analyses/PointerObjectSet.cpp: PointerObjectSet::GetUnificationRoot,UnifyPointerObjects,GetPointsToSet,AddToPointsToSet,MarkAs*"]}
{"id": "C21", "title": "The naive Andersen solver computes the least solution", "statement": "SolveNaively terminates on every constraint set, its result satisfies every subset/load/store/call/escape constraint, and every assignment satisfying the constraints and the base facts contains it.", "quantifier": "all constraint sets over any number of pointer objects", "why_tests_cant": "all constraint systems; fixpoint reasoning", "anchors": ["jlm/llvm/opt/alias-analyses/PointerObjectSet.cpp: PointerObjectConstraintSet::SolveNaively,SupersetConstraint::ApplyDirectly,StoreConstraint::ApplyDirectly,LoadConstraint::ApplyDirectly,FunctionCallConstraint::ApplyDirectly,EscapeFlagConstraint,EscapedFunctionConstraint"]}
{"id": "C22", "title": "Every worklist solver configuration agrees with the naive solver", "statement": "Whatever worklist policy, cycle detection, difference propagation and prefer-implicit-pointees options are chosen and whatever order items are popped in, SolveUsingWorklist ends, and IsPointingTo, HasEscaped and IsPointingToExternal then answer the same as after SolveNaively, provided the entries given to hybrid cycle detection are right (every pointee of the pointer has the same solution as the entry in every solution). With arbitrary entries the result still satisfies all constraints.", "quantifier": "all constraint sets, all option combinations, all pop orders", "why_tests_cant": "hundreds of configurations times all constraint systems times all schedules", "anchors": ["jlm/llvm/opt/alias-analyses/PointerObjectSet.cpp: PointerObjectConstraintSet::RunWorklistSolver,SolveUsingWorklist", "jlm/llvm/opt/alias-analyses/DifferencePropagation.hpp", "jlm/llvm/opt/alias-analyses/LazyCycleDetection.hpp", "jlm/llvm/opt/alias-analyses/OnlineCycleDetection.hpp"]}
{"id": "C23", "title": "Offline constraint preprocessing does not change the solution", "statement": "NormalizeConstraints leaves the least solution unchanged, and PerformOfflineVariableSubstitution never removes a pointee, and adds none, from the solution that solving without it gives.", "quantifier": "all constraint sets", "why_tests_cant": "all constraint systems", "anchors": ["jlm/llvm/opt/alias-analyses/PointerObjectSet.cpp: NormalizeConstraints,PerformOfflineVariableSubstitution,CreateOvsSubsetGraph,AssignOvsEquivalenceSetLabels"]}
{"id": "C24", "title": "Solution comparison decides equality of solutions", "statement": "HasIdenticalSolAs returns true exactly when, for every pair of objects, both sets give the same answer to IsPointingTo, HasEscaped and IsPointingToExternal.", "quantifier": "all pairs of pointer object sets", "why_tests_cant": "quantifies over all pairs and implicit pointees", "anchors": ["jlm/llvm/opt/alias-analyses/PointerObjectSet.cpp: PointerObjectSet::HasIdenticalSolAs,IsPointingTo"]}
{"id": "C25", "title": "Type layout is a valid layout", "statement": "For every type the store size, alloc size and alignment are those of the LLVM layout rules: alignments are powers of two; the alloc size is the store size rounded up to the alignment; struct fields lie inside the struct, are aligned (unless packed) and do not overlap; GetFieldOffset returns the position the layout gives the field. For every index list through arrays and structs, a constant GEP offset is the offset of the named sub-object; in-bounds sub-objects lie within the object, are aligned, and different ones are disjoint; getIndexedType is the type of the sub-object; a GEP of only zero indices has offset 0.", "quantifier": "all (recursively nested) types and index lists (sizes below 2^64)", "why_tests_cant": "infinitely many nested types", "anchors": ["jlm/llvm/ir/types.cpp: GetTypeStoreSize,GetTypeAllocSize,GetTypeAlignment,StructType::GetFieldOffset", "jlm/llvm/ir/operators/GetElementPtr.cpp: Constant::getOffsetInBytes,getIndexedType"]}
{"id": "C26", "title": "Loop unrolling preserves loop behaviour", "statement": "Unrolling a theta by any factor executes the original body the same number of times with the same values, both for statically known and unknown trip counts.", "quantifier": "all initial values, bounds, steps, factors and widths", "why_tests_cant": "overflow and zero-trip corner cases over 2^(3n) parameters", "anchors": ["jlm/llvm/opt/unroll.cpp: LoopUnrollInfo::niterations,unroll_known_theta,unroll_unknown_theta,add_remainder"]}
{"id": "C27", "title": "Dead node elimination preserves results and removes only dead values", "statement": "Dead node elimination leaves the value of every live result unchanged for every input, never removes a value a live result depends on, and removes every node no live result depends on.", "quantifier": "all region trees, all inputs", "why_tests_cant": "all graphs", "anchors": ["jlm/llvm/opt/DeadNodeElimination.cpp"]}
{"id": "C28", "title": "Common node elimination only merges nodes that always compute equal values", "statement": "Two outputs that common node elimination treats as congruent have equal values in every execution; replacing one by the other preserves all results.", "quantifier": "all region trees, all inputs", "why_tests_cant": "all graphs; loop-carried congruence is coinductive", "anchors": ["jlm/llvm/opt/CommonNodeElimination.cpp"]}
{"id": "C29", "title": "Invariant value redirection preserves results", "statement": "Redirecting the users of a gamma exit variable or theta loop variable that is invariant, to its origin, leaves the value of every user unchanged for every input and iteration count.", "quantifier": "all gamma/theta nodes, all inputs and iteration counts", "why_tests_cant": "all loops and iteration counts", "anchors": ["jlm/llvm/opt/InvariantValueRedirection.cpp"]}
{"id": "C30", "title": "Constant tracing returns the run-time value", "statement": "If tryGetConstantSignedInteger returns a constant for an output of at most 64 bits, then the output's value at run time, read as a signed integer, is that constant, through any nesting of sign extension, zero extension and truncation; with values of at most 64 bits it never fails, and it finds a constant whenever the leaf is a fully known constant.", "quantifier": "all well-typed nests of extension/truncation operations, all widths, all constants", "why_tests_cant": "unbounded nesting, all widths and values", "anchors": ["jlm/llvm/ir/Trace.cpp: tryGetConstantSignedInteger", "jlm/util/Math.hpp: truncateAndSignExtend,truncateAndZeroExtend"]}
{"id": "C31", "title": "The whole Andersen pipeline agrees with the naive solver", "statement": "Offline variable substitution, then NormalizeConstraints, then SolveUsingWorklist in any configuration - including hybrid cycle detection with the entries that the substitution recorded - ends and answers every IsPointingTo, HasEscaped and IsPointingToExternal query as SolveNaively on the original constraints does.", "quantifier": "all constraint sets, all option combinations, all pop orders", "why_tests_cant": "all constraint systems times all configurations and schedules; the imprecise cases need particular cycles through loads and stores", "anchors": ["jlm/llvm/opt/alias-analyses/Andersen.cpp: SolveConstraints", "jlm/llvm/opt/alias-analyses/PointerObjectSet.cpp: PerformOfflineVariableSubstitution,NormalizeConstraints,SolveUsingWorklist"]}
{"id": "C32", "title": "Local alias analysis answers are true of every execution", "statement": "If LocalAliasAnalysis::Query(p1,s1,p2,s2) answers NoAlias, then in no execution do in-bounds accesses of s1 bytes at p1 and s2 bytes at p2, in the same iteration, share a byte; if it answers MustAlias, p1 and p2 are the same address there. The query always ends, whatever loops the pointers go around, and does not depend on the limit on tracing for its soundness.", "quantifier": "all functions (any nesting of GEPs, selects, gammas, thetas), all executions and iterations, all access sizes, all tracing limits", "why_tests_cant": "all executions of all functions with any number of iterations; a wrong answer shows only when iterations interleave in a particular way", "anchors": ["jlm/llvm/opt/alias-analyses/LocalAliasAnalysis.cpp: Query,QueryOffsets,IsOriginalOriginFullyTraceable", "jlm/llvm/ir/Trace.cpp: TracePointerOriginPrecise,TraceAllPointerOrigins"]}
{"id": "C33", "title": "Converting a function to RVSDG preserves what it computes", "statement": "Annotating the aggregation tree of a function and converting it (ConvertAggregationTreeToLambda) gives a well-formed lambda node whose function returns, for all arguments and all values of globals, exactly what executing the tree returns, whenever that execution ends.", "quantifier": "all aggregation trees (any nesting of branches and loops, any basic blocks), all arguments, all meanings of the operations, all terminating executions", "why_tests_cant": "the annotation is a data-flow analysis over arbitrarily nested trees, and executions have any number of iterations; a missing variable shows only for one combination of reads and partial writes", "anchors": ["jlm/llvm/ir/Annotation.cpp: Annotate,AnnotateReadWrite,AnnotateDemandSet", "jlm/llvm/frontend/InterProceduralGraphConversion.cpp: ConvertThreeAddressCode,Convert,ConvertAggregationTreeToLambda"]}
{"id": "C34", "title": "Aggregating a control flow graph preserves what it computes", "statement": "Whenever aggregate() turns a control flow graph into an aggregation tree, executing the tree has exactly the terminating executions of the graph, and the tree has the branch operations where the conversion to RVSDG looks for them. AggregationNode::normalize changes neither and leaves no linear node as child of a linear node. Together with the conversion (C33), the lambda node that is made from a control flow graph computes the same function as the graph.", "quantifier": "all control flow graphs on which aggregation succeeds, all blocks and meanings of operations, all start states, all terminating executions, whatever strongly connected components are reported", "why_tests_cant": "graphs of any size and nesting; loops are cut open while their bodies are reduced, and an edge that is lost or swapped shows only for particular nestings", "anchors": ["jlm/llvm/ir/aggregation.cpp: aggregate,aggregate_loops,aggregate_acyclic_sese,reduceLoop,reduce_branch,reduce_linear,AggregationNode::normalize", "jlm/llvm/ir/cfg-structure.cpp: StronglyConnectedComponentStructure::Create,IsTailControlledLoop"]}
{"id": "C35", "title": "Preparing a control flow graph (straighten, prune, purge, destruct_ssa) preserves what it computes", "statement": "On every valid control flow graph, straighten, prune, destruct_ssa and purge (the last one on graphs without phi operations) end without a failed assertion, give a valid graph and keep exactly the terminating executions with the same final values of all variables that were there before. Afterwards no block can be merged into its successor (straighten), every block is reachable (prune), no phi operations are left (destruct_ssa), and only endless loops are empty (purge). In particular phi operations that exchange values are still executed in parallel, and operands are selected by the right predecessor.", "quantifier": "all valid control flow graphs with any blocks, edges (parallel edges, loops, unreachable parts) and phi operations, all meanings of operations, all start states, all terminating executions, all orders in which blocks are visited", "why_tests_cant": "graphs of any shape and executions of any length; lost copies and swapped phi operands show only for particular loops", "anchors": ["jlm/llvm/ir/cfg-structure.cpp: straighten,purge,prune,compute_livenodes,update_phi_operands", "jlm/llvm/ir/ssa.cpp: destruct_ssa", "jlm/llvm/frontend/LlvmModuleConversion.cpp: ConvertFunction (2495-2503)", "jlm/llvm/frontend/InterProceduralGraphConversion.cpp: ConvertControlFlowGraph"]}
{"id": "C36", "title": "Control flow restructuring preserves what a function computes", "statement": "RestructureControlFlow turns a valid control flow graph without phi operations, also an irreducible one, into a valid graph with the same entry and exit, such that from every start state both graphs reach their exits or neither does, and the final values of all variables of the program are the same (new variables, and the results of match operations that only decide a branch, excepted). Consequently the whole conversion of a function - SSA destruction, clean-up, restructuring, aggregation, annotation and conversion - gives a lambda node that returns what the function's control flow graph returns.", "quantifier": "all valid control flow graphs of any shape (irreducible loops, several entries and exits, switches), all orders of traversal of the sets, all meanings of operations, all start states, all terminating executions", "why_tests_cant": "graphs of any shape and executions of any length; wrong continuation or repetition variables show only on particular paths of particular graphs, e.g. a switch two of whose cases continue a loop", "anchors": ["jlm/llvm/frontend/ControlFlowRestructuring.cpp: RestructureControlFlow,RestructureLoops,RestructureBranches,ExtractLoop,ReinsertLoop,adjustLoopRepetitionEdge,invertMatchOperation", "jlm/llvm/ir/cfg-structure.cpp: StronglyConnectedComponentStructure", "jlm/llvm/frontend/InterProceduralGraphConversion.cpp: ConvertControlFlowGraph"]}
{"id": "C37", "title": "Constant folding of integer operations computes what LLVM computes", "statement": "Node reduction replaces integer operations and conversions (comparisons, arithmetic, shifts, logic, sext, zext, trunc) on constants, and x - x, by constants. Whenever LLVM defines the value of an expression, the reduced expression has the same value and type, for all values of the remaining variables, in whatever order the reductions are applied; reductions terminate, expressions of constants are reduced to one constant, and no legal program makes folding throw.", "quantifier": "all expressions of integer operations of any depth, all widths, all constants, all values of variables, all orders of reduction", "why_tests_cant": "all pairs of constants of all widths, including signs, overflow, zero divisors and shift amounts at and beyond the width", "anchors": ["jlm/llvm/ir/operators/IntegerOperations.cpp: foldBinaryOperation,foldBinaryOperationConstants,IntegerSubOperation::normalizeAdditiveInverse", "jlm/llvm/ir/operators/ConversionOperations.cpp: SExtOperation::foldConstant,ZExtOperation::foldConstant,TruncOperation::foldConstant", "jlm/llvm/opt/NodeReduction.cpp"]}
{"id": "C38", "title": "Normalizations of memory operations preserve behaviour, in whatever order the nodes are emitted", "statement": "Node reduction rewrites loads, stores, merges, joins and splits of memory states and the merge at the exit of a lambda. If the memory states of a region order all conflicting accesses, then after a rewrite they still do, and the region computes the same values and leaves the same visible memory, for every order in which the nodes of the region before and after the rewrite may be emitted. I/O barriers are removed only from accesses that cannot trap.", "quantifier": "all regions, all meanings of the other operations, all initial memories and arguments, all pairs of topological orders", "why_tests_cant": "a missing memory state edge shows only for some placements of other accesses and some emission orders", "anchors": ["jlm/llvm/ir/operators/Load.cpp: LoadNonVolatileOperation::Normalize*,normalizeIOBarrierAddress", "jlm/llvm/ir/operators/Store.cpp: StoreNonVolatileOperation::Normalize*,normalizeStoreStore,normalizeStoreAllocaSingleUser", "jlm/llvm/ir/operators/MemoryStateOperations.cpp: MemoryStateMergeOperation,MemoryStateJoinOperation,MemoryStateSplitOperation,LambdaExitMemoryStateMergeOperation", "jlm/rvsdg/NodeNormalization.hpp: ReduceNode"]}
{"id": "C39", "title": "The backend's conversion of a function body to a control flow graph preserves behaviour", "statement": "CreateControlFlowGraph converts every well-formed function body to a valid control flow graph in which no block can be merged into its successor. For all arguments and values of the context variables, the execution of the graph ends exactly if the execution of the body ends, and then the variables returned hold the values the body computes; gamma nodes become branches and theta nodes loops, with phi operations only where they are needed.", "quantifier": "all function bodies (any nesting of gamma and theta nodes), all meanings of the simple operations, all arguments", "why_tests_cant": "whether a phi operation can be omitted depends on how loop variables feed each other over an unbounded number of iterations", "anchors": ["jlm/llvm/backend/RvsdgToIpGraphConverter.cpp: CreateControlFlowGraph,ConvertRegion,ConvertSimpleNode,ConvertGammaNode,ConvertThetaNode,RequiresSsaPhiOperation,Context", "jlm/llvm/ir/cfg-structure.cpp: straighten"]}
{"id": "C40", "title": "Copies of nodes and regions compute the same values", "statement": "After Region::copy or Node::copy with a substitution map, every output of the originals has a substitute, and if the substitutes of everything the originals need hold the same values as what they replace, then so do all substitutes; nothing else changes, the copy shares no outputs with anything that existed, and it refers to nothing but itself and the substitutes. A copy can be made whenever the map has a substitute for everything the originals need.", "quantifier": "all lists of nodes of function bodies (any nesting of gamma and theta nodes), all substitution maps, all meanings of the simple operations, all values", "why_tests_cant": "nested regions are copied with maps of their own, and a loop's copy must agree with the original in every iteration", "anchors": ["jlm/rvsdg/region.cpp: Region::copy", "jlm/rvsdg/simple-node.cpp: SimpleNode::copy", "jlm/rvsdg/gamma.cpp: GammaNode::copy", "jlm/rvsdg/theta.cpp: ThetaNode::copy", "jlm/rvsdg/substitution.hpp: SubstitutionMap"]}
{"id": "C41", "title": "Node sinking preserves the meaning of a module and ends", "statement": "NodeSinking, which moves nodes whose only user is a gamma node into the branches of that gamma node, leaves the value of every export (and the behaviour of every function for all arguments) exactly as it was, produces a well-formed module, and ends although moved nodes are handled again in the nested regions. After pullin_top no node is left that feeds nothing but entry variables of the gamma node.", "quantifier": "all well-formed modules with any nesting of regions, all meanings of the operations, all arguments", "why_tests_cant": "moved nodes can be structural nodes, are copied into every branch, and enable further moves", "anchors": ["jlm/llvm/opt/pull.cpp: pull,pullin_node,cleanup,pullin_top,isSingleSuccessor,is_used_in_nsubregions,NodeSinking::Run"]}
{"id": "C42", "title": "Loop unswitching keeps what functions return", "statement": "LoopUnswitching, which turns a loop whose body is a gamma node controlled by the loop's predicate into a gamma node with a loop in its repetition branch and the exit branch after it, produces a well-formed module with the same imports in which every export behaves at least as before: wherever a value (or the result of a function for some arguments) was defined, it is defined and the same. This holds whatever order loops are handled in, for nested loops and after repeated pruning.", "quantifier": "all well-formed modules with any nesting of regions, all orders of visiting nodes, all monotone meanings of the operations, all arguments, any number of iterations", "why_tests_cant": "the loop may run any number of iterations, nodes are first moved into the branches, and copies of the predicate nodes and of the branches go to three places", "anchors": ["jlm/llvm/opt/LoopUnswitching.cpp: IsUnswitchable,SinkNodesIntoGamma,CollectPredicateNodes,UnswitchLoop,HandleRegion,Run", "jlm/llvm/opt/PredicateCorrelation.cpp: computeMatchCorrelation,determineGammaSubregionRoles"]}
{"id": "C43", "title": "Predicate correlation keeps what functions return, and ends", "statement": "PredicateCorrelation, which replaces the predicate of a loop that comes from a gamma node with constants in its branches (directly or through a match) by the predicate of that gamma node, produces a well-formed module with the same imports, exports and outputs in which every export behaves at least as before. The repeated replacement in one loop ends with a predicate that cannot be replaced further, so a second run of the pass changes nothing.", "quantifier": "all well-formed modules with any nesting of regions, all monotone meanings of the operations that interpret constants and match operations, all arguments, any number of iterations", "why_tests_cant": "chains of correlated gamma nodes can be of any length, and the loop may run any number of iterations", "anchors": ["jlm/llvm/opt/PredicateCorrelation.cpp: extractConstantAlternatives,computeControlConstantCorrelation,computeMatchConstantCorrelation,correlatePredicatesInRegion,correlatePredicatesInTheta,handleControlConstantCorrelation,handleMatchConstantCorrelation,Run"]}
{"id": "C44", "title": "Node hoisting keeps what functions return", "statement": "NodeHoisting, which moves simple nodes out of loops and branches into a surrounding region of the same function when their operands do not depend on the region, produces a well-formed module with the same imports and exports in which every export behaves at least as before. A node leaves a loop only if its operands are loop invariant, are a memory state that the node itself hands to the next iteration, or are results of nodes that leave the loop too; a node that takes a memory or I/O state never leaves a branch.", "quantifier": "all well-formed modules with any nesting of loops and branches, all orders in which nodes are hoisted, all monotone meanings of the operations, all arguments, any number of iterations", "why_tests_cant": "a wrongly hoisted operation changes the result only for certain iteration counts, memory contents and nestings of regions", "anchors": ["jlm/llvm/opt/push.cpp: NodeHoisting::isInvariantMemoryStateLoopVar,computeTargetRegion,markNodes,getOperandsFromTargetRegion,copyNodeToTargetRegion,hoistNodes,hoistNodesInLambda,hoistNodesInRootRegion,Run", "jlm/rvsdg/node.cpp: RouteToRegion"]}
{"id": "C45", "title": "Chain recurrences predict the values of loop variables", "statement": "If ScalarEvolution gives a loop variable, or a value computed in a loop, a chain recurrence {a,+,b,+,c,...} without unknown operands, then in every iteration the value is the one the chain recurrence describes: a in the first iteration, growing from one iteration to the next by the value of {b,+,c,...}. Folding of sums and products of chain recurrences keeps their values in every iteration.", "quantifier": "all loops, all start values (constants or not), all expressions of additions, subtractions, multiplications and shifts, all iteration numbers, all orders in which variables are analysed, any commutative ring of values (integers or integers modulo 2^n)", "why_tests_cant": "a wrong recurrence agrees with the program in the first iterations and differs later or for other start values; the number of iterations and the degree of the recurrence are unbounded", "anchors": ["jlm/llvm/opt/ScalarEvolution.cpp: PerformSCEVAnalysis,GetOrCreateSCEVForOutput,FindDependenciesForSCEV,GetOrCreateChainRecurrence,GetOrCreateStepForSCEV,ApplyAddFolding,ComputeProductOfChrecs,ApplyMulFolding,GetNegativeSCEV,CanCreateChainRecurrence,HasCycleThroughOthers,IsUnknown", "jlm/llvm/opt/ScalarEvolution.hpp: SCEVChainRecurrence"]}
{"id": "C46", "title": "Intrusive lists are sequences, and lists that share an anchor do not disturb each other", "statement": "After any history of push_back, push_front, insert, erase, splice, swap and clear, iterating over a list forwards gives the elements in the order these operations put them, iterating backwards gives the reverse order, first, last, empty and size agree with it, and an operation on one list changes no other list although all of them share the link fields of the elements. Diverting the users of an output appends them, in order, to the users of the new origin and leaves none behind.", "quantifier": "all numbers of lists and elements, all histories of operations that respect the preconditions (an inserted element is in no list, an erased one is in the list), all splices within one list or between two lists, all splice positions and ranges", "why_tests_cant": "a wrong link shows up only later, in another direction of traversal or in another list; histories are unbounded", "anchors": ["jlm/util/intrusive-list.hpp: IntrusiveList::push_back,push_front,insert,erase,splice,swap,clear,size", "jlm/rvsdg/node.hpp: Output::divert_users", "jlm/rvsdg/node.cpp: Input::divert_to,Output::add_user,Output::remove_user"]}
{"id": "C47", "title": "Inlining preserves what a module does", "statement": "Whatever calls of known functions are inlined, in whatever order and however deeply they are nested in loops, branches, functions and recursive definitions, the resulting module is well-formed, has the same imports, and every export of it behaves as before.", "quantifier": "all well-formed modules, all functions and calls (through context variables, entry variables and invariant loop variables), all sequences of inlined calls (so all heuristics), all meanings of operations in which a call runs the function it calls, only calls look at the function behind a value and an I/O barrier hands on its operand", "why_tests_cant": "inlining copies arbitrary bodies into arbitrary contexts and routes context variables through any nesting of nodes; tests compare a few graphs", "anchors": ["jlm/llvm/opt/inlining.cpp: inlineCall,routeContextVariablesToRegion,FunctionInlining::Run,visitInterProceduralRegion", "jlm/rvsdg/node.cpp: RouteToRegion", "jlm/rvsdg/region.cpp: Region::copy"]}
{"id": "C48", "title": "jlc runs the commands in an order in which they work and writes what it should", "statement": "For every set of input files that jlc accepts, each file is compiled before it is linked, the run succeeds if the input files exist, the output file is linked from the object code of the input files in their order (with -c: every object file holds the object code of its source file), and no other file of the user is touched.", "quantifier": "all lists of input files and paths, -c and -o, all behaviours of clang, jlm-opt, llc and the linker on contents, all iteration orders of the hash sets of outgoing edges", "why_tests_cant": "the order of the commands depends on the addresses of heap objects and on the mix of input files; tests run a few graphs", "anchors": ["jlm/tooling/CommandGraph.cpp: SortNodesTopological,Run", "jlm/tooling/CommandGraphGenerator.cpp: JlcCommandGraphGenerator::GenerateCommandGraph", "jlm/tooling/CommandLine.cpp: JlcCommandLineParser::ParseCommandLineArguments", "jlm/tooling/CommandLine.hpp: ToObjectFile,IsObjectFile", "jlm/util/file.hpp: FilePath"]}
{"id": "C49", "title": "Mod/ref summaries cover every memory access and keep conflicting accesses apart", "statement": "For every program and points-to graph, the region-aware mod/ref analysis ends, and in every function one memory node stands for all accesses to a piece of memory that may be written: if a node (load, store, call, gamma, theta, ...) may read or write it, directly, in a nested region, in a called function or in a function that other modules call back, its summary has that memory node with that effect. So two nodes that may conflict share a memory node. Summaries name memory that is private to the module only for nodes that may access it.", "quantifier": "all programs, all points-to graphs, all orders in which the worklist hands out its items, all pairs of nodes of a function", "why_tests_cant": "call graphs, points-to graphs and the order of the worklist are unbounded; tests compare summaries of a few small programs", "anchors": ["jlm/llvm/opt/alias-analyses/RegionAwareModRefSummarizer.cpp: RegionAwareModRefSet,CreateSimpleAllocaSet,getReachableSimpleAllocas,createCallGraph,CreateNonReentrantAllocaSets,AnnotateFunction,SolveModRefSetConstraintGraph,VerifyBlocklists,determineReadOnlyMemory,materializeSetsInFunction"]}
{"id": "C50", "title": "Memory state encoding keeps what functions do", "statement": "If the mod/ref sets cover the memory that nodes access, and memory allocated in a gamma or theta node is not used outside of it unless its memory node exists there already, then the function after memory state encoding gives, in every order that its edges allow, exactly the results and memory that the nodes give in program order; and the encoded function is well-formed: operands come from before, and each state that enters a region also leaves it.", "quantifier": "all functions (with nested gamma and theta nodes), all mod/ref sets, all meanings of the operations, all values and memories, all evaluation orders", "why_tests_cant": "tests look at the edges of a few functions; that no order the edges allow changes what is computed is a claim about all functions, all memory contents and all orders", "anchors": ["jlm/llvm/opt/alias-analyses/MemoryStateEncoder.cpp: StateMap,RegionalizedStateMap,EncodeRegion,EncodeAlloca,EncodeMalloc,EncodeLoad,EncodeStore,EncodeCall,EncodeLambdaEntry,EncodeLambdaExit,EncodeGammaEntry,EncodeGammaExit,EncodeThetaEntry,EncodeThetaExit"]}
{"id": "C51", "title": "Dominator trees are exact", "statement": "For every closed control flow graph, domtree ends and returns a tree with every node exactly once, in which the parent of a node is its immediate dominator, the nodes above a node are exactly its other dominators, and the depth is their number; postorder and reverse_postorder list every reachable node once, in the reverse postorder the entry comes first and every other node has a predecessor before it.", "quantifier": "all closed control flow graphs (also irreducible ones), all orders of edges, all iteration orders of hash sets", "why_tests_cant": "dominance quantifies over all paths; the iteration works on partial results, and that it ends with exact results for all graphs needs invariants", "anchors": ["jlm/llvm/ir/domtree.cpp: domtree,intersect,build_domtree,DominatorTreeNode::add_child", "jlm/llvm/ir/cfg.cpp: postorder,reverse_postorder"]}
{"id": "C52", "title": "Predicted trip counts are exact", "statement": "For every loop that is repeated while a comparison of a value with chain recurrence {a,+,b} or {a,+,b,+,c} and a constant holds, the trip count that scalar evolution reports is the number of times the body is executed; for affine recurrences, and for quadratic ones with increments of one sign, a count is reported for every loop that ends, and none is reported for a loop that does not end.", "quantifier": "all recurrences of constants, bounds, comparisons, word sizes and iteration counts", "why_tests_cant": "the count comes from a closed formula with rounding and boundary cases, and must agree with the loop for all operands; a wrong count miscompiles everything that relies on it", "anchors": ["jlm/llvm/opt/ScalarEvolution.cpp: GetPredictedTripCount,ComputeBackedgeTakenCountForChrec,SolveQuadraticEquation,IsStepPositive,IsStepNegative,IsStepZero", "jlm/llvm/opt/ScalarEvolution.hpp: SCEVChainRecurrence::GetStep"]}
{"id": "C53", "title": "Store value forwarding keeps the values of loads", "statement": "If store value forwarding replaces a load, then every execution of the original program whose alias analysis answers are right is an execution of the resulting program too, and every value computed is the same, except that undefined values may be replaced by others: the forwarded value is what the load would have read, also when it passes through conditionals and loops.", "quantifier": "all graphs of nested gamma and theta nodes, all loads, stores and alias answers, all executions (any number of iterations), all memories", "why_tests_cant": "tracing follows memory states through arbitrary nestings of regions and back edges with memoised partial results; a wrong value only shows up for particular paths and iteration counts", "anchors": ["jlm/llvm/opt/StoreValueForwarding.cpp: traceAllMemoryStateInputs,getLastValueOriginBeforeInput,getLastValueOriginBeforeInputInternal,forwardValueOrigins,getValueOriginOutput,connectUnroutedLoopPosts,processLoadWithMemoryStates"]}
{"id": "C54", "title": "Splitting of struct allocas keeps results and memory", "statement": "If aggregate alloca splitting replaces struct allocas by one alloca for each element, then every execution of the original function whose element addresses really belong to the alloca and whose accesses stay within one element is an execution of the resulting function too: it ends with the same results, and with the same contents of all the objects that existed before or were made by others, also when addresses pass through conditionals and loops and allocas are executed several times.", "quantifier": "all function bodies of nested gamma and theta nodes, all (nested, packed) struct types, all uses of addresses, all executions (any number of iterations), all memories, all operations that do not access objects whose address they are not given", "why_tests_cant": "an address may flow through arbitrary region nestings before it is used; one missed user (a store of the address, a call) makes the objects differ only in particular executions", "anchors": ["jlm/llvm/opt/AggregateAllocaSplitting.cpp: isSplitableType,isSplitable,checkGetElementPtrUsers,findSplitableAllocaNodes,createElementAllocaNodes,splitAllocaNode,splitAllocaNodes"]}
{"id": "C55", "title": "Intrusive hash tables contain what has been inserted", "statement": "After every history of insert, erase (by element, by key, by range), clear, swap and move on any number of intrusive hash tables that share an anchor, every table contains exactly the elements that have been inserted and not erased: size and empty agree, find returns the oldest element with the key (or end), and iteration visits every element exactly once; erasing elements does not change the order in which the others are visited. No operation reads a bucket out of bounds, follows a wrong link or fails to terminate.", "quantifier": "all histories of valid operations, all element and key types, all hash functions (also bad ones), all key equalities compatible with the hash, all initial contents of the anchors", "why_tests_cant": "rehashing relinks all elements while it still reads the old links; damage depends on the sequence of operations, collisions, and the number of buckets", "anchors": ["jlm/util/intrusive-hash.hpp: IntrusiveHash::insert,erase,find,clear,swap,begin,Iterator::operator++,rehash,private_insert_into,lookup,first_object"]}
{"id": "C56", "title": "Loop strength reduction preserves what a loop computes", "statement": "LoopStrengthReduction does not change the behaviour of a loop: in every iteration all loop variables, the memory and the operands of all loads, stores, calls and comparisons are the same as before, every new induction variable has the value of the operation it replaces, and the loop ends after the same number of iterations with the same results. Every operation that is a candidate is replaced; hoisting its start value and its step never fails.", "quantifier": "all loops (any number of variables, all expressions), all start values, all orders of the analysis, all meanings of the operations that are not arithmetic, all iterations", "why_tests_cant": "the replacement must agree in every iteration and for all values; short loops and small values hide wrong starts, steps and wrap-around", "anchors": ["jlm/llvm/opt/LoopStrengthReduction.cpp: ReduceStrength,ProcessOutput,ReplaceCandidateOperation,HoistSCEVExpresssion,CreateNewArithmeticInductionVariable,CreateNewGEPInductionVariable,IsValidCandidateOperation,DependsOnInductionVariable,ContainsMul", "jlm/llvm/opt/ScalarEvolution.cpp"]}
{"id": "C57", "title": "Load chain separation keeps writes and reads in order", "statement": "LoadChainSeparation makes loads (and loops that only load) on the same memory state independent of each other, and nothing else: two memory operations of which at least one writes are ordered after the transformation if they were before, no new order is introduced and no operation is lost. So every order of execution that the transformed memory states allow gives the same results and memory as every order that the original ones allow, and loads that follow each other can be executed in any order.", "quantifier": "all regions (any nesting of loops and branches, any number of memory states), all meanings of the operations, all orders of execution", "why_tests_cant": "a lost dependency shows only if some later pass or the backend happens to choose the wrong order, and only for some memory contents", "anchors": ["jlm/llvm/opt/LoadChainSeparation.cpp: separateReferenceChainsInRegion,separateRefenceChainsInTheta,separateReferenceChains,extractReferenceSubchains,traceModRefChains"]}
{"id": "C58", "title": "Output tracing finds the source of a value", "statement": "OutputTracer::trace (and traceOutput, traceOutputIntraProcedurally, llvm::traceOutput) returns an output that has the same value as the given one in every execution, wherever the given output is computed (in the same iteration of every loop, call and branch that both are in). It terminates without failing an assertion, the result precedes the given output in every topological order, with `withinRegion` it stays in this region, without entering phi nodes it is in an enclosing region, it cannot be traced any further, and a cache filled by any sequence of queries on the same graph does not change the answers.", "quantifier": "all RVSDGs (any nesting of gamma, theta, lambda, delta, phi), all configurations, all sequences of queries, all executions", "why_tests_cant": "loop invariance has to hold for every number of iterations and every nesting; the cache depends on the history of queries", "anchors": ["jlm/rvsdg/Trace.cpp: OutputTracer::trace,traceStep,tryTraceThroughGamma,tryTraceThroughTheta,insertInCache,lookupInCache", "jlm/llvm/ir/Trace.cpp: OutputTracer::traceStep,traceOutput", "jlm/rvsdg/gamma.cpp: GammaNode::mapBranchArgumentToInput"]}
{"id": "C59", "title": "Region predicate trace: a denied path is never taken", "statement": "CheckPredicatesSatisfiable(origin, target) returns false only if no value made in the origin region can be the value used in the target region: in no execution has the target region been entered while the origin region is the branch (or last iteration) that was executed of the nodes before it. GetRegionPredicateAssignConstraints returns exactly the values that the predicate can have when it comes from the region, GetRegionSatRequired exactly the predicates around the region, and all answers stay right when the graph is changed between the queries.", "quantifier": "all graphs (any nesting of gamma and theta nodes), all pairs of regions, all executions, all histories of queries and changes of edges", "why_tests_cant": "a wrong denial only shows if the store in the denied region is the one that counts in an execution; a stale answer only after particular changes", "anchors": ["jlm/rvsdg/RegionPredicateTrace.cpp: CheckPredicatesSatisfiable,GetRegionPredicateAssignConstraints,GetRegionSatRequired,ComputeAndRecord,Compute,Observer", "jlm/rvsdg/RegionPredicateTrace.hpp: PredicateValueRange,RegionPredicateTrace", "jlm/llvm/opt/StoreValueForwarding.cpp: StoreValueForwarding"]}
{"id": "C60", "title": "Points-to graph: it says what it was told, and alias answers on it are true of memory", "statement": "After any sequence of calls the graph reports exactly the nodes, flags, sizes, registers and edges (explicit, or implicit through everything externally available) that the calls created, rejects exactly the illegal calls, and its lists and counters agree. Query answers NoAlias only if the two accesses share no byte, MustAlias only if they start at the same address, whenever the graph is right about where pointers point and about object sizes; it does not depend on the order of the accesses. isSupergraphOf is true exactly if all nodes, availability and edges carry over. The graph built from a solved pointer object set points as the set says.", "quantifier": "all sequences of calls, all graphs, all pairs of registers and sizes, all memories the graph describes, all pointer object sets", "why_tests_cant": "a wrong NoAlias only shows with a particular mix of implicit and explicit targets, sizes and unifications; nothing in a test run touches memory", "anchors": ["jlm/llvm/opt/alias-analyses/PointsToGraph.cpp: addNodeForAlloca,addNodeForDelta,addNodeForImport,addNodeForLambda,addNodeForMalloc,addNodeForRegisters,mapRegisterToNode,markAsTargetsAllExternallyAvailable,addTarget,numEdges,isSupergraphOf,addNode", "jlm/llvm/opt/alias-analyses/PointsToGraph.hpp: PointsToGraph", "jlm/llvm/opt/alias-analyses/PointsToGraphAliasAnalysis.cpp: Query,TryGetSingleTarget,IsRepresentingSingleMemoryLocation", "jlm/llvm/opt/alias-analyses/Andersen.cpp: ConstructPointsToGraphFromPointerObjectSet"]}
{"id": "C61", "title": "I/O barrier elimination: which loads lose their barrier, and that no invalid load appears", "statement": "The pass changes only the addresses of loads: a load loses its barrier exactly if some load of at least its size in the same module reads the same address without a barrier or behind a barrier at the entry of a function. If no execution of a function loads from an invalid address, then no execution after the pass does, in whatever order the nodes run and wherever a call stops; addresses keep their values.", "quantifier": "all graphs, all orders of the traversal, all executions of a function body and all sets of calls that stop, all values", "why_tests_cant": "a load that runs too early only faults if a call exits and the scheduler chooses the new order", "anchors": ["jlm/llvm/opt/IOBarrierElimination.cpp: markDereferenceable,markRegion,markNode,sweepRegion,Run", "jlm/llvm/ir/operators/IOBarrier.hpp: IOBarrierOperation", "jlm/llvm/ir/operators/Load.cpp: normalizeIOBarrierAddress", "jlm/llvm/opt/inlining.cpp: inlineCall"]}
{"id": "C62", "title": "HLS sinks and forks: every signal gets exactly one reader and keeps its value", "statement": "The insertion of sinks and then forks only adds sink and fork nodes; every input and result reads the same value as before, through at most one new fork; afterwards no output is read twice and every output below the root region is read; a fork is a constant fork exactly if it copies the output of a node without inputs. The verification that follows passes exactly if the module is one function made of loops and simple nodes with one reader per node output, so it passes after both insertions.", "quantifier": "all consistent graphs of any nesting depth, all numbers and orders of users", "why_tests_cant": "the insertion changes lists of users while it walks over them; a wrong step shows only for certain numbers and orders of users", "anchors": ["jlm/hls/backend/rvsdg2rhls/add-sinks.cpp: SinkInsertion::Run,HandleRootRegion,AddSinksToRegion", "jlm/hls/backend/rvsdg2rhls/add-forks.cpp: ForkInsertion::Run,AddForksToRegion,AddForkToOutput,IsConstantFork", "jlm/hls/backend/rvsdg2rhls/check-rhls.cpp: check_rhls", "jlm/rvsdg/node.cpp: divert_to"]}
{"id": "C63", "title": "HLS gamma conversion: branches and muxes compute what the gamma computes", "statement": "The network of branch and mux nodes into which a region with gamma nodes of any nesting is converted produces, for every sequence of instances, the results of the region in the order of the instances and with no further tokens, whether gammas are converted speculatively or not; loops count as operations. The nodes of a subregion of a gamma that is not converted speculatively get tokens only for the instances that select that subregion (nodes that depend on constants only aside). A gamma is converted speculatively exactly if it has no state outputs and nothing nested in it is a loop or a gamma with state outputs.", "quantifier": "all regions and nestings of gammas, all operations, all sequences of values and predicates, of any length", "why_tests_cant": "a wrong pairing of tokens only shows for particular sequences of predicates; circuits are simulated on a few inputs", "anchors": ["jlm/hls/backend/rvsdg2rhls/GammaConversion.cpp: ConvertGammaNodeWithoutSpeculation,ConvertGammaNodeWithSpeculation,CanGammaNodeBeSpeculative,ConvertGammaNodesInStructuralNode", "jlm/hls/ir/hls.hpp: BranchOperation,MuxOperation"]}
