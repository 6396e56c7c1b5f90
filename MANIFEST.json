{
 "claims": [
  {
   "property": "C01",
   "status": "proved",
   "theorems": [
    "Jlm.Bits.C01_add",
    "Jlm.Bits.C01_sub",
    "Jlm.Bits.C01_neg",
    "Jlm.Bits.C01_mul",
    "Jlm.Bits.C01_land",
    "Jlm.Bits.C01_lor",
    "Jlm.Bits.C01_lxor",
    "Jlm.Bits.C01_lnot",
    "Jlm.Bits.C01_width_mismatch",
    "Jlm.Bits.isKnown_iff_repr",
    "Jlm.Bits.repr_injective"
   ],
   "note": "All widths and values; Verif/Bits/Props.lean"
  },
  {
   "property": "C02",
   "status": "proved",
   "theorems": [
    "Jlm.Bits.C02_ult",
    "Jlm.Bits.C02_ule",
    "Jlm.Bits.C02_ugt",
    "Jlm.Bits.C02_uge",
    "Jlm.Bits.C02_ne",
    "Jlm.Bits.C02_eq",
    "Jlm.Bits.C02_slt",
    "Jlm.Bits.C02_sle",
    "Jlm.Bits.C02_sgt",
    "Jlm.Bits.C02_sge",
    "Jlm.Bits.C02_width_mismatch"
   ],
   "note": "All widths and values"
  },
  {
   "property": "C03",
   "status": "proved",
   "theorems": [
    "Jlm.Bits.C03_slice",
    "Jlm.Bits.C03_slice_value",
    "Jlm.Bits.C03_trunc",
    "Jlm.Bits.C03_concat",
    "Jlm.Bits.C03_zext",
    "Jlm.Bits.C03_sext",
    "Jlm.Bits.C03_shl",
    "Jlm.Bits.C03_shr",
    "Jlm.Bits.C03_ashr",
    "Jlm.Bits.C03_shift_values",
    "Jlm.Bits.C03_four_valued_shl"
   ],
   "note": "All widths, shift amounts, bounds"
  },
  {
   "property": "C04",
   "status": "proved",
   "theorems": [
    "Jlm.Bits.C04_udiv",
    "Jlm.Bits.C04_umod",
    "Jlm.Bits.C04_sdiv",
    "Jlm.Bits.C04_smod",
    "Jlm.Bits.C04_udiv_by_zero",
    "Jlm.Bits.C04_umulh",
    "Jlm.Bits.C04_smulh"
   ],
   "note": "Non-zero divisors; behaviour for a zero divisor is characterised too"
  },
  {
   "property": "C05",
   "status": "partial",
   "theorems": [
    "Jlm.Bits.C05_arith_partial",
    "Jlm.Bits.C05_shift_partial",
    "Jlm.Bits.C05_compare_partial",
    "Jlm.Bits.C05_udiv_fails",
    "Jlm.Bits.C05_umod_fails"
   ],
   "note": "Proved for logic, add/sub/neg/mul, shifts and comparisons. False of the code for udiv/umod (and hence sdiv/smod): refuted with concrete witnesses."
  },
  {
   "property": "C06",
   "status": "partial",
   "theorems": [
    "Jlm.Bits.C06_ofInt",
    "Jlm.Bits.C06_ofInt_accepts",
    "Jlm.Bits.C06_unrepresentable_accepted",
    "Jlm.Bits.C06_toUint",
    "Jlm.Bits.C06_toUint_known",
    "Jlm.Bits.C06_toInt",
    "Jlm.Bits.C06_toInt_known",
    "Jlm.Bits.C06_roundtrip_int",
    "Jlm.Bits.C06_roundtrip_uint",
    "Jlm.Bits.C06_string_roundtrip",
    "Jlm.Bits.C06_string_exact",
    "Jlm.Bits.C06_string_rejects",
    "Jlm.Bits.constructors_nonempty"
   ],
   "note": "Everything proved except 'rejects every unrepresentable value', which is false of the code (-2 on one bit is accepted, C06_unrepresentable_accepted); C06_ofInt characterises exactly what is accepted."
  },
  {
   "property": "C07",
   "status": "partial",
   "theorems": [
    "Jlm.Rvsdg.BitExpr.C07_normalizeIdempotent",
    "Jlm.Rvsdg.BitExpr.C07_foldConstant",
    "Jlm.Rvsdg.BitExpr.C07_narrowSlice",
    "Jlm.Rvsdg.BitExpr.C07_distributeSlice",
    "Jlm.Rvsdg.BitExpr.C07_normalizeConcat_partial",
    "Jlm.Rvsdg.BitExpr.C07_normalizeConcat_aborts",
    "Jlm.Rvsdg.BitExpr.C07_flattenConcat_partial",
    "Jlm.Rvsdg.BitExpr.C07_flattenConcat_aborts"
   ],
   "note": "All slice rewrites, and concat flattening/merging whenever a replacement is returned; the concat normalisations abort (failed assertion) on some well-typed nodes with 1 or >2 operands, shown by counterexamples."
  },
  {
   "property": "C08",
   "status": "partial",
   "theorems": [
    "Jlm.Rvsdg.Binary.C08_flatten",
    "Jlm.Rvsdg.Binary.C08_reduceOperands",
    "Jlm.Rvsdg.Binary.C08_commutative_exhaustive",
    "Jlm.Rvsdg.Binary.C08_normalizeBinary",
    "Jlm.Rvsdg.Binary.C08_normalizeFlattened_partial",
    "Jlm.Rvsdg.Binary.C08_normalizeFlattened_aborts",
    "Jlm.Rvsdg.Binary.C08_reduce_linear",
    "Jlm.Rvsdg.Binary.C08_reduce_parallel",
    "Jlm.Rvsdg.Binary.C08_reduce_parallel_pow2",
    "Jlm.Rvsdg.Binary.C08_reduce_parallel_order",
    "Jlm.Rvsdg.Binary.C08_reduceRegion",
    "Jlm.Rvsdg.Binary.C08_test_reduce"
   ],
   "note": "Value preservation for all rewrites; NormalizeFlattenedBinaryOperation aborts when more than two operands remain, and parallel expansion needs commutativity (both shown by theorems)."
  },
  {
   "property": "C09",
   "status": "partial",
   "theorems": [
    "Jlm.Rvsdg.Gamma.C09_predicate",
    "Jlm.Rvsdg.Gamma.C09_invariant_partial",
    "Jlm.Rvsdg.Gamma.C09_invariant_keep",
    "Jlm.Rvsdg.Gamma.C09_invariant_wrong",
    "Jlm.Rvsdg.Gamma.C09_controlConstant_partial",
    "Jlm.Rvsdg.Gamma.C09_controlConstant_wrong"
   ],
   "note": "Predicate reduction fully; invariant and control-constant reduction proved for the mappings/wirings where the code is right and refuted elsewhere (findings 2, 3). The inside of subregions is opaque."
  },
  {
   "property": "C10",
   "status": "partial",
   "theorems": [
    "Jlm.Rvsdg.Gamma.C10_ifConversion_partial",
    "Jlm.Rvsdg.Gamma.C10_wide_match_wrong"
   ],
   "note": "All two-way gammas with match operands up to 64 bits (or case values below 2^63); refuted beyond (finding 16)."
  },
  {
   "property": "C11",
   "status": "partial",
   "theorems": [
    "Jlm.Util.HashSet.C11_refinement_partial",
    "Jlm.Util.HashSet.C11_isSubsetOf_is_size_comparison",
    "Jlm.Util.HashSet.C11_isSubsetOf_complete",
    "Jlm.Util.HashSet.C11_isSubsetOf_wrong",
    "Jlm.Util.HashSet.C11_unionWithAndClear_result",
    "Jlm.Util.HashSet.C11_unionWithAndClear_result_wrong"
   ],
   "note": "Refinement of every operation to finite sets is proved except for IsSubsetOf (which only compares sizes; refuted with a witness, completeness direction proved) and the return value of UnionWithAndClear (exactly characterised, refuted as change report). Hash table internals abstracted to a duplicate free list."
  },
  {
   "property": "C12",
   "status": "proved",
   "theorems": [
    "Jlm.Util.BijectiveMap.C12_bijection",
    "Jlm.Util.BijectiveMap.C12_lookup_inverse",
    "Jlm.Util.BijectiveMap.C12_insert",
    "Jlm.Util.BijectiveMap.C12_counts"
   ],
   "note": "All operation histories; both hash maps modelled as association lists."
  },
  {
   "property": "C13",
   "status": "proved",
   "theorems": [
    "Jlm.Util.DisjointSet.C13_total",
    "Jlm.Util.DisjointSet.C13_partition",
    "Jlm.Util.DisjointSet.C13_results"
   ],
   "note": "All histories of insert, find, find_or_insert, merge, nmembers, iteration and clear."
  },
  {
   "property": "C14",
   "status": "proved",
   "theorems": [
    "Jlm.Util.Tarjan.C14_scc",
    "Jlm.Util.Tarjan.C14_scc_identity"
   ],
   "note": "All finite graphs, unification maps and successor orders; termination is part of the theorem."
  },
  {
   "property": "C15",
   "status": "proved",
   "theorems": [
    "Jlm.Util.Worklist.C15_lifo",
    "Jlm.Util.Worklist.C15_fifo",
    "Jlm.Util.Worklist.C15_later_asymm",
    "Jlm.Util.Worklist.C15_lrf",
    "Jlm.Util.Worklist.C15_twoPhaseLrf",
    "Jlm.Util.Worklist.C15_workset"
   ],
   "note": "LIFO, FIFO, LRF, two-phase LRF and Workset, all histories (LRF variants: fewer than 2^64-1 pops)."
  },
  {
   "property": "C16",
   "status": "proved",
   "theorems": [
    "Jlm.Util.Math.C16_log2Floor",
    "Jlm.Util.Math.C16_roundUpToPowerOf2",
    "Jlm.Util.Math.C16_roundUpToMultipleOf",
    "Jlm.Util.Math.C16_roundUpToMultipleOf_ub",
    "Jlm.Util.Math.C16_bitsRequired",
    "Jlm.Util.Math.C16_truncateAndSignExtend",
    "Jlm.Util.Math.C16_truncateAndZeroExtend",
    "Jlm.Util.Math.C16_truncate_boundary"
   ],
   "note": "All standard integer types; undefined behaviour exactly characterised (intermediate overflow of RoundUpToMultipleOf, keepBits = 0)."
  },
  {
   "property": "C17",
   "status": "proved",
   "theorems": [
    "Jlm.Rvsdg.Trav.topDown_next_safe",
    "Jlm.Rvsdg.Trav.topDown_next_terminates",
    "Jlm.Rvsdg.Trav.topDown_complete",
    "Jlm.Rvsdg.Trav.topDown_unmodified",
    "Jlm.Rvsdg.Trav.topDown_unmodified_order",
    "Jlm.Rvsdg.Trav.topDown_incomplete_on_bulk_removal"
   ],
   "note": "All histories of next() and region mutations (node creation/destruction, adding/removing/diverting inputs and results), all enumeration orders; safety (live, pre-existing, never twice, predecessors returned before or created during traversal), termination of next(), completeness when the graph is acyclic. Completeness additionally needs inputs removed one at a time: topDown_incomplete_on_bulk_removal shows RemoveInputs with several indices loses nodes (finding 20)."
  },
  {
   "property": "C18",
   "status": "partial",
   "theorems": [
    "Jlm.Rvsdg.Trav.bottomUp_unmodified",
    "Jlm.Rvsdg.Trav.bottomUp_unmodified_order",
    "Jlm.Rvsdg.Trav.bottomUp_next_live_once",
    "Jlm.Rvsdg.Trav.bottomUp_next_safe_partial",
    "Jlm.Rvsdg.Trav.bottomUp_complete_partial",
    "Jlm.Rvsdg.Trav.bottomUp_creation_breaks_order"
   ],
   "note": "Unmodified regions: exactly once, after all users. Under any mutation: never a destroyed node, never twice. Under mutations without node creation: after all users, and complete. The claim that created nodes are never returned is false of the code: bottomUp_creation_breaks_order (finding 4)."
  },
  {
   "property": "C19",
   "status": "proved",
   "theorems": [
    "Jlm.Rvsdg.Reg.C19_mutate_consistent",
    "Jlm.Rvsdg.Reg.C19_reachable_consistent",
    "Jlm.Rvsdg.Reg.C19_prune",
    "Jlm.Rvsdg.Reg.C19_compact",
    "Jlm.Rvsdg.Reg.C19_insertArgument",
    "Jlm.Rvsdg.Reg.C19_removeInputs_top_corrupt"
   ],
   "note": "Bookkeeping of a region is consistent after every history of mutations; prune (one region; the recursive flag applies the same loop to each subregion, not modelled) keeps exactly the live nodes; index compaction and insertArgument. Finding 21: RemoveInputs on a node without inputs corrupts the list of top nodes."
  },
  {
   "property": "C20",
   "status": "proved",
   "theorems": [
    "Jlm.Llvm.Aa.C20_history",
    "Jlm.Llvm.Aa.C20_results",
    "Jlm.Llvm.Aa.C20_same_root_iff",
    "Jlm.Llvm.Aa.C20_shared",
    "Jlm.Llvm.Aa.C20_wf",
    "Jlm.Llvm.Aa.C20_example"
   ],
   "note": "For every history of operations that respect their assertions, on the union-find forest with path halving and uint8_t ranks: no operation fails (root lookup ends, the rank never wraps), every query agrees with a specification in terms of equivalence classes, return values say exactly whether anything changed; classes are the equivalence closure of the unify calls."
  },
  {
   "property": "C21",
   "status": "proved",
   "theorems": [
    "Jlm.Llvm.Aa.C21_naive",
    "Jlm.Llvm.Aa.C21_deterministic",
    "Jlm.Llvm.Aa.IsLeast.unique"
   ],
   "note": "SolveNaively on sets built by arbitrary legal histories, arbitrary constraints over their objects, arbitrary enumeration orders; terminates within n^2+3n+1 passes; result is the least satisfying assignment. Loops iterate over the points-to set as it was at loop start (finding 11)."
  },
  {
   "property": "C22",
   "status": "proved",
   "theorems": [
    "Jlm.Llvm.Aa.C22_terminates",
    "Jlm.Llvm.Aa.C22_completes",
    "Jlm.Llvm.Aa.C22_sound",
    "Jlm.Llvm.Aa.C22_precise",
    "Jlm.Llvm.Aa.C22_worklist",
    "Jlm.Llvm.Aa.C22_same_as_naive",
    "Jlm.Llvm.Aa.C22_config_independent",
    "Jlm.Llvm.Aa.C22_lcd",
    "Jlm.Llvm.Aa.C22_no_detector",
    "Jlm.Llvm.Aa.C22_ocd",
    "Jlm.Llvm.Aa.C22_sweep",
    "Jlm.Llvm.Aa.C22_init_cycles",
    "Jlm.Llvm.Aa.C22_example"
   ],
   "note": "All policies (any pop order, topological sweeps), all option combinations, LCD and OCD detectors as modelled, orders of enumeration arbitrary. C22_hybrid_counterexample: the entries that offline variable substitution records are not always right (see C31)."
  },
  {
   "property": "C23",
   "status": "partial",
   "theorems": [
    "Jlm.Llvm.Aa.C23_normalize",
    "Jlm.Llvm.Aa.C23_normalize_least",
    "Jlm.Llvm.Aa.C23_normalize_shape",
    "Jlm.Llvm.Aa.C23_ovs_sound",
    "Jlm.Llvm.Aa.C23_ovs_exact_cycles_partial",
    "Jlm.Llvm.Aa.C23_ovs_exact_partial",
    "Jlm.Llvm.Aa.C23_ovs_example",
    "Jlm.Llvm.Aa.C23_ovs_flag_counterexample",
    "Jlm.Llvm.Aa.C23_ovs_empty_counterexample"
   ],
   "note": "Normalization is proved exact. Substitution never loses a pointee (C23_ovs_sound); it adds none if nothing was unified before, no pointee-less register is flagged as pointing to external and no store on a cycle of the offline graph goes through a pointer without targets. Without these conditions the claim is false: two counterexample theorems."
  },
  {
   "property": "C24",
   "status": "proved",
   "theorems": [
    "Jlm.Llvm.Aa.C24_hasIdenticalSolAs",
    "Jlm.Llvm.Aa.C24_example"
   ],
   "note": "HasIdenticalSolAs of two sets built by arbitrary legal histories decides equality of the solutions (escaped, points to external, IsPointingTo), on the union-find forest including the path compression done during the comparison."
  },
  {
   "property": "C25",
   "status": "proved",
   "theorems": [
    "Jlm.Llvm.Layout.C25_layout",
    "Jlm.Llvm.Layout.C25_sizes",
    "Jlm.Llvm.Layout.C25_fieldOffset",
    "Jlm.Llvm.Layout.C25_fields",
    "Jlm.Llvm.Layout.C25_gep_offset",
    "Jlm.Llvm.Layout.C25_gep_offset_only",
    "Jlm.Llvm.Layout.C25_subobject_within",
    "Jlm.Llvm.Layout.C25_subobject_aligned",
    "Jlm.Llvm.Layout.C25_subobjects_disjoint",
    "Jlm.Llvm.Layout.C25_indexedType",
    "Jlm.Llvm.Layout.C25_zero_indices",
    "Jlm.Llvm.Layout.C25_normalizeIdempotent",
    "Jlm.Llvm.Layout.C25_indexedType_off_by_one",
    "Jlm.Llvm.Layout.C25_vector_terminates"
   ],
   "note": "Sizes are naturals (no size_t wrap-around in the layout functions; the GEP offset arithmetic is modulo 2^64 as in the code). Paths through vectors terminate the process and the index equal to the number of struct fields fails an assertion: both proved as counterexamples (findings 7, 18)."
  },
  {
   "property": "C26",
   "status": "partial",
   "theorems": [
    "Jlm.Llvm.Unroll.C26_niterations_partial",
    "Jlm.Llvm.Unroll.C26_known_partial",
    "Jlm.Llvm.Unroll.C26_unknown_partial",
    "Jlm.Llvm.Unroll.C26_small_factor",
    "Jlm.Llvm.Unroll.C26_subtractive_not_counted",
    "Jlm.Llvm.Unroll.C26_zero_trip_counterexample",
    "Jlm.Llvm.Unroll.C26_direction_counterexample",
    "Jlm.Llvm.Unroll.C26_polarity_counterexample",
    "Jlm.Llvm.Unroll.C26_wrap_counterexample",
    "Jlm.Llvm.Unroll.C26_zero_step_counterexample",
    "Jlm.Llvm.Unroll.C26_wide_factor_counterexample",
    "Jlm.Llvm.Unroll.C26_unknown_enter_counterexample",
    "Jlm.Llvm.Unroll.C26_unknown_operand_order_counterexample",
    "Jlm.Llvm.Unroll.C26_unknown_wrap_counterexample",
    "Jlm.Llvm.Unroll.C26_unknown_reversed_subtraction_counterexample",
    "Jlm.Llvm.Unroll.C26_unknown_ne_counterexample"
   ],
   "note": "Proved for counting loops with a known trip count (any body, width, representable factor >= 2) and, for unknown trip counts, for loops that are entered and do not wrap within factor steps of the end. Missing: the remaining loops, for which the claim is false of the code (one counterexample theorem per case). Body copies and substitution maps are modelled by the program they leave."
  },
  {
   "property": "C27",
   "status": "proved",
   "theorems": [
    "Jlm.Opt.C27_dne_meaning",
    "Jlm.Opt.C27_dne_definitions",
    "Jlm.Opt.C27_dne_wf",
    "Jlm.Opt.C27_dne_minimal"
   ],
   "note": "DeadNodeElimination::Run on every well-formed graph: exports and everything left at top level keep their meaning for arbitrary meanings of operations, the result is well-formed, and everything left is involved in computing an export. Modelled: marking, sweeping of all node kinds, dead loads. Not modelled: the traverser (topological order given), statistics; delta bodies contain only simple nodes other than loads."
  },
  {
   "property": "C28",
   "status": "partial",
   "theorems": [
    "Jlm.Opt.Cne.C28_congruent_equal",
    "Jlm.Opt.Cne.C28_congruent_equal_loopfree",
    "Jlm.Opt.Cne.C28_cne_refines",
    "Jlm.Opt.Cne.C28_cne_wf",
    "Jlm.Opt.Cne.C28_cne_refines_loopfree",
    "Jlm.Opt.Cne.C28_loopfree_strict",
    "Jlm.Opt.Cne.C28_mark_congruence",
    "Jlm.Opt.Cne.C28_congruence_equal",
    "Jlm.Opt.Cne.C28_congruence_wf",
    "Jlm.Opt.Cne.C28_congruence_value",
    "Jlm.Opt.Cne.C28_congruence_refines",
    "Jlm.Opt.Cne.C28_stale_leader_unsound",
    "Jlm.Opt.Cne.C28_leader_to_follower_throws",
    "Jlm.Opt.Cne.C28_match_variable_abort"
   ],
   "note": "Full property for the repaired program (leaders have to be visited before their followers, as the comment in cpp:97 promises) and for the program of /repo on modules without loops: congruent outputs have equal values in every executed region, diverting users refines the meaning, well-formedness is kept. For /repo on modules with loops the property is false (C28_stale_leader_unsound), and the pass can throw."
  },
  {
   "property": "C29",
   "status": "proved",
   "theorems": [
    "Jlm.Opt.C29_ivr_refines",
    "Jlm.Opt.C29_ivr_wf",
    "Jlm.Opt.C29_gamma_origin",
    "Jlm.Opt.C29_theta_origin",
    "Jlm.Opt.C29_ivr_complete",
    "Jlm.Opt.C29_roles_unsound",
    "Jlm.Opt.C29_match_user_unsound",
    "Jlm.Opt.C29_order_matters"
   ],
   "note": "whole pass InvariantValueRedirection::Run on all well-formed modules: for every monotone semantics, every node/user enumeration order and configuration the transformed module refines the original (same value whenever the original produces one, functions likewise), stays well-formed, and with a topological order no invariant gamma/theta output keeps users. The theta-gamma predicate correlation of /repo is unsound (C29_roles_unsound, C29_match_user_unsound); the refinement theorem covers it only in its repaired form (strict). redirectCallOutputs is not modelled."
  },
  {
   "property": "C30",
   "status": "proved",
   "theorems": [
    "Jlm.Llvm.Const.C30_constant",
    "Jlm.Llvm.Const.C30_constant_mod",
    "Jlm.Llvm.Const.C30_total",
    "Jlm.Llvm.Const.C30_wide_wrong",
    "Jlm.Llvm.Const.C30_wide_fails"
   ],
   "note": "traceOutput is not part of this model: an expression is the tree of operations after tracing. The failure for values wider than 64 bits is proved as a counterexample (finding 19)."
  },
  {
   "property": "C31",
   "status": "partial",
   "theorems": [
    "Jlm.Llvm.Aa.C31_pipeline_runs",
    "Jlm.Llvm.Aa.C31_pipeline_sound",
    "Jlm.Llvm.Aa.C31_pipeline_exact_partial",
    "Jlm.Llvm.Aa.C22_hybrid_counterexample"
   ],
   "note": "The pipeline runs and loses no pointee in any configuration; it is exact without hybrid cycle detection under the conditions of C23. With hybrid cycle detection the claim is false: C22_hybrid_counterexample."
  },
  {
   "property": "C32",
   "status": "partial",
   "theorems": [
    "Jlm.Aa.Local.C32_noalias_partial",
    "Jlm.Aa.Local.C32_mustalias_partial",
    "Jlm.Aa.Local.C32_repaired_noalias",
    "Jlm.Aa.Local.C32_repaired_mustalias",
    "Jlm.Aa.Local.C32_answers",
    "Jlm.Aa.Local.C32_wrong_mustalias",
    "Jlm.Aa.Local.C32_wrong_noalias"
   ],
   "note": "False of /repo when the single shared origin of two pointers is computed anew in each iteration (finding 35, two counterexample theorems). Proved for /repo if origins do not change between iterations or the function has no loop variables, and without restriction for the repaired query; every query is answered."
  },
  {
   "property": "C33",
   "status": "partial",
   "theorems": [
    "Jlm.Front.C33_conversion_preserves",
    "Jlm.Front.C33_conversion_wellformed",
    "Jlm.Front.C33_total_partial",
    "Jlm.Front.C33_repaired_total",
    "Jlm.Front.C33_demand_crash"
   ],
   "note": "Proved for every function whose conversion completes in /repo (C33_conversion_preserves, C33_conversion_wellformed). It does not always complete: C33_demand_crash is a function on which a lookup fails (finding 36); C33_total_partial gives a condition under which it completes, C33_repaired_total shows that the repaired annotation always completes. Only terminating executions are compared."
  },
  {
   "property": "C34",
   "status": "proved",
   "theorems": [
    "Jlm.Front.C34_aggregation_exact",
    "Jlm.Front.C34_aggregation_wellformed",
    "Jlm.Front.C34_normalize",
    "Jlm.Front.C34_graph_to_lambda",
    "Jlm.Front.exCfg_returns",
    "Jlm.Front.exCfg_tree",
    "Jlm.Front.exCfg_lambda"
   ],
   "note": "For every graph that aggregation turns into a tree, whatever SCCs it is told: same terminating executions (both directions), well-formed tree, normalization, and composition with C33. That aggregation succeeds on every structured graph is not part of the claim and not proved."
  },
  {
   "property": "C35",
   "status": "proved",
   "theorems": [
    "Jlm.Front.C35_straighten",
    "Jlm.Front.C35_prune",
    "Jlm.Front.C35_purge",
    "Jlm.Front.C35_destruct_ssa",
    "Jlm.Front.C35_prepare",
    "Jlm.Front.C35_purge_phis_counterexample"
   ],
   "note": "purge needs a graph without phi operations (C35_purge_phis_counterexample: otherwise it changes the meaning); /repo only calls it after destruct_ssa"
  },
  {
   "property": "C36",
   "status": "partial",
   "theorems": [
    "Jlm.Front.C36_restructure_partial",
    "Jlm.Front.C36_restructure_fixed",
    "Jlm.Front.C36_function_partial",
    "Jlm.Front.C36_restructure_counterexample",
    "Jlm.Front.exIrr_lambda"
   ],
   "note": "All of RestructureControlFlow, for every traversal order; successful runs give valid graphs with the same executions; plus the whole function conversion from the phi graph to the lambda. Full statement holds with invertMatchOperation fixed (C36_restructure_fixed); for /repo it is restricted to two-way matches with a single mapping, because it is false otherwise (counterexample: switch loop)."
  },
  {
   "property": "C37",
   "status": "partial",
   "theorems": [
    "Jlm.Llvm.Fold.C37_fold_cmp",
    "Jlm.Llvm.Fold.C37_fold_arith",
    "Jlm.Llvm.Fold.C37_fold_total_partial",
    "Jlm.Llvm.Fold.C37_fold_total_counterexample",
    "Jlm.Llvm.Fold.C37_fold_conversions",
    "Jlm.Llvm.Fold.C37_reduce",
    "Jlm.Llvm.Fold.C37_terminates",
    "Jlm.Llvm.Fold.C37_complete"
   ],
   "note": "Folding throws for shift amounts of at least 2^64 (C37_fold_total_counterexample, finding 38); everything else of the claim is proved."
  },
  {
   "property": "C38",
   "status": "partial",
   "theorems": [
    "Jlm.Mem.C38_schedules",
    "Jlm.Mem.C38_load_duplicate",
    "Jlm.Mem.C38_store_duplicate",
    "Jlm.Mem.C38_load_store",
    "Jlm.Mem.C38_load_alloca_fixed",
    "Jlm.Mem.C38_load_store_state_partial",
    "Jlm.Mem.C38_store_alloca_fixed",
    "Jlm.Mem.C38_store_single_user",
    "Jlm.Mem.C38_store_mux_partial",
    "Jlm.Mem.C38_store_store_partial",
    "Jlm.Mem.C38_single_operand",
    "Jlm.Mem.C38_merge_duplicate",
    "Jlm.Mem.C38_join_duplicate",
    "Jlm.Mem.C38_nested_merges",
    "Jlm.Mem.C38_merge_split",
    "Jlm.Mem.C38_split_single",
    "Jlm.Mem.C38_exit_load",
    "Jlm.Mem.C38_exit_store",
    "Jlm.Mem.C38_exit_alloca",
    "Jlm.Mem.C38_load_alloca_wrong",
    "Jlm.Mem.C38_store_alloca_wrong",
    "Jlm.Mem.C38_load_store_state_wrong",
    "Jlm.Mem.C38_store_store_wrong",
    "Jlm.Mem.C38_store_mux_wrong",
    "Jlm.Mem.C38_store_mux_crash",
    "Jlm.Mem.C38_split_merge_wrong",
    "Jlm.Mem.C38_io_barrier_partial",
    "Jlm.Mem.C38_io_barrier_complete",
    "Jlm.Mem.C38_io_barrier_negative",
    "Jlm.Mem.C38_io_barrier_wrong"
   ],
   "note": "Proved for all regions, semantics and pairs of emission orders: duplicate states of loads and stores, store-to-load forwarding, dead stores to private allocas, all merge/join/split normalizations except SplitMerge (false, counterexample) and NestedSplits (not modelled), the exit merge. LoadAlloca, StoreAlloca, LoadStoreState, StoreStore, StoreMux and the I/O barrier test are false in /repo (counterexample theorems *_wrong); proved with fixed result order or under the hypothesis that is missing in /repo."
  },
  {
   "property": "C39",
   "status": "partial",
   "theorems": [
    "Jlm.Back.C39_run",
    "Jlm.Back.C39_matchVar_fails"
   ],
   "note": "All bodies of simple, gamma and theta nodes, in both directions (the graph's execution ends iff the body's does). The claim is false of /repo for gamma nodes whose branches use the match variable (finding 45, C39_matchVar_fails); gamma nodes with a single branch are excluded as well."
  },
  {
   "property": "C40",
   "status": "partial",
   "theorems": [
    "Jlm.Opt.Copy.C40_copy",
    "Jlm.Opt.Copy.C40_total_partial",
    "Jlm.Opt.Copy.C40_matchVar_fails"
   ],
   "note": "proved of all copies that are made; that a copy can always be made is false if a branch uses its match variable (C40_matchVar_fails, finding 27)"
  },
  {
   "property": "C41",
   "status": "partial",
   "theorems": [
    "Jlm.Opt.Pull.C41_sinking",
    "Jlm.Opt.Pull.C41_ends",
    "Jlm.Opt.Pull.C41_top",
    "Jlm.Opt.Pull.C41_pulled"
   ],
   "note": "proved of all runs that throw no exception (finding 27: copying a gamma node whose branch uses its match variable throws)"
  },
  {
   "property": "C42",
   "status": "partial",
   "theorems": [
    "Jlm.Opt.Unswitch.C42_unswitching",
    "Jlm.Opt.Unswitch.C42_unchecked_unsound",
    "Jlm.Opt.Unswitch.C42_throws"
   ],
   "note": "refinement for every module, order and number of iterations, provided that the gamma nodes that are turned inside out are controlled by the match node; the code does not check this (counterexample). Runs in which SubstitutionMap::lookup throws have no result."
  },
  {
   "property": "C43",
   "status": "proved",
   "theorems": [
    "Jlm.Opt.Pc.C43_correlation",
    "Jlm.Opt.Pc.C43_fixpoint",
    "Jlm.Opt.Pc.C43_idempotent"
   ],
   "note": "refinement for every module, the number of redirections is bounded by the number of nodes, idempotent. Exceptions for constants of at least 2^64 (finding 49) are outside the model."
  },
  {
   "property": "C44",
   "status": "partial",
   "theorems": [
    "Jlm.Opt.Hoist.C44_hoisting_partial",
    "Jlm.Opt.Hoist.C44_marked_in_loop",
    "Jlm.Opt.Hoist.C44_marked_in_branch",
    "Jlm.Opt.Hoist.C44_null_comparison_unsound"
   ],
   "note": "Any sequence of single-region hoists of nodes whose operands are invariant (or are memory states that the node hands to the next iteration) refines the meaning of every export (C44_hoisting_partial); what the marks of the pass imply for operands (C44_marked_in_loop, C44_marked_in_branch); the null comparison in isInvariantMemoryStateLoopVar makes the pass unsound (C44_null_comparison_unsound). Missing: that the pass performs exactly such a sequence when the null comparison is excluded; traps and allocation are not visible in a functional semantics (findings 51, 52)."
  },
  {
   "property": "C45",
   "status": "partial",
   "theorems": [
    "Jlm.Scev.C45_variable_partial",
    "Jlm.Scev.C45_expression_partial",
    "Jlm.Scev.C45_product",
    "Jlm.Scev.C45_sum",
    "Jlm.Scev.C45_reset_accepted",
    "Jlm.Scev.C45_geometric_accepted",
    "Jlm.Scev.C45_nested_product"
   ],
   "note": "chains of loop variables and expressions of one loop, folding of sums and products; under the hypothesis that the body increments the variables that get chains, which the code does not check (two counterexamples); chains across loops not covered"
  },
  {
   "property": "C46",
   "status": "proved",
   "theorems": [
    "C46_history",
    "C46_disjoint",
    "C46_eraseRange",
    "C46_divert_users"
   ],
   "note": "all histories of operations on lists that share an anchor; divert_users"
  },
  {
   "property": "C47",
   "status": "partial",
   "theorems": [
    "Jlm.Opt.Inline.C47_inlining_partial",
    "Jlm.Opt.Inline.inlineCall_spec"
   ],
   "note": "Refinement for every sequence of inlined calls through context variables, entry variables, and invariant loop variables. Missing: hoistInlinedAllocas, tryRerouteMemoryStateMergeAndSplit, calls through recursion variables of phi nodes; barriers are put on all arguments."
  },
  {
   "property": "C48",
   "status": "partial",
   "theorems": [
    "Jlm.Tooling.C48_bfs",
    "Jlm.Tooling.C48_jlc_links",
    "Jlm.Tooling.C48_jlc_compiles",
    "Jlm.Tooling.C48_jlc_compiles_to",
    "Jlm.Tooling.C48_jlc_objects",
    "Jlm.Tooling.C48_mixed_fails",
    "Jlm.Tooling.C48_same_base",
    "Jlm.Tooling.C48_object_c",
    "Jlm.Tooling.C48_object_path"
   ],
   "note": "Proved for source files with distinct object files and for object files alone, for every iteration order of edges. False of /repo for a mix of source and object files (the order is breadth first, not topological), for source files with the same name before the first dot, and for -c with object files: C48_mixed_fails, C48_same_base, C48_object_c."
  },
  {
   "property": "C49",
   "status": "partial",
   "theorems": [
    "C49_simple_allocas",
    "C49_reachable",
    "C49_recursion",
    "C49_blocked_iff",
    "C49_terminates",
    "C49_blocklists",
    "C49_precise",
    "C49_memory_node_partial",
    "C49_conflicts_partial",
    "C49_nested_alloca"
   ],
   "note": "Proved for what the analysis itself takes for hidden; false for allocas in gamma and theta nodes whose address leaves the node (C49_nested_alloca)"
  },
  {
   "property": "C50",
   "status": "proved",
   "theorems": [
    "Jlm.ModRef.Enc.C50_encode",
    "Jlm.ModRef.Enc.C50_closed",
    "Jlm.ModRef.Enc.C50_escape"
   ],
   "note": "Program order semantics scopes memory: what a gamma or theta node allocates outside of its mod/ref set is local to it; the condition on allocations (fitsRegion) is part of the property, and C50_escape shows that it is needed (see finding 62 on sets that do not meet it)."
  },
  {
   "property": "C51",
   "status": "partial",
   "theorems": [
    "Jlm.Front.Dom.C51_rpo",
    "Jlm.Front.Dom.C51_rpo_order",
    "Jlm.Front.Dom.C51_domtree_partial",
    "Jlm.Front.Dom.C51_dominators_partial",
    "Jlm.Front.Dom.C51_unreachable",
    "Jlm.Front.Dom.C51_endless"
   ],
   "note": "Exact for all graphs whose nodes can all be reached. Missing: closed graphs with unreachable nodes, for which the claim is false (C51_unreachable, C51_endless; finding 64)."
  },
  {
   "property": "C52",
   "status": "partial",
   "theorems": [
    "Jlm.Scev.C52_trip_partial",
    "Jlm.Scev.C52_loop_partial",
    "Jlm.Scev.C52_found",
    "Jlm.Scev.C52_endless_partial",
    "Jlm.Scev.C52_constant_left",
    "Jlm.Scev.C52_irregular",
    "Jlm.Scev.C52_eq_first_step_zero",
    "Jlm.Scev.C52_division_by_zero",
    "Jlm.Scev.C52_negative_double",
    "Jlm.Scev.C52_unsigned",
    "Jlm.Scev.C52_wrap",
    "Jlm.Scev.C52_inverted_match"
   ],
   "note": "Exact for recurrences with the bound on the right, values that fit in the word, regular quadratics and operands in the exact range of double; also found for all affine loops that end. The unrestricted claim is false of /repo (bound on the left, irregular quadratics, wrap-around, unsigned constants): counterexample theorems."
  },
  {
   "property": "C53",
   "status": "partial",
   "theorems": [
    "Jlm.Opt.Svf.C53_forward_partial",
    "Jlm.Opt.Svf.Ex.gam_forwarded",
    "Jlm.Opt.Svf.Ex.loop_forward",
    "Jlm.Opt.Svf.Ex.C53_vary_counterexample"
   ],
   "note": "Per forwarded load: executions are preserved if the alias answers are right and the address is the same in all iterations of the loops tracing leaves; the code does not check the latter (finding 69). Region predicates, routing and loads without memory states are not modelled."
  },
  {
   "property": "C54",
   "status": "partial",
   "theorems": [
    "Jlm.Opt.Sroa.C54_split_partial",
    "Jlm.Opt.Sroa.Ex.good_same",
    "Jlm.Opt.Sroa.Ex.C54_merged",
    "Jlm.Opt.Sroa.Ex.C54_wide",
    "Jlm.Opt.Sroa.Ex.C54_otherTy",
    "Jlm.Opt.Sroa.Ex.C54_arrayBehind_throws",
    "Jlm.Opt.Sroa.Ex.C54_subStruct_throws",
    "Jlm.Opt.Sroa.Ex.C54_leaves_throws"
   ],
   "note": "Proved for all executions in which the replaced GetElementPtr operations get the address of the alloca they were traced from, with its type, and accesses are not larger than the element. The code checks neither: see C54_merged, C54_wide, C54_otherTy and finding 71. Memory states, routing and pruning are not modelled; undefined bytes are one fixed value."
  },
  {
   "property": "C55",
   "status": "proved",
   "theorems": [
    "Jlm.Util.IH.C55_history",
    "Jlm.Util.IH.C55_erase_order",
    "Jlm.Util.IH.C55_eraseRange",
    "Jlm.Util.IH.C55_disjoint",
    "Jlm.Util.IH.Ex.shows"
   ],
   "note": "For all histories, all hash functions and all key equalities compatible with them. Not modelled: constant iterators and OwnerIntrusiveHash, which do not compile; overflow of size_t."
  },
  {
   "property": "C56",
   "status": "partial",
   "theorems": [
    "Jlm.Scev.Lsr.C56_iteration_partial",
    "Jlm.Scev.Lsr.C56_result_partial",
    "Jlm.Scev.Lsr.C56_replaced_partial",
    "Jlm.Scev.Lsr.C56_zext",
    "Jlm.Scev.Lsr.C56_sext_wrap",
    "Jlm.Scev.Lsr.C56_reset"
   ],
   "note": "Proved for one loop, one width, variables that the body increments: same variables, memory, operands and results in every iteration; every candidate is replaced. Missing: chains across loops, conversions between widths. False of /repo in general: zext/sext (C56_zext, C56_sext_wrap), overwritten variables (C56_reset)."
  },
  {
   "property": "C57",
   "status": "partial",
   "theorems": [
    "Jlm.Mem.Lcs.C57_order_partial",
    "Jlm.Mem.Lcs.C57_schedules_partial",
    "Jlm.Mem.Lcs.C57_no_new_order",
    "Jlm.Mem.Lcs.C57_schedule_exists",
    "Jlm.Mem.Lcs.C57_separates",
    "Jlm.Mem.Lcs.noCalls_loopsOk",
    "Jlm.Mem.Lcs.C57_call_in_loop"
   ],
   "note": "Proved for all regions in which loops with calls are recognized as writing (in particular without calls in loops, noCalls_loopsOk). False of /repo for loops with calls (C57_call_in_loop). No new order, acyclicity and independence of the loads for all programs."
  },
  {
   "property": "C58",
   "status": "partial",
   "theorems": [
    "Jlm.Rvsdg.Tracer.C58_sound_partial",
    "Jlm.Rvsdg.Tracer.C58_within",
    "Jlm.Rvsdg.Tracer.C58_around",
    "Jlm.Rvsdg.Tracer.C58_order",
    "Jlm.Rvsdg.Tracer.C58_terminates",
    "Jlm.Rvsdg.Tracer.C58_no_assertion",
    "Jlm.Rvsdg.Tracer.C58_cache",
    "Jlm.Rvsdg.Tracer.C58_maximal",
    "Jlm.Rvsdg.Tracer.C58_gamma_direct",
    "Jlm.Rvsdg.Tracer.C58_theta_direct",
    "Jlm.Rvsdg.Tracer.C58_wrong_match",
    "Jlm.Rvsdg.Tracer.C58_stale",
    "Jlm.Rvsdg.Tracer.Ex.ex_sound"
   ],
   "note": "soundness needs that the content of matches is not used (C58_wrong_match); everything else as stated"
  },
  {
   "property": "C59",
   "status": "partial",
   "theorems": [
    "Jlm.Rvsdg.PredTrace.C59_assign_exact",
    "Jlm.Rvsdg.PredTrace.C59_required_exact",
    "Jlm.Rvsdg.PredTrace.C59_check_exact_partial",
    "Jlm.Rvsdg.PredTrace.C59_unreachable_partial",
    "Jlm.Rvsdg.PredTrace.Ex.C59_handed_through_unsound",
    "Jlm.Rvsdg.PredTrace.Ex.C59_back_edge_unsound",
    "Jlm.Rvsdg.PredTrace.Ex.C59_stale",
    "Jlm.Rvsdg.PredTrace.Ex.C59_assign_stale"
   ],
   "note": "The full claim is false of /repo: findings 82-84 (C59_handed_through_unsound, C59_stale, C59_assign_stale, C59_back_edge_unsound). Proved for all graphs in which no gamma node hands a predicate around the target through, all executions without back edges, and all histories of checks and edge changes without changes of invariant loop variables; destruction of nodes is not modelled."
  },
  {
   "property": "C60",
   "status": "partial",
   "theorems": [
    "Jlm.Llvm.Aa.Ptg.C60_nodes",
    "Jlm.Llvm.Aa.Ptg.C60_targets",
    "Jlm.Llvm.Aa.Ptg.C60_registers",
    "Jlm.Llvm.Aa.Ptg.C60_counts",
    "Jlm.Llvm.Aa.Ptg.C60_legal",
    "Jlm.Llvm.Aa.Ptg.C60_results",
    "Jlm.Llvm.Aa.Ptg.C60_query",
    "Jlm.Llvm.Aa.Ptg.C60_query_symmetric",
    "Jlm.Llvm.Aa.Ptg.C60_query_sound",
    "Jlm.Llvm.Aa.Ptg.C60_supergraph",
    "Jlm.Llvm.Aa.Ptg.C60_supergraph_order",
    "Jlm.Llvm.Aa.Ptg.C60_supergraph_query",
    "Jlm.Llvm.Aa.Ptg.C60_construct_partial",
    "Jlm.Llvm.Aa.Ptg.C60_pipeline_sound_partial",
    "Jlm.Llvm.Aa.Ptg.Examples.C60_construct_counterexample",
    "Jlm.Llvm.Aa.Ptg.Examples.C60_declared_size_counterexample",
    "Jlm.Llvm.Aa.Ptg.C60_construct_total"
   ],
   "note": "Nodes, edges, registers, counters, illegal calls, queries and supergraphs for all histories of calls; alias answers are proved true of all memories the graph describes. Construction from a pointer object set only if no register is unified into a root that cannot point (false otherwise: C60_construct_counterexample); soundness needs object sizes not larger than reported (C60_declared_size_counterexample)."
  },
  {
   "property": "C61",
   "status": "partial",
   "theorems": [
    "Jlm.Opt.Iobe.C61_exact",
    "Jlm.Opt.Iobe.C61_safe_partial",
    "Jlm.Opt.Iobe.C61_removable_partial",
    "Jlm.Opt.Iobe.C61_removable_unknown",
    "Jlm.Opt.Iobe.Inlined.C61_inlined_counterexample",
    "Jlm.Opt.Iobe.Freed.C61_freed_counterexample",
    "Jlm.Opt.Iobe.C61_negative_counterexample"
   ],
   "note": "C61_exact and C61_removable_unknown cover which barriers go; safety needs valid addresses at unbarred loads and validity that does not change during the call; both conditions are shown necessary by counterexamples"
  },
  {
   "property": "C62",
   "status": "proved",
   "theorems": [
    "Jlm.Hls.Graph.C62_extends",
    "Jlm.Hls.Graph.C62_values",
    "Jlm.Hls.Graph.C62_once",
    "Jlm.Hls.Graph.C62_constant",
    "Jlm.Hls.Graph.C62_idle",
    "Jlm.Hls.Graph.C62_check_exact",
    "Jlm.Hls.Graph.C62_check",
    "Jlm.Hls.Graph.C62_check_arguments_counterexample",
    "Jlm.Hls.Graph.Ex.C62_exported_twice"
   ],
   "note": "sinks, forks and the one-reader verification; address queues, buffers and types are outside the model"
  },
  {
   "property": "C63",
   "status": "proved",
   "theorems": [
    "Jlm.Hls.Gam.C63_convert",
    "Jlm.Hls.Gam.C63_unselected",
    "Jlm.Hls.Gam.C63_speculation",
    "Jlm.Hls.Gam.C63_speculation_complete"
   ],
   "note": "loops are taken as operations and channels are unbounded; theta conversion is outside the model; the part about further tokens leaves out nodes that depend on constants only"
  }
 ]
}