{
 "claims": [
  {
   "property": "C01",
   "status": "proved",
   "theorems": [
    "Tsar.Range.intersectScalar_exact",
    "Tsar.Range.intersectScalar_unknown_sound"
   ],
   "note": "Byte level statement for all bounds; unknown bounds included."
  },
  {
   "property": "C02",
   "status": "proved",
   "theorems": [
    "Tsar.Range.difference_exact",
    "Tsar.Range.difference_some_of_threshold"
   ],
   "note": ""
  },
  {
   "property": "C03",
   "status": "proved",
   "theorems": [
    "Tsar.Range.dimIntersect_exact",
    "Tsar.Range.refSolver_ok"
   ],
   "note": "The external Diophantine solver is a parameter with the contract SolverOK; refSolver shows that the contract can be met."
  },
  {
   "property": "C04",
   "status": "proved",
   "theorems": [
    "Tsar.Range.intersect_exact",
    "Tsar.Range.intersect_known",
    "Tsar.Range.intersect_other_base"
   ],
   "note": "Byte level, any number of dimensions; hypothesis Compatible (same shape, well-formed) describes the documented domain."
  },
  {
   "property": "C05",
   "status": "partial",
   "theorems": [
    "Tsar.Range.intersect_complement_untouched_fails",
    "Tsar.Range.intersect_complement_untouched_partial"
   ],
   "note": "False in the code for two or more dimensions (witness proved); holds for byte ranges and one dimension."
  },
  {
   "property": "C06",
   "status": "partial",
   "theorems": [
    "Tsar.MemSet.join_exact",
    "Tsar.MemSet.join_shape_mismatch_fails"
   ],
   "note": "Byte level, any number of dimensions, for accesses of one object with one shape; false in the code for different shapes (witness proved)."
  },
  {
   "property": "C07",
   "status": "proved",
   "theorems": [
    "Tsar.MemSet.insertions_exact",
    "Tsar.MemSet.insert_exact",
    "Tsar.MemSet.insert_false_contained"
   ],
   "note": "Alias metadata (AATags) are not modelled; the returned iterator is not modelled."
  },
  {
   "property": "C08",
   "status": "proved",
   "theorems": [
    "Tsar.MemSet.contain_sound",
    "Tsar.MemSet.overlap_sound",
    "Tsar.MemSet.contain_exact_bytes",
    "Tsar.MemSet.findCoveredBy_sound",
    "Tsar.MemSet.subtractFrom_sound",
    "Tsar.MemSet.subtractFrom_exact_bytes",
    "Tsar.MemSet.difference_sound",
    "Tsar.MemSet.overlap_exact_bytes",
    "Tsar.MemSet.difference_exact_bytes"
   ],
   "note": "Soundness for all well-formed sets, exactness for byte ranges."
  },
  {
   "property": "C09",
   "status": "partial",
   "theorems": [
    "Tsar.MemSet.eqSet_arrays_fails",
    "Tsar.MemSet.eqSet_bytes_partial",
    "Tsar.MemSet.copy_equal_fails"
   ],
   "note": "Sets of byte ranges which compare equal have the same bytes; false for array ranges; the converse is false even for a copy of a set (witnesses proved)."
  },
  {
   "property": "C10",
   "status": "partial",
   "theorems": [
    "Tsar.MemSet.merge_exact",
    "Tsar.MemSet.intersectSet_sound_partial",
    "Tsar.MemSet.intersectSet_exact_bytes",
    "Tsar.MemSet.intersectSet_changed_fails",
    "Tsar.MemSet.clarify_adds"
   ],
   "note": "merge is exact; intersect is sound for all sets and exact for byte ranges; its result does not report removals (witness proved)."
  },
  {
   "property": "C11",
   "status": "partial",
   "theorems": [
    "Tsar.DFValue.merge_exact",
    "Tsar.DFValue.copy_exact",
    "Tsar.DFValue.full_empty_laws",
    "Tsar.DFValue.intersect_sound",
    "Tsar.DFValue.intersect_exact_partial",
    "Tsar.DFValue.eq_sound_partial",
    "Tsar.DFValue.merge_changed_fails",
    "Tsar.DFValue.intersect_changed_fails"
   ],
   "note": "Union and intersection laws at the byte level; the reported 'changed' flags are wrong in the code (witnesses proved)."
  },
  {
   "property": "C12",
   "status": "partial",
   "theorems": [
    "Tsar.DFValue.contain_overlap_sound",
    "Tsar.DFValue.cover_findCoveredBy_fails",
    "Tsar.DFValue.cover_findCoveredBy_partial",
    "Tsar.DFValue.insert_contained_fails",
    "Tsar.DFValue.insert_contained_mask_fails",
    "Tsar.DFValue.insert_false_contain_partial",
    "Tsar.DFValue.insert_exact",
    "Tsar.DFValue.insertAll_exact",
    "Tsar.DFValue.difference_sound"
   ],
   "note": "False for the full value and for touching ranges (witnesses proved)."
  },
  {
   "property": "C13",
   "status": "proved",
   "theorems": [
    "Tsar.BitTrait.joinAll_set",
    "Tsar.BitTrait.joinAll_append",
    "Tsar.BitTrait.dependency_absorbing",
    "Tsar.BitTrait.joinAll_unit",
    "Tsar.BitTrait.joinAll_hasNoDep",
    "Tsar.BitTrait.joinAll_readonly",
    "Tsar.BitTrait.documented_order",
    "Tsar.BitTrait.drop_flags",
    "Tsar.BitTrait.shared_flag"
   ],
   "note": "Joins of any number of traits."
  },
  {
   "property": "C14",
   "status": "proved",
   "theorems": [
    "Tsar.BitTrait.descriptor_round_trip",
    "Tsar.BitTrait.descriptor_consistent",
    "Tsar.BitTrait.trait_round_trip",
    "Tsar.BitTrait.toDescriptor_arbitrary_fails"
   ],
   "note": "All joins of documented traits and all combinations of unit flags; the external TraitDescriptor::set is an assumption of the model."
  },
  {
   "property": "C15",
   "status": "proved",
   "theorems": [
    "Tsar.DataFlow.iterative_solution",
    "Tsar.DataFlow.iterative_solution_same",
    "Tsar.DataFlow.iterative_greatest"
   ],
   "note": "Any values and transfer functions; the second theorem covers transfer functions which compare values by a user-defined operation."
  },
  {
   "property": "C16",
   "status": "proved",
   "theorems": [
    "Tsar.DataFlow.solution_paths"
   ],
   "note": ""
  },
  {
   "property": "C17",
   "status": "proved",
   "theorems": [
    "Tsar.DataFlow.iterative_terminates"
   ],
   "note": ""
  },
  {
   "property": "C18",
   "status": "partial",
   "theorems": [
    "Tsar.DataFlow.topological_equations",
    "Tsar.DataFlow.topological_solution",
    "Tsar.DataFlow.acyclic_unique",
    "Tsar.DataFlow.solve_topological",
    "Tsar.DataFlow.solve_acyclic_partial",
    "Tsar.DataFlow.solve_cyclic_fails"
   ],
   "note": "One pass solves acyclic graphs. The acyclicity test made by the solver is always positive, hence cyclic regions are also solved by one pass and the result is not a solution (witness proved)."
  },
  {
   "property": "C19",
   "status": "proved",
   "theorems": [
    "Tsar.DataFlow.removeAdjacent_eq",
    "Tsar.DataFlow.remove_add"
   ],
   "note": ""
  },
  {
   "property": "C20",
   "status": "partial",
   "theorems": [
    "Tsar.Reach.reach_acyclic_partial",
    "Tsar.Reach.reach_irreducible_fails",
    "Tsar.Region.reach_built_partial"
   ],
   "note": "Proved for every acyclic region; false in the code for irreducible regions (witness proved)."
  },
  {
   "property": "C21",
   "status": "partial",
   "theorems": [
    "Tsar.Reach.live_acyclic_partial",
    "Tsar.Reach.live_loop_partial",
    "Tsar.Reach.live_irreducible_fails",
    "Tsar.Region.live_built_partial"
   ],
   "note": "Proved for every acyclic region and every loop with an acyclic body; false in the code for irreducible regions (witness proved)."
  },
  {
   "property": "C22",
   "status": "partial",
   "theorems": [
    "Tsar.Reach.collapse_sound_partial",
    "Tsar.Reach.collapse_lost_fails",
    "Tsar.Reach.collapse_trip_fails"
   ],
   "note": "Proved for locations which do not depend on an iteration; two defects of the code are shown by witnesses (lost remainder of a partially covered definition; trip count 1). Aggregation of locations which depend on an induction variable is not modelled."
  },
  {
   "property": "C23",
   "status": "proved",
   "theorems": [
    "Tsar.Bimap.bimap_history",
    "Tsar.Bimap.bimap_bijection",
    "Tsar.Bimap.insert_result",
    "Tsar.Bimap.emplace_result"
   ],
   "note": "Refinement of a list of pairs for every history of insert, emplace, erase(iterator), clear."
  },
  {
   "property": "C24",
   "status": "partial",
   "theorems": [
    "Tsar.Bimap.erase_first_fails",
    "Tsar.Bimap.erase_second_fails",
    "Tsar.Bimap.erase_first_partial"
   ],
   "note": "False in the code (use after free of the other index, witnesses proved); the direction of the key itself is correct."
  },
  {
   "property": "C25",
   "status": "proved",
   "theorems": [
    "Tsar.Bimap.list_bimap_history",
    "Tsar.Bimap.list_bimap_unique",
    "Tsar.Bimap.list_insert_result"
   ],
   "note": "Every history of insert, emplace, erase(iterator), clear. Removals by a key are not modelled: bodies of erase_first and erase_second of ListBimap are ill-formed if instantiated."
  },
  {
   "property": "C26",
   "status": "proved",
   "theorems": [
    "Tsar.Graph.numberGraph_total",
    "Tsar.Graph.numberGraph_range",
    "Tsar.Graph.compare_tree"
   ],
   "note": ""
  },
  {
   "property": "C27",
   "status": "partial",
   "theorems": [
    "Tsar.Graph.compare_graph_fails",
    "Tsar.Graph.compare_graph_partial"
   ],
   "note": "False in the code for graphs which are not trees (witness proved); totality, symmetry and direction on acyclic graphs hold."
  },
  {
   "property": "C28",
   "status": "partial",
   "theorems": [
    "Tsar.Graph.findBackEdge_total",
    "Tsar.Graph.findBackEdge_cycle",
    "Tsar.Graph.findBackEdge_acyclic",
    "Tsar.Graph.isDAG_iff",
    "Tsar.Graph.isDAG_region",
    "Tsar.Graph.isDAG_region_fails"
   ],
   "note": "The search is exact for the graph given by the traits; the traits of data-flow regions enumerate predecessors of the entry, hence the answer for a region is always positive (witness proved)."
  },
  {
   "property": "C29",
   "status": "proved",
   "theorems": [
    "Tsar.Register.register_ids",
    "Tsar.Register.register_unique",
    "Tsar.Register.register_result",
    "Tsar.Register.register_count_partial",
    "Tsar.Register.register_count_fails"
   ],
   "note": "Every history of registrations and clears, unbounded number of items for the identifier values, uniqueness up to 2^64 items (identifiers are 64-bit). The number reported by numberOfIDs is wrong if numbering does not start from 0."
  },
  {
   "property": "C30",
   "status": "partial",
   "theorems": [
    "Tsar.Persistent.persistent_history_partial",
    "Tsar.Persistent.assign_other_fails",
    "Tsar.Persistent.assign_stale_fails",
    "Tsar.Persistent.copy_container_fails"
   ],
   "note": "Every history of insertions, reallocations, removals, constructions, copies, moves, assignments and destructions, with the exception of assignments which violate the property in the code: to an iterator to another element (endless loop later), to an invalid iterator which remembers the same bucket (it stays invalid). A copy of a container is also wrong."
  },
  {
   "property": "C31",
   "status": "proved",
   "theorems": [
    "Tsar.Numeric.cast_exact",
    "Tsar.Numeric.cast_unsigned",
    "Tsar.Numeric.cast_complete_fails",
    "Tsar.Numeric.castSCEV_exact"
   ],
   "note": "All widths and values, a true result implies the exact value. The check is too strong: half of signed values is rejected."
  },
  {
   "property": "C32",
   "status": "partial",
   "theorems": [
    "Tsar.Dep.insert_kind_partial",
    "Tsar.Dep.insert_ne_fails",
    "Tsar.Dep.insert_confused_fails",
    "Tsar.Dep.collect_kind_partial",
    "Tsar.Dep.collect_unknown",
    "Tsar.Dep.collect_calls"
   ],
   "note": "Every carried instance of a described dependence is recorded with its kind at both locations, and all conflicting pairs of instructions of a loop are visited in any order. Does not hold for the direction NE (only one of kinds is recorded) and if a direction at the innermost confused level is not valid: both negations are proved."
  },
  {
   "property": "C33",
   "status": "partial",
   "theorems": [
    "Tsar.Dep.update_history",
    "Tsar.Dep.merge_history_partial",
    "Tsar.Dep.below_zero",
    "Tsar.Dep.summarize_defined",
    "Tsar.Dep.unknown_forever",
    "Tsar.Dep.insert_distance_partial",
    "Tsar.Dep.merge_stale_fails",
    "Tsar.Dep.output_distance_fails"
   ],
   "note": "For any sequence of updates reported ranges are computed exactly from transformed distances of all dependencies; the oriented distance of each carried instance is in range. Merges of descriptions are complete below the known level only (stale levels are reported, negation is proved); output dependencies of an unknown direction are not oriented (negation is proved)."
  },
  {
   "property": "C34",
   "status": "proved",
   "theorems": [
    "Tsar.Private.resolve_sound",
    "Tsar.Private.resolveBase_sound",
    "Tsar.Private.bits_3",
    "Tsar.Private.bits_4"
   ],
   "note": "Facts of other analyses (uses, definitions, live memory, invariance, dependence map) are hypotheses (`Facts`); the conclusion is about executions: a private copy per iteration yields the same reads and the same values after the loop."
  },
  {
   "property": "C35",
   "status": "proved",
   "theorems": [
    "Tsar.Private.removeRedundant_covers",
    "Tsar.Private.propagate_antichain",
    "Tsar.Private.node_sound"
   ],
   "note": "For all alias trees and hierarchies of memory. Lists of unknown memory and dependence distances are omitted (C33)."
  },
  {
   "property": "C36",
   "status": "partial",
   "theorems": [
    "Tsar.Cover.cover_partial",
    "Tsar.Cover.cover_sum",
    "Tsar.Cover.cover_contains",
    "Tsar.Cover.cover_exact",
    "Tsar.Cover.cover_fails",
    "Tsar.Cover.cover_empty_fails"
   ],
   "note": "Sound if only the first listed node in preorder has listed nodes below it, exact for disjoint parts; in general only a sum over different nodes is guaranteed, memory may be counted twice (witness)."
  },
  {
   "property": "C37",
   "status": "partial",
   "theorems": [
    "Tsar.Alias.relation_sound_partial",
    "Tsar.Alias.relation_must",
    "Tsar.Alias.memRelation_sound_partial",
    "Tsar.Alias.relation_fails"
   ],
   "note": "Claims about bytes hold if ends of both locations lie on the same side of their base; ends are compared as unsigned numbers, so the claim is false for negative offsets (witness: [-8,-2) covers [-4,4))."
  },
  {
   "property": "C38",
   "status": "proved",
   "theorems": [
    "Tsar.Alias.Chain.chain_ordered",
    "Tsar.Alias.Chain.chain_complete",
    "Tsar.Alias.Chain.chain_unique",
    "Tsar.Alias.Chain.parent_children",
    "Tsar.Alias.Chain.insert_size"
   ],
   "note": "For all histories of additions with arbitrary answers of alias analysis and memory levels. Alias nodes are not modelled. Sizes of memory with different bases are not compared."
  },
  {
   "property": "C39",
   "status": "partial",
   "theorems": [
    "Tsar.Scev.divide_sound_partial",
    "Tsar.Scev.divide_atom_partial",
    "Tsar.Scev.divide_fails",
    "Tsar.Scev.divide_subst_fails",
    "Tsar.Scev.divide_unsafe_fails"
   ],
   "note": "Safe division of expressions of the same type is correct unless the result comes from an unchecked substitution (ghost flag `bad`); for a denominator which is neither a symbol nor a product it is always correct. The full statement is false of the code: (x+1)*(x+2) by x gives 0 and 2; (x/2)*y by x gives 0 and 0; in unsafe mode a result is marked safe although a cast has been ignored. Contract of LLVM: Se.Sound."
  },
  {
   "property": "C40",
   "status": "partial",
   "theorems": [
    "Tsar.Scev.gcd_sound_partial",
    "Tsar.Scev.gcd_fails"
   ],
   "note": "All expressions are multiples of the found divisor if no used quotient comes from an unchecked substitution (ghost flag); the unconditional statement is false: x is found for x and (x/2)*y. Safe mode, equal types, affine recurrences."
  },
  {
   "property": "C41",
   "status": "proved",
   "theorems": [
    "Tsar.Scev.addRecOf_sound"
   ],
   "note": "For recurrences with two operands (hypothesis Affine) a result marked as safe is equal to the original expression at each iteration. Contract of LLVM: Se.Sound."
  },
  {
   "property": "C42",
   "status": "partial",
   "theorems": [
    "Tsar.Primes.count_primes_partial",
    "Tsar.Primes.count_fails"
   ],
   "note": "For all bounds below 2^31-1 the list is exactly the sorted list of primes (the theorem of Atkin and Bernstein is proved from quadratic reciprocity and Thue's lemma). For greater bounds the counter of the type int overflows (undefined behavior), so the full statement is false."
  },
  {
   "property": "C43",
   "status": "partial",
   "theorems": [
    "Tsar.Loop.reverse_partial",
    "Tsar.Loop.reverse_empty_fails",
    "Tsar.Loop.reverse_negative_step_fails",
    "Tsar.Loop.reverse_unsigned_fails"
   ],
   "note": "Value level (texts as if parenthesised). Proved for all consistent headers with positive step, no wrap-around, representable predecessor of the initial value, and at least one iteration (or constants, or a unary increment). The full statement is false of the code: three witnesses."
  },
  {
   "property": "C44",
   "status": "partial",
   "theorems": [
    "Tsar.Loop.selected_requested",
    "Tsar.Loop.selected_numbers_partial",
    "Tsar.Loop.selected_names_partial",
    "Tsar.Loop.selected_fails"
   ],
   "note": "Only named loops are selected; all of them are selected if they are named in the order of the nest. The full statement is false: reverse(2) reverse(1)."
  },
  {
   "property": "C45",
   "status": "partial",
   "theorems": [
    "Tsar.Loop.Interchange.interchange_sound_partial",
    "Tsar.Loop.Interchange.interchange_defined_partial",
    "Tsar.Loop.Interchange.interchange_done_partial",
    "Tsar.Loop.Interchange.interchange_fails"
   ],
   "note": "For every nest with distinct induction variables, every list of clauses whose names differ from `interchange` and every verdict of the checks which rejects non-canonical loops: the written headers are the headers permuted by the composition of requested transpositions, nothing else changes, no access is out of range. A variable named `interchange` breaks the full statement (witness)."
  },
  {
   "property": "C46",
   "status": "partial",
   "theorems": [
    "Tsar.Support.getArgument_none_partial",
    "Tsar.Support.getArgument_eq",
    "Tsar.Support.getArgument_fails",
    "Tsar.Support.getArgument_first_fails"
   ],
   "note": "Null for numbers not less than the number of arguments is proved. The rest is false of the code for every function: argument N+1 is returned, the first argument is unreachable."
  },
  {
   "property": "C47",
   "status": "partial",
   "theorems": [
    "Tsar.Socket.close_partial",
    "Tsar.Socket.create_fails",
    "Tsar.Socket.server_fails"
   ],
   "note": "Proved for passes constructed with an initialised flag. The full statement is false: the creating function ignores the flag, and the flag of a pass for a server is not initialised."
  },
  {
   "property": "C48",
   "status": "partial",
   "theorems": [
    "Tsar.OutputFile.save_partial",
    "Tsar.OutputFile.create_error",
    "Tsar.OutputFile.readOnly_unchanged",
    "Tsar.OutputFile.written",
    "Tsar.OutputFile.erase_fails",
    "Tsar.OutputFile.fallback_fails",
    "Tsar.OutputFile.copy_fails"
   ],
   "note": "Atomic replacement at every crash point is proved if a temporary file is created and renamed. The full statement is false: erasing and the destructor remove the previous file, and both fallbacks truncate it."
  },
  {
   "property": "C49",
   "status": "partial",
   "theorems": [
    "Tsar.Directives.getTsarDirective_partial",
    "Tsar.Directives.getTsarClause_partial",
    "Tsar.Directives.getTsarDirectiveNamespace_partial",
    "Tsar.Directives.tsar_wellNamed",
    "Tsar.Directives.directive_roundtrip",
    "Tsar.Directives.clause_roundtrip",
    "Tsar.Directives.namespace_roundtrip",
    "Tsar.Directives.tsar_parents_exist",
    "Tsar.Directives.lookup_reserved_fails",
    "Tsar.Directives.hasBody_partial",
    "Tsar.Directives.hasBody_fails"
   ],
   "note": "Proved for all names except the names of reserved entries of the tables; for these names the property is false (lookup_reserved_fails). The flag of a body disagrees with the list of clauses for two directives of DVMH (hasBody_fails)."
  },
  {
   "property": "C50",
   "status": "partial",
   "theorems": [
    "Tsar.Parallel.parallel_memory_partial",
    "Tsar.Parallel.parallel_control",
    "Tsar.Parallel.verdict_defined",
    "Tsar.Parallel.parallel_reduction_fails",
    "Tsar.Parallel.parallel_deref_fails"
   ],
   "note": "Missing: an operation of a reduction which is attached but unknown is accepted (parallel_reduction_fails), and dependencies of a dereference of a private pointer are ignored (parallel_deref_fails). Coverage requires traits for all containing nodes (C73)."
  },
  {
   "property": "C51",
   "status": "partial",
   "theorems": [
    "Tsar.DepTest.ziv_independent",
    "Tsar.DepTest.strongSIV_independent_partial",
    "Tsar.DepTest.weakZeroSrc_independent",
    "Tsar.DepTest.weakZeroDst_independent",
    "Tsar.DepTest.weakCrossing_independent",
    "Tsar.DepTest.gcdMIV_independent",
    "Tsar.DepTest.strongSIV_sign_fails"
   ],
   "note": "Proved in full for ZIV, weak-zero SIV, weak-crossing SIV and GCD tests. Missing for strong SIV: a coefficient of an unknown sign; the test is wrong for it (strongSIV_sign_fails). Integers do not overflow (isKnown_wrap_fails shows why)."
  },
  {
   "property": "C52",
   "status": "proved",
   "theorems": [
    "Tsar.Region.region_nodes"
   ],
   "note": ""
  },
  {
   "property": "C53",
   "status": "proved",
   "theorems": [
    "Tsar.Region.region_mirror",
    "Tsar.Region.region_defined",
    "Tsar.Region.region_edges",
    "Tsar.Region.region_node_list",
    "Tsar.Region.region_acyclic",
    "Tsar.Region.region_acyclic_back",
    "Tsar.Region.region_irreducible_fails",
    "Tsar.Region.region_unreachable_fails"
   ],
   "note": "Proved for reducible graphs and natural loops. The witnesses show that both hypotheses are needed: a region of an irreducible graph has a cycle, unreachable predecessors of a loop block lead to an access to a missing element of a map (the tool removes unreachable blocks before)."
  },
  {
   "property": "C54",
   "status": "partial",
   "theorems": [
    "Tsar.Range.delinearize_bytes",
    "Tsar.Range.delinearize_out_of_bounds_fails"
   ],
   "note": "Holds inside of the array; out of bounds the conversion is wrong (witness proved)."
  },
  {
   "property": "C55",
   "status": "partial",
   "theorems": [
    "Tsar.Range.intersect_shape_mismatch_fails",
    "Tsar.Range.intersect_same_shape_none_partial"
   ],
   "note": "False in the code for different shapes (witness proved)."
  },
  {
   "property": "C56",
   "status": "partial",
   "theorems": [
    "Tsar.BitTrait.statistic_counter_fails",
    "Tsar.BitTrait.statistic_counter_partial",
    "Tsar.BitTrait.counted_exact"
   ],
   "note": "Two counters are swapped in the code (witness proved); all others are correct."
  },
  {
   "property": "C57",
   "status": "proved",
   "theorems": [
    "Tsar.Graph.findParent_tree",
    "Tsar.Graph.findLCA_tree"
   ],
   "note": ""
  },
  {
   "property": "C58",
   "status": "partial",
   "theorems": [
    "Tsar.Bimap.erase_range_fails"
   ],
   "note": "False in the code for every non-empty range: the iterator is incremented after its node is deleted."
  },
  {
   "property": "C59",
   "status": "partial",
   "theorems": [
    "Tsar.Private.store_sound",
    "Tsar.Private.store_unknown",
    "Tsar.Private.store_first",
    "Tsar.Private.store_reports_partial",
    "Tsar.Private.store_reports_fails",
    "Tsar.Private.store_reports_private_fails",
    "Tsar.Private.store_first_fails"
   ],
   "note": "Claims are sound. It is false that something is always reported: witnesses for empty dependence descriptions and for several private locations in a node."
  },
  {
   "property": "C60",
   "status": "partial",
   "theorems": [
    "Tsar.Alias.merge_sound_partial",
    "Tsar.Alias.rangeRelation_sound_partial",
    "Tsar.Alias.range_coincide_fails"
   ],
   "note": "All claims except 'coincides' are sound for each merged location; 'coincides' is kept if one of locations is larger (witness)."
  },
  {
   "property": "C61",
   "status": "partial",
   "theorems": [
    "Tsar.Alias.Chain.prev_sound_partial",
    "Tsar.Alias.Chain.prev_fails"
   ],
   "note": "getPrev() never returns a wrong memory, but it inspects only the first child, so it may find nothing (witness is a reachable tree)."
  },
  {
   "property": "C62",
   "status": "partial",
   "theorems": [
    "Tsar.Loop.predicate_right_partial",
    "Tsar.Loop.predicate_left_fails"
   ],
   "note": "Holds if the bound is the second operand; for the other position the stored predicate is wrong for each of ten predicates."
  },
  {
   "property": "C63",
   "status": "partial",
   "theorems": [
    "Tsar.Loop.coherent_consistent",
    "Tsar.Loop.coherent_terminates",
    "Tsar.Loop.coherent_rejects_partial",
    "Tsar.Loop.coherent_fails"
   ],
   "note": "Accepted loops are proved to make progress and stop; rejection is justified for strict conditions only (witness for <=)."
  },
  {
   "property": "C64",
   "status": "partial",
   "theorems": [
    "Tsar.Socket.sockets_exact",
    "Tsar.Socket.find_exact",
    "Tsar.Socket.sockets_stay",
    "Tsar.Socket.active_partial",
    "Tsar.Socket.lastActive_total",
    "Tsar.Socket.active_fails",
    "Tsar.Socket.setActive_fails"
   ],
   "note": "Proved for every history with an activation. Without one the access to the active socket is undefined; a successful setActive has no result."
  },
  {
   "property": "C65",
   "status": "partial",
   "theorems": [
    "Tsar.Socket.wait_partial",
    "Tsar.Socket.wait_terminates",
    "Tsar.Socket.wait_closed_fails",
    "Tsar.Socket.wait_stale_fails",
    "Tsar.Socket.getAnalysis_partial",
    "Tsar.Socket.getAnalysis_closed_fails"
   ],
   "note": "Proved for a connected server. On a closed socket wait() does not return or returns without a notification, and getAnalysis() returns old data."
  },
  {
   "property": "C66",
   "status": "partial",
   "theorems": [
    "Tsar.Response.respond_form",
    "Tsar.Response.respond_partial",
    "Tsar.Response.respond_fails"
   ],
   "note": "Form and availability are proved for every history; results belong to the requested function if all previous requests were available. Otherwise the cache returns results for another function (witness for every server)."
  },
  {
   "property": "C67",
   "status": "proved",
   "theorems": [
    "Tsar.Protocol.correct_iff_fits",
    "Tsar.Protocol.diMemory_correct",
    "Tsar.Protocol.dvmh_correct",
    "Tsar.Protocol.synchronised",
    "Tsar.Protocol.diMemory_initialised",
    "Tsar.Protocol.diMemory_closed"
   ],
   "note": "Exact condition for agreement under all schedules, and its instances for all pipelines of the repository."
  },
  {
   "property": "C68",
   "status": "proved",
   "theorems": [
    "Tsar.Directives.prototype_eq",
    "Tsar.Directives.findAnchor_block",
    "Tsar.Directives.findAnchor_single",
    "Tsar.Directives.findAnchor_anchor"
   ],
   "note": "For arbitrary lists of records; the layout of the tables is modelled as text which TableGen generates."
  },
  {
   "property": "C69",
   "status": "proved",
   "theorems": [
    "Tsar.Directives.tsar_clause",
    "Tsar.Directives.visit_total",
    "Tsar.Directives.visit_sound",
    "Tsar.Directives.visit_complete",
    "Tsar.Directives.visit_iff",
    "Tsar.Directives.visit_rejects",
    "Tsar.Directives.lang_unique",
    "Tsar.Directives.lang_stmts",
    "Tsar.Directives.tsar_prototypes",
    "Tsar.Directives.simulation",
    "Tsar.Directives.visit_complete_fails",
    "Tsar.Directives.visit_total_fails"
   ],
   "note": "Proved for all prototypes which satisfy decidable conditions (supported, deterministic); each of 43 prototypes of TSAR satisfies them. Two theorems show that the conditions are necessary. Locations of tokens are not modelled."
  },
  {
   "property": "C70",
   "status": "partial",
   "theorems": [
    "Tsar.Directives.pragma_partial",
    "Tsar.Directives.handlePragma_spec",
    "Tsar.Directives.pragma_stmts",
    "Tsar.Directives.dvm_kept",
    "Tsar.Directives.pragma_fails"
   ],
   "note": "Missing: lines which contain the reserved names not_directive and not_clause; an assertion is violated for them (pragma_fails). Pragmas of DVMH are never replaced because there are no handlers for them (dvm_kept)."
  },
  {
   "property": "C71",
   "status": "proved",
   "theorems": [
    "Tsar.Directives.tsar_pragma_ast",
    "Tsar.Directives.pragma_ast",
    "Tsar.Directives.pragma_has_ast",
    "Tsar.Directives.ast_unique"
   ],
   "note": "How Clang parses a sequence of statements is a contract (the relation Ast); the tree is proved to exist and to be unique."
  },
  {
   "property": "C72",
   "status": "proved",
   "theorems": [
    "Tsar.Parallel.combine_keeps_dependence",
    "Tsar.Parallel.combine_noDep",
    "Tsar.Parallel.combine_exact",
    "Tsar.Parallel.combine_conservative",
    "Tsar.Parallel.combine_flags",
    "Tsar.Parallel.combine_defined",
    "Tsar.Parallel.combine_dep_only",
    "Tsar.Parallel.getReductionKind_op"
   ],
   "note": "For sets of any size; semantics of the external trait descriptor is a contract."
  },
  {
   "property": "C73",
   "status": "partial",
   "theorems": [
    "Tsar.Parallel.explicit_coverage",
    "Tsar.Parallel.access_coverage_partial",
    "Tsar.Parallel.access_coverage_fails",
    "Tsar.Parallel.descendants_conservative"
   ],
   "note": "Proved in full for explicit accesses. For all accesses a node is covered only if traits exist for all nodes which contain it (access_coverage_fails shows that this is necessary)."
  },
  {
   "property": "C74",
   "status": "partial",
   "theorems": [
    "Tsar.DepTest.symbolicRDIV_independent",
    "Tsar.DepTest.banerjee_independent",
    "Tsar.DepTest.banerjee_direction",
    "Tsar.DepTest.exactRDIV_independent_partial",
    "Tsar.DepTest.exactSIV_independent_partial",
    "Tsar.DepTest.exactSIV_window",
    "Tsar.DepTest.exactSIV_gcd_fails"
   ],
   "note": "Proved in full for the symbolic RDIV test and Banerjee inequalities. Missing: coefficients of the exact SIV test with a common divisor (exactSIV_gcd_fails), iterations which are too far from the solution of Euclid's algorithm."
  },
  {
   "property": "C75",
   "status": "proved",
   "theorems": [
    "Tsar.DepTest.intersect_sound",
    "Tsar.DepTest.propagate_sound",
    "Tsar.DepTest.updateDirection_sound",
    "Tsar.DepTest.propagate_defined",
    "Tsar.DepTest.intersect_nonDeg"
   ],
   "note": "For all constraints which the tests produce."
  },
  {
   "property": "C76",
   "status": "proved",
   "theorems": [
    "Tsar.DepTest.parts_unique",
    "Tsar.DepTest.parts_group",
    "Tsar.DepTest.parts_linked"
   ],
   "note": "For all numbers of subscripts and sets of loops."
  },
  {
   "property": "C77",
   "status": "proved",
   "theorems": [
    "Tsar.DepTest.levels_inj",
    "Tsar.DepTest.srcLevels_inj",
    "Tsar.DepTest.dstLevels_inj",
    "Tsar.DepTest.levels_range",
    "Tsar.DepTest.level_common",
    "Tsar.DepTest.establishLevels_spec"
   ],
   "note": "For all paths in loop forests."
  },
  {
   "property": "C78",
   "status": "partial",
   "theorems": [
    "Tsar.DepTest.depends_sound_partial",
    "Tsar.DepTest.testSIV_sound",
    "Tsar.DepTest.testRDIV_sound",
    "Tsar.DepTest.testMIV_sound",
    "Tsar.DepTest.depends_gcd_fails",
    "Tsar.DepTest.depends_zero_fails",
    "Tsar.DepTest.depends_stale_fails",
    "Tsar.DepTest.depends_level_fails",
    "Tsar.DepTest.classify_SIV",
    "Tsar.DepTest.classify_RDIV"
   ],
   "note": "Missing: calls of single tests outside of conditions CallOk (zero coefficients, coefficients of an unknown sign, coefficients of the exact test with a common divisor, coupled subscripts which vary outside of the nest). Each of the first, third and fourth conditions is necessary: depends_*_fails."
  },
  {
   "property": "C79",
   "status": "proved",
   "theorems": [
    "Tsar.DepTest.split_crosses",
    "Tsar.DepTest.split_parts",
    "Tsar.DepTest.weakCrossing_split"
   ],
   "note": "A recurrence with the constant step 0 is folded by the external scalar evolution."
  },
  {
   "property": "C80",
   "status": "partial",
   "theorems": [
    "Tsar.DIDep.combineWith_covers_partial",
    "Tsar.DIDep.mergePool_covers_partial",
    "Tsar.DIDep.combineAll_covers_partial",
    "Tsar.DIDep.combineWith_kinds",
    "Tsar.DIDep.mergePool_kinds",
    "Tsar.DIDep.combineWith_may_partial",
    "Tsar.DIDep.combineWith_causes",
    "Tsar.DIDep.combineWith_unit",
    "Tsar.DIDep.combineWith_wf",
    "Tsar.DIDep.mergePool_wf",
    "Tsar.DIDep.combineWith_defined_partial",
    "Tsar.DIDep.mergePool_defined",
    "Tsar.DIDep.combineWith_order_fails",
    "Tsar.DIDep.mergePool_order_fails",
    "Tsar.DIDep.combineWith_levels_fails"
   ],
   "note": "Missing: a variable with unknown kinds of dependencies (for example, private) which is combined with a location with values attached to several kinds; the distance of the second kind is wrong (combineWith_order_fails, mergePool_order_fails). The combination is undefined if trailing unknown levels of the first distance vector have been dropped (combineWith_levels_fails)."
  },
  {
   "property": "C81",
   "status": "partial",
   "theorems": [
    "Tsar.DIDep.clarify_sound_partial",
    "Tsar.DIDep.clarify_history_partial",
    "Tsar.DIDep.clarify_history_dependence",
    "Tsar.DIDep.clarify_allows",
    "Tsar.DIDep.clarify_ok",
    "Tsar.DIDep.clarify_unit",
    "Tsar.DIDep.clarify_header",
    "Tsar.DIDep.clarify_known",
    "Tsar.DIDep.clarify_noAccess",
    "Tsar.DIDep.addOrUpdate_locked",
    "Tsar.DIDep.isLocked_iff",
    "Tsar.DIDep.clarify_firstPrivate_fails",
    "Tsar.DIDep.clarify_accuracy_fails",
    "Tsar.DIDep.clarify_legal_fails",
    "Tsar.DIDep.clarify_partlyKnown_fails",
    "Tsar.DIDep.addOrUpdate_result_fails"
   ],
   "note": "Missing: a first private location for which the new analysis claims neither absence of dependencies nor possibility of privatization; the requirement of initialization is lost (clarify_firstPrivate_fails). Accuracy of the result is not guaranteed (clarify_accuracy_fails, clarify_legal_fails, clarify_partlyKnown_fails)."
  },
  {
   "property": "C82",
   "status": "partial",
   "theorems": [
    "Tsar.Delin.clean_complete_partial",
    "Tsar.Delin.clean_zero_partial",
    "Tsar.Delin.clean_tail_partial",
    "Tsar.Delin.clean_succeeds",
    "Tsar.Delin.clean_keeps",
    "Tsar.Delin.clean_shift_fails",
    "Tsar.Delin.clean_tail_fails",
    "Tsar.Delin.clean_type_fails"
   ],
   "note": "Missing: several omitted subscripts before dimensions with symbolic sizes (clean_shift_fails), an omitted subscript between a symbolic dimension and a constant one (clean_tail_fails), indexes with types which are not types of elements of the array (clean_type_fails): the result is wrong in these cases."
  },
  {
   "property": "C83",
   "status": "partial",
   "theorems": [
    "Tsar.Delin.fill_known_partial",
    "Tsar.Delin.fill_unknown_partial",
    "Tsar.Delin.fill_zero_fails",
    "Tsar.Delin.fill_type_fails"
   ],
   "note": "Missing: an inexact division of the GCD by the product of sizes is not noticed by the code, so a size may be zero (fill_zero_fails); types of indexes are ignored if the shape is not given by metadata (fill_type_fails)."
  },
  {
   "property": "C84",
   "status": "partial",
   "theorems": [
    "Tsar.Delin.mkRange_offset_partial",
    "Tsar.Delin.mkRange_address_partial",
    "Tsar.Delin.mkRange_count",
    "Tsar.Delin.extract_cast_fails"
   ],
   "note": "Missing: a cast between instructions; everything before it is lost (extract_cast_fails)."
  },
  {
   "property": "C85",
   "status": "partial",
   "theorems": [
    "Tsar.Attrs.noIO_iff",
    "Tsar.Attrs.alwaysReturn_iff",
    "Tsar.Attrs.direct_iff",
    "Tsar.Attrs.loop_iff",
    "Tsar.Attrs.safeLoop_iff",
    "Tsar.Attrs.safeLoop_sound",
    "Tsar.Attrs.alwaysReturn_recursion_fails"
   ],
   "note": "Missing: return from a function is deduced from attributes of functions which may be executed only, so a function with infinite recursion (or an infinite loop) is marked as one which always returns (alwaysReturn_recursion_fails)."
  },
  {
   "property": "C86",
   "status": "partial",
   "theorems": [
    "Tsar.Attrs.libFunc_sound",
    "Tsar.Attrs.libFunc_known",
    "Tsar.Attrs.libFunc_closed_partial",
    "Tsar.Attrs.indirectCall_iff_partial",
    "Tsar.Attrs.libFunc_recursion_fails",
    "Tsar.Attrs.indirectCall_arg_fails"
   ],
   "note": "Missing: a mark is not propagated inside a component of mutually recursive functions if they are visited in an unsuitable order (libFunc_recursion_fails); an address which is passed as an argument of a call is ignored (indirectCall_arg_fails)."
  },
  {
   "property": "C87",
   "status": "partial",
   "theorems": [
    "Tsar.Attrs.found_iff",
    "Tsar.Attrs.accesses_sound_partial",
    "Tsar.Attrs.accesses_unknown",
    "Tsar.Attrs.accesses_exact",
    "Tsar.Attrs.accesses_callback_fails",
    "Tsar.Attrs.found_cast_fails"
   ],
   "note": "Missing: globals accessed by a user function which is called back by a library function (accesses_callback_fails), and operands with nested conversions between pointers and integers (found_cast_fails)."
  },
  {
   "property": "C88",
   "status": "partial",
   "theorems": [
    "Tsar.DefUse.aggregate_may_partial",
    "Tsar.DefUse.aggregate_must_partial",
    "Tsar.DefUse.aggregate_own",
    "Tsar.DefUse.aggregate_iff",
    "Tsar.DefUse.aggregate_start_fails",
    "Tsar.DefUse.aggregate_nested_fails",
    "Tsar.DefUse.aggregate_trip_fails",
    "Tsar.DefUse.aggregate_diagonal_fails"
   ],
   "note": "Missing: beginnings which are not constant (the lower bound of a range of values is used as the beginning, aggregate_start_fails), subscripts which depend on several loops (aggregate_nested_fails), loops which are not left from a header (aggregate_trip_fails), two subscripts which depend on the same loop (aggregate_diagonal_fails)."
  },
  {
   "property": "C89",
   "status": "partial",
   "theorems": [
    "Tsar.DefUse.block_describes_partial",
    "Tsar.DefUse.simple_does_partial",
    "Tsar.DefUse.aggregate_bytes",
    "Tsar.DefUse.block_interference_fails",
    "Tsar.DefUse.contained_base_fails",
    "Tsar.DefUse.simple_cmpXchg_fails"
   ],
   "note": "Missing: instructions which read memory through one argument and overwrite it through another one (block_interference_fails), pointers with different bases which have the same address (contained_base_fails), cmpxchg which does not write memory (simple_cmpXchg_fails). Traversal of the alias tree is an input list of visited locations."
  },
  {
   "property": "C90",
   "status": "partial",
   "theorems": [
    "Tsar.DefUse.arg_does_partial",
    "Tsar.DefUse.global_does_partial",
    "Tsar.DefUse.isPure_sound",
    "Tsar.DefUse.isPure_complete",
    "Tsar.DefUse.isPure_globals_never",
    "Tsar.DefUse.arg_field_fails",
    "Tsar.DefUse.global_part_fails"
   ],
   "note": "Missing: a part of memory which is accessed through a pointer to this part (arg_field_fails), a part of a global variable which is always written (global_part_fails, this code is unreachable since isPure never recognises such functions, isPure_globals_never)."
  },
  {
   "property": "C91",
   "status": "proved",
   "theorems": [
    "Tsar.Calls.extract_run",
    "Tsar.Calls.extract_body",
    "Tsar.Calls.extract_terms",
    "Tsar.Calls.extract_entry",
    "Tsar.Calls.extract_alone",
    "Tsar.Calls.checkCalls_iff",
    "Tsar.Calls.extract_check",
    "Tsar.Calls.marker_is_skipped_fails",
    "Tsar.Calls.check_alone_fails"
   ],
   "note": "getNextUsefulInstruction tests a wrong instruction (markers after a call are not skipped, an unneeded block appears); the check does not look at instructions after a call, so alone it does not imply that calls are isolated."
  },
  {
   "property": "C92",
   "status": "partial",
   "theorems": [
    "Tsar.GlobalLive.live_sound_partial",
    "Tsar.GlobalLive.lives_iff",
    "Tsar.GlobalLive.callOut_iff",
    "Tsar.GlobalLive.scan_iff",
    "Tsar.GlobalLive.analyzed",
    "Tsar.GlobalLive.self_recursion_fails",
    "Tsar.GlobalLive.vararg_fails",
    "Tsar.GlobalLive.other_name_fails",
    "Tsar.GlobalLive.before_parameter_fails"
   ],
   "note": "Soundness is proved for call graphs without self-recursion, without functions with a variable number of arguments, if memory alive after a call is known under the names visible in the callee and derived pointers do not point before a parameter; each of the four restrictions is necessary (negations are proved)."
  },
  {
   "property": "C93",
   "status": "partial",
   "theorems": [
    "Tsar.NoCapture.nocapture_sound_partial",
    "Tsar.NoCapture.isCaptured_total",
    "Tsar.NoCapture.twice_fails",
    "Tsar.NoCapture.deep_fails",
    "Tsar.NoCapture.new_fails",
    "Tsar.NoCapture.indirect_fails"
   ],
   "note": "Missing: calls with several operands connected with the parameter (only one operand of an instruction is checked, twice_fails), memory which contains the parameter and is passed to a call (deep_fails), noalias functions which return memory with pointers (new_fails). The analysis dereferences a null pointer for an indirect call (indirect_fails). Attributes of library functions and intrinsics, which are set unconditionally, are inputs."
  },
  {
   "property": "C94",
   "status": "partial",
   "theorems": [
    "Tsar.Rename.rename_resolve_partial",
    "Tsar.Rename.rename_shape",
    "Tsar.Rename.rename_outside",
    "Tsar.Rename.rename_unique",
    "Tsar.Rename.fresh_not_mem",
    "Tsar.Rename.fresh_prefix",
    "Tsar.Rename.function_fails",
    "Tsar.Rename.type_fails"
   ],
   "note": "Missing: declarations of functions inside a scope where names are changed (the list of changes is cleared, function_fails), types and members which are declared in such a scope (their names are not expressions and they are not changed, type_fails). Uniqueness of names and absence of other changes are proved for all programs."
  },
  {
   "property": "C95",
   "status": "partial",
   "theorems": [
    "Tsar.Rewriter.rewrite_partial",
    "Tsar.Rewriter.replace_first",
    "Tsar.Rewriter.insert_first",
    "Tsar.Rewriter.replace_comm",
    "Tsar.Rewriter.remove_line",
    "Tsar.Rewriter.remove_only",
    "Tsar.Rewriter.single_fails",
    "Tsar.Rewriter.empty_fails",
    "Tsar.Rewriter.inner_fails",
    "Tsar.Rewriter.lost_fails",
    "Tsar.Rewriter.before_fails",
    "Tsar.Rewriter.zero_fails",
    "Tsar.Rewriter.end_fails",
    "Tsar.Rewriter.line_fails"
   ],
   "note": "Proved for all sequences of requests which do not touch the inside of ranges replaced before. Missing: requests inside of a replaced range (inner_fails), insertion at a replaced character (single_fails, empty_fails), text inserted at the first character of a range replaced later (lost_fails), replacement of an empty range (zero_fails), insertion at the end of the text (end_fails). InsertTextBefore inserts text after (before_fails)."
  },
  {
   "property": "C96",
   "status": "partial",
   "theorems": [
    "Tsar.PtrReg.ptr2reg_partial",
    "Tsar.PtrReg.ptr2reg_no_access",
    "Tsar.PtrReg.ptr2reg_phi",
    "Tsar.PtrReg.ptr2reg_shared_fails",
    "Tsar.PtrReg.ptr2reg_dangling_fails",
    "Tsar.PtrReg.ptr2reg_null_fails"
   ],
   "note": "Proved for every SSA loop whose exit blocks are each reached from a single block of the loop, when the operand of the store after the loop has not been erased. Missing: shared exit blocks (the value of one exiting block is lost, ptr2reg_shared_fails), an erased phi-node stored after the loop (ptr2reg_dangling_fails) and a null pointer dereferenced for a constant operand (ptr2reg_null_fails). Selection of locations and debug intrinsics are not modelled."
  },
  {
   "property": "C97",
   "status": "partial",
   "theorems": [
    "Tsar.Unreach.eliminate_partial",
    "Tsar.Unreach.eliminate_unmarked",
    "Tsar.Unreach.eliminate_removed",
    "Tsar.Unreach.eliminate_or_fails",
    "Tsar.Unreach.eliminate_comma_fails",
    "Tsar.Unreach.eliminate_elseif_fails",
    "Tsar.Unreach.eliminate_braces_fails",
    "Tsar.Unreach.eliminate_for_fails",
    "Tsar.Unreach.eliminate_cond_fails"
   ],
   "note": "Proved for programs with SafeS. Missing because the code is wrong there: value of || with an unreachable operand (eliminate_or_fails), comma in the remaining operand of ?: (eliminate_comma_fails), a branch or a body without braces which is replaced with nothing or with several statements (eliminate_elseif_fails, eliminate_braces_fails), for with an unreachable body whose initialization has side effects (eliminate_for_fails), ?: with side effects inside of an expression (eliminate_cond_fails). Macros, switch, do and labels are not modelled."
  },
  {
   "property": "C98",
   "status": "partial",
   "theorems": [
    "Tsar.Coverage.isUnreachable_partial",
    "Tsar.Coverage.isUnreachable_end_fails",
    "Tsar.Coverage.isUnreachable_begin_fails"
   ],
   "note": "Proved if there is a segment before and a segment after the range. Missing: a range which contains the last segment reads the end of the list (isUnreachable_end_fails), a range before the first segment is always unreachable (isUnreachable_begin_fails)."
  },
  {
   "property": "C99",
   "status": "proved",
   "theorems": [
    "Tsar.AstDep.evaluate_handled",
    "Tsar.AstDep.evaluate_reason",
    "Tsar.AstDep.evaluate_complete",
    "Tsar.AstDep.ignore_redundant_fails",
    "Tsar.AstDep.unknown_distance_fails"
   ],
   "note": "evaluate_complete is for the options which do not weaken requirements. Constant scalars are not analyzed by the code. Options which ignore more memory are not weaker (ignore_redundant_fails); dependences with unknown distances are silently accepted here (unknown_distance_fails), C50 is what rejects such loops."
  },
  {
   "property": "C100",
   "status": "partial",
   "theorems": [
    "Tsar.AstDep.parallel_loop_partial",
    "Tsar.AstDep.parallel_sequential",
    "Tsar.AstDep.last_private_fails",
    "Tsar.AstDep.inner_variable_fails",
    "Tsar.AstDep.static_variable_fails",
    "Tsar.AstDep.hidden_variable_fails",
    "Tsar.AstDep.loop_variable_fails"
   ],
   "note": "Proved for every loop, team, schedule and interleaving under the conditions Plain; the code is wrong in each of the excluded cases, which is proved by the theorems with suffix _fails. Missing: ordered loops, nests of collapsed loops, merged parallel regions, ignored redundant memory."
  },
  {
   "property": "C101",
   "status": "partial",
   "theorems": [
    "Tsar.Canon.canonical_values_partial",
    "Tsar.Canon.canonical_stop_partial",
    "Tsar.Canon.canonical_body",
    "Tsar.Canon.reversed_condition_fails",
    "Tsar.Canon.selected_bound_fails",
    "Tsar.Canon.selected_step_fails"
   ],
   "note": "Proved for loops v = S; v = v +- E with any invariant S and E without phi-nodes, for any number of iterations. Missing: a predicate if the variable is the second operand of the condition (the inverse predicate is reported instead of the swapped one, reversed_condition_fails), a bound which is computed in several blocks (selected_bound_fails), a step which is a phi-node (selected_step_fails). Overflow is not modelled."
  },
  {
   "property": "C102",
   "status": "partial",
   "theorems": [
    "Tsar.Canon.canonical_invariant_partial",
    "Tsar.Canon.selected_step_fails"
   ],
   "note": "Proved for expressions without phi-nodes; a phi-node is accepted although it may have different values (selected_step_fails). Traits of memory in the loop are assumed to be right (the subject of C50 and C72)."
  },
  {
   "property": "C103",
   "status": "partial",
   "theorems": [
    "Tsar.Ordered.ordered_partial",
    "Tsar.Ordered.ordered_progress_partial",
    "Tsar.Ordered.ordered_defined",
    "Tsar.Ordered.ordered_inner_fails",
    "Tsar.Ordered.ordered_short_fails",
    "Tsar.Ordered.ordered_step_fails"
   ],
   "note": "Proved for any nest if distances are known for all loops of the nest, they are zero for inner loops and steps are equal to one. The code is wrong in other cases: components of inner loops are not negated (ordered_inner_fails), ranges out of a list are read (ordered_short_fails), numbers of iterations are subtracted from a variable (ordered_step_fails)."
  },
  {
   "property": "C104",
   "status": "partial",
   "theorems": [
    "Tsar.DeadDecls.eliminate_partial",
    "Tsar.DeadDecls.eliminate_complete",
    "Tsar.DeadDecls.removed_local",
    "Tsar.DeadDecls.volatile_fails",
    "Tsar.DeadDecls.volatile_read_fails",
    "Tsar.DeadDecls.extern_fails",
    "Tsar.DeadDecls.reference_fails",
    "Tsar.DeadDecls.constructor_fails",
    "Tsar.DeadDecls.array_size_fails",
    "Tsar.DeadDecls.enumeration_fails",
    "Tsar.DeadDecls.redeclaration_fails",
    "Tsar.DeadDecls.range_loop_fails"
   ],
   "note": "Proved for any function if unused local variables are plain ones (not volatile, not extern, not references, no constructors, no side effects in sizes of arrays) and names are declared once. The code is wrong in other cases, each of them has a witness. Labels, switch, GNU statement expressions, lambdas and exceptions are not modelled; text is modelled as a tree."
  },
  {
   "property": "C105",
   "status": "partial",
   "theorems": [
    "Tsar.Inline.inline_partial",
    "Tsar.Inline.comma_fails",
    "Tsar.Inline.comma_void_fails",
    "Tsar.Inline.elvis_fails",
    "Tsar.Inline.sizeof_fails",
    "Tsar.Inline.declarator_fails",
    "Tsar.Inline.label_fails",
    "Tsar.Inline.for_init_fails",
    "Tsar.Inline.loop_body_fails",
    "Tsar.Inline.else_fails",
    "Tsar.Inline.static_fails"
   ],
   "note": "Proved for all programs whose functions satisfy Good: each behaviour (finite or a prefix of an infinite one) of the expanded program is a behaviour of the original one. Missing: programs outside of Good, the code is wrong for them (each requirement to the shape of statements has a witness); the converse inclusion (an expanded program does not stop earlier), user labels, switch and types."
  },
  {
   "property": "C106",
   "status": "partial",
   "theorems": [
    "Tsar.Inline.recursion_partial",
    "Tsar.Inline.recursion_ends_partial",
    "Tsar.Inline.recursion_missed_fails",
    "Tsar.Inline.recursion_endless_fails",
    "Tsar.Inline.recursion_diamond_fails"
   ],
   "note": "Proved: if the search ends then direct recursion is found, each function which leads to a cycle leads to a found function, and expansion is finite if nothing is found; the search ends if the last call of each function is expanded. The full statement is false of the code: a cycle of three functions is missed, the search does not end, a function without recursion is reported."
  },
  {
   "property": "C107",
   "status": "proved",
   "theorems": [
    "Tsar.Inline.suffix_new",
    "Tsar.Inline.names_distinct",
    "Tsar.Inline.names_exist"
   ],
   "note": "A counter is not bounded in the model: in the code it has 32 bits, so the claim holds for less than 2^32 identifiers."
  },
  {
   "property": "C108",
   "status": "partial",
   "theorems": [
    "Tsar.Unparse.unparse_partial",
    "Tsar.Unparse.unparse_same_partial",
    "Tsar.Unparse.grammar_unique",
    "Tsar.Unparse.designates_unique",
    "Tsar.Unparse.unparse_fails",
    "Tsar.Unparse.unparse_vla_fails",
    "Tsar.Unparse.unparse_template_fails",
    "Tsar.Unparse.unparse_divide_fails"
   ],
   "note": "Proved for all types and expressions if all dereferenced objects except the last one are pointers according to types, the last one is a scalar object, bounds of arrays are known in templates and rows of arrays have less than 2^32 elements. The full statement is false of the code in other cases: a dereference is lost (unparse_fails, unparse_vla_fails), a text is not an expression (unparse_template_fails), division by zero (unparse_divide_fails)."
  },
  {
   "property": "C109",
   "status": "partial",
   "theorems": [
    "Tsar.Unparse.build_partial",
    "Tsar.Unparse.build_size_partial",
    "Tsar.Unparse.printed_partial",
    "Tsar.Unparse.build_fails"
   ],
   "note": "Proved for all pointers if metadata is attached to whole variables, together with a text of the location (printed_partial). The full statement is false of the code: elements of a fragment of a variable are stored in the wrong order (build_fails). 64-bit overflow of offsets is not modelled."
  },
  {
   "property": "C110",
   "status": "partial",
   "theorems": [
    "Tsar.Unparse.key_equal",
    "Tsar.Unparse.ne_partial",
    "Tsar.Unparse.ne_fails"
   ],
   "note": "Equality of keys and hash values is proved. The operator != is wrong: locations of one variable with different expressions are neither equal nor different (ne_fails)."
  },
  {
   "property": "C111",
   "status": "partial",
   "theorems": [
    "Tsar.DbgValue.findMetadata_partial",
    "Tsar.DbgValue.findFirst_mem",
    "Tsar.DbgValue.findFirst_first",
    "Tsar.DbgValue.search_total",
    "Tsar.DbgValue.mayAlias_iff",
    "Tsar.DbgValue.findMetadata_fails",
    "Tsar.DbgValue.findMetadata_deref_fails"
   ],
   "note": "Proved for all graphs, paths and users if in a block of a user there is no intrinsic for another overlapping part of the variable before the user, and the variable is not described with a dereference. The full statement is false of the code: a change of a part of the variable in the block of a user is missed (findMetadata_fails), intrinsics with a dereference are ignored (findMetadata_deref_fails)."
  },
  {
   "property": "C112",
   "status": "partial",
   "theorems": [
    "Tsar.Propagate.propagate_partial",
    "Tsar.Propagate.second_fails",
    "Tsar.Propagate.hidden_fails",
    "Tsar.Propagate.negative_fails"
   ],
   "note": "Proved for all programs if global declarations are not hidden by local ones and references of a right-hand side are available in all usages except the first one. The full statement is false of the code: availability is checked for the first usage only (second_fails), hidden global declarations are accepted (hidden_fails), a negative constant is inserted without parentheses (negative_fails). Expressions have no side effects in the model."
  },
  {
   "property": "C113",
   "status": "partial",
   "theorems": [
    "Tsar.Propagate.candidate_value",
    "Tsar.Propagate.avail_partial",
    "Tsar.Propagate.same_value",
    "Tsar.Propagate.avail_fails",
    "Tsar.Propagate.copy_fails",
    "Tsar.Propagate.global_fails",
    "Tsar.Propagate.memory_fails"
   ],
   "note": "Proved: candidates hold the value of the right-hand side; the result is right if variables of the right-hand side and memory it reads are not assigned between the points. The full statement is false of the code: a variable is available if it holds any operand of the expression, for example a constant (avail_fails, copy_fails), global variables and memory are always available (global_fails, memory_fails). Branches and calls are not modelled."
  },
  {
   "property": "C114",
   "status": "partial",
   "theorems": [
    "Tsar.Propagate.target_partial",
    "Tsar.Propagate.target_fails",
    "Tsar.Propagate.target_crash_fails"
   ],
   "note": "Proved for left-hand sides which are valid in C. In C++ targets in comma and conditional operators are missed (target_fails), an assertion is violated if there is no variable (target_crash_fails)."
  },
  {
   "property": "C115",
   "status": "proved",
   "theorems": [
    "Tsar.Matcher.match_place",
    "Tsar.Matcher.match_one_to_one",
    "Tsar.Matcher.loops_classified"
   ],
   "note": "Every list of statements and loops, assertions on or off. A run without undefined behaviour is a premise (C117)."
  },
  {
   "property": "C116",
   "status": "proved",
   "theorems": [
    "Tsar.Matcher.match_order",
    "Tsar.Matcher.match_macro_order"
   ],
   "note": "For functions where no loop of LLVM IR starts at the initialization of a `for` (with such loops the place of matching is C115)."
  },
  {
   "property": "C117",
   "status": "partial",
   "theorems": [
    "Tsar.Matcher.explicit_crash_iff",
    "Tsar.Matcher.run_total_partial",
    "Tsar.Matcher.expr_crash_fails",
    "Tsar.Matcher.init_crash_fails",
    "Tsar.Matcher.release_crash_fails"
   ],
   "note": "False in general: every expression at the start of a loop takes an element of the queue (`*_crash_fails`). Proved: exactly when the explicit traversal is undefined, and a sufficient condition for the whole analysis. Missing: functions where loops start at the initialization of a `for`."
  },
  {
   "property": "C118",
   "status": "partial",
   "theorems": [
    "Tsar.Matcher.match_label_partial",
    "Tsar.Matcher.match_label_fails"
   ],
   "note": "False in general: a range-based `for` is matched with an earlier label. Proved: the terminator of the header is at a statement after the label with no other label between them. Missing: that jumps to the label form the loop."
  },
  {
   "property": "C119",
   "status": "proved",
   "theorems": [
    "Tsar.SrcLoop.perfect_iff",
    "Tsar.SrcLoop.perfect_region_iff"
   ],
   "note": "Every tree of statements and every initial value of the fields which are not initialized."
  },
  {
   "property": "C120",
   "status": "proved",
   "theorems": [
    "Tsar.SrcLoop.exits_recorded",
    "Tsar.SrcLoop.returns_recorded"
   ],
   "note": "Every function the analysis does not fail for (C122)."
  },
  {
   "property": "C121",
   "status": "partial",
   "theorems": [
    "Tsar.SrcLoop.exits_precise_partial",
    "Tsar.SrcLoop.entry_never",
    "Tsar.SrcLoop.entry_fails",
    "Tsar.SrcLoop.goto_exit_fails",
    "Tsar.SrcLoop.break_range_fails"
   ],
   "note": "False in general: no jump into a loop is ever recorded (`entry_never`), a jump inside a loop and a `break` of a range-based `for` are recorded as exits. Proved: `break` and `return` which are not in range-based `for` leave the loop. Missing: `goto`."
  },
  {
   "property": "C122",
   "status": "partial",
   "theorems": [
    "Tsar.SrcLoop.control_crash_iff",
    "Tsar.SrcLoop.control_total_partial",
    "Tsar.SrcLoop.control_crash_fails"
   ],
   "note": "False for a `break` of a range-based `for` which is not in another loop; exactly these functions fail."
  },
  {
   "property": "C123",
   "status": "partial",
   "theorems": [
    "Tsar.SrcLoop.calls_recorded_partial",
    "Tsar.SrcLoop.calls_fails"
   ],
   "note": "False for calls through variables; proved for calls of functions of LLVM IR and for callees without a declaration."
  },
  {
   "property": "C124",
   "status": "proved",
   "theorems": [
    "Tsar.DeadStore.run_result",
    "Tsar.DeadStore.doomed_iff"
   ],
   "note": "For every order of iteration over sets; the bound on iterations is explicit."
  },
  {
   "property": "C125",
   "status": "partial",
   "theorems": [
    "Tsar.DeadStore.dse_preserves_partial",
    "Tsar.DeadStore.dse_volatile_fails",
    "Tsar.DeadStore.dse_terminator_fails"
   ],
   "note": "False for volatile stores, which are removed, and for a terminator with a value and without memory accesses, which is removed with its uses. Proved for functions without them, under the contract of alias analysis; instructions which do not access memory are assumed to return."
  },
  {
   "property": "C126",
   "status": "proved",
   "theorems": [
    "Tsar.Extern.load_exact",
    "Tsar.Extern.traits_exact",
    "Tsar.Extern.loop_exact",
    "Tsar.Extern.buildTraitCache_none",
    "Tsar.Extern.load_total",
    "Tsar.Extern.import_index_fails"
   ],
   "note": "For every file where indices of variables are in range; otherwise behaviour is undefined, exactly in this case (buildTraitCache_none, import_index_fails)."
  },
  {
   "property": "C127",
   "status": "partial",
   "theorems": [
    "Tsar.Extern.import_sound_partial",
    "Tsar.Extern.import_induction_fails"
   ],
   "note": "False for induction variables: a variable listed as an induction variable which is read and modified becomes shared. Everything else is proved for what is read from a file about a variable."
  },
  {
   "property": "C128",
   "status": "partial",
   "theorems": [
    "Tsar.Extern.import_distance_partial",
    "Tsar.Extern.import_total",
    "Tsar.Extern.import_causes_fails",
    "Tsar.Extern.import_null_fails"
   ],
   "note": "False: flags and causes are lost, a null pointer is used if a dependence has no description. Proved: distances, and import does not fail if all dependences have descriptions."
  },
  {
   "property": "C129",
   "status": "proved",
   "theorems": [
    "Tsar.Extern.load_idem",
    "Tsar.Extern.update_idem"
   ],
   "note": "For traits which satisfy the invariant of bcl::TraitSet, which is preserved."
  },
  {
   "property": "C130",
   "status": "partial",
   "theorems": [
    "Tsar.Extern.export_exact_partial",
    "Tsar.Extern.toFile_exact",
    "Tsar.Extern.export_anti_fails",
    "Tsar.Extern.export_distance_fails"
   ],
   "note": "False for distances of anti dependences (distances of flow dependences are written) and for distances with more than 32 bits. Everything else is proved for loops where variables of different locations differ; purity of functions is never written."
  },
  {
   "property": "C131",
   "status": "proved",
   "theorems": [
    "Tsar.Extern.load_exact",
    "Tsar.Extern.findFunction_pure",
    "Tsar.Extern.makePure_asPure"
   ],
   "note": "Every file and every subprogram."
  },
  {
   "property": "C132",
   "status": "partial",
   "theorems": [
    "Tsar.Extern.roundtrip_partial",
    "Tsar.Extern.export_exact_partial",
    "Tsar.Extern.storeRange_exact",
    "Tsar.Extern.roundtrip_first_fails",
    "Tsar.Extern.roundtrip_private_fails",
    "Tsar.Extern.export_anti_fails"
   ],
   "note": "False for privatizable variables which are not used after the loop (first private becomes private, private becomes shared). Proved: alternatives and unit traits of other variables, distances of flow dependences of 32 bits, output dependences."
  },
  {
   "property": "C133",
   "status": "partial",
   "theorems": [
    "Tsar.StructRepl.replaced_partial",
    "Tsar.StructRepl.replaced_fails",
    "Tsar.StructRepl.other_use"
   ],
   "note": "Proved for bodies where an access to a member of a candidate contains no other candidates in its base (tame). False otherwise: in s[t->n].x the reference to s is left (replaced_fails)."
  },
  {
   "property": "C134",
   "status": "partial",
   "theorems": [
    "Tsar.StructRepl.preserved_partial",
    "Tsar.StructRepl.preserved_strict_partial",
    "Tsar.StructRepl.preserved_fails",
    "Tsar.StructRepl.union_fails"
   ],
   "note": "Every finite execution is preserved if members passed by value are not changed through other pointers; with the strict option all members are pointers, so only pointers to structures must be unchanged. False for aliases without the strict option (preserved_fails) and for unions (union_fails). Missing: members which are arrays, requested calls in the body (C136 is about their arguments), macros."
  },
  {
   "property": "C135",
   "status": "partial",
   "theorems": [
    "Tsar.StructRepl.edit_formals",
    "Tsar.StructRepl.metadata_formals",
    "Tsar.StructRepl.pragma_fields",
    "Tsar.StructRepl.pragma_arrays_partial",
    "Tsar.StructRepl.pragma_arrays_fails"
   ],
   "note": "The list of parameters and metadata in memory are proved. The pragma is wrong: the flag of the second member is written for all members after it."
  },
  {
   "property": "C136",
   "status": "partial",
   "theorems": [
    "Tsar.StructRepl.newArg_value_partial",
    "Tsar.StructRepl.newArg_value_fails"
   ],
   "note": "False for explicit requests of callees with a pointer to a member: an address of a copy is passed. Proved otherwise, given that a pointer is available in the caller (C137)."
  },
  {
   "property": "C137",
   "status": "partial",
   "theorems": [
    "Tsar.StructRepl.fill_once",
    "Tsar.StructRepl.fill_closed_partial",
    "Tsar.StructRepl.fill_closed_fails",
    "Tsar.StructRepl.fill_terminates",
    "Tsar.StructRepl.fill_keeps"
   ],
   "note": "Proved: a single pass is enough for a function without recursion; if the pass changes nothing and no arguments are marked by explicit requests then the result is closed; the search always ends and loses nothing. False for recursion with explicit requests: a mark of an array is not considered as a change."
  },
  {
   "property": "C138",
   "status": "partial",
   "theorems": [
    "Tsar.StructRepl.passC_consistent",
    "Tsar.StructRepl.inCalls_keeps",
    "Tsar.StructRepl.inCalls_precise",
    "Tsar.StructRepl.inCalls_terminates_partial",
    "Tsar.StructRepl.inCalls_terminates_fails",
    "Tsar.StructRepl.insertNew_own_partial",
    "Tsar.StructRepl.insertNew_own_fails"
   ],
   "note": "False: an explicit request which is considered as a change forever leads to an infinite loop, functions of one component share the first clone. Proved: consistency after the search, calls with replaced arguments remain requested, nothing is removed from consistent candidates, termination without explicit requests, own clones if at most one function of a component is cloned."
  },
  {
   "property": "C139",
   "status": "proved",
   "theorems": [
    "Tsar.Weights.executionCount_iff",
    "Tsar.Weights.executionCount_total"
   ],
   "note": "Segments are sorted, it is a contract of coverage data."
  },
  {
   "property": "C140",
   "status": "proved",
   "theorems": [
    "Tsar.Weights.weights_exact",
    "Tsar.Weights.weights_order"
   ],
   "note": "For numbers of calls less than 2^32 (otherwise see run_calls_fails in C141)."
  },
  {
   "property": "C141",
   "status": "partial",
   "theorems": [
    "Tsar.Weights.loops_partial",
    "Tsar.Weights.run_defined_partial",
    "Tsar.Weights.run_defined_fails",
    "Tsar.Weights.run_calls_fails",
    "Tsar.Weights.parent_fails"
   ],
   "note": "False: a loop without an identifier is ignored as a parent (parent_fails), a loop nest which has not been executed and a function called 2^32 times lead to division by zero. Everything else is proved."
  },
  {
   "property": "C142",
   "status": "partial",
   "theorems": [
    "Tsar.DepInline.attribute_partial",
    "Tsar.DepInline.attribute_iff",
    "Tsar.DepInline.attribute_ends",
    "Tsar.DepInline.attribute_fails"
   ],
   "note": "Proved if different calls of a function have different locations, otherwise only the first call is marked (attribute_fails). attribute_iff is the exact result in the general case."
  },
  {
   "property": "C143",
   "status": "partial",
   "theorems": [
    "Tsar.DepInline.bound_partial",
    "Tsar.DepInline.unmarked_same",
    "Tsar.DepInline.bound_fails"
   ],
   "note": "False: costs are not updated after inlining, the number of accesses is exponential in the depth of the call graph for a fixed threshold (bound_fails). Proved for a single call of a function without inlined calls."
  },
  {
   "property": "C144",
   "status": "proved",
   "theorems": [
    "Tsar.NotInit.report_iff",
    "Tsar.NotInit.warning_iff"
   ],
   "note": "For every order of traversal of sets. Upward exposed reads are results of C21, C89."
  },
  {
   "property": "C145",
   "status": "partial",
   "theorems": [
    "Tsar.NotInit.covers_partial",
    "Tsar.NotInit.reported_used",
    "Tsar.NotInit.reported_largest",
    "Tsar.NotInit.covers_fails",
    "Tsar.NotInit.covers_silent_fails"
   ],
   "note": "Proved if different memories have different metadata. Metadata of memory without a variable do not depend on its size: a part and the whole share metadata and both are lost (covers_fails). Memory whose metadata are not in the metadata-level alias tree is lost without a warning (covers_silent_fails)."
  },
  {
   "property": "C146",
   "status": "partial",
   "theorems": [
    "Tsar.DvmhData.performed_partial",
    "Tsar.DvmhData.performed_optimized",
    "Tsar.DvmhData.performed_fails",
    "Tsar.DvmhData.performed_childless_fails"
   ],
   "note": "Holds if roots may be inserted into sources, and if all roots are optimized. False otherwise: a root which cannot be inserted is lost without an error if optimization is disabled or if it has no replacements."
  },
  {
   "property": "C147",
   "status": "proved",
   "theorems": [
    "Tsar.DvmhData.all_or_nothing",
    "Tsar.DvmhData.final_written",
    "Tsar.DvmhData.written_valid",
    "Tsar.DvmhData.select_none"
   ],
   "note": "The graph of replacements is acyclic (contract)."
  },
  {
   "property": "C148",
   "status": "partial",
   "theorems": [
    "Tsar.DvmhMerge.less_irrefl",
    "Tsar.DvmhMerge.less_trans",
    "Tsar.DvmhMerge.same_iff",
    "Tsar.DvmhMerge.same_trans",
    "Tsar.DvmhMerge.distinct_partial",
    "Tsar.DvmhMerge.distinct_fails"
   ],
   "note": "The order is a strict weak order. Entries are distinguished for whole variables with different names and for a single constant subscript. False otherwise: subscripts after the first constant and parameters of axes are ignored."
  },
  {
   "property": "C149",
   "status": "partial",
   "theorems": [
    "Tsar.DvmhMerge.write_groups",
    "Tsar.DvmhMerge.written_requested",
    "Tsar.DvmhMerge.requested_written_partial",
    "Tsar.DvmhMerge.lost_fails",
    "Tsar.DvmhMerge.hidden_fails",
    "Tsar.DvmhMerge.sorted_before",
    "Tsar.DvmhMerge.sorted_after"
   ],
   "note": "Groups, their order and soundness are proved; completeness holds if the order distinguishes entries. False otherwise: an element or a visible variable with the same name is lost."
  },
  {
   "property": "C150",
   "status": "partial",
   "theorems": [
    "Tsar.DvmhCoherent.call_coherent_partial",
    "Tsar.DvmhCoherent.induction_fails",
    "Tsar.DvmhCoherent.induction_read_fails"
   ],
   "note": "Refinement of execution with a single memory, proved if induction variables of parallel loops are not written by host instructions which these loops post-dominate. False otherwise: a new value of such a variable is not copied to a device, and it is read by a call without a transfer."
  },
  {
   "property": "C151",
   "status": "partial",
   "theorems": [
    "Tsar.DvmhCoherent.before_call",
    "Tsar.DvmhCoherent.after_call_partial",
    "Tsar.DvmhCoherent.surround_coherent_partial",
    "Tsar.DvmhCoherent.after_call_fails"
   ],
   "note": "Transfers before a call are exact; transfers after a call include all necessary variables, but also variables which are only read on a device."
  },
  {
   "property": "C152",
   "status": "partial",
   "theorems": [
    "Tsar.DvmhAcross.dependent_dim",
    "Tsar.DvmhAcross.only_loop_partial",
    "Tsar.DvmhAcross.other_loop_fails",
    "Tsar.DvmhAcross.depth_joint",
    "Tsar.DvmhAcross.depth_max"
   ],
   "note": "Affine subscripts, a single dependent dimension and the maximal depth are proved. Other loops in the dependent dimension are rejected only after an access with the current loop: the result depends on the order of accesses."
  },
  {
   "property": "C153",
   "status": "partial",
   "theorems": [
    "Tsar.DvmhAcross.widths_set",
    "Tsar.DvmhAcross.covered_partial",
    "Tsar.DvmhAcross.reversed_fails",
    "Tsar.DvmhAcross.strided_fails"
   ],
   "note": "Holds for subscripts i+b and steps 1 and -1. False for a reversed subscript (a wrong side) and for other steps or coefficients (distances are in iterations)."
  },
  {
   "property": "C154",
   "status": "proved",
   "theorems": [
    "Tsar.DvmhAcross.nest_bounded",
    "Tsar.DvmhAcross.nest_open",
    "Tsar.DvmhAcross.nest_accepted"
   ],
   "note": ""
  },
  {
   "property": "C155",
   "status": "partial",
   "theorems": [
    "Tsar.DvmhAcross.recorded_partial",
    "Tsar.DvmhAcross.recorded_kept",
    "Tsar.DvmhAcross.several_fails",
    "Tsar.DvmhAcross.repeated_fails"
   ],
   "note": "Holds for alias nodes with a single memory location and different variables. False otherwise: the variable of the first memory location is used for all of them and existing distances are not updated."
  },
  {
   "property": "C156",
   "status": "proved",
   "theorems": [
    "Tsar.DvmhRegions.merge_region"
   ],
   "note": ""
  },
  {
   "property": "C157",
   "status": "partial",
   "theorems": [
    "Tsar.DvmhRegions.merged_partial",
    "Tsar.DvmhRegions.adjacent_partial",
    "Tsar.DvmhRegions.scope_partial",
    "Tsar.DvmhRegions.mixed_fails",
    "Tsar.DvmhRegions.crash_fails"
   ],
   "note": "Holds if regions of consecutive loops have the same kind. False otherwise: the list of loops is not cleared when the kind changes, so a host region is merged into a device region and already merged regions are merged again, which is a crash."
  },
  {
   "property": "C158",
   "status": "partial",
   "theorems": [
    "Tsar.DvmhRegions.tie_partial",
    "Tsar.DvmhRegions.tie_complete",
    "Tsar.DvmhRegions.tie_fails",
    "Tsar.DvmhRegions.tie_order_fails"
   ],
   "note": "Proved for the last access to an array. False for other accesses: each access overwrites the result of the previous one."
  },
  {
   "property": "C159",
   "status": "partial",
   "theorems": [
    "Tsar.DvmhRegions.sanitize_partial",
    "Tsar.DvmhRegions.sanitize_other",
    "Tsar.DvmhRegions.no_region_fails"
   ],
   "note": "Proved for loops surrounded by a region. A loop without a region results in a null dereference."
  },
  {
   "property": "C160",
   "status": "partial",
   "theorems": [
    "Tsar.OptRegion.collect_partial",
    "Tsar.OptRegion.misplaced_fails",
    "Tsar.OptRegion.crash_fails"
   ],
   "note": "Holds if each directive is followed by a compound statement or a loop. A misplaced directive inside another region cancels the outer region, or the size of a list of active regions wraps around."
  },
  {
   "property": "C161",
   "status": "proved",
   "theorems": [
    "Tsar.OptRegion.region_functions"
   ],
   "note": "Components are processed top-down and they are strongly connected (a contract of scc_iterator)."
  },
  {
   "property": "C162",
   "status": "proved",
   "theorems": [
    "Tsar.OptRegion.loop_query"
   ],
   "note": ""
  },
  {
   "property": "C163",
   "status": "proved",
   "theorems": [
    "Tsar.ArrayAccess.add_exact"
   ],
   "note": "Scopes form a tree and accesses are distinct."
  },
  {
   "property": "C164",
   "status": "partial",
   "theorems": [
    "Tsar.ArrayAccess.history_exact_partial",
    "Tsar.ArrayAccess.erase_fails",
    "Tsar.ArrayAccess.erase_dangling_fails"
   ],
   "note": "Proved for histories where removal leaves at least one access in each scope. False otherwise: the update of scopes stops at the first scope without other accesses, so other scopes refer to removed accesses."
  },
  {
   "property": "C165",
   "status": "proved",
   "theorems": [
    "Tsar.Instrument.same_control_flow",
    "Tsar.Instrument.same_targets"
   ],
   "note": "Loops are natural and form a tree (contracts of LoopInfo)."
  },
  {
   "property": "C166",
   "status": "partial",
   "theorems": [
    "Tsar.Instrument.events_exact_partial",
    "Tsar.Instrument.double_exit_fails"
   ],
   "note": "Proved if a block of a loop has at most one edge to each block outside of the loop. False otherwise: the end of a loop is reported several times."
  },
  {
   "property": "C167",
   "status": "partial",
   "theorems": [
    "Tsar.InstrEntry.exclude_partial",
    "Tsar.InstrEntry.cast_callee_fails"
   ],
   "note": "Unreachable functions are always excluded. Reachable functions are instrumented if there are no calls of casted functions. False otherwise: callees of a casted callee are not visited."
  },
  {
   "property": "C168",
   "status": "proved",
   "theorems": [
    "Tsar.InstrEntry.type_ids_exact",
    "Tsar.InstrEntry.no_types_fails"
   ],
   "note": "Holds whenever initialization is generated; local identifiers are dense (C29). A module without types is a fatal error (no_types_fails)."
  },
  {
   "property": "C169",
   "status": "partial",
   "theorems": [
    "Tsar.InstrEntry.pool_partial",
    "Tsar.InstrEntry.shared_pool_fails"
   ],
   "note": "Proved if modules use different indices, in particular for a single module. False for several modules: indices in a shared pool are not shifted."
  },
  {
   "property": "C170",
   "status": "partial",
   "theorems": [
    "Tsar.InstrEntry.names_partial",
    "Tsar.InstrEntry.name_conflict_fails"
   ],
   "note": "Names of different modules are always different. They may conflict with existing names if there are several modules."
  },
  {
   "property": "C171",
   "status": "partial",
   "theorems": [
    "Tsar.InterchangeSem.interchange_partial",
    "Tsar.InterchangeSem.start_fails",
    "Tsar.InterchangeSem.call_fails",
    "Tsar.InterchangeSem.empty_fails"
   ],
   "note": "Proved for every permutation of headers if initial values of induction variables are not changed in the nest, calls in headers do not read induction variables; final values of induction variables are the same if each loop has an iteration. False otherwise: a start which depends on an inner variable (start_fails), calls in bounds (call_fails), empty loops (empty_fails)."
  },
  {
   "property": "C172",
   "status": "proved",
   "theorems": [
    "Tsar.InterchangeSem.strict_exact",
    "Tsar.InterchangeSem.nostrict_exact",
    "Tsar.InterchangeSem.check_defined"
   ],
   "note": "Exact conditions in both modes; the check has no undefined behaviour if traits of each analyzed loop contain its induction variable."
  },
  {
   "property": "C173",
   "status": "partial",
   "theorems": [
    "Tsar.DistrLimits.uses_partial",
    "Tsar.DistrLimits.return_fails",
    "Tsar.DistrLimits.unknown_fails"
   ],
   "note": "Proved if addresses of arrays are not returned and arrays are accessed through operands of instructions only. False otherwise: a returned address and an access to unknown memory are not noticed."
  },
  {
   "property": "C174",
   "status": "proved",
   "theorems": [
    "Tsar.DistrLimits.disabled_iff",
    "Tsar.DistrLimits.reported",
    "Tsar.DistrLimits.messages_true"
   ],
   "note": "Exact set of disabled arrays, reported reasons are true and each change of a flag is reported."
  },
  {
   "property": "C175",
   "status": "proved",
   "theorems": [
    "Tsar.FileTree.tree_exact",
    "Tsar.FileTree.find_exact",
    "Tsar.FileTree.root_exact",
    "Tsar.FileTree.roots_exact"
   ],
   "note": "For one translation unit; numbering of files (an includer has a less number) is a contract of the source manager."
  },
  {
   "property": "C176",
   "status": "partial",
   "theorems": [
    "Tsar.FileTree.traversal_exact",
    "Tsar.FileTree.order_partial",
    "Tsar.FileTree.traversal_once",
    "Tsar.FileTree.tie_fails"
   ],
   "note": "The order is proved if items of a file have different offsets; declarations from one macro expansion have equal offsets and their order is not specified."
  },
  {
   "property": "C177",
   "status": "partial",
   "theorems": [
    "Tsar.FileTree.root_size_partial",
    "Tsar.FileTree.root_size_fails",
    "Tsar.FileTree.units_fails"
   ],
   "note": "Internal declarations are counted as top-level files; files of different units with equal identifiers are merged."
  },
  {
   "property": "C178",
   "status": "partial",
   "theorems": [
    "Tsar.NoMacro.rejected_partial",
    "Tsar.NoMacro.messages_partial",
    "Tsar.NoMacro.dangling_fails"
   ],
   "note": "Proved if each clause is followed by a statement in its block; a clause at the end of a block is applied to a statement after the block."
  },
  {
   "property": "C179",
   "status": "partial",
   "theorems": [
    "Tsar.NoMacro.all_reported",
    "Tsar.NoMacro.result_partial",
    "Tsar.NoMacro.last_fails",
    "Tsar.NoMacro.repeated_fails"
   ],
   "note": "The flag is proved for one translation unit; the last function overwrites results for other units and messages are repeated for each function."
  },
  {
   "property": "C180",
   "status": "partial",
   "theorems": [
    "Tsar.AtomicFile.atomic_partial",
    "Tsar.AtomicFile.outcome_exact",
    "Tsar.AtomicFile.error_exact",
    "Tsar.AtomicFile.readonly_kept",
    "Tsar.AtomicFile.direct_fails",
    "Tsar.AtomicFile.room_fails"
   ],
   "note": "Atomic if a temporary file is created and data can be stored; direct writing is not atomic and errors of writing are not checked before the file is replaced."
  },
  {
   "property": "C181",
   "status": "partial",
   "theorems": [
    "Tsar.AtomicFile.suffixes_partial",
    "Tsar.AtomicFile.numbered",
    "Tsar.AtomicFile.truncated_fails"
   ],
   "note": "Proved for less than 10000 dumps of a file; the number 10000 is truncated to 1000."
  },
  {
   "property": "C182",
   "status": "partial",
   "theorems": [
    "Tsar.GlobalNames.globals_partial",
    "Tsar.GlobalNames.globals_cpp",
    "Tsar.GlobalNames.cpp_fails"
   ],
   "note": "Exact for C; in C++ only named top-level declarations are registered, enumerators of global enumerations are missed."
  },
  {
   "property": "C183",
   "status": "partial",
   "theorems": [
    "Tsar.MemMatch.macro_exact",
    "Tsar.MemMatch.accounted_partial",
    "Tsar.MemMatch.ambiguous",
    "Tsar.MemMatch.mismatch",
    "Tsar.MemMatch.dropped_fails",
    "Tsar.MemMatch.names_fails"
   ],
   "note": "Variables of a macro with equal names are neither matched nor remembered as unmatched."
  },
  {
   "property": "C184",
   "status": "partial",
   "theorems": [
    "Tsar.MemMatch.globals_exact",
    "Tsar.MemMatch.once_partial",
    "Tsar.MemMatch.repeated_fails"
   ],
   "note": "The same declaration is added for each function of a unit."
  },
  {
   "property": "C185",
   "status": "proved",
   "theorems": [
    "Tsar.MemMatch.scope_exact",
    "Tsar.MemMatch.scope_names"
   ],
   "note": "For scopes outside macros with distinct names; the sort is a parameter with a contract."
  },
  {
   "property": "C186",
   "status": "partial",
   "theorems": [
    "Tsar.ToolRun.unset_exact",
    "Tsar.ToolRun.accounted_partial",
    "Tsar.ToolRun.lang_exact",
    "Tsar.ToolRun.ast_fails",
    "Tsar.ToolRun.lang_fails"
   ],
   "note": "A file with Clang AST is silently ignored without -merge-ast; Fortran sources are silently ignored if the language is specified and Flang is not available."
  },
  {
   "property": "C187",
   "status": "proved",
   "theorems": [
    "Tsar.ToolRun.ir_processed",
    "Tsar.ToolRun.ir_code",
    "Tsar.ToolRun.exit_zero",
    "Tsar.ToolRun.exit_two"
   ],
   "note": "Return codes of Clang and Flang tools are parameters."
  },
  {
   "property": "C188",
   "status": "partial",
   "theorems": [
    "Tsar.ToolRun.weights_partial",
    "Tsar.ToolRun.weights_fails",
    "Tsar.ToolRun.ll_partial",
    "Tsar.ToolRun.ll_fails"
   ],
   "note": "The weight of builtins replaces the weight of functions; the check of LLVM IR files compares extensions with a leading dot and never succeeds."
  }
 ]
}