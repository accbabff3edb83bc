{
 "claims": [
  {
   "property": "C01",
   "status": "proved",
   "theorems": [
    "Poros.C01_graph_construction",
    "Poros.C01_graph_valid"
   ],
   "note": ""
  },
  {
   "property": "C19",
   "status": "proved",
   "theorems": [
    "Poros.C19_history",
    "Poros.C19_history_exact"
   ],
   "note": ""
  },
  {
   "property": "C20",
   "status": "proved",
   "theorems": [
    "Poros.C20_from_labels"
   ],
   "note": ""
  },
  {
   "property": "C21",
   "status": "proved",
   "theorems": [
    "Poros.C21_recalc_cut"
   ],
   "note": ""
  },
  {
   "property": "C22",
   "status": "proved",
   "theorems": [
    "Poros.C22_vertex_counts"
   ],
   "note": ""
  },
  {
   "property": "C23",
   "status": "proved",
   "theorems": [
    "Poros.C23_fresh_connectivity"
   ],
   "note": ""
  },
  {
   "property": "C24",
   "status": "proved",
   "theorems": [
    "Poros.C24_incremental_connectivity"
   ],
   "note": ""
  },
  {
   "property": "C25",
   "status": "proved",
   "theorems": [
    "Poros.C25_delta"
   ],
   "note": ""
  },
  {
   "property": "C26",
   "status": "proved",
   "theorems": [
    "Poros.C26_fm_exact"
   ],
   "note": ""
  },
  {
   "property": "C27",
   "status": "proved",
   "theorems": [
    "Poros.C27_fm_improves",
    "Poros.C27_fm_never_worse",
    "Poros.C27_uniform",
    "Poros.C27_rounding",
    "Poros.C27_needs_consistency"
   ],
   "note": "never_worse needs a target whose maximum weights match its fractions; C27_uniform proves that for the uniform target of two parts over binary64; C27_needs_consistency and C27_rounding show that the hypothesis is necessary, also for targets the library computes"
  },
  {
   "property": "C28",
   "status": "proved",
   "theorems": [
    "Poros.C28_each_vertex_once",
    "Poros.C28_fm_terminates"
   ],
   "note": ""
  },
  {
   "property": "C29",
   "status": "proved",
   "theorems": [
    "Poros.C29_queue_discipline"
   ],
   "note": ""
  },
  {
   "property": "C12",
   "status": "proved",
   "theorems": [
    "Poros.C12_groups"
   ],
   "note": ""
  },
  {
   "property": "C13",
   "status": "proved",
   "theorems": [
    "Poros.C13_matching_builder"
   ],
   "note": ""
  },
  {
   "property": "C14",
   "status": "proved",
   "theorems": [
    "Poros.C14_adjacent"
   ],
   "note": ""
  },
  {
   "property": "C15",
   "status": "proved",
   "theorems": [
    "Poros.C15_max_weight",
    "Poros.C15_needs_small_weights"
   ],
   "note": "needs pair weights below 2^32-1; C15_needs_small_weights shows the code lets a pair of weight exactly 2^32-1 through"
  },
  {
   "property": "C16",
   "status": "proved",
   "theorems": [
    "Poros.C16_maximal"
   ],
   "note": ""
  },
  {
   "property": "C17",
   "status": "proved",
   "theorems": [
    "Poros.C17_heaviest",
    "Poros.C17_outcome"
   ],
   "note": ""
  },
  {
   "property": "C18",
   "status": "proved",
   "theorems": [
    "Poros.C18_coarse_size"
   ],
   "note": ""
  },
  {
   "property": "C51",
   "status": "proved",
   "theorems": [
    "Poros.C51_next_unmatched",
    "Poros.C51_is_matched"
   ],
   "note": ""
  },
  {
   "property": "C53",
   "status": "proved",
   "theorems": [
    "Poros.C53_self_loop_ub"
   ],
   "note": "the naive expectation is refuted: proved that a self loop leads to undefined behaviour"
  },
  {
   "property": "C02",
   "status": "proved",
   "theorems": [
    "Poros.C02_contraction_sums"
   ],
   "note": ""
  },
  {
   "property": "C03",
   "status": "proved",
   "theorems": [
    "Poros.C03_contraction_simple"
   ],
   "note": ""
  },
  {
   "property": "C04",
   "status": "proved",
   "theorems": [
    "Poros.C04_contraction_totals"
   ],
   "note": ""
  },
  {
   "property": "C05",
   "status": "proved",
   "theorems": [
    "Poros.C05_contraction_symm"
   ],
   "note": ""
  },
  {
   "property": "C06",
   "status": "proved",
   "theorems": [
    "Poros.C06_contraction_cut"
   ],
   "note": ""
  },
  {
   "property": "C30",
   "status": "proved",
   "theorems": [
    "Poros.C30_projection"
   ],
   "note": ""
  },
  {
   "property": "C31",
   "status": "proved",
   "theorems": [
    "Poros.C31_bfs",
    "Poros.C31_grow_step"
   ],
   "note": ""
  },
  {
   "property": "C32",
   "status": "proved",
   "theorems": [
    "Poros.C32_random",
    "Poros.C32_random_fm"
   ],
   "note": ""
  },
  {
   "property": "C33",
   "status": "proved",
   "theorems": [
    "Poros.C33_multi",
    "Poros.C33_best",
    "Poros.C33_uniform",
    "Poros.C33_total"
   ],
   "note": ""
  },
  {
   "property": "C34",
   "status": "proved",
   "theorems": [
    "Poros.C34_terminates",
    "Poros.C34_library_terminates",
    "Poros.C34_fewer_edges"
   ],
   "note": "needs that n/n > 0.95 in double arithmetic; proved for binary64 (Concrete.selfRatio)"
  },
  {
   "property": "C35",
   "status": "proved",
   "theorems": [
    "Poros.C35_multilevel"
   ],
   "note": "the floating point hypotheses are proved for binary64 (Concrete.multilevelOK, Concrete.badMovesOK)"
  },
  {
   "property": "C50",
   "status": "proved",
   "theorems": [
    "Poros.C50_composite",
    "Poros.C50_vertex_number",
    "Poros.C50_edge_ratio"
   ],
   "note": ""
  },
  {
   "property": "C55",
   "status": "proved",
   "theorems": [
    "Poros.C55_swap_balances",
    "Poros.C55_infeasible_swap",
    "Poros.C55_missed_swap"
   ],
   "note": ""
  },
  {
   "property": "C56",
   "status": "proved",
   "theorems": [
    "Poros.C56_run",
    "Poros.C56_uniform"
   ],
   "note": "run needs a consistent target, as C27; C56_uniform has no such hypothesis, for the uniform target of two parts and the target recursive bisection makes of it, over binary64"
  },
  {
   "property": "C07",
   "status": "proved",
   "theorems": [
    "Poros.C07_two_step_builder"
   ],
   "note": "All legal vertex-phase histories, all interleavings of insertions."
  },
  {
   "property": "C08",
   "status": "proved",
   "theorems": [
    "Poros.C08_extraction_is_induced",
    "Poros.C08_extraction_weights"
   ],
   "note": "Total: extraction succeeds on every valid graph and complete partitioning, any number of parts."
  },
  {
   "property": "C09",
   "status": "proved",
   "theorems": [
    "Poros.C09_extraction_partitions_vertices"
   ],
   "note": ""
  },
  {
   "property": "C10",
   "status": "proved",
   "theorems": [
    "Poros.C10_extraction_preserves"
   ],
   "note": ""
  },
  {
   "property": "C11",
   "status": "proved",
   "theorems": [
    "Poros.C11_subgraph_map",
    "Poros.C11_wrapper_map",
    "Poros.C11_ofGraph"
   ],
   "note": ""
  },
  {
   "property": "C36",
   "status": "proved",
   "theorems": [
    "Poros.C36_recursive",
    "Poros.C36_ends",
    "Poros.C36_total",
    "Poros.C36_multilevel",
    "Poros.C36_random"
   ],
   "note": "Partial correctness and termination for every bisector and the library's; safety (no UB, no exception) for bisectors that are themselves safe on every valid graph, such as random bisection. The library's own BFS-based bisector is not (see C42, C57)."
  },
  {
   "property": "C37",
   "status": "proved",
   "theorems": [
    "Poros.C37_refines",
    "Poros.C37_two"
   ],
   "note": "For every run of rbExecute and every one of its k-1 bisections (RBMade, SpecRB.lean)."
  },
  {
   "property": "C58",
   "status": "proved",
   "theorems": [
    "Poros.C58_limits",
    "Poros.C58_balanced",
    "Poros.C58_run"
   ],
   "note": "Under the stated laws of doubles, which binary64 meets (Concrete.recursiveOK)."
  },
  {
   "property": "C59",
   "status": "proved",
   "theorems": [
    "Poros.C59_cut"
   ],
   "note": "The list of bisections made is given by RBMade (SpecRB.lean)."
  },
  {
   "property": "C38",
   "status": "proved",
   "theorems": [
    "Poros.C38_valid_output",
    "Poros.C38_terminates"
   ],
   "note": "termination needs that n/n > 0.95 in double arithmetic (Concrete.selfRatio)"
  },
  {
   "property": "C39",
   "status": "proved",
   "theorems": [
    "Poros.C39_best_of_runs",
    "Poros.C39_more_cuts"
   ],
   "note": ""
  },
  {
   "property": "C40",
   "status": "proved",
   "theorems": [
    "Poros.C40_null_options",
    "Poros.C40_unknown_scheme",
    "Poros.C40_no_cuts",
    "Poros.C40_no_cuts_returns"
   ],
   "note": ""
  },
  {
   "property": "C41",
   "status": "proved",
   "theorems": [
    "Poros.C41_ignored_options",
    "Poros.C41_wild_options"
   ],
   "note": "The documented behaviour is refuted."
  },
  {
   "property": "C42",
   "status": "proved",
   "theorems": [
    "Poros.C42_null_weights_undefined"
   ],
   "note": "The documented behaviour is refuted."
  },
  {
   "property": "C43",
   "status": "proved",
   "theorems": [
    "Poros.C43_one_part_undefined",
    "Poros.C43_no_part_undefined"
   ],
   "note": "The expected behaviour is refuted."
  },
  {
   "property": "C54",
   "status": "proved",
   "theorems": [
    "Poros.C54_bisection_call_total",
    "Poros.C54_binary64"
   ],
   "note": ""
  },
  {
   "property": "C57",
   "status": "proved",
   "theorems": [
    "Poros.C57_unit_weights_undefined"
   ],
   "note": "The expected behaviour is refuted."
  },
  {
   "property": "C60",
   "status": "proved",
   "theorems": [
    "Poros.C60_limits",
    "Poros.C60_feasible",
    "Poros.C60_infeasible"
   ],
   "note": ""
  },
  {
   "property": "C61",
   "status": "proved",
   "theorems": [
    "Poros.C61_no_exception"
   ],
   "note": "under CallOK, proved for binary64 (Concrete.callOK)"
  },
  {
   "property": "C62",
   "status": "proved",
   "theorems": [
    "Poros.C62_null_is_not_default"
   ],
   "note": "The documented behaviour is refuted."
  },
  {
   "property": "C48",
   "status": "proved",
   "theorems": [
    "Poros.C48_rejects",
    "Poros.C48_accepts",
    "Poros.C48_target_le_max",
    "Poros.C48_binary64"
   ],
   "note": "for two or more parts; one part and NaN are C63"
  },
  {
   "property": "C49",
   "status": "proved",
   "theorems": [
    "Poros.C49_isBalanced",
    "Poros.C49_findMax"
   ],
   "note": "order laws hold of binary64: Concrete.ltTrans, Concrete.ltIrrefl"
  },
  {
   "property": "C63",
   "status": "proved",
   "theorems": [
    "Poros.C63_one_part",
    "Poros.C63_nan"
   ],
   "note": "The expected rejection is refuted."
  },
  {
   "property": "C44",
   "status": "proved",
   "theorems": [
    "Poros.C44_iterate",
    "Poros.C44_iterate_wrapping",
    "Poros.C44_graph"
   ],
   "note": ""
  },
  {
   "property": "C45",
   "status": "proved",
   "theorems": [
    "Poros.C45_orders",
    "Poros.C45_orders_used"
   ],
   "note": "sl::Sort and sl::Random are external: their specification is assumed (RngImpl)"
  },
  {
   "property": "C46",
   "status": "proved",
   "theorems": [
    "Poros.C46_visited"
   ],
   "note": ""
  },
  {
   "property": "C52",
   "status": "proved",
   "theorems": [
    "Poros.C52_times"
   ],
   "note": ""
  },
  {
   "property": "C64",
   "status": "proved",
   "theorems": [
    "Poros.C64_indexing"
   ],
   "note": ""
  },
  {
   "property": "C65",
   "status": "proved",
   "theorems": [
    "Poros.C65_subset_orders"
   ],
   "note": ""
  },
  {
   "property": "C66",
   "status": "proved",
   "theorems": [
    "Poros.C66_timed"
   ],
   "note": ""
  },
  {
   "property": "C67",
   "status": "proved",
   "theorems": [
    "Poros.C67_stub"
   ],
   "note": ""
  },
  {
   "property": "C47",
   "status": "proved",
   "theorems": [
    "Poros.C47_grid",
    "Poros.C47_valid_input"
   ],
   "note": "for grids with 3*X*Y*Z and the number of edges within 32 bits (larger ones overflow the generator's own indices)"
  },
  {
   "property": "C68",
   "status": "proved",
   "theorems": [
    "Poros.C68_verify",
    "Poros.C68_after_moves",
    "Poros.C68_isolated"
   ],
   "note": ""
  },
  {
   "property": "C69",
   "status": "proved",
   "theorems": [
    "Poros.C69_isValid",
    "Poros.C69_simple",
    "Poros.C69_parallel",
    "Poros.C69_contracted",
    "Poros.C69_extracted"
   ],
   "note": ""
  },
  {
   "property": "C70",
   "status": "proved",
   "theorems": [
    "Poros.C70_fm_run",
    "Poros.C70_fm_run_double"
   ],
   "note": ""
  },
  {
   "property": "C71",
   "status": "proved",
   "theorems": [
    "Poros.C71_greedy",
    "Poros.C71_determined",
    "Poros.C71_orders"
   ],
   "note": ""
  },
  {
   "property": "C72",
   "status": "proved",
   "theorems": [
    "Poros.C72_multilevel_run"
   ],
   "note": "over binary64 (the stopping ratio 0.95 and the 7.5 per cent limit are computed exactly there)"
  },
  {
   "property": "C73",
   "status": "proved",
   "theorems": [
    "Poros.C73_hierarchy",
    "Poros.C73_weights"
   ],
   "note": ""
  },
  {
   "property": "C74",
   "status": "proved",
   "theorems": [
    "Poros.C74_bfs",
    "Poros.C74_random"
   ],
   "note": ""
  },
  {
   "property": "C75",
   "status": "proved",
   "theorems": [
    "Poros.C75_call"
   ],
   "note": "over binary64"
  },
  {
   "property": "C76",
   "status": "proved",
   "theorems": [
    "Poros.C76_stored_cut"
   ],
   "note": ""
  },
  {
   "property": "C77",
   "status": "proved",
   "theorems": [
    "Poros.C77_defaults"
   ],
   "note": "over binary64"
  },
  {
   "property": "C78",
   "status": "proved",
   "theorems": [
    "Poros.C78_two_parts"
   ],
   "note": "over binary64"
  },
  {
   "property": "C79",
   "status": "proved",
   "theorems": [
    "Poros.C79_success_needs_vertices",
    "Poros.C79_too_small"
   ],
   "note": "over binary64"
  },
  {
   "property": "C80",
   "status": "proved",
   "theorems": [
    "Poros.C80_up_to_eight"
   ],
   "note": "over binary64"
  },
  {
   "property": "C81",
   "status": "proved",
   "theorems": [
    "Poros.C81_no_empty_part"
   ],
   "note": "over binary64"
  },
  {
   "property": "C82",
   "status": "proved",
   "theorems": [
    "Poros.C82_null_edge_weights"
   ],
   "note": ""
  },
  {
   "property": "C83",
   "status": "proved",
   "theorems": [
    "Poros.C83_null_vertex_weights"
   ],
   "note": ""
  },
  {
   "property": "C84",
   "status": "proved",
   "theorems": [
    "Poros.C84_output_memory",
    "Poros.C84_beyond_graph"
   ],
   "note": ""
  },
  {
   "property": "C85",
   "status": "proved",
   "theorems": [
    "Poros.C85_power_of_two",
    "Poros.C85_any_number"
   ],
   "note": ""
  },
  {
   "property": "C86",
   "status": "proved",
   "theorems": [
    "Poros.C86_parameters",
    "Poros.C86_target",
    "Poros.C86_short_array",
    "Poros.C86_call_defaults"
   ],
   "note": ""
  },
  {
   "property": "C87",
   "status": "proved",
   "theorems": [
    "Poros.C87_iterate",
    "Poros.C87_history"
   ],
   "note": ""
  },
  {
   "property": "C88",
   "status": "proved",
   "theorems": [
    "Poros.C88_max_weight"
   ],
   "note": ""
  },
  {
   "property": "C89",
   "status": "proved",
   "theorems": [
    "Poros.C89_null_two_parts"
   ],
   "note": ""
  },
  {
   "property": "C90",
   "status": "proved",
   "theorems": [
    "Poros.C90_exact_parts",
    "Poros.C90_uneven_undefined",
    "Poros.C90_forty_nine"
   ],
   "note": ""
  },
  {
   "property": "C91",
   "status": "proved",
   "theorems": [
    "Poros.C91_grid_sizes"
   ],
   "note": ""
  },
  {
   "property": "C92",
   "status": "proved",
   "theorems": [
    "Poros.C92_aggregate",
    "Poros.C92_call"
   ],
   "note": ""
  },
  {
   "property": "C93",
   "status": "proved",
   "theorems": [
    "Poros.C93_any_graph",
    "Poros.C93_undirected"
   ],
   "note": ""
  },
  {
   "property": "C94",
   "status": "proved",
   "theorems": [
    "Poros.C94_scarce_undefined",
    "Poros.C94_success"
   ],
   "note": ""
  },
  {
   "property": "C95",
   "status": "proved",
   "theorems": [
    "Poros.C95_same_result",
    "Poros.C95_assertions_hold",
    "Poros.C95_or_stops",
    "Poros.C95_fraction_stops",
    "Poros.C95_small_graphs"
   ],
   "note": ""
  },
  {
   "property": "C96",
   "status": "proved",
   "theorems": [
    "Poros.C96_same_result",
    "Poros.C96_or_stops"
   ],
   "note": ""
  },
  {
   "property": "C97",
   "status": "proved",
   "theorems": [
    "Poros.C97_assertions_hold",
    "Poros.C97_connected",
    "Poros.C97_small_graphs"
   ],
   "note": ""
  },
  {
   "property": "C98",
   "status": "proved",
   "theorems": [
    "Poros.C98_lone_vertex_stops",
    "Poros.C98_no_weight_stops"
   ],
   "note": ""
  },
  {
   "property": "C99",
   "status": "proved",
   "theorems": [
    "Poros.C99_extraction",
    "Poros.C99_simple",
    "Poros.C99_crowded"
   ],
   "note": ""
  },
  {
   "property": "C100",
   "status": "proved",
   "theorems": [
    "Poros.C100_small_graphs"
   ],
   "note": ""
  },
  {
   "property": "C101",
   "status": "proved",
   "theorems": [
    "Poros.C101_random",
    "Poros.C101_random_stops",
    "Poros.C101_random_fm"
   ],
   "note": ""
  },
  {
   "property": "C102",
   "status": "proved",
   "theorems": [
    "Poros.C102_grid",
    "Poros.C102_empty_grid"
   ],
   "note": ""
  },
  {
   "property": "C103",
   "status": "proved",
   "theorems": [
    "Poros.C103_bisections",
    "Poros.C103_cost",
    "Poros.C103_hierarchies"
   ],
   "note": ""
  },
  {
   "property": "C104",
   "status": "proved",
   "theorems": [
    "Poros.C104_small_any",
    "Poros.C104_weight_wraps"
   ],
   "note": "The first theorem holds for every arithmetic satisfying the stated laws, the second is about binary64."
  },
  {
   "property": "C105",
   "status": "proved",
   "theorems": [
    "Poros.C105_scaled_edges",
    "Poros.C105_scaled_edges_two_parts",
    "Poros.C105_unit_weights_differ"
   ],
   "note": "Lockstep (relational) proof through every component: matching, contraction, FM, BFS growing, projection, subgraph extraction, recursion, cut loop. The hypothesis on the queue is met by the list queue of the examples (Concrete.orderBased); C105_unit_weights_differ is a kernel-evaluated 30-vertex counterexample for all-1 weights."
  },
  {
   "property": "C106",
   "status": "proved",
   "theorems": [
    "Poros.C106_unweighted",
    "Poros.C106_grid",
    "Poros.C106_unit_grid"
   ],
   "note": "Quality bound of the first bisection (C78 machinery) gives each side at least that share of the vertices; density gives the side an edge, so it is coarsened before the initial bisection and its weight array exists. For grids the density comes from a back-and-forth walk through all points (Proofs/GridInput.lean)."
  },
  {
   "property": "C107",
   "status": "proved",
   "theorems": [
    "Poros.C107_random",
    "Poros.C107_bfs",
    "Poros.C107_refine",
    "Poros.C107_random_fm",
    "Poros.C107_multi",
    "Poros.C107_exact"
   ],
   "note": "From the specifications of C74 by counting; the computed imbalance is a symmetric function of the sizes that orders them as the real one (error 6/2^52 against a gap of 2/n)."
  },
  {
   "property": "C108",
   "status": "proved",
   "theorems": [
    "Poros.C108_kept",
    "Poros.C108_complete"
   ],
   "note": "No labelling improves on such a bisection in the sense of C27's chain: less unbalanced means balanced, and balanced states are accepted only for a smaller cut."
  },
  {
   "property": "C109",
   "status": "proved",
   "theorems": [
    "Poros.C109_shares",
    "Poros.C109_bfs",
    "Poros.C109_random",
    "Poros.C109_random_fm"
   ],
   "note": "Induction over the splits with the invariant 'm equal parts of m*a vertices'; the computed fractions of a split are within 2^-51 of m/2 : m, so the computed imbalance falls until the left side has its share and rises after it."
  },
  {
   "property": "C110",
   "status": "proved",
   "theorems": [
    "Poros.C110_keeps_candidates",
    "Poros.C110_every_split"
   ],
   "note": "From C75 and the invariant of C56; the target of the split has two equal fractions and limits, so limit and computed imbalance agree (total weights 0 and 1 apart), and the kept candidate is within the limits and of smallest cut if any is."
  },
  {
   "property": "C111",
   "status": "proved",
   "theorems": [
    "Poros.C111_invisible",
    "Poros.C111_lines"
   ],
   "note": "The run with timers (Model/Timed.lean) and the run without proceed alike step by step; the time keeper always has eight entries, so no report throws."
  },
  {
   "property": "C112",
   "status": "proved",
   "theorems": [
    "Poros.C112_times"
   ],
   "note": "The simulation of C111 records the stretches; the number of bisections is k-1 because the halves get floor(k/2) and the other parts and the bisector always returns two parts. `ticksOf` and `secondsOf` are in SpecTime.lean."
  },
  {
   "property": "C113",
   "status": "proved",
   "theorems": [
    "Poros.C113_parts_at_most_whole"
   ],
   "note": "The stretches of part and whole correspond one to one and in the same order; rounded addition of non-negative numbers is monotone."
  },
  {
   "property": "C114",
   "status": "proved",
   "theorems": [
    "Poros.C114_directed"
   ],
   "note": "Invariant of the refinement: the stored connections differ from those of the in-edges by amounts fixed at set-up, so every stored gain stays within twice the total edge weight."
  },
  {
   "property": "C115",
   "status": "proved",
   "theorems": [
    "Poros.C115_always_ends",
    "Poros.C115_refinement_ends",
    "Poros.C115_bisection_ends"
   ],
   "note": "No well-formedness is used: each loop has its own measure (unmarked vertices, queue size, edges of the level, parts to split)."
  },
  {
   "property": "C116",
   "status": "proved",
   "theorems": [
    "Poros.C116_two_parts",
    "Poros.C116_no_empty_part",
    "Poros.C116_power_of_two",
    "Poros.C116_any_number",
    "Poros.C116_up_to_eight"
   ],
   "note": "The balance arguments of C78, C80, C81 and C85 restated for what is known of a bisection without symmetry (grown at the coarsest level, handed down, refined by steps to balanced or not more unbalanced bisections), and the recursion over a class of graphs closed under taking parts."
  },
  {
   "property": "C117",
   "status": "proved",
   "theorems": [
    "Poros.C117_up_to_sixteen",
    "Poros.C117_sixteen_directed",
    "Poros.C117_even_parts",
    "Poros.C117_even_parts_directed"
   ],
   "note": "A sharper analysis of growing: the vertex that may put the left side over its limit is added only when the right side is over its own; with it, intervals for the weight of every node of the recursion tree, proved step by step over the rationals including all rounding."
  },
  {
   "property": "C118",
   "status": "proved",
   "theorems": [
    "Poros.C118_more_cuts",
    "Poros.C118_cut_le"
   ],
   "note": "Two calls with different numbers of cuts compared; no hypothesis on the graph."
  },
  {
   "property": "C119",
   "status": "proved",
   "theorems": [
    "Poros.C119_half_of_any_matching",
    "Poros.C119_three_quarters",
    "Poros.C119_leaves_first",
    "Poros.C119_heavy_edge_missed",
    "Poros.C119_middle_edge"
   ],
   "note": "The bound of one half is attained by an example in the file; the last theorem is a family of graphs with an arbitrarily heavy edge that is never contracted."
  },
  {
   "property": "C120",
   "status": "proved",
   "theorems": [
    "Poros.C120_zero_cut",
    "Poros.C120_cut_floor",
    "Poros.C120_all_parts",
    "Poros.C120_eight_parts"
   ],
   "note": "Connectivity is stated by paths of edges of positive weight; the bound is attained by an example in the file."
  },
  {
   "property": "C121",
   "status": "proved",
   "theorems": [
    "Poros.C121_local_optimum",
    "Poros.C121_uniform",
    "Poros.C121_with_room"
   ],
   "note": "Derived from the trace of C70; for the uniform target of two parts over binary64 the matching of limits and fractions is proved."
  },
  {
   "property": "C122",
   "status": "proved",
   "theorems": [
    "Poros.C122_every_run",
    "Poros.C122_written",
    "Poros.C122_every_split",
    "Poros.C122_small_not_refined"
   ],
   "note": "C121 lifted to the API through the hierarchy of C72 and the runs of C75; the last theorem is a concrete call, with a constant random engine, whose answer is not locally optimal."
  },
  {
   "property": "C123",
   "status": "proved",
   "theorems": [
    "Poros.C123_grown_side",
    "Poros.C123_unit",
    "Poros.C123_first_part",
    "Poros.C123_second_part",
    "Poros.C123_heavy_gap"
   ],
   "note": "Connectivity is stated by paths of edges of positive weight inside the part; the two last theorems are concrete calls with a constant random engine."
  },
  {
   "property": "C124",
   "status": "proved",
   "theorems": [
    "Poros.C124_refined",
    "Poros.C124_written"
   ],
   "note": "Consequences of C121 and C122: a local optimum of a bisection cuts at most half of the edge weight."
  },
  {
   "property": "C125",
   "status": "proved",
   "theorems": [
    "Poros.C125_grouped",
    "Poros.C125_components",
    "Poros.C125_unequal"
   ],
   "note": "Invariant of growth (at most one component is taken in part, nothing is skipped), of coarsening (components carry over to the coarse graph), of refinement (cut zero and no less balanced labels: no move is accepted, by rounding error bounds of binary64) and of recursive bisection (each side is clustered again). C125_unequal: components of weights 100 and 102 are cut."
  },
  {
   "property": "C126",
   "status": "proved",
   "theorems": [
    "Poros.C126_grouped",
    "Poros.C126_groups",
    "Poros.C126_larger"
   ],
   "note": "Invariant of growth: while a group is taken in part, some vertex of it is tied to the left side more strongly than any vertex of an untouched group; recursion as for C125. C126_larger: two rings of 14 vertices with heavy edges and light edges between them are both split by random matching, with a cut of 36 instead of 14."
  },
  {
   "property": "C127",
   "status": "proved",
   "theorems": [
    "Poros.C127_which",
    "Poros.C127_exact_parts",
    "Poros.C127_undefined",
    "Poros.C127_exactly",
    "Poros.C127_grouped"
   ],
   "note": "RoundTrip k says that fp.mul (fp.div 1 k) k = 1; then the rounded reciprocal times k lies between 1 - 2^-54 and 1 + 2^-53, which makes every share q of k*q exact. Otherwise the product is below 1 and the share of one unit truncates to 0."
  },
  {
   "property": "C128",
   "status": "proved",
   "theorems": [
    "Poros.C128_degree",
    "Poros.C128_parts",
    "Poros.C128_ring",
    "Poros.C128_grown"
   ],
   "note": "Part 0 is connected and has c vertices (C123); connected vertices have at least the weight of a tree among them (growing a subset by one vertex adds an edge), the rest of their degrees is the cut. Rings: the cut of a division is even, being 2c less a symmetric double sum, and positive."
  },
  {
   "property": "C129",
   "status": "proved",
   "theorems": [
    "Poros.C129_limits",
    "Poros.C129_power_of_two",
    "Poros.C129_two_parts",
    "Poros.C129_one_less",
    "Poros.C129_call",
    "Poros.C129_written"
   ],
   "note": "Three roundings, each of relative error at most 2^-53, move W/k by less than half of 1/(100 k). For powers of two the share is exact and the double 1.03 is above 1.03, so nothing falls below a whole number. EvenShares (SpecRun.lean) is what a call computes (C75_call)."
  },
  {
   "property": "C130",
   "status": "proved",
   "theorems": [
    "Poros.C130_split",
    "Poros.C130_call",
    "Poros.C130_room",
    "Poros.C130_no_room"
   ],
   "note": "IsHalvesTarget (SpecRB.lean) is the target the code computes (C36). The share 1.0/e of the room is within 2^-52 of exact and no less than exact where e divides the room (RoundTrip.share, e <= 31), and adding it to integers below 2^32 leaves the fraction below 1. RBWhere is RBRun with a predicate on the target of every bisection."
  }
 ]
}