c("C01", P, ["C01_graph_construction", "C01_graph_valid"])
c("C19", P, ["C19_history", "C19_history_exact"])
c("C20", P, ["C20_from_labels"])
c("C21", P, ["C21_recalc_cut"])
c("C22", P, ["C22_vertex_counts"])
c("C23", P, ["C23_fresh_connectivity"])
c("C24", P, ["C24_incremental_connectivity"])
c("C25", P, ["C25_delta"])
c("C26", P, ["C26_fm_exact"])
c("C27", P, ["C27_fm_improves", "C27_fm_never_worse", "C27_uniform", "C27_rounding", "C27_needs_consistency"],
  "never_worse needs a target whose maximum weights match its fractions; C27_uniform proves that for the uniform target of two parts over binary64; C27_needs_consistency and C27_rounding show that the hypothesis is necessary, also for targets the library computes")
c("C28", P, ["C28_each_vertex_once", "C28_fm_terminates"])
c("C29", P, ["C29_queue_discipline"])
c("C12", P, ["C12_groups"])
c("C13", P, ["C13_matching_builder"])
c("C14", P, ["C14_adjacent"])
c("C15", P, ["C15_max_weight", "C15_needs_small_weights"],
  "needs pair weights below 2^32-1; C15_needs_small_weights shows the code lets a pair of weight exactly 2^32-1 through")
c("C16", P, ["C16_maximal"])
c("C17", P, ["C17_heaviest", "C17_outcome"])
c("C18", P, ["C18_coarse_size"])
c("C51", P, ["C51_next_unmatched", "C51_is_matched"])
c("C53", P, ["C53_self_loop_ub"], "the naive expectation is refuted: proved that a self loop leads to undefined behaviour")
c("C02", P, ["C02_contraction_sums"])
c("C03", P, ["C03_contraction_simple"])
c("C04", P, ["C04_contraction_totals"])
c("C05", P, ["C05_contraction_symm"])
c("C06", P, ["C06_contraction_cut"])
c("C30", P, ["C30_projection"])
c("C31", P, ["C31_bfs", "C31_grow_step"])
c("C32", P, ["C32_random", "C32_random_fm"])
c("C33", P, ["C33_multi", "C33_best", "C33_uniform", "C33_total"])
c("C34", P, ["C34_terminates", "C34_library_terminates", "C34_fewer_edges"], "needs that n/n > 0.95 in double arithmetic; proved for binary64 (Concrete.selfRatio)")
c("C35", P, ["C35_multilevel"], "the floating point hypotheses are proved for binary64 (Concrete.multilevelOK, Concrete.badMovesOK)")
c("C50", P, ["C50_composite", "C50_vertex_number", "C50_edge_ratio"])
c("C55", P, ["C55_swap_balances", "C55_infeasible_swap", "C55_missed_swap"])
c("C56", P, ["C56_run", "C56_uniform"], "run needs a consistent target, as C27; C56_uniform has no such hypothesis, for the uniform target of two parts and the target recursive bisection makes of it, over binary64")
c("C07", P, ["C07_two_step_builder"], "All legal vertex-phase histories, all interleavings of insertions.")
c("C08", P, ["C08_extraction_is_induced", "C08_extraction_weights"], "Total: extraction succeeds on every valid graph and complete partitioning, any number of parts.")
c("C09", P, ["C09_extraction_partitions_vertices"], "")
c("C10", P, ["C10_extraction_preserves"], "")
c("C11", P, ["C11_subgraph_map", "C11_wrapper_map", "C11_ofGraph"], "")
c("C36", P, ["C36_recursive", "C36_ends", "C36_total", "C36_multilevel", "C36_random"], "Partial correctness and termination for every bisector and the library's; safety (no UB, no exception) for bisectors that are themselves safe on every valid graph, such as random bisection. The library's own BFS-based bisector is not (see C42, C57).")
c("C37", P, ["C37_refines", "C37_two"], "For every run of rbExecute and every one of its k-1 bisections (RBMade, SpecRB.lean).")
c("C58", P, ["C58_limits", "C58_balanced", "C58_run"], "Under the stated laws of doubles, which binary64 meets (Concrete.recursiveOK).")
c("C59", P, ["C59_cut"], "The list of bisections made is given by RBMade (SpecRB.lean).")
c("C38", P, ["C38_valid_output", "C38_terminates"], "termination needs that n/n > 0.95 in double arithmetic (Concrete.selfRatio)")
c("C39", P, ["C39_best_of_runs", "C39_more_cuts"], "")
c("C40", P, ["C40_null_options", "C40_unknown_scheme", "C40_no_cuts", "C40_no_cuts_returns"], "")
c("C41", P, ["C41_ignored_options", "C41_wild_options"], "The documented behaviour is refuted.")
c("C42", P, ["C42_null_weights_undefined"], "The documented behaviour is refuted.")
c("C43", P, ["C43_one_part_undefined", "C43_no_part_undefined"], "The expected behaviour is refuted.")
c("C54", P, ["C54_bisection_call_total", "C54_binary64"], "")
c("C57", P, ["C57_unit_weights_undefined"], "The expected behaviour is refuted.")
c("C60", P, ["C60_limits", "C60_feasible", "C60_infeasible"], "")
c("C61", P, ["C61_no_exception"], "under CallOK, proved for binary64 (Concrete.callOK)")
c("C62", P, ["C62_null_is_not_default"], "The documented behaviour is refuted.")
c("C48", P, ["C48_rejects", "C48_accepts", "C48_target_le_max", "C48_binary64"], "for two or more parts; one part and NaN are C63")
c("C49", P, ["C49_isBalanced", "C49_findMax"], "order laws hold of binary64: Concrete.ltTrans, Concrete.ltIrrefl")
c("C63", P, ["C63_one_part", "C63_nan"], "The expected rejection is refuted.")
c("C44", P, ["C44_iterate", "C44_iterate_wrapping", "C44_graph"], "")
c("C45", P, ["C45_orders", "C45_orders_used"], "sl::Sort and sl::Random are external: their specification is assumed (RngImpl)")
c("C46", P, ["C46_visited"], "")
c("C52", P, ["C52_times"], "")
c("C64", P, ["C64_indexing"], "")
c("C65", P, ["C65_subset_orders"], "")
c("C66", P, ["C66_timed"], "")
c("C67", P, ["C67_stub"], "")
c("C47", P, ["C47_grid", "C47_valid_input"], "for grids with 3*X*Y*Z and the number of edges within 32 bits (larger ones overflow the generator's own indices)")
c("C68", P, ["C68_verify", "C68_after_moves", "C68_isolated"], "")
c("C69", P, ["C69_isValid", "C69_simple", "C69_parallel", "C69_contracted", "C69_extracted"], "")
c("C70", P, ["C70_fm_run", "C70_fm_run_double"], "")
c("C71", P, ["C71_greedy", "C71_determined", "C71_orders"], "")
c("C72", P, ["C72_multilevel_run"], "over binary64 (the stopping ratio 0.95 and the 7.5 per cent limit are computed exactly there)")
c("C73", P, ["C73_hierarchy", "C73_weights"], "")
c("C74", P, ["C74_bfs", "C74_random"], "")
c("C75", P, ["C75_call"], "over binary64")
c("C76", P, ["C76_stored_cut"], "")
c("C77", P, ["C77_defaults"], "over binary64")
c("C78", P, ["C78_two_parts"], "over binary64")
c("C79", P, ["C79_success_needs_vertices", "C79_too_small"], "over binary64")
c("C80", P, ["C80_up_to_eight"], "over binary64")
c("C81", P, ["C81_no_empty_part"], "over binary64")
c("C82", P, ["C82_null_edge_weights"], "")
c("C83", P, ["C83_null_vertex_weights"], "")
c("C84", P, ["C84_output_memory", "C84_beyond_graph"], "")
c("C85", P, ["C85_power_of_two", "C85_any_number"], "")
c("C86", P, ["C86_parameters", "C86_target", "C86_short_array", "C86_call_defaults"], "")
c("C87", P, ["C87_iterate", "C87_history"], "")
c("C88", P, ["C88_max_weight"], "")
c("C89", P, ["C89_null_two_parts"], "")
c("C90", P, ["C90_exact_parts", "C90_uneven_undefined", "C90_forty_nine"], "")
c("C91", P, ["C91_grid_sizes"], "")
c("C92", P, ["C92_aggregate", "C92_call"], "")
c("C93", P, ["C93_any_graph", "C93_undirected"], "")
c("C94", P, ["C94_scarce_undefined", "C94_success"], "")
c("C95", P, ["C95_same_result", "C95_assertions_hold", "C95_or_stops", "C95_fraction_stops", "C95_small_graphs"], "")
c("C96", P, ["C96_same_result", "C96_or_stops"], "")
c("C97", P, ["C97_assertions_hold", "C97_connected", "C97_small_graphs"], "")
c("C98", P, ["C98_lone_vertex_stops", "C98_no_weight_stops"], "")
c("C99", P, ["C99_extraction", "C99_simple", "C99_crowded"], "")
c("C100", P, ["C100_small_graphs"], "")
c("C101", P, ["C101_random", "C101_random_stops", "C101_random_fm"], "")
c("C102", P, ["C102_grid", "C102_empty_grid"], "")
c("C103", P, ["C103_bisections", "C103_cost", "C103_hierarchies"], "")
c("C104", P, ["C104_small_any", "C104_weight_wraps"], "The first theorem holds for every arithmetic satisfying the stated laws, the second is about binary64.")
c("C105", P, ["C105_scaled_edges", "C105_scaled_edges_two_parts", "C105_unit_weights_differ"], "Lockstep (relational) proof through every component: matching, contraction, FM, BFS growing, projection, subgraph extraction, recursion, cut loop. The hypothesis on the queue is met by the list queue of the examples (Concrete.orderBased); C105_unit_weights_differ is a kernel-evaluated 30-vertex counterexample for all-1 weights.")
c("C106", P, ["C106_unweighted", "C106_grid", "C106_unit_grid"], "Quality bound of the first bisection (C78 machinery) gives each side at least that share of the vertices; density gives the side an edge, so it is coarsened before the initial bisection and its weight array exists. For grids the density comes from a back-and-forth walk through all points (Proofs/GridInput.lean).")
c("C107", P, ["C107_random", "C107_bfs", "C107_refine", "C107_random_fm", "C107_multi", "C107_exact"], "From the specifications of C74 by counting; the computed imbalance is a symmetric function of the sizes that orders them as the real one (error 6/2^52 against a gap of 2/n).")
c("C108", P, ["C108_kept", "C108_complete"], "No labelling improves on such a bisection in the sense of C27's chain: less unbalanced means balanced, and balanced states are accepted only for a smaller cut.")
c("C109", P, ["C109_shares", "C109_bfs", "C109_random", "C109_random_fm"], "Induction over the splits with the invariant 'm equal parts of m*a vertices'; the computed fractions of a split are within 2^-51 of m/2 : m, so the computed imbalance falls until the left side has its share and rises after it.")
c("C110", P, ["C110_keeps_candidates", "C110_every_split"], "From C75 and the invariant of C56; the target of the split has two equal fractions and limits, so limit and computed imbalance agree (total weights 0 and 1 apart), and the kept candidate is within the limits and of smallest cut if any is.")
c("C111", P, ["C111_invisible", "C111_lines"], "The run with timers (Model/Timed.lean) and the run without proceed alike step by step; the time keeper always has eight entries, so no report throws.")
c("C112", P, ["C112_times"], "The simulation of C111 records the stretches; the number of bisections is k-1 because the halves get floor(k/2) and the other parts and the bisector always returns two parts. `ticksOf` and `secondsOf` are in SpecTime.lean.")
c("C113", P, ["C113_parts_at_most_whole"], "The stretches of part and whole correspond one to one and in the same order; rounded addition of non-negative numbers is monotone.")
c("C114", P, ["C114_directed"], "Invariant of the refinement: the stored connections differ from those of the in-edges by amounts fixed at set-up, so every stored gain stays within twice the total edge weight.")
c("C115", P, ["C115_always_ends", "C115_refinement_ends", "C115_bisection_ends"], "No well-formedness is used: each loop has its own measure (unmarked vertices, queue size, edges of the level, parts to split).")
c("C116", P, ["C116_two_parts", "C116_no_empty_part", "C116_power_of_two", "C116_any_number", "C116_up_to_eight"], "The balance arguments of C78, C80, C81 and C85 restated for what is known of a bisection without symmetry (grown at the coarsest level, handed down, refined by steps to balanced or not more unbalanced bisections), and the recursion over a class of graphs closed under taking parts.")
c("C117", P, ["C117_up_to_sixteen", "C117_sixteen_directed", "C117_even_parts", "C117_even_parts_directed"], "A sharper analysis of growing: the vertex that may put the left side over its limit is added only when the right side is over its own; with it, intervals for the weight of every node of the recursion tree, proved step by step over the rationals including all rounding.")
c("C118", P, ["C118_more_cuts", "C118_cut_le"], "Two calls with different numbers of cuts compared; no hypothesis on the graph.")
c("C119", P, ["C119_half_of_any_matching", "C119_three_quarters", "C119_leaves_first", "C119_heavy_edge_missed", "C119_middle_edge"], "The bound of one half is attained by an example in the file; the last theorem is a family of graphs with an arbitrarily heavy edge that is never contracted.")
c("C120", P, ["C120_zero_cut", "C120_cut_floor", "C120_all_parts", "C120_eight_parts"], "Connectivity is stated by paths of edges of positive weight; the bound is attained by an example in the file.")
c("C121", P, ["C121_local_optimum", "C121_uniform", "C121_with_room"], "Derived from the trace of C70; for the uniform target of two parts over binary64 the matching of limits and fractions is proved.")
c("C122", P, ["C122_every_run", "C122_written", "C122_every_split", "C122_small_not_refined"], "C121 lifted to the API through the hierarchy of C72 and the runs of C75; the last theorem is a concrete call, with a constant random engine, whose answer is not locally optimal.")
c("C123", P, ["C123_grown_side", "C123_unit", "C123_first_part", "C123_second_part", "C123_heavy_gap"], "Connectivity is stated by paths of edges of positive weight inside the part; the two last theorems are concrete calls with a constant random engine.")
c("C124", P, ["C124_refined", "C124_written"], "Consequences of C121 and C122: a local optimum of a bisection cuts at most half of the edge weight.")
c("C125", P, ["C125_grouped", "C125_components", "C125_unequal"], "Invariant of growth (at most one component is taken in part, nothing is skipped), of coarsening (components carry over to the coarse graph), of refinement (cut zero and no less balanced labels: no move is accepted, by rounding error bounds of binary64) and of recursive bisection (each side is clustered again). C125_unequal: components of weights 100 and 102 are cut.")
c("C126", P, ["C126_grouped", "C126_groups", "C126_larger"], "Invariant of growth: while a group is taken in part, some vertex of it is tied to the left side more strongly than any vertex of an untouched group; recursion as for C125. C126_larger: two rings of 14 vertices with heavy edges and light edges between them are both split by random matching, with a cut of 36 instead of 14.")
c("C127", P, ["C127_which", "C127_exact_parts", "C127_undefined", "C127_exactly", "C127_grouped"], "RoundTrip k says that fp.mul (fp.div 1 k) k = 1; then the rounded reciprocal times k lies between 1 - 2^-54 and 1 + 2^-53, which makes every share q of k*q exact. Otherwise the product is below 1 and the share of one unit truncates to 0.")
c("C128", P, ["C128_degree", "C128_parts", "C128_ring", "C128_grown"], "Part 0 is connected and has c vertices (C123); connected vertices have at least the weight of a tree among them (growing a subset by one vertex adds an edge), the rest of their degrees is the cut. Rings: the cut of a division is even, being 2c less a symmetric double sum, and positive.")
c("C129", P, ["C129_limits", "C129_power_of_two", "C129_two_parts", "C129_one_less", "C129_call", "C129_written"], "Three roundings, each of relative error at most 2^-53, move W/k by less than half of 1/(100 k). For powers of two the share is exact and the double 1.03 is above 1.03, so nothing falls below a whole number. EvenShares (SpecRun.lean) is what a call computes (C75_call).")
c("C130", P, ["C130_split", "C130_call", "C130_room", "C130_no_room"], "IsHalvesTarget (SpecRB.lean) is the target the code computes (C36). The share 1.0/e of the room is within 2^-52 of exact and no less than exact where e divides the room (RoundTrip.share, e <= 31), and adding it to integers below 2^32 leaves the fraction below 1. RBWhere is RBRun with a predicate on the target of every bisection.")
