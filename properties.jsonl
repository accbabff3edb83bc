{"id": "C01", "title": "Graph construction summarises its arrays correctly", "statement": "Constructing a Graph from CSR arrays yields the vertex and edge counts of the arrays, a total vertex (edge) weight equal to the 32-bit sum of the per-vertex (per-edge) weights, and reports 'unit weights' exactly when every weight is 1; a null weight array is treated as all ones.", "quantifier": "all CSR arrays and weight arrays of any length, including null weight arrays and sums that wrap", "why_tests_cant": "The claim is about every array contents and every length; tests use two or three tiny graphs.", "anchors": ["src/graph/Graph.cpp: Graph::Graph", "src/graph/Graph.hpp: hasUnitVertexWeight, hasUnitEdgeWeight, getTotalVertexWeight"]}
{"id": "C02", "title": "Contraction sums weights exactly", "statement": "Contracting a graph by an aggregation gives a graph with one vertex per group, whose vertex weight is the sum of the group's weights, and where the weight between two distinct coarse vertices is the sum of all fine edge weights between the two groups.", "quantifier": "all well-formed graphs with total vertex and edge weights below 2^32 and all aggregations of them", "why_tests_cant": "Quantifies over every graph and every grouping; hash-table reuse bugs only show for particular edge orders.", "anchors": ["src/aggregation/SummationContractor.cpp: contractGraph", "src/graph/OneStepGraphBuilder.hpp: addEdge, finishVertex"]}
{"id": "C03", "title": "Contracted graphs are simple", "statement": "A contracted graph contains no self loop and no two parallel edges, and all of its edge endpoints are valid vertices.", "quantifier": "all well-formed graphs with total vertex and edge weights below 2^32 and all aggregations of them", "why_tests_cant": "Self-loop elimination uses an in-place swap whose failure depends on the order of edges.", "anchors": ["src/graph/OneStepGraphBuilder.hpp: finishVertex", "src/aggregation/SummationContractor.cpp"]}
{"id": "C04", "title": "Contraction preserves total vertex weight and stated totals", "statement": "The total vertex weight of the contracted graph equals that of the fine graph, and the reported total edge weight equals the sum of the weights of the edges it stores.", "quantifier": "all well-formed graphs with total vertex and edge weights below 2^32 and all aggregations of them", "why_tests_cant": "The totals are maintained incrementally with additions and subtractions through every edge insertion.", "anchors": ["src/graph/OneStepGraphBuilder.hpp: addEdge, finishVertex, m_totalEdgeWeight", "src/graph/OneStepGraphBuilder.cpp: finish"]}
{"id": "C05", "title": "Contraction preserves symmetry", "statement": "If the fine graph is symmetric (equal weight in both directions between every pair) so is the contracted graph.", "quantifier": "all well-formed symmetric graphs with total vertex and edge weights below 2^32 and all aggregations of them", "why_tests_cant": "A pairwise property over all graphs; a test checks one graph.", "anchors": ["src/aggregation/SummationContractor.cpp", "src/graph/Graph.cpp: isValid"]}
{"id": "C06", "title": "Contraction preserves cuts", "statement": "For every labelling of the coarse vertices, the cut of the coarse graph equals the cut of the fine graph under the labelling each fine vertex inherits from its group.", "quantifier": "all well-formed symmetric graphs with total vertex and edge weights below 2^32, all aggregations, all labellings", "why_tests_cant": "This is what makes multilevel partitioning sound, and it ranges over exponentially many labellings.", "anchors": ["src/aggregation/SummationContractor.cpp", "src/multilevel/DiscreteCoarseGraph.cpp: project"]}
{"id": "C07", "title": "Two-step builder reproduces the inserted edges", "statement": "Given declared degrees and any interleaving of edge insertions that inserts for each vertex exactly its declared number of edges, the built graph lists for each vertex exactly the inserted (destination, weight) pairs in insertion order.", "quantifier": "all degree sequences and all interleavings of insertions", "why_tests_cant": "Interleavings of insertions across vertices are unbounded; tests insert in one order.", "anchors": ["src/graph/TwoStepGraphBuilder.cpp: beginEdgePhase, finish", "src/graph/TwoStepGraphBuilder.hpp: addEdgeToVertex, incVertexNumEdges"]}
{"id": "C08", "title": "Subgraph extraction is the induced subgraph", "statement": "Extracting the parts of a k-way partitioning yields for each part exactly the induced subgraph: its vertices are the vertices of that part in increasing order (reported through the super map), with the same vertex weights, and its edges are exactly the edges with both ends in the part, with unchanged weights.", "quantifier": "all well-formed graphs, all complete partitionings with any number of parts", "why_tests_cant": "Ranges over all graphs and partitions; the relabelling maps are built by three cooperating passes.", "anchors": ["src/graph/SubgraphExtractor.cpp: partitions, fillEdges, fillVertexWeights"]}
{"id": "C09", "title": "Extracted subgraphs partition the vertices", "statement": "Every vertex of the graph appears in exactly one extracted subgraph exactly once, namely in the one of its part.", "quantifier": "all well-formed graphs and complete partitionings", "why_tests_cant": "A bijection claim over every input.", "anchors": ["src/graph/SubgraphExtractor.cpp: partitions", "src/graph/Subgraph.hpp: getSuperMap"]}
{"id": "C10", "title": "Extraction preserves symmetry and simplicity", "statement": "Each extracted subgraph of a symmetric graph is symmetric, has valid endpoints, and has no self loops if the original has none.", "quantifier": "all well-formed graphs and complete partitionings", "why_tests_cant": "Later bisections assume it for every recursive call.", "anchors": ["src/graph/SubgraphExtractor.cpp"]}
{"id": "C11", "title": "Mapping a sub-partitioning writes exactly the mapped labels", "statement": "Mapping a partitioning of a subgraph back writes label+offset at the super vertex of each of its vertices, and changes no other entry.", "quantifier": "all subgraphs, partitionings, offsets and label arrays", "why_tests_cant": "The frame condition (nothing else changes) is about all untouched positions.", "anchors": ["src/graph/Subgraph.cpp: mapPartitioning", "src/graph/MappedGraphWrapper.cpp: mapPartitioning"]}
{"id": "C12", "title": "Aggregation groups are consistent with the coarse map", "statement": "The groups enumerated by an aggregation list each fine vertex exactly once, and group c contains precisely the vertices whose coarse vertex number is c.", "quantifier": "all coarse maps with entries below the number of coarse vertices", "why_tests_cant": "Counting-sort with shifted prefix sums over arbitrary maps.", "anchors": ["src/aggregation/Aggregation.cpp: Aggregation::Aggregation, coarseVertices", "src/aggregation/VertexGrouping.hpp"]}
{"id": "C13", "title": "Matching builder yields groups of one or two", "statement": "After any sequence of matches of distinct unmatched vertices, the built aggregation puts two matched vertices in one group, every unmatched vertex alone, numbers the groups 0..n-1 without gaps, and leaves no vertex unassigned.", "quantifier": "all sequences of legal match calls on any number of vertices", "why_tests_cant": "Histories of match calls are unbounded.", "anchors": ["src/aggregation/MatchedAggregationBuilder.cpp: build", "src/aggregation/MatchedAggregationBuilder.hpp: match, isMatched"]}
{"id": "C14", "title": "Aggregators only join adjacent vertices", "statement": "Both matching aggregators put two distinct vertices in the same group only if an edge of the graph joins them.", "quantifier": "all well-formed graphs without self loops, all random orders, all weight limits", "why_tests_cant": "Depends on every visiting order of the random engine.", "anchors": ["src/aggregation/RandomMatchingAggregator.cpp: firstMatch", "src/aggregation/HeavyEdgeMatchingAggregator.cpp: shem"]}
{"id": "C15", "title": "Aggregators respect the maximum vertex weight", "statement": "No group of two produced by a matching aggregator has combined weight above the configured maximum vertex weight.", "quantifier": "all well-formed graphs without self loops whose pairs of vertices weigh less than 2^32-1, random orders and weight limits", "why_tests_cant": "Every order, every weight assignment; the sentinel comparison has a corner at 2^32-1.", "anchors": ["src/aggregation/AggregationParameters.hpp: isAllowedVertexWeight", "src/aggregation/RandomMatchingAggregator.cpp", "src/aggregation/HeavyEdgeMatchingAggregator.cpp"]}
{"id": "C16", "title": "Matchings are maximal", "statement": "After either matching aggregator, no edge joins two ungrouped vertices whose combined weight is allowed (on symmetric graphs).", "quantifier": "all well-formed symmetric graphs without self loops whose pairs of vertices weigh less than 2^32, random orders and weight limits", "why_tests_cant": "Maximality must hold for every visiting order.", "anchors": ["src/aggregation/RandomMatchingAggregator.cpp: firstMatch", "src/aggregation/HeavyEdgeMatchingAggregator.cpp: shem"]}
{"id": "C17", "title": "Heavy-edge matching picks a heaviest admissible edge", "statement": "Whenever heavy-edge matching joins a visited vertex with a neighbour, the joining edge is of maximum weight among its edges to neighbours that are still unmatched and allowed at that moment. Seen from the outcome, on symmetric graphs: the vertices have an order by increasing degree such that whenever a vertex is grouped with a later one, every neighbour it has by a heavier edge and was allowed to join is itself grouped, and that neighbour or its partner comes earlier in the order.", "quantifier": "all graphs without self loops, orders and matching states", "why_tests_cant": "The state at each step depends on all the previous steps.", "anchors": ["src/aggregation/HeavyEdgeMatchingAggregator.cpp: shem"]}
{"id": "C18", "title": "Aggregation bounds the coarse size", "statement": "The number of coarse vertices produced by a matching aggregator is at most the number of fine vertices and at least half of it.", "quantifier": "all graphs without self loops, orders and weight limits", "why_tests_cant": "Universal size claim used for progress of coarsening.", "anchors": ["src/aggregation/MatchedAggregationBuilder.cpp: build"]}
{"id": "C19", "title": "Partition weights track assignments through any history", "statement": "After any legal sequence of assign, move, unassign, assignAll, unassignAll operations, the weight reported for each partition equals the (32-bit) sum of the weights of the vertices currently assigned to it.", "quantifier": "all graphs, all numbers of partitions, all operation histories", "why_tests_cant": "Histories of operations are unbounded.", "anchors": ["src/partition/Partitioning.hpp: assign, move, unassign, getWeight", "src/partition/Partitioning.cpp: assignAll, unassignAll"]}
{"id": "C20", "title": "Partitioning from labels reports true weights and cut", "statement": "Constructing a Partitioning from a label vector reports for each partition the sum of its vertices' weights, and a cut equal to the total weight of undirected edges whose ends have different labels.", "quantifier": "all well-formed symmetric graphs and label vectors below the number of partitions (edge weights summing below 2^32)", "why_tests_cant": "Every labelling of every graph; halving of a two-way sum must be exact.", "anchors": ["src/partition/Partitioning.cpp: Partitioning::Partitioning, sumPartitionWeight, sumCutEdgeWeight"]}
{"id": "C21", "title": "Cut recalculation is exact", "statement": "recalcCutEdgeWeight stores exactly the weight of undirected edges joining differently assigned vertices, regardless of the previously stored value.", "quantifier": "all symmetric graphs with edge weights summing up to less than 2^32, assignments and previous cut values", "why_tests_cant": "All labellings.", "anchors": ["src/partition/Partitioning.cpp: recalcCutEdgeWeight"]}
{"id": "C22", "title": "Vertex counts", "statement": "calcVertexCounts returns for every partition the number of vertices assigned to it; the counts add up to the number of vertices.", "quantifier": "all complete assignments", "why_tests_cant": "All assignments, all numbers of partitions.", "anchors": ["src/partition/Partitioning.cpp: calcVertexCounts"]}
{"id": "C23", "title": "Fresh connectivity is exact", "statement": "Connectivity computed from a partitioning gives for each vertex exactly the weight of its edges inside its own part and the weight of its edges to the other part; the border contains every vertex with positive external weight and otherwise only vertices with no internal weight.", "quantifier": "all well-formed graphs with total vertex weight and total edge weight (both directions) below 2^32, and bisections", "why_tests_cant": "All graphs and labellings.", "anchors": ["src/partition/TwoWayConnectivity.cpp: fromPartitioning, setupConnections, shouldBeInBorder"]}
{"id": "C24", "title": "Incremental connectivity stays exact", "statement": "After moving any sequence of vertices, the incrementally updated connectivity equals the connectivity that would be computed from scratch, and the border still contains every vertex with an external edge weight and never a vertex with internal but no external weight.", "quantifier": "all symmetric graphs with total vertex weight and total edge weight (both directions) below 2^32, initial bisections and sequences of moves", "why_tests_cant": "Unbounded sequences of moves with incremental branch-free updates.", "anchors": ["src/partition/TwoWayConnectivity.hpp: move, updateNeighbor, updateBorderStatus, getDirection", "src/partition/FMRefiner.cpp: move"]}
{"id": "C25", "title": "The vertex delta predicts the cut change", "statement": "The delta reported for a vertex is exactly the change of the cut caused by moving it to the other side.", "quantifier": "all symmetric graphs without self loops with total vertex weight and total edge weight (both directions) below 2^32, all bisections, all vertices", "why_tests_cant": "All labellings and vertices, including self loops where it fails.", "anchors": ["src/partition/TwoWayConnectivity.hpp: getVertexDelta", "src/partition/FMRefiner.cpp: move"]}
{"id": "C26", "title": "FM refinement keeps the reported cut exact", "statement": "After FM refinement the partitioning is still a complete bisection, its reported partition weights are the true ones, its reported cut is the true cut, and its connectivity is the true connectivity.", "quantifier": "all valid graphs, bisections, targets, iteration limits, tie-breaking orders and floating point behaviours", "why_tests_cant": "All intermediate moves and undo steps are on unbounded paths depending on tie breaking.", "anchors": ["src/partition/FMRefiner.cpp: refine, move"]}
{"id": "C27", "title": "FM refinement never makes a balanced bisection worse", "statement": "FM refinement goes through accepted states only: every accepted state either lessens the imbalance of an unbalanced bisection or lowers the cut while being balanced or not less balanced, and the result is the last accepted state (or the input). If the limits of the target match its fractions (they do for the uniform target of two parts, at every total weight and tolerance), a bisection within the limits stays within the limits and its cut does not grow. For other targets rounding can make the two disagree, and then refinement can leave the limits.", "quantifier": "all valid graphs, bisections, targets and tie-breaking orders", "why_tests_cant": "Hill climbing with undo; depends on all prefixes of moves.", "anchors": ["src/partition/FMRefiner.cpp: refine"]}
{"id": "C28", "title": "FM refinement terminates and moves each vertex at most once per pass", "statement": "Each pass of FM refinement performs at most one forward move per vertex, so every pass, and the refinement, terminates.", "quantifier": "all valid graphs, bisections, targets and tie-breaking orders", "why_tests_cant": "Termination is not testable.", "anchors": ["src/partition/FMRefiner.cpp: refine", "src/util/VisitTracker.hpp"]}
{"id": "C29", "title": "FM queue discipline", "statement": "During a pass the two priority queues contain exactly the unvisited border vertices, each on its own side with priority equal to minus its delta; no vertex is inserted twice and no absent vertex is removed or updated.", "quantifier": "all valid graphs, bisections, tie-breaking orders and every point of a pass", "why_tests_cant": "Intermediate states of all runs; misuse of the queue is undefined behaviour that tests may not notice.", "anchors": ["src/partition/FMRefiner.cpp: move, refine", "src/util/VertexQueue.hpp"]}
{"id": "C30", "title": "Projection preserves the partition", "statement": "Projecting a coarse bisection gives each fine vertex the label of its group; partition weights and cut are equal to the coarse ones and exact; and the projected connectivity equals the one computed from scratch, even though border information is only taken from the coarse level.", "quantifier": "all valid graphs, aggregations and coarse bisections whose connectivity invariant holds", "why_tests_cant": "The shortcut for non-border vertices is only right if a global invariant holds for every input.", "anchors": ["src/multilevel/DiscreteCoarseGraph.cpp: project, fillInConnectivity"]}
{"id": "C31", "title": "Breadth-first bisection", "statement": "BFS bisection returns a complete bisection with exact weights and cut; in its growing phase the left side never exceeds its maximum weight.", "quantifier": "all valid nonempty graphs, targets, seeds and tie-breaking orders", "why_tests_cant": "All graphs and orders.", "anchors": ["src/partition/BFSBisector.cpp: execute, bfsPriorityMove, bfsWeightBalance, bfsUnitBalance"]}
{"id": "C32", "title": "Random bisection respects the left limit", "statement": "Random bisection returns a complete bisection with exact weights and cut whose left side does not exceed its maximum weight.", "quantifier": "all valid graphs, targets and random orders", "why_tests_cant": "All random orders, plus a swap step with signed/unsigned conversions.", "anchors": ["src/partition/RandomBisector.cpp: execute, fillLeft, swapBalanceRight"]}
{"id": "C33", "title": "Multi bisection keeps a best candidate", "statement": "Multi-bisection returns one of the candidate bisections it generated; after a balanced candidate has been kept, the kept one is always balanced and its cut is minimal among the balanced candidates seen since. If limits and fractions of the target match (as for the uniform target of two parts) and any candidate is balanced, the returned one is balanced and has the smallest cut of all balanced candidates.", "quantifier": "all bisectors, numbers of bisections (at least one) and candidate sequences", "why_tests_cant": "All sequences of candidates.", "anchors": ["src/partition/MultiBisector.cpp: execute"]}
{"id": "C34", "title": "Multilevel coarsening terminates", "statement": "The multilevel recursion always terminates: from the second level on, each further coarsening has strictly fewer edges.", "quantifier": "all valid graphs, aggregators and floating point roundings that are monotone", "why_tests_cant": "Termination cannot be tested.", "anchors": ["src/partition/MultilevelBisector.cpp: recurse", "src/multilevel/EdgeRatioStoppingCriteria.cpp: shouldStop"]}
{"id": "C35", "title": "Multilevel bisection returns an exact bisection", "statement": "Multilevel bisection returns a complete bisection of the input graph with exact partition weights and exact cut.", "quantifier": "all valid graphs, targets, seeds and tie-breaking orders", "why_tests_cant": "Composition of coarsening, initial partitioning, projection and refinement at every depth.", "anchors": ["src/partition/MultilevelBisector.cpp: execute, recurse"]}
{"id": "C36", "title": "Recursive bisection labels are in range", "statement": "Recursive bisection into k >= 2 parts labels every vertex with a label below k, and reports the exact cut and partition weights of those labels.", "quantifier": "all graphs, all k >= 2, all targets, all bisectors returning complete bisections", "why_tests_cant": "All k and all recursion shapes including odd splits.", "anchors": ["src/partition/RecursiveBisectionPartitioner.cpp: recurse, execute"]}
{"id": "C37", "title": "Recursive bisection refines the first bisection", "statement": "Vertices on the left of a bisection finally get labels among the first floor(k/2) of its range and vertices on the right among the remaining ones; hence vertices separated at some level never share a label.", "quantifier": "all graphs, k >= 2, bisectors", "why_tests_cant": "Structural claim about every recursion tree.", "anchors": ["src/partition/RecursiveBisectionPartitioner.cpp: recurse"]}
{"id": "C38", "title": "API success output is a valid partition with its cut", "statement": "When POROS_PartGraphRecursive returns 1 with numGlobalCuts >= 1 and numPartitions >= 2, the written assignment has every label below numPartitions and the written cut is the weight of the undirected edges cut by the written assignment.", "quantifier": "all valid symmetric input graphs, options and seeds", "why_tests_cant": "The whole pipeline over all inputs.", "anchors": ["src/Poros.cpp: POROS_PartGraphRecursive", "include/poros.h"]}
{"id": "C39", "title": "API keeps the best of several cuts", "statement": "With numGlobalCuts = c >= 1 the written cut is the minimum of the cuts of the c runs, and the written assignment is that of the first run achieving it.", "quantifier": "all sequences of runs, all c", "why_tests_cant": "All sequences of run results.", "anchors": ["src/Poros.cpp: POROS_PartGraphRecursive"]}
{"id": "C40", "title": "API error behaviour", "statement": "Null options return 0 and write nothing; an unknown aggregation scheme raises an exception before anything is written; with numGlobalCuts <= 0 the call returns 1 but writes nothing.", "quantifier": "all other arguments", "why_tests_cant": "All inputs on the error branches.", "anchors": ["src/Poros.cpp: POROS_PartGraphRecursive", "src/aggregation/AggregatorFactory.cpp: make"]}
{"id": "C41", "title": "Options that are ignored", "statement": "The documented options imbalanceTolerance, targetPartitionFractions and refinementIterations do not influence a call: two calls whose options agree on seed, aggregation scheme and number of cuts return and write the same, on every input. (This contradicts include/poros.h, which documents their effect.)", "quantifier": "all inputs, all pairs of values of these options", "why_tests_cant": "Equality of results for all option values.", "anchors": ["include/poros.h: poros_options_struct", "src/Poros.cpp: POROS_PartGraphRecursive", "src/PorosParameters.cpp"]}
{"id": "C42", "title": "Null vertex weights are unsafe", "statement": "Passing null vertexWeights, documented as unit weights, is undefined behaviour for every valid graph with an odd number of vertices up to 19 split into two parts, whatever the random engine, seed and (known) scheme: the balancing fallback of BFS bisection reads the absent weight array.", "quantifier": "all valid graphs with null vertex weights and an odd number of vertices <= 19, all seeds, engines, priority queues, schemes and numbers of cuts; binary64 arithmetic", "why_tests_cant": "The failing branch needs an unbalanced growing phase on a small unit weight graph; existing tests never reach it.", "anchors": ["src/partition/BFSBisector.cpp: execute (lines 181-187), bfsWeightBalance"]}
{"id": "C43", "title": "One part or no part is undefined", "statement": "Requesting one partition (which a user expects to label every vertex 0) or no partition is undefined behaviour on every valid graph: with one part the tolerance share is divided by log2(1) = 0 and an infinite double is converted to an integer; with none the error message reads a fraction that does not exist.", "quantifier": "all valid graphs, seeds, schemes, with numPartitions = 1 or 0; binary64 arithmetic", "why_tests_cant": "No test uses one partition.", "anchors": ["src/partition/RecursiveBisectionPartitioner.cpp: recurse (line 73)"]}
{"id": "C44", "title": "Vertex and edge sets enumerate their range", "statement": "Iterating a vertex or edge set yields each index from begin to end exactly once in increasing order, and size() is the number of indices yielded; iterating all vertices of a graph and the edges of each visits every edge exactly once.", "quantifier": "all ranges", "why_tests_cant": "All ranges.", "anchors": ["src/graph/VertexSet.hpp", "src/graph/EdgeSet.hpp"]}
{"id": "C45", "title": "Permuted vertex orders are permutations; degree order ascends", "statement": "On all vertices of a graph, random and degree-sorted vertex orders visit every vertex exactly once, and degree-sorted orders visit vertices in non-decreasing degree.", "quantifier": "all graphs and random engines", "why_tests_cant": "All graphs and engines.", "anchors": ["src/graph/RandomOrderVertexSet.cpp", "src/graph/DegreeSortedVertexSet.cpp"]}
{"id": "C46", "title": "Visit tracker", "statement": "After any sequence of visit, unvisit and clear, an index is reported visited iff it was visited after its last unvisit or clear.", "quantifier": "all histories", "why_tests_cant": "Unbounded histories.", "anchors": ["src/util/VisitTracker.hpp"]}
{"id": "C47", "title": "Grid graphs are valid", "statement": "The grid generator produces a symmetric graph without self loops or parallel edges in which two vertices are adjacent iff their coordinates differ by one in exactly one dimension, with symmetric weights, and with exactly the computed number of edges.", "quantifier": "all positive dimensions (three times the number of vertices and the number of edges within 32 bits) and all random weights", "why_tests_cant": "All dimensions.", "anchors": ["src/graph/GridGraphGenerator.cpp: generate, Grid"]}
{"id": "C48", "title": "Target partitioning validates fractions", "statement": "Fractions for at least two partitions of which one is outside [0,1] or whose sum (in doubles) is below 1-0.0001 or above 1+0.0001 are rejected with an exception. Other fractions without NaN are accepted (unless a product with the total weight does not fit in 32 bits, which is undefined behaviour and impossible for a tolerance in [0,1] and a total below 2^31), giving target weights and maximum weights equal to the truncated products with the total weight; the target weight of a partition then never exceeds its maximum weight for a non-negative tolerance.", "quantifier": "all fraction vectors, weights and tolerances", "why_tests_cant": "All numeric inputs.", "anchors": ["src/partition/TargetPartitioning.cpp"]}
{"id": "C49", "title": "Balance analysis", "statement": "isBalanced holds iff no partition exceeds its maximum weight, and the maximum imbalance is the largest of zero and the per-partition imbalances, attained by the reported most overweight partition.", "quantifier": "all exact partitionings (C19) and targets of the same number of parts", "why_tests_cant": "All numeric inputs.", "anchors": ["src/partition/PartitioningAnalyzer.cpp: findMax", "src/partition/PartitioningAnalyzer.hpp: isBalanced, isOverWeight"]}
{"id": "C50", "title": "Stopping criteria", "statement": "A composite criterion stops iff one of its criteria stops; the vertex criterion stops iff there are at most the given number of vertices; the edge ratio criterion always stops on an edgeless graph, never stops at the first level of a graph with edges, and rejects invalid arguments.", "quantifier": "all graphs, levels and criteria lists", "why_tests_cant": "All lists of criteria.", "anchors": ["src/multilevel/CompositeStoppingCriteria.cpp", "src/multilevel/VertexNumberStoppingCriteria.cpp", "src/multilevel/EdgeRatioStoppingCriteria.cpp"]}
{"id": "C51", "title": "Queries of the matching builder", "statement": "getNextUnmatched returns the smallest unmatched vertex (or the number of vertices if there is none), and isMatched tells whether a vertex has been matched, after any history of matches and queries.", "quantifier": "all histories", "why_tests_cant": "Amortised cursor over unbounded histories.", "anchors": ["src/aggregation/MatchedAggregationBuilder.hpp: getNextUnmatched, isMatched"]}
{"id": "C52", "title": "Time keeper accumulates", "statement": "After any sequence of accepted reports the time of each category is the sum of the reports for it in order, listed under the category's name in a fixed order; a report with an unknown category raises an exception and changes nothing.", "quantifier": "all report histories", "why_tests_cant": "Unbounded histories.", "anchors": ["src/util/TimeKeeper.cpp: reportTime, times"]}
{"id": "C53", "title": "Self loops make coarsening unsafe", "statement": "Input graphs may contain self loops. (Refuted: a matching aggregator may match a vertex with itself, after which the coarse map has an uninitialised entry.)", "quantifier": "graphs with self loops", "why_tests_cant": "Uninitialised reads may go unnoticed in tests.", "anchors": ["src/aggregation/RandomMatchingAggregator.cpp: firstMatch", "src/aggregation/MatchedAggregationBuilder.cpp: build"]}
{"id": "C54", "title": "Bisection API call is free of undefined behaviour", "statement": "Splitting a valid nonempty graph with explicit vertex weights into two parts completes without undefined behaviour, exception or divergence, and returns 1.", "quantifier": "all valid graphs with explicit weights, two parts, known aggregation schemes, output buffers of at least n entries, seeds and tie-breaking orders", "why_tests_cant": "Absence of out-of-bounds access, uninitialised reads and misuse of containers for all inputs.", "anchors": ["src/Poros.cpp: POROS_PartGraphRecursive"]}
{"id": "C55", "title": "The balancing swap of random bisection balances", "statement": "When random bisection finds the right side too heavy and swaps two vertices, the left side stays within its maximum and, if the two maximum weights together suffice for the graph, the right side is within its maximum afterwards; otherwise nothing changes. (For infeasible limits a swap may make the right side heavier, and some balancing swaps are missed.)", "quantifier": "all valid graphs, exact bisections, two-way targets", "why_tests_cant": "depends on arbitrary weight distributions and unsigned/signed conversions of search bounds", "anchors": ["src/partition/RandomBisector.cpp: swapBalanceRight, RandomBisector::execute"]}
{"id": "C56", "title": "Multilevel bisection keeps the quality of the initial bisection", "statement": "With a target whose maximum weights match its fractions, if the initial bisection of the coarsest graph is balanced then the multilevel result on the input graph is balanced and its cut is not larger than the initial one. The uniform target of two parts, and the target recursive bisection makes of it, always match.", "quantifier": "all valid graphs, targets, aggregation schemes and random sequences", "why_tests_cant": "ranges over all coarsening hierarchies and refinement histories", "anchors": ["src/partition/MultilevelBisector.cpp: recurse", "src/multilevel/DiscreteCoarseGraph.cpp: project", "src/partition/FMRefiner.cpp: refine"]}
{"id": "C57", "title": "All-ones vertex weights are unsafe for four parts", "statement": "Explicit vertex weights that all equal one are not as safe as other explicit weights: splitting any valid graph with up to 20 vertices, not divisible by four, and an explicit all-ones weight array into four parts is undefined behaviour, because the graph is flagged unit-weight, subgraph extraction then drops the weight array, and BFS bisection of an overfull subgraph reads it.", "quantifier": "all such graphs, seeds, engines, priority queues, schemes and numbers of cuts; binary64 arithmetic", "why_tests_cant": "It depends on whether the balancing fallback runs on some subgraph, i.e. on the graph, the random seed and the tie breaking.", "anchors": ["src/graph/Graph.cpp: Graph", "src/graph/SubgraphExtractor.cpp: partitions", "src/partition/BFSBisector.cpp: execute"]}
{"id": "C58", "title": "Balanced bisections give balanced parts", "statement": "The limits recursive bisection passes to a bisection lie between the sum of the target weights and the sum of the maximum weights of the parts in each half; if every bisection stays within its limits then each of the k parts stays within its maximum weight.", "quantifier": "all graphs, k >= 2, targets and bisectors", "why_tests_cant": "Rounding of the tolerance share and truncation happen per part and per level; a test covers single k and weights.", "anchors": ["src/partition/RecursiveBisectionPartitioner.cpp: recurse"]}
{"id": "C59", "title": "The k-way cut is the sum of the bisection cuts", "statement": "The cut of a recursive bisection is the cut of the first bisection plus the cuts of the recursive bisections of the two induced subgraphs.", "quantifier": "all graphs, k >= 2, bisectors", "why_tests_cant": "It is an identity over all graphs and all trees of bisections.", "anchors": ["src/partition/RecursiveBisectionPartitioner.cpp: recurse, execute"]}
{"id": "C60", "title": "Balance limits of the C interface", "statement": "For every k >= 2 and total weight W the limits the C interface sets for the k parts are all equal, no more than 1.03 W/k (up to rounding), and large enough to hold the graph (k times the limit is at least W) once W >= 34 k; for two parts and odd W <= 33 they are not: the limit is floor(W/2) and no bisection is within limits.", "quantifier": "all k and total weights below 2^32, binary64 arithmetic", "why_tests_cant": "Truncation of doubles for every weight and number of parts.", "anchors": ["src/partition/PartitionParameters.cpp", "src/partition/TargetPartitioning.cpp: TargetPartitioning"]}
{"id": "C61", "title": "No exceptions on valid calls", "statement": "A call on a valid graph with at least two parts and a known aggregation scheme never raises a C++ exception and never runs forever: it returns 1, unless it runs into undefined behaviour (C42, C57).", "quantifier": "all valid graphs, k >= 2, seeds, engines, tie-breaking orders, numbers of cuts", "why_tests_cant": "All inputs and all random sequences.", "anchors": ["src/Poros.cpp: POROS_PartGraphRecursive", "src/partition/MultilevelBisector.cpp"]}
{"id": "C62", "title": "Null options are not the defaults", "statement": "On no valid input with at least two parts does a call with null options behave like the call with the default options, although include/poros.h documents that null options select the defaults: the former returns 0 and writes nothing, the latter never returns 0.", "quantifier": "all valid inputs with k >= 2", "why_tests_cant": "All inputs.", "anchors": ["include/poros.h", "src/Poros.cpp: POROS_PartGraphRecursive"]}
{"id": "C63", "title": "Fractions that escape validation", "statement": "A single invalid fraction (one partition) is undefined behaviour instead of an exception, because the error message reads a second fraction; a NaN among otherwise acceptable fractions is not rejected but is undefined behaviour.", "quantifier": "all fraction vectors with such a fraction, all weights and tolerances", "why_tests_cant": "All numeric inputs; undefined behaviour may be silent in tests.", "anchors": ["src/partition/TargetPartitioning.cpp: TargetPartitioning::TargetPartitioning"]}
{"id": "C64", "title": "Indexing a vertex set ignores its begin", "statement": "set[i] is the i-th vertex of the set in iteration order if the set begins at 0, and never otherwise.", "quantifier": "all ranges and indices", "why_tests_cant": "All ranges.", "anchors": ["src/graph/VertexSet.hpp: operator[]"]}
{"id": "C65", "title": "Vertex orders of sets that do not begin at 0", "statement": "For a non-empty vertex set not beginning at 0, the random order omits the last vertex of the set (it orders 0..size-1 instead), and the degree-sorted orders write outside their array (undefined behaviour).", "quantifier": "all graphs, such sets and random engines", "why_tests_cant": "Undefined behaviour may be silent in tests; all sets.", "anchors": ["src/graph/RandomOrderVertexSet.cpp: generate", "src/graph/DegreeSortedVertexSet.cpp: ascending, ascendingRandom"]}
{"id": "C66", "title": "Timed wrappers are transparent", "statement": "A timed aggregator, contractor, bisector or refiner returns what the wrapped object returns, fails as it fails, and adds the measured time to its own category of its time keeper and to no other; without a time keeper nothing is reported.", "quantifier": "all wrapped operations, times and report histories", "why_tests_cant": "All wrapped objects and histories.", "anchors": ["src/util/TimedProcess.cpp: reportTime", "src/partition/TimedBisector.cpp: execute", "src/aggregation/TimedAggregator.cpp: aggregate", "src/aggregation/TimedContractor.cpp: contract", "src/partition/TimedTwoWayRefiner.cpp: refine"]}
{"id": "C67", "title": "The multilevel k-way partitioner is a stub", "statement": "Executing the multilevel (k-way) partitioner leaves every vertex unassigned.", "quantifier": "all graphs and targets", "why_tests_cant": "All graphs.", "anchors": ["src/partition/MultilevelPartitioner.cpp: execute"]}
{"id": "C68", "title": "The connectivity self-check", "statement": "The self-check of two-way connectivity accepts an object exactly when its internal/external weights are the true ones for the partitioning and its border is the one a computation from scratch gives. If every vertex has positive incident edge weight, the incrementally maintained connectivity is accepted after every sequence of moves; but moving a vertex that has no edges makes it reject although every weight is right (so the refiner's debug assertion fires on a correct state).", "quantifier": "all well-formed graphs, two-way partitionings, connectivity objects and move sequences", "why_tests_cant": "The check has to agree with the specification on every object and after every history of moves; the isolated-vertex disagreement only appears on graphs the tests do not contain.", "anchors": ["src/partition/TwoWayConnectivity.cpp: verify, move, updateBorderStatus", "src/partition/FMRefiner.cpp:250,266"]}
{"id": "C69", "title": "The graph validity check", "statement": "On every graph whose arrays have the right lengths, the debug-build validity check terminates without reading out of bounds and accepts exactly when the stored totals are the weight sums, all destinations are vertices, and for each edge v->u the first listed edge u->v exists with the same weight. Hence on graphs without parallel edges it decides symmetry exactly; contractions of symmetric graphs and subgraphs of accepted graphs are accepted (so the builders' assertions cannot fire on them); but a symmetric graph with two parallel edges of different weight is always rejected.", "quantifier": "all graphs with arrays of matching lengths, valid or not; all coarse maps and partitionings", "why_tests_cant": "The check must agree with the definition of a valid graph on every graph, also invalid ones, and must accept everything the builders produce.", "anchors": ["src/graph/Graph.cpp: isValid", "src/graph/OneStepGraphBuilder.cpp:90", "src/graph/TwoStepGraphBuilder.cpp:134"]}
{"id": "C70", "title": "FM refinement follows the FM rules", "statement": "Refinement is a run of the textbook procedure: each move takes a vertex of largest gain among the not yet moved border vertices of its side, from an overweight side with candidates if there is one (left first), otherwise of largest gain overall with cross-side ties decided by the parity of two best vertices; a move is accepted exactly if it lessens the imbalance of an unbalanced bisection or lowers the cut without hurting balance, relative to the last accepted state; a pass ends when no candidate is left or after min(maxMoves, max(n/100, 25)) moves since the last acceptance, and leaves the labels of its last accepted move; refinement ends after the given number of passes or the first pass without acceptance.", "quantifier": "all graphs, targets, initial bisections, priority-queue tie breaking and iteration limits", "why_tests_cant": "The order of moves depends on gains maintained incrementally over arbitrary histories; tests only see final cuts.", "anchors": ["src/partition/FMRefiner.cpp: pickSide, move, refine"]}
{"id": "C71", "title": "Aggregation is greedy matching", "statement": "For every valid loop-free graph, weight limit, scheme and random engine, aggregation succeeds and is the textbook greedy matching: vertices are visited in one order (heavy-edge scheme with edge weights: by increasing degree, otherwise a random permutation); a vertex already matched is passed over; otherwise it joins, among its unmatched neighbours that together with it stay within the weight limit, the first one by a heaviest edge (heavy-edge scheme) or simply the first one listed; if there is none it stays alone. Two vertices share a coarse vertex exactly if they were joined. The result is determined by the visiting order.", "quantifier": "all valid loop-free graphs, limits, schemes, random engines", "why_tests_cant": "The choice depends on everything matched before, for every order; tests see only sizes and limits of the result.", "anchors": ["src/aggregation/RandomMatchingAggregator.cpp", "src/aggregation/SHEMRMAggregator.cpp", "src/aggregation/HeavyEdgeMatchingAggregator.cpp", "src/graph/DegreeSortedVertexSet.cpp"]}
{"id": "C72", "title": "Multilevel bisection follows the multilevel scheme", "statement": "Every result of multilevel bisection is the outcome of a run of: coarsen by greedy matching with weight limit 3/40 of the total weight until at most 20 vertices, no edges or more than 95 percent of the previous edges remain; bisect the coarsest graph with the initial bisector; at each finer level hand the labels down and refine by at most 8 FM passes with the 150-move limit. On nonempty weighted valid graphs a result is always returned.", "quantifier": "all valid graphs, targets, schemes, engines and queue tie breaking, over IEEE binary64", "why_tests_cant": "The recursion depth, stopping rule and composition of phases vary with the input; tests see only the final cut.", "anchors": ["src/partition/MultilevelBisector.cpp: execute, recurse", "src/multilevel/EdgeRatioStoppingCriteria.cpp", "src/partition/TwoWayRefinerFactory.cpp"]}
{"id": "C73", "title": "The multilevel hierarchy is small and keeps weights", "statement": "All graphs of a multilevel bisection's hierarchy together have at most 20 times the edges of the input, the number of levels is logarithmic in the edges (20^d <= 19^d * m for d+2 levels), every level has the input's total weight, and no coarse vertex is heavier than 7.5 percent of it or the heaviest input vertex.", "quantifier": "all runs of the multilevel scheme on valid graphs (total weight below 2^32-1)", "why_tests_cant": "A resource bound over every input and every matching outcome.", "anchors": ["src/partition/MultilevelBisector.cpp", "src/multilevel/EdgeRatioStoppingCriteria.cpp", "src/aggregation/SummationContractor.cpp"]}
{"id": "C74", "title": "The initial bisectors grow and fill as specified", "statement": "Breadth-first bisection grows the left side from a random seed, always considering next the unconsidered vertex with the largest edge weight to the left side (taken if it fits), until the target weight is met, then moves at most one more vertex if the right side is too heavy and that improves relative fullness. Random bisection fills the left side in the order of one random permutation until a vertex does not fit or worsens the imbalance, then, if the right side is too heavy, exchanges a heaviest right vertex with a lightest left vertex within the computed bounds (32-bit arithmetic). Exactly one random draw resp. one permutation is consumed.", "quantifier": "all valid graphs, targets with two parts, seeds, random engines and queue tie breaking", "why_tests_cant": "Each choice depends on the whole growing history.", "anchors": ["src/partition/BFSBisector.cpp: execute, bfsPriorityMove, bfsWeightBalance, bfsUnitBalance", "src/partition/RandomBisector.cpp: execute, fillLeft, balance"]}
{"id": "C75", "title": "A successful call is a run of the whole partitioning procedure", "statement": "Whatever a call that returns 1 wrote is the outcome of a run of the written-down procedure: from the random engine seeded by the option, numGlobalCuts recursive bisections, each a tree of multilevel bisections (greedy matching by the scheme the option selects, the kept one of eight grown bisections, FM refinement at every level), for even target weights and 3 percent tolerance; the labels and cut written are those of the first run with the smallest cut, and nothing else of the output buffer is touched.", "quantifier": "all valid inputs with at least two parts, option values with at least one cut, random engines, queue and set implementations, over IEEE binary64", "why_tests_cant": "Composition of all phases over every input and every random sequence; tests see only the final cut and balance of a few graphs.", "anchors": ["src/Poros.cpp: POROS_PartGraphRecursive", "src/partition/RecursiveBisectionPartitioner.cpp", "src/partition/MultilevelBisector.cpp", "src/partition/MultiBisector.cpp"]}
{"id": "C76", "title": "The stored cut after any history of operations", "statement": "After every legal history of operations on a fresh partitioning of a symmetric graph, the stored cut is zero after assigning all vertices to one partition, the given value after setting it, the 32-bit sum after adding to it, and the true cut of the assignment at that moment after recalculating it; assigning, moving, unassigning one or all vertices leaves it as it was.", "quantifier": "all symmetric graphs with total edge weight below 2^32, numbers of parts, legal histories of operations", "why_tests_cant": "Every interleaving of operations.", "anchors": ["src/partition/Partitioning.cpp: assignAll, unassignAll, recalcCutEdgeWeight", "src/partition/Partitioning.hpp: setCutEdgeWeight, addCutEdgeWeight"]}
{"id": "C77", "title": "The default options", "statement": "A call with the default options on a valid nonempty graph with a vertex weight array, for two parts, always returns 1 and is one run of recursive bisection with seed 0, sorted heavy edge matching and the 3 percent tolerance.", "quantifier": "all valid nonempty inputs with vertex weights for two parts, all random engines and containers, over IEEE binary64", "why_tests_cant": "Success and the followed procedure over all inputs.", "anchors": ["src/Poros.cpp: POROS_defaultOptions, POROS_PartGraphRecursive", "include/poros.h"]}
{"id": "C78", "title": "Two parts are balanced within a stated bound", "statement": "However a successful call for two parts went, no part is heavier than 48.5 percent of the total vertex weight plus the larger of 7.5 percent of the total and the weight of the heaviest vertex, plus 2.", "quantifier": "all valid inputs for two parts with total vertex weight below 2^32 - 1, options with at least one cut, random engines, queue and set implementations, over IEEE binary64", "why_tests_cant": "A quantitative bound on the output over every input and every random sequence; tests measure the balance of a few results.", "anchors": ["src/Poros.cpp: POROS_PartGraphRecursive", "src/partition/BFSBisector.cpp", "src/partition/FMRefiner.cpp", "src/partition/MultilevelBisector.cpp", "src/partition/PartitioningAnalyzer.cpp"]}
{"id": "C79", "title": "Too many parts for the vertices is undefined", "statement": "A call for two or more parts succeeds only if the number of parts is at most three times the number of vertices; asking for more parts has undefined behaviour (an empty graph reaches the initial bisector). The bound is sharp.", "quantifier": "all valid inputs with two or more parts, known schemes, at least one cut, outputs, random engines, queue and set implementations, over IEEE binary64", "why_tests_cant": "Holds for every graph and every random sequence; the undefined behaviour may go unnoticed in a test run.", "anchors": ["src/Poros.cpp: POROS_PartGraphRecursive", "src/partition/RecursiveBisectionPartitioner.cpp", "src/partition/BFSBisector.cpp"]}
{"id": "C80", "title": "Calls for up to eight parts are safe on well-behaved weights", "statement": "A call for two to eight parts returns 1, without exception, non-termination or undefined behaviour, on every valid graph with explicit vertex weights none of which is 1 or more than a twentieth of the total, if the total is at least 1000.", "quantifier": "all valid inputs with 2..8 parts and such weights, known schemes, any number of cuts and seed, all random engines, queue and set implementations, every binary64 log2 between neighbouring exponents", "why_tests_cant": "Safety over every graph and random sequence; recursive bisection reaches undefined behaviour when a side becomes empty, which no finite set of tests excludes.", "anchors": ["src/Poros.cpp: POROS_PartGraphRecursive", "src/partition/RecursiveBisectionPartitioner.cpp", "src/partition/MultilevelBisector.cpp", "src/partition/BFSBisector.cpp"]}
{"id": "C81", "title": "No part is empty", "statement": "A successful call for two, three or four parts leaves no part without a vertex, if the total vertex weight is at least 1000 and no vertex has more than a twentieth of it.", "quantifier": "all valid inputs for 2..4 parts with such weights and total weight below 2^32 - 1, options with at least one cut, random engines, queue and set implementations, over IEEE binary64", "why_tests_cant": "Ranges over every graph and random sequence.", "anchors": ["src/Poros.cpp: POROS_PartGraphRecursive", "src/partition/RecursiveBisectionPartitioner.cpp", "src/partition/FMRefiner.cpp"]}
{"id": "C82", "title": "Null edge weights are unit edge weights", "statement": "A call with a null edgeWeights array and the same call with an explicit array of ones return the same value (or fail the same way) and write the same cut and labels, on every input and with every option.", "quantifier": "all inputs of fewer than 2^32 - 1 vertices (valid or not), options, seeds, contents of the output memory, random engines, queues, sets, floating point arithmetic", "why_tests_cant": "Equality of two whole executions over every graph and random sequence; null arrays take different code paths (template instances, aggregator choice) that tests compare only on samples.", "anchors": ["include/poros.h", "src/Poros.cpp: POROS_PartGraphRecursive", "src/graph/Graph.cpp: Graph::Graph", "src/aggregation/SHEMRMAggregator.cpp"]}
{"id": "C83", "title": "Null vertex weights are unit vertex weights where they are safe", "statement": "A call with a null vertexWeights array is either undefined behaviour (as in C42) or it returns the same value and writes the same cut and labels as the call with an explicit array of ones.", "quantifier": "all inputs of fewer than 2^32 - 1 vertices, options, seeds, random engines, queues, sets, floating point arithmetic", "why_tests_cant": "Equality of two whole executions over every graph and random sequence.", "anchors": ["include/poros.h", "src/Poros.cpp: POROS_PartGraphRecursive", "src/partition/BFSBisector.cpp"]}
{"id": "C84", "title": "A call depends only on the graph it is given", "statement": "The outcome of a call and the cut and labels it writes do not depend on what the output memory held before the call, nor on entries of the caller's arrays beyond the described graph.", "quantifier": "all valid inputs with at least two parts, all output buffers of sufficient size, all appended array contents, options, random engines", "why_tests_cant": "Non-interference is a statement about pairs of executions over all memory contents.", "anchors": ["src/Poros.cpp: POROS_PartGraphRecursive", "src/partition/Partitioning.cpp: Partitioning::output", "src/graph/Graph.cpp: Graph::Graph"]}
{"id": "C85", "title": "Weight of every part, for any number of parts", "statement": "If the total weight W is at least 34k (and W+k < 2^32) and no vertex weighs more than 7.5% of an equal share W/k, then after a successful call for k = 2^d parts no part weighs more than W/k + 1.08^d (0.17 W + k), and after a successful call for any k with 2 <= k <= 2^d no part weighs more than W/k + 1.16^d (0.37 W + k).", "quantifier": "all valid inputs in the stated range, numbers of parts without bound, options, seeds, random engines, queues, sets and refinement histories, binary64 arithmetic", "why_tests_cant": "A worst case over every graph, every random sequence and every depth of recursion.", "anchors": ["src/partition/RecursiveBisectionPartitioner.cpp", "src/partition/MultilevelBisector.cpp", "src/partition/BFSBisector.cpp", "src/partition/FMRefiner.cpp", "src/partition/PartitioningAnalyzer.cpp"]}
{"id": "C86", "title": "Partition parameters keep the last values set", "statement": "After any sequence of setter calls on partition parameters for k parts the number of parts is k, the tolerance is the last one set (0.03 if none was) and the target fractions are the first k of the last array given (1/k each if none was); a target made from the parameters uses exactly these; an array with fewer than k entries is read out of bounds. The C interface uses parameters on which no setter was called.", "quantifier": "all numbers of parts, histories of setter calls, arrays, floating point arithmetic", "why_tests_cant": "Unbounded histories.", "anchors": ["src/partition/PartitionParameters.cpp", "src/Poros.cpp: POROS_PartGraphRecursive"]}
{"id": "C87", "title": "Iterating over a partitioning", "statement": "A loop over a partitioning ends and yields each partition exactly once, in order of index, with its weight; after every legal history of assignments and moves these are the true weights.", "quantifier": "all partitionings of fewer than 2^32 parts, all histories", "why_tests_cant": "Unbounded sizes and histories.", "anchors": ["src/partition/Partitioning.hpp: Iterator, begin, end", "src/partition/Partition.hpp"]}
{"id": "C88", "title": "The maximum vertex weight of aggregation parameters", "statement": "New aggregation parameters allow every weight; after any sequence of maxima set exactly the weights up to the last maximum and the reserved value 2^32-1 are allowed.", "quantifier": "all sequences of maxima, all weights", "why_tests_cant": "All values of a 32-bit domain and all histories.", "anchors": ["src/aggregation/AggregationParameters.hpp: isAllowedVertexWeight", "src/aggregation/AggregationParameters.cpp"]}
{"id": "C89", "title": "When null vertex weights are safe for two parts", "statement": "Splitting a valid graph without vertex weight array into two parts returns 1 if the number of vertices is positive and even, or at least 35, or above 20 with at least one edge; in every other case the call is undefined behaviour.", "quantifier": "all valid graphs with null vertex weights, two parts, all seeds, engines, containers, known schemes and positive numbers of cuts; binary64 arithmetic", "why_tests_cant": "An exact characterisation over all graphs, seeds and tie-breaking orders; undefined behaviour cannot be observed reliably by running the code.", "anchors": ["src/partition/BFSBisector.cpp: bfsUnitBalance, bfsWeightBalance", "src/Poros.cpp: POROS_PartGraphRecursive"]}
{"id": "C90", "title": "Small unit-weight graphs", "statement": "A valid graph whose vertices all weigh 1, with at most 20 vertices or no edges, is split into k <= 48 parts of exactly n/k vertices each if k divides n > 0. With null vertex weights and at most 20 vertices (or 33 and no edges) a number of parts that does not divide the number of vertices is undefined behaviour, and so are 49 parts of 49 vertices without edges, since 1.0 / 49 * 49 is below 1.", "quantifier": "all such graphs, numbers of parts, seeds, engines, containers, known schemes and positive numbers of cuts; binary64 arithmetic", "why_tests_cant": "All graphs, sizes and tie-breaking orders; rounding of the share of every multiple of every number of parts.", "anchors": ["src/partition/RecursiveBisectionPartitioner.cpp", "src/partition/TargetPartitioning.cpp: calcTargetWeight", "src/partition/BFSBisector.cpp"]}
{"id": "C91", "title": "Grid sizes", "statement": "The grid generator succeeds for positive dimensions exactly if three times the number of grid points and the number of edges (counted in both directions) are below 2^32; for every other grid it reads or writes beyond an array.", "quantifier": "all positive 32-bit dimensions and all random weights", "why_tests_cant": "Every overflowing size; the overflowing grids are too large to run.", "anchors": ["src/graph/GridGraphGenerator.cpp: generate, Grid"]}
{"id": "C92", "title": "Self loops and coarsening", "statement": "A graph with a vertex that has an edge to itself, may be joined with itself under the weight limit for coarse vertices, and may not be joined with any other vertex it shares an edge with, cannot be coarsened: both aggregation schemes run into undefined behaviour under every random choice. So a call on more than 20 vertices with such a vertex (for instance a light vertex whose only edges lead to itself) is undefined behaviour, for every number of parts from 2.", "quantifier": "all graphs with such a vertex, both schemes, all random engines, seeds, numbers of cuts and parts; total weight below 2^32 - 1 in the claim about calls", "why_tests_cant": "Undefined behaviour shows up in a test only by chance; the claim is for every graph and every random order.", "anchors": ["src/aggregation/MatchedAggregationBuilder.cpp: build", "src/aggregation/RandomMatchingAggregator.cpp: aggregate", "src/aggregation/HeavyEdgeMatchingAggregator.cpp: aggregate", "src/partition/MultilevelBisector.cpp: execute", "src/Poros.cpp: POROS_PartGraphRecursive"]}
{"id": "C93", "title": "What a successful call has written, on any input", "statement": "Whatever graph the well-formed CSR arrays describe (directed, with self loops, with any weights) and whatever the number of parts: if a call with numGlobalCuts >= 1 returns 1, every vertex has a label below numPartitions, entries beyond numVertices are unchanged, and the written cut is half of (the weight of the listed edges between different labels, modulo 2^32). On undirected graphs it is the true cut modulo 2^31, hence the true cut exactly if that is below 2^31.", "quantifier": "all well-formed CSR inputs, options, environments (queues, sets, random engines, floating point)", "why_tests_cant": "All graphs including those outside the documented domain, all weights up to overflow.", "anchors": ["src/Poros.cpp: POROS_PartGraphRecursive", "src/partition/RecursiveBisectionPartitioner.cpp: execute", "src/partition/Partitioning.cpp: Partitioning, recalcCutEdgeWeight"]}
{"id": "C94", "title": "Fewer units of weight than parts", "statement": "If the total vertex weight is at most 97 per cent of the number of parts (for unit weights: noticeably more parts than vertices; also: all weights zero), a call for four or more parts has undefined behaviour, on every valid graph of any size, and a call for two or three parts that returns 1 puts all vertices into the last part and reports cut 0.", "quantifier": "all valid inputs with 100 * total vertex weight <= 97 * numPartitions, all known options with numGlobalCuts >= 1, all queues, sets, random engines and log2 implementations, binary64", "why_tests_cant": "All graphs, sizes and random choices; undefined behaviour cannot be observed reliably by a test.", "anchors": ["src/partition/RecursiveBisectionPartitioner.cpp: execute", "src/partition/BFSBisector.cpp: execute", "src/partition/FMRefiner.cpp: refine", "src/partition/TargetPartitioning.cpp: calcFractions"]}
{"id": "C95", "title": "Assertions of two-way refinement", "statement": "In a debug build (assertions on), two-way refinement of a valid graph that returns gives the same result as in a release build. No assertion of it fails if every vertex has edges of positive weight and the target fractions are positive. On a graph of at most 25 vertices it stops at an assertion exactly if a fraction is not positive or some vertex has no edges of positive weight, although the release build refines such graphs correctly.", "quantifier": "all good graphs, exact bisections with exact connectivity, two-part targets, iteration limits, queue and set implementations; the first part for all arguments whatsoever", "why_tests_cant": "All graphs, bisections and move sequences; the assertions state invariants of every intermediate state.", "anchors": ["src/partition/FMRefiner.cpp: refine, move, pickSide", "src/partition/TwoWayConnectivity.cpp: verify", "src/partition/PartitioningAnalyzer.hpp: getImbalance", "src/partition/Partitioning.hpp: move"]}
{"id": "C96", "title": "Debug and release builds agree", "statement": "Whatever POROS_PartGraphRecursive returns in a debug build (assertions on), for any input, it returns in a release build, with the same output. For every valid input and two or more parts, a call in a debug build does exactly what it does in a release build or stops at an assertion: the assertions and debug messages themselves add no undefined behaviour and no endless loop.", "quantifier": "all inputs, options, output buffers and environments for the first part; all valid inputs and numbers of parts from 2 for the second", "why_tests_cant": "All inputs and runs in two builds; a test can compare the two builds on single inputs only.", "anchors": ["src/Poros.cpp: POROS_PartGraphRecursive", "src/partition/RecursiveBisectionPartitioner.cpp: recurse", "src/graph/TwoStepGraphBuilder.hpp", "src/partition/Partitioning.hpp"]}
{"id": "C97", "title": "When no assertion fails", "statement": "For two parts, no assertion fails (the call does in a debug build what it does in a release build) if the graph is valid, has a total weight of at least 2 and either at most 20 vertices that are not an odd number of vertices of weight 1, or more vertices with total weight below 2^32-1, all edges listed in both directions and no connected component that is a single vertex or has at most 7.5% of the weight; for instance for every connected graph of more than 20 vertices with positive edge weights. For 1 to 20 vertices this is exact: a debug build stops if the total weight is at most 1 or the graph is an odd number of vertices of weight 1, and returns 1 with the output of the release build otherwise.", "quantifier": "all valid inputs for two parts, all options, seeds, engines and containers", "why_tests_cant": "All graphs and all coarsening, bisection and refinement histories; the assertions check intermediate states.", "anchors": ["src/Poros.cpp: POROS_PartGraphRecursive", "src/partition/FMRefiner.cpp: refine", "src/partition/TwoWayConnectivity.cpp: verify", "src/partition/BFSBisector.cpp: execute", "src/partition/PartitioningAnalyzer.hpp"]}
{"id": "C98", "title": "Inputs on which debug builds always stop", "statement": "For two parts, a valid graph of 21 to 25 vertices that has an edge and a vertex without edges of positive weight always makes a debug build stop at an assertion, for all options, although the release build returns 1. So does a total weight of 0 or 1 (with weights not all 1), for any number of vertices.", "quantifier": "all such valid inputs, known schemes, positive numbers of cuts, seeds, engines and containers", "why_tests_cant": "A claim over all graphs and random choices.", "anchors": ["src/partition/FMRefiner.cpp: refine (assertion at 250)", "src/partition/TwoWayConnectivity.cpp: verify", "src/partition/PartitioningAnalyzer.hpp: getImbalance", "src/Poros.cpp: POROS_PartGraphRecursive"]}
{"id": "C99", "title": "Subgraph extraction in debug builds", "statement": "For every well-formed graph and complete labelling of its vertices, extracting the subgraph of every part does in a debug build exactly what it does in a release build if every vertex with edges inside its part has fewer of them than the part has vertices and, for every edge inside a part, the first edge listed back exists and has the same weight; otherwise it stops at an assertion. So nothing fails for symmetric graphs without loops and parallel edges, and a part with as many edges at one vertex as it has vertices always stops it.", "quantifier": "all well-formed graphs, complete labellings into any number of parts, and super-map labels", "why_tests_cant": "The condition has to be exact for all graphs and labellings; the assertions are inside a builder that is fed edge by edge.", "anchors": ["src/graph/SubgraphExtractor.cpp: partitions", "src/graph/TwoStepGraphBuilder.hpp: incVertexNumEdges, finish", "src/graph/Graph.cpp: isValid"]}
{"id": "C100", "title": "Small graphs and several parts in debug builds", "statement": "No assertion fails in a call for two or more parts, whatever the options, random engine and containers, on a valid graph with at most 20 vertices whose edges are listed once in each direction, if all vertices have weight 1 and the number of parts divides their number, or if no vertex has weight 1 and the total weight exceeds the number of parts by at least 1%: the call does in a debug build exactly what it does in a release build.", "quantifier": "all such inputs, options, seeds, engines and containers; total weight plus number of parts below 2^32", "why_tests_cant": "All graphs and all levels of the recursion with their random bisections; the assertions check intermediate states.", "anchors": ["src/Poros.cpp: POROS_PartGraphRecursive", "src/partition/RecursiveBisectionPartitioner.cpp: recurse", "src/graph/SubgraphExtractor.cpp: partitions", "src/partition/BFSBisector.cpp: execute"]}
{"id": "C101", "title": "Random bisection in debug builds", "statement": "On a valid graph with positive target fractions for the two sides no assertion of random bisection fails, and none of random bisection followed by refinement if moreover every vertex has edges of positive total weight: the result in a debug build is exactly the one of a release build. If a fraction is not positive, random bisection of a non-empty graph whose vertices are each within the limit of the left side stops at an assertion. In any case random bisection with refinement does what a release build does or stops.", "quantifier": "all valid graphs, two-way targets, random engines and containers", "why_tests_cant": "All graphs, targets and random orders; the assertions check intermediate states.", "anchors": ["src/partition/RandomBisector.cpp: execute", "src/partition/FMRefiner.cpp: refine", "src/partition/PartitioningAnalyzer.cpp: calcMaxImbalance"]}
{"id": "C102", "title": "Grid generator in debug builds", "statement": "In a debug build the grid generator stops at an assertion if a dimension is 0 and otherwise does, for all dimensions and weights, exactly what it does in a release build. In a release build a grid with two dimensions 0 is an empty graph, and one with exactly one dimension 0 is undefined behaviour (edge lists of about 2^32 uninitialised entries are read) unless the doubled product of the other two dimensions is a multiple of 2^32.", "quantifier": "all three 32-bit dimensions and all weight sequences", "why_tests_cant": "All dimensions, including those at which the 32-bit size computations wrap.", "anchors": ["src/graph/GridGraphGenerator.cpp: generate", "src/graph/GridGraphGenerator.cpp: Grid"]}
{"id": "C103", "title": "The cost of recursive bisection", "statement": "A run of recursive bisection into k parts (2 <= k <= 2^d) performs exactly k - 1 bisections; if bisecting a graph with n vertices and m directed edges costs at most a*n + b*m, the whole run costs at most d*(a*n + b*m), because the pieces on one level of the recursion are disjoint. For the library's partitioner: exactly k - 1 multilevel hierarchies are built, whose graphs have altogether at most 20*d times the edges of the input graph.", "quantifier": "all bisectors, cost measures, targets, valid graphs and random engines", "why_tests_cant": "Quantifies over all bisectors and cost measures, all graphs and numbers of parts; a test can only time some runs.", "anchors": ["src/partition/RecursiveBisectionPartitioner.cpp: recurse", "src/partition/RecursiveBisectionPartitioner.cpp: execute", "src/partition/MultilevelBisector.cpp: recurse"]}
{"id": "C104", "title": "Small graphs of any kind are safe", "statement": "A call for two parts of a graph with at most 20 vertices, or without edges, given in well-formed CSR arrays with a vertex weight array and edge weights adding up to less than 2^31 - 1, returns 1 with every label below 2, the cut being half the weight (modulo 2^32) of the listed edges between different labels, and the rest of the buffer unchanged - also if the graph is directed, has self loops or parallel edges, or its vertex weights add up to 2^32 or more. If they add up to a multiple of 2^32, every vertex gets label 1 and the cut is 0.", "quantifier": "all well-formed CSR arrays with at most 20 vertices or no edges, options with a known scheme, queues, sets and random engines", "why_tests_cant": "The graphs are outside what validity promises; all directed multigraphs, weights and random choices cannot be tried.", "anchors": ["src/Poros.cpp: POROS_PartGraphRecursive", "src/partition/BFSBisector.cpp: execute", "src/partition/MultiBisector.cpp: execute", "src/partition/MultilevelBisector.cpp: execute"]}
{"id": "C105", "title": "The unit of the edge weights does not matter (unless they are all 1)", "statement": "Multiplying every edge weight by the same positive number (with the totals still fitting) leaves every returned label unchanged and multiplies the returned cut by that number, provided the priority queue's choices depend on the order of its keys only and the choice of matching does not depend on the factor: random matching is selected, or two parts are asked for and some weight is not 1, or no weight is 1. Without the last proviso it is false: under the default scheme there is a valid graph whose answer changes, labels and quality, when all weights 1 become 2.", "quantifier": "all environments with an order-based priority queue, all valid graphs, factors, numbers of parts from 2, options with at least one cut, and seeds", "why_tests_cant": "A relation between two whole runs, over all graphs, factors, seeds and queue implementations; a test compares a few pairs.", "anchors": ["src/Poros.cpp: POROS_PartGraphRecursive", "src/aggregation/SHEMRMAggregator.cpp", "src/aggregation/HeavyEdgeMatchingAggregator.cpp", "src/partition/FMRefiner.cpp", "src/partition/BFSBisector.cpp", "src/partition/MultilevelBisector.cpp", "src/partition/RecursiveBisectionPartitioner.cpp"]}
{"id": "C106", "title": "Three or four parts of a graph without vertex weights", "statement": "A call on a valid graph of at least 60 vertices whose vertex weights are null or all 1 returns 1 for every scheme, seed, number of cuts, random engine, queue and set: for three parts if every set of at least 173/300 of the vertices contains both ends of an edge, for four parts if every set of at least 77/200 of them does. In particular it returns 1 for three parts of every grid graph of at least 60 vertices, of any dimensions, with null, unit or its own edge weights (so the repository's null-weight tests and three-part test do not depend on their seed as far as the return value goes).", "quantifier": "all valid graphs of at least 60 unweighted vertices with that density, in particular all grids; all options with a known scheme, seeds, engines and containers", "why_tests_cant": "The tests call it with one seed on one grid; a bad seed or graph makes the second bisection work on a side that cannot be coarsened, whose missing weight array is then read.", "anchors": ["src/Poros.cpp: POROS_PartGraphRecursive", "src/partition/RecursiveBisectionPartitioner.cpp", "src/partition/BFSBisector.cpp", "src/graph/SubgraphExtractor.cpp", "src/graph/GridGraphGenerator.cpp", "src/test/Poros_test.cpp"]}
{"id": "C107", "title": "Sizes of the sides on graphs with unit vertex weights", "statement": "For a graph of n vertices all of weight 1 and the uniform target of two parts with any tolerance >= 0, let M be the maximum weight of a part. Random bisection puts exactly min(M, ceil(n/2)) vertices on the left; breadth-first bisection exactly floor(n/2); repeated bisection has the same sizes as a single one; refinement never takes the larger side above max(M, its size before), and does not increase the cut of a bisection within the limits; random bisection with refinement keeps both sides at most max(M, ceil(n/2)). If n is even and the tolerance is 0, all of them return two sides of exactly n/2 vertices and the imbalance the library computes is exactly 0.", "quantifier": "all graphs with unit vertex weights, tolerances, random engines, queues, sets, iteration limits and numbers of repetitions; binary64 doubles", "why_tests_cant": "The tests check one grid per bisector with one seed; rounding of the two compared imbalances decides where filling stops, for each of the 2^32 possible sizes.", "anchors": ["src/partition/RandomBisector.cpp: execute, fillLeft", "src/partition/BFSBisector.cpp: execute", "src/partition/MultiBisector.cpp: execute", "src/partition/RandomFMBisector.cpp: execute", "src/partition/FMRefiner.cpp: refine", "src/partition/PartitioningAnalyzer.cpp: calcMaxImbalance", "src/partition/test/BFSBisector_test.cpp", "src/partition/test/RandomBisector_test.cpp"]}
{"id": "C108", "title": "Refinement does not restore balance at the price of the cut", "statement": "If a bisection of a graph with unit vertex weights has exactly one vertex too many on one side and no bisection with sides that large has a smaller cut, refinement returns it unchanged, beyond the limit, although moving any single vertex of the larger side would bring it within the limits. On complete graphs this happens to every bisection with one vertex too many.", "quantifier": "all such graphs and bisections, uniform targets of any tolerance, iteration and move limits, queues and sets; binary64 doubles", "why_tests_cant": "A test would have to hit a bisection that is one vertex over the limit and minimal for the cut, for every order of moves.", "anchors": ["src/partition/FMRefiner.cpp: refine (lines 235-237)", "src/partition/TwoWayRefinerFactory.cpp"]}
{"id": "C109", "title": "Recursive bisection of unit-weight graphs into exactly equal parts", "statement": "For a graph whose vertices all weigh 1, a uniform target of k >= 2 parts with any tolerance >= 0, and a number of vertices that is exactly k times the target weight of a part (for k <= 48 this is every multiple of k), recursive bisection with the breadth-first bisector or the random bisector, run once or any positive number of times per split, returns, and every one of the k parts has exactly n/k vertices, and the weights it stores say so. With limits equal to the targets (tolerance zero) the same holds of recursive bisection with refined random bisection. The weights have to fit: the limits of the larger half add up to less than 2^32 - 1 for breadth-first and less than 2^31 for random bisection.", "quantifier": "all graphs with unit vertex weights, numbers of parts, tolerances, random engines, queues, sets, iteration limits and numbers of repetitions; binary64 doubles", "why_tests_cant": "The test of the partitioner uses one grid, eight numbers of parts and one seed; whether a part gets one vertex too many depends on comparing two rounded imbalances at every vertex of every split.", "anchors": ["src/partition/RecursiveBisectionPartitioner.cpp: execute, recurse", "src/partition/RandomBisector.cpp: execute", "src/partition/BFSBisector.cpp: execute", "src/partition/MultiBisector.cpp: execute", "src/partition/RandomFMBisector.cpp: execute", "src/partition/TargetPartitioning.cpp", "src/partition/PartitioningAnalyzer.cpp: calcMaxImbalance", "src/partition/test/RecursiveBisectionPartitioner_test.cpp"]}
{"id": "C110", "title": "Calls keep what their grown candidates achieve", "statement": "In every run of a successful call for two parts the coarsest graph is bisected eight times by growing from random seeds. Whichever of the eight candidates is within the limits of the call (51.5 per cent of the total weight for each part, truncated), the labels of that run are within the limits too and their cut is at most the cut of the candidate; and the cut the call reports is at most the cut of every candidate within the limits of every run. For 2^d parts (total weight at least 1.01 times the number of parts) the same holds of every bisection of every run, with the limits of that bisection.", "quantifier": "all valid graphs, weights (also all zero), option values, random engines, queues, sets and runs of the call; binary64 doubles", "why_tests_cant": "The claim compares the answer with intermediate bisections that no interface shows, over choices among candidates, levels and refinement passes that depend on rounded imbalances; a test sees one seed and only the answer.", "anchors": ["src/Poros.cpp: POROS_PartGraphRecursive", "src/partition/MultiBisector.cpp: execute", "src/partition/MultilevelBisector.cpp: execute, recurse", "src/partition/FMRefiner.cpp: refine", "src/partition/BFSBisector.cpp: execute", "src/partition/RecursiveBisectionPartitioner.cpp: execute", "src/partition/PartitioningAnalyzer.cpp: calcMaxImbalance"]}
{"id": "C111", "title": "Measuring and printing times does not change the answer", "statement": "Whatever the clock shows, even if it runs backwards, a call with its timers leaves the caller's memory exactly as it would without any timer, returns the same value and otherwise ends in the same way (no report of a time ever raises an exception). A call prints nothing unless outputTimes is set; then, when it returns 1, it prints the eight names Total, Coarsening, Aggregation, Contraction, Initial Partitioning, Uncoarsening, Refinement, Projection in this order, one time each.", "quantifier": "all inputs (valid or not), options, contents of the caller's memory, clocks, random engines, queues, sets and number formats", "why_tests_cant": "A test observes one clock and one input; the claim is that no sequence of clock readings can influence labels, cut, return value or outcome on any input.", "anchors": ["src/Poros.cpp: POROS_PartGraphRecursive", "src/partition/MultilevelBisector.cpp: execute, recurse", "src/util/TimeKeeper.cpp: reportTime, times", "src/util/TimedProcess.cpp: reportTime", "src/aggregation/TimedAggregator.cpp: aggregate", "src/partition/TimedBisector.cpp: execute", "src/partition/TimedTwoWayRefiner.cpp: refine", "include/poros.h: outputTimes"]}
{"id": "C112", "title": "The printed times measure what their names say", "statement": "If a call for k parts (2 <= k < 2^32) with n cuts returns 1 after being asked for times and the clock never runs backwards, the printed seconds are sums of measured stretches of time, category by category: one stretch for the total, and inside it, one after the other, the stretches of exactly (k-1)*n bisections. Each bisection is either one initial partitioning, or an aggregation followed by a contraction within one coarsening, then the same for the next level, then a projection followed by a refinement within one uncoarsening. So in clock ticks aggregation and contraction together take at most the coarsening time, projection and refinement at most the uncoarsening time, and coarsening, initial partitioning and uncoarsening together at most the total; nothing is counted twice.", "quantifier": "all inputs with 2 <= k < 2^32, all options, clocks that never run backwards, random engines, queues, sets and number formats", "why_tests_cant": "Times differ from run to run, so a test can only look at a few; that stretches are nested, never overlap and are all reported holds for every number of levels, bisections and cuts.", "anchors": ["src/Poros.cpp: POROS_PartGraphRecursive", "src/partition/MultilevelBisector.cpp: execute, recurse", "src/util/TimeKeeper.cpp: reportTime, times", "src/util/TimedProcess.cpp: reportTime", "src/aggregation/TimedAggregator.cpp: aggregate", "src/partition/TimedBisector.cpp: execute", "src/partition/TimedTwoWayRefiner.cpp: refine", "include/poros.h: outputTimes", "src/partition/RecursiveBisectionPartitioner.cpp: execute, recurse"]}
{"id": "C113", "title": "A printed part is never more than the printed whole", "statement": "In binary64 arithmetic, where every report is added with rounding, a call (2 <= k < 2^32 parts) that prints times prints an aggregation time and a contraction time that are each at most the coarsening time, and a refinement time and a projection time that are each at most the uncoarsening time, provided the clock never runs backwards and its conversion to seconds is not negative and does not turn longer stretches into fewer seconds.", "quantifier": "all inputs with 2 <= k < 2^32, all options, all such clocks and conversions, random engines, queues and sets; binary64 doubles", "why_tests_cant": "Rounding errors accumulate over thousands of reports in an order that depends on the run; that they never invert the order of part and whole is a statement about all sequences of measurements.", "anchors": ["src/Poros.cpp: POROS_PartGraphRecursive", "src/partition/MultilevelBisector.cpp: execute, recurse", "src/util/TimeKeeper.cpp: reportTime, times", "src/util/TimedProcess.cpp: reportTime", "src/aggregation/TimedAggregator.cpp: aggregate", "src/partition/TimedBisector.cpp: execute", "src/partition/TimedTwoWayRefiner.cpp: refine", "include/poros.h: outputTimes"]}
{"id": "C114", "title": "Directed graphs of any size are safe for two parts", "statement": "A call for two parts of a graph without self loops in which edges need not be listed at both ends, or may be listed with different weights at the two ends, returns 1 with every label below 2, the cut being half the weight of the listed edges between different labels, and the rest of the buffer unchanged - for any number of vertices, provided the vertex weights add up to less than 2^32, the listed edge weights to less than 2^30, and a vertex weight array is given or the graph has more than 20 vertices and an edge.", "quantifier": "all well-formed CSR arrays without self loops within these sums, symmetric or not; options with a known scheme, queues, sets and random engines", "why_tests_cant": "The refinement's gains are then no longer the true gains and drift with every move; that the drift stays bounded over every sequence of moves, passes and levels, so that no index, queue or 32-bit difference goes wrong, cannot be tried out.", "anchors": ["src/Poros.cpp: POROS_PartGraphRecursive", "src/partition/FMRefiner.cpp: refine", "src/partition/TwoWayConnectivity.cpp: fromPartitioning, move, updateNeighbor", "src/partition/MultilevelBisector.cpp: execute, recurse", "src/partition/MultilevelBisector.cpp: recurse"]}
{"id": "C115", "title": "No call hangs or throws, whatever the graph", "statement": "A call with well-formed CSR arrays, a known aggregation scheme and two or more parts never runs forever and never raises an exception, even if edges are listed at one end only, there are self loops or parallel edges, or the weights add up to more than 32 bits hold: it either returns 1, with labels below the number of parts, the cut of the listed edges and an otherwise unchanged buffer, or runs into undefined behaviour. The refinement comes to an end from every state of its arguments, consistent or not, and the multilevel bisector for every graph.", "quantifier": "all well-formed CSR arrays, numbers of parts from 2 below 2^32, options with a known scheme, queues, sets and random engines", "why_tests_cant": "Termination on malformed graphs concerns every sequence of moves, coarsening levels and splits; a test that returns says nothing about the next input, and one that does not return cannot tell slow from endless.", "anchors": ["src/Poros.cpp: POROS_PartGraphRecursive", "src/partition/FMRefiner.cpp: refine", "src/partition/BFSBisector.cpp: bfsPriorityMove", "src/partition/MultilevelBisector.cpp: recurse", "src/partition/RecursiveBisectionPartitioner.cpp: recurse", "src/graph/OneStepGraphBuilder.hpp: addEdge"]}
{"id": "C116", "title": "Directed graphs: balanced parts, and safe calls for up to eight parts", "statement": "On a graph without self loops in which edges need not be listed at both ends, or may be listed with different weights at the two ends, the promises about weights are the same as on undirected graphs. Neither part of a successful call for two parts is heavier than 48.5 per cent of the total weight W plus the larger of 7.5 per cent of W and the heaviest vertex, plus 2; no part of a successful call for k = 2^d parts is heavier than W/k + 1.08^d (0.17 W + k), and for k <= 2^d parts than W/k + 1.16^d (0.37 W + k), if W is at least 34 k and no vertex weighs more than 7.5 per cent of W/k; none of two to four parts is empty if W is at least 1000 and no vertex weighs more than W/20. And a call for two to eight parts returns 1 if, besides, vertex weights are given and none of them is 1.", "quantifier": "all well-formed CSR arrays without self loops, symmetric or not, with vertex weights adding up to less than 2^32 and listed edge weights to less than 2^30; all options, queues, sets and random engines; any number of parts", "why_tests_cant": "Refinement works with wrong gains on such graphs, so nothing is known about which moves it makes; that no sequence of moves, whatever its gains, can unbalance the parts or empty a side at any node of the recursion is a statement about all runs.", "anchors": ["src/Poros.cpp: POROS_PartGraphRecursive", "src/partition/RecursiveBisectionPartitioner.cpp: execute, recurse", "src/partition/FMRefiner.cpp: refine", "src/partition/BFSBisector.cpp: execute", "src/aggregation/RandomMatchingAggregator.cpp: aggregate", "src/partition/MultilevelBisector.cpp: execute, recurse"]}
{"id": "C117", "title": "Calls for up to sixteen parts are safe; two, four or eight parts are never close to empty", "statement": "A call for k = 2 to 16 parts returns 1 if vertex weights are given, none of them is 1, their sum W is at least 50 k and below 2^32 - 1, and no vertex weighs more than half of W/k: whatever the graph (undirected, or directed without self loops), scheme, seed and number of cuts. And every part of a successful call for two, four or eight parts weighs at least a fifth of W/k and at most 2.8 times W/k, if W is at least 50 k and no vertex weighs more than half of W/k.", "quantifier": "all valid graphs, and all well-formed CSR arrays without self loops, with weights as stated; all options, queues, sets and random engines; two to sixteen parts, or two, four or eight", "why_tests_cant": "The targets of a bisection below the top are absolute weights, not shares of what the side got, so what one bisection leaves too light the next makes lighter still, and an empty side makes the next call undefined; that this cannot happen within four levels holds for every graph and every run or for none.", "anchors": ["src/Poros.cpp: POROS_PartGraphRecursive", "src/partition/RecursiveBisectionPartitioner.cpp: execute, recurse", "src/partition/FMRefiner.cpp: refine", "src/partition/BFSBisector.cpp: execute", "src/partition/TargetPartitioning.cpp: TargetPartitioning", "src/partition/MultilevelBisector.cpp: execute, recurse"]}
{"id": "C118", "title": "More cuts never give a worse answer", "statement": "If a call with c' global cuts returns 1, then the same call (same graph, options, seed, initial output arrays) with any number c of cuts, 0 < c <= c', returns 1 too, and either both report the same cut and write the same labels, or the call with more cuts reports a smaller cut.", "quantifier": "all input arrays, valid or not; all options, numbers of cuts, seeds, queues, sets, random engines and arithmetic", "why_tests_cant": "That c + n runs begin with the very runs that c cuts make, and that what a later run overwrites is only ever improved, is a relation between two calls for every graph, seed and pair of numbers of cuts.", "anchors": ["src/Poros.cpp: POROS_PartGraphRecursive"]}
{"id": "C119", "title": "Aggregation is at least half as good as the best matching; leaves go before heavy edges", "statement": "On a valid loop-free graph whose vertex weights do not overflow pairwise, both aggregation schemes save at least half as many vertices as any set of disjoint, light enough edges would, so a graph that can be paired up shrinks to at most three quarters. The heavy-edge scheme on a weighted graph joins every vertex of degree two or more that has a light enough neighbour of degree one with a vertex of degree one, so an edge between two such vertices is not contracted however heavy it is.", "quantifier": "all valid loop-free graphs; every set of disjoint edges of them; all schemes, weight limits, random engines and their states", "why_tests_cant": "A comparison with every matching of every graph; a test compares with one.", "anchors": ["src/aggregation/RandomMatchingAggregator.cpp: aggregate", "src/aggregation/HeavyEdgeMatchingAggregator.cpp: aggregate", "src/aggregation/SHEMRMAggregator.cpp: aggregate", "src/aggregation/MatchedAggregationBuilder.cpp: build", "src/graph/DegreeSortedVertexSet.cpp: ascendingRandom"]}
{"id": "C120", "title": "What a reported cut says: zero cuts nothing, and each further part costs an edge", "statement": "After a successful call on a valid graph the reported cut is zero exactly if no edge of positive weight joins vertices with different labels; and if the graph is connected and every edge weighs at least w, the reported cut is at least w times (number of labels in use - 1). So a connected graph with total weight at least 1000 and no vertex above a twentieth of it is never reported with a cut below k - 1 for k = 2, 3 or 4 parts, and one with total weight at least 400 and no vertex above a sixteenth of it never with a cut below 7 for 8 parts.", "quantifier": "all valid inputs, connected where stated; all options with at least one cut, random engines, queues and sets; the last sentence over IEEE binary64", "why_tests_cant": "It excludes, for every graph, a reported cut that is too small to be true, which a test can only do for graphs whose best cut is known.", "anchors": ["src/Poros.cpp: POROS_PartGraphRecursive", "src/partition/Partitioning.cpp: recalcCutEdgeWeight, output"]}
{"id": "C121", "title": "Refinement ends where no single move is better", "statement": "Refining a bisection within the limits of a target (whose limits match its fractions, as those of two equal parts do) ends with a bisection within the limits for which either no move of a single vertex lowers the cut, or some vertex that lowers it the most would not fit on the other side; the only exception is a refinement that lowered the cut in every one of its allowed passes, so by at least their number. If every vertex fits on the other side the result is a local optimum.", "quantifier": "all valid graphs, bisections within the limits, targets of two parts, iteration limits, positive move limits, queues and sets", "why_tests_cant": "Local optimality is a statement about every vertex after every possible refinement; a test checks the cut of a few results.", "anchors": ["src/partition/FMRefiner.cpp: refine", "src/partition/TwoWayConnectivity.hpp: getVertexDelta"]}
{"id": "C122", "title": "What a call for two parts of a larger graph returns is not improved by a single move; small graphs are never refined", "statement": "In every run of a successful call for two parts of a graph with more than twenty vertices and at least one edge, if any of the eight candidates grown for the run's coarsest graph is within the limits then the run's labels are within the limits, and no move of a single vertex lowers the cut (or a move that lowers it the most would make a part too heavy) — unless the run's cut is smaller than the candidate's by eight or more. The same holds of the labels and the cut the call writes, and of every bisection inside a call for 2^d parts. For graphs of at most twenty vertices it fails: nothing is refined, and a call can leave a vertex on a side although moving it would lower the cut and respect the limits.", "quantifier": "all valid inputs, options with a positive number of cuts, random engines, queues and sets, over binary64", "why_tests_cant": "Local optimality of the answer concerns every vertex, run and random choice; tests compare the cut of a few answers with a bound.", "anchors": ["src/partition/MultilevelBisector.cpp: recurse, execute", "src/partition/FMRefiner.cpp: refine", "src/Poros.cpp: POROS_PartGraphRecursive"]}
{"id": "C123", "title": "Growing a side of a connected graph keeps it connected; the other side and heavy vertices give no such guarantee", "statement": "Breadth-first bisection of a connected graph in which every vertex fits on the left side while that is below its target, and the right side fits once the left has its target, gives a left side that is connected (in particular for vertices of weight 1 and two equal parts, where it has half of the vertices rounded down). So a call on a connected graph of at most twenty vertices of weight 1, a multiple of the number of parts, succeeds and returns a part 0 that is connected, for any number of parts, random engine and containers. Part 1 need not be connected even if a division into two connected parts of the same cut exists, and part 0 need not be if some vertex is too heavy to be taken.", "quantifier": "all valid connected graphs and targets with the stated room, all random engines, queues and sets; the call over binary64", "why_tests_cant": "Connectivity of a side concerns all paths between all of its vertices, for every graph, seed and choice among equally tied vertices.", "anchors": ["src/partition/BFSBisector.cpp: execute, bfsPriorityMove", "src/partition/RecursiveBisectionPartitioner.cpp: recurse", "src/Poros.cpp: POROS_PartGraphRecursive"]}
{"id": "C124", "title": "Where every vertex fits on the other side, refinement leaves each vertex at least half of its edge weight inside and cuts at most half of the edges", "statement": "Refining a bisection within the limits of a target, if it lowers the cut by less than the number of its passes and ends where every vertex would fit on the other side, leaves each vertex with at least as much edge weight inside its part as across the cut, and the cut is at most half of the weight of all edges. The same holds of the labels and the cut written by a call for two parts of a graph with more than twenty vertices and an edge, if one of the eight candidates of the coarsest graph is within the limits and has a cut less than eight above the one written, and every vertex would fit on the other side.", "quantifier": "all valid graphs, bisections within the limits, targets of two parts, queues and sets; for calls all valid inputs, options with a positive number of cuts and random engines, over binary64", "why_tests_cant": "The bound concerns every graph and every order of moves; no sample of graphs shows it.", "anchors": ["src/partition/FMRefiner.cpp: refine, move", "src/partition/MultilevelBisector.cpp: recurse", "src/Poros.cpp: POROS_PartGraphRecursive"]}
{"id": "C125", "title": "Connected components of equal weight are never split when their number is a multiple of the number of parts", "statement": "If the caller's graph consists of connected components of equal positive weight, j times as many as there are parts, without vertices of weight zero and without listed edges between components, every call with known options, a positive number of cuts and room for the labels returns 1, writes the cut 0, gives all vertices of a component the same label and every part exactly the weight of j components, however large the graph is and whether or not it is coarsened and refined. With as many components as parts, two vertices get the same label exactly if they are in the same component. Components whose weights differ a little may be cut, even if the split along them is within the limits.", "quantifier": "all valid inputs with 2 to 48 parts and any multiple of that number of components of equal weight, of any size, options with a positive number of cuts, priority queues, sets and random engines, over binary64", "why_tests_cant": "The claim is about graphs of every size and every random engine: it needs that growth never leaves a component half taken, that matching never crosses components and that refinement never accepts a move away from a perfect split.", "anchors": ["src/partition/BFSBisector.cpp: execute", "src/partition/MultilevelBisector.cpp: recurse", "src/partition/FMRefiner.cpp: refine", "src/partition/RecursiveBisectionPartitioner.cpp: recurse", "src/Poros.cpp: POROS_PartGraphRecursive"]}
{"id": "C126", "title": "On small graphs, groups that are tied more strongly inside than outside are found", "statement": "If the vertices of a valid input of at most 20 vertices fall into groups of equal weight, j times as many as there are parts, each connected along edges of at least some weight while the edges from any single vertex to all other groups together weigh less than that, and no vertex has weight zero, then every call with known options, a positive number of cuts and room for the labels returns 1, splits no group, gives every part exactly the weight of j groups, and writes a cut of at most the weight of the edges between groups. With as many groups as parts, the parts are the groups and the cut is the weight of the edges between them. Larger graphs give no such guarantee: random matching may join vertices of different groups.", "quantifier": "all valid inputs of at most 20 vertices with such groups, any number of parts from 2 on, options with a positive number of cuts, priority queues, sets and random engines, over binary64", "why_tests_cant": "The claim is about every graph of this kind, every weight and every random engine: wherever growth starts, it must finish a group before it touches another one.", "anchors": ["src/partition/BFSBisector.cpp: execute, bfsPriorityMove", "src/partition/MultiBisector.cpp: execute", "src/partition/RecursiveBisectionPartitioner.cpp: recurse", "src/graph/SubgraphExtractor.cpp: partitions", "src/Poros.cpp: POROS_PartGraphRecursive"]}
{"id": "C127", "title": "Any number of parts whose reciprocal survives a round trip in doubles gives exact parts", "statement": "The bound of 48 parts on exactly even results is only one instance of an arithmetic condition on the number of parts k alone: that 1.0 / k * k is 1 in doubles, as it is for every k up to 48 and every power of two, but not for 49, 98, 103, 107 and 161. Whenever it holds, a valid input of unit-weight vertices (a positive multiple of k of them, at most 20 or without edges), or one of connected components of equal weight (a positive multiple of k of them, any size), is divided into parts of exactly equal weight, without cutting a component. Whenever it fails, already the call on k vertices without weights and edges is undefined behaviour: every target weight is truncated to 0. So for those inputs success is equivalent to the condition.", "quantifier": "all valid inputs of these kinds, all numbers of parts from 2 on, options with a positive number of cuts, priority queues, sets and random engines, over binary64", "why_tests_cant": "The claim is about every number of parts and every multiple of it; tests would have to try each number of parts, and a failure is undefined behaviour rather than a wrong answer.", "anchors": ["src/partition/TargetPartitioning.cpp: constructor", "src/partition/TargetPartitioning.hpp", "src/partition/RecursiveBisectionPartitioner.cpp: recurse", "src/Poros.cpp: POROS_PartGraphRecursive"]}
{"id": "C128", "title": "The cut of two equal parts of a small connected graph is bounded by its degrees; rings are cut optimally", "statement": "For every valid input whose graph is connected and has an even number 2c of vertices, at most 20, all of weight 1, a call for two parts with known options and a positive number of cuts returns 1 with two parts of c vertices. If every edge weighs at least w and the edges at every vertex weigh at most D together, the written cut is at most c*D - 2*(c-1)*w, and at most the weight of all edges less (c-1)*w; the latter holds for any number of parts with c vertices each. So a tree of unit edges is cut at most c times, and a ring (connected, with edges of weight 2 together at every vertex) exactly twice, which no division into two non-empty parts betters. The bound with D also holds for breadth-first bisection itself on connected graphs of any size, with c half of the number of vertices rounded down.", "quantifier": "all valid inputs of that kind, all weight bounds, options with a positive number of cuts, priority queues, sets and random engines, over binary64", "why_tests_cant": "The claim bounds the answer on every connected graph of such a size and every random choice; it rests on the connectivity of the part that is grown, which no sample of graphs shows.", "anchors": ["src/partition/BFSBisector.cpp: execute, bfsPriorityMove", "src/partition/MultiBisector.cpp: execute", "src/partition/RecursiveBisectionPartitioner.cpp: recurse", "src/Poros.cpp: POROS_PartGraphRecursive"]}
{"id": "C129", "title": "The balance limit in whole numbers", "statement": "A call for k parts of a graph of total vertex weight W aims at floor(W/k) for every part and allows floor(1.03 W/k), computed in doubles; each of the two may come out one too small, but only when there is no fraction to cut off. For 1, 2, 4, 8, ... parts neither is ever too small. For two parts the limit is therefore floor(103 W/200), and two parts within the limit have room for the whole graph exactly when W is even or at least 34. For seven parts and W = 700 the limit is 102, not 103. For graphs of more than twenty vertices with edges, the parts written by a call for two parts weigh at most 51.5 percent of W each, if one of the bisections grown for the coarsest graph of the run does.", "quantifier": "all k and total weights below 2^32; all valid inputs, options with a positive number of cuts, priority queues, sets and random engines, over binary64", "why_tests_cant": "Whether a product of doubles lands on or just below a whole number has to be settled for each of 2^64 pairs of k and W.", "anchors": ["src/partition/TargetPartitioning.cpp: calcTargetWeight, calcMaxWeight", "src/partition/PartitionParameters.cpp", "src/Poros.cpp: POROS_PartGraphRecursive"]}
{"id": "C130", "title": "The limits of each split, in whole numbers", "statement": "In a successful call for 2^d parts of a graph of total weight W, with a = floor(W/2^d) and b = floor(1.03 W/2^d), every bisection of every run, if it splits 2^e parts, aims at 2^(e-1) a for each side and allows each side 2^(e-1) (a + floor((b-a)/e)): the room above the target is divided by e and cut off for every part. The two sides of the first bisection together have room for the whole graph if and only if 2^d divides W or b - a >= d; otherwise no bisection of the graph is within the limits, whatever the graph.", "quantifier": "all valid inputs, all d from 1 to 31, options with a positive number of cuts, priority queues, sets and random engines, over binary64", "why_tests_cant": "The limits come from a loop of doubles over up to 2^30 parts that cuts off the fraction in each step, at every node of a recursion over all inputs.", "anchors": ["src/partition/RecursiveBisectionPartitioner.cpp: execute", "src/partition/TargetPartitioning.cpp", "src/Poros.cpp: POROS_PartGraphRecursive"]}
