# Formal model of poros in Lean 4 — design

## 1. Shape of the model
* `Verif/Base.lean` — outcome monad `Res` (`ok`, `ub` = undefined behaviour, `exn` = C++ exception,
  `diverge` = a loop or recursion ran out of fuel), checked array reads and writes (`rd`, `wr`, out of
  bounds is `ub`), memory with uninitialised cells (`Mem`, reading one is `ub`), 32-bit unsigned
  arithmetic on `Nat` (`uadd`, `usub`, wrap modulo 2^32), conversions from and to `int32_t` (`toI32`,
  `ofI32`), signed subtraction with overflow = `ub` (`isub`).
* `Verif/Ext.lean` — everything that lives outside this repository (the empty submodule `solidutils`,
  the C++ library, IEEE doubles), as *parameters*: structures with operations and laws. Every theorem
  holds for every implementation satisfying the laws, hence for every tie-breaking, every iteration
  order, every random sequence. `double` has operations only; a theorem that needs laws of doubles
  names them as hypotheses (`SpecFP.lean`), and they are proved for binary64 (`Concrete.lean`,
  `Proofs/F64*.lean`).
* `Verif/Model/*.lean` — the code, function by function, each definition citing file and lines.
* `Verif/Spec*.lean` — short independent specifications: what a weighted graph is (`Spec.lean`), cut,
  part weight, being the induced subgraph, being a maximal matching, validity of a caller's input, ...
  They mention model data types (the fields of a graph or a partitioning) but none of the algorithms.
* `Verif/Proofs/*.lean` — lemmas. `Verif/Props/*.lean` — the property theorems, each with an example
  showing that a concrete, non-trivial case meets its hypotheses.
* `Verif/Concrete.lean` — one concrete environment (lists as containers, identity "random" engine,
  binary64 with round-to-nearest-even). It is only used for examples, for refutations by evaluation in
  the kernel, and to show that the floating point hypotheses hold of binary64.
* `Verif/RepoTests.lean` — validation of the model: the repository's unit tests whose assertions do not depend on
  the external random engine, transcribed one by one and evaluated on the model. No theorem rests on them.

Loops are `List.foldlM`; `while` loops and recursion carry fuel and return `diverge` when it runs out.
That the fuel given by the model is always enough is itself proved (C28, C34, C36, C38, C61), so
`diverge` never hides anything.

Two builds are modelled. The release build (`NDEBUG`: the `ASSERT_*` macros and `DEBUG_MESSAGE` vanish) is the
one all properties without mention of assertions are about. The debug build (`Model/Debug*.lean`, functions
ending in `D`) repeats the release functions with their assertions; a failed assertion is the outcome `exn`.
Assertions about an index that the same function then uses are left to the access itself (`ub`).

## 2. Trusted base
* Lean's kernel, and the axioms `propext`, `Classical.choice`, `Quot.sound` (standard; `#print axioms`
  on every theorem named in MANIFEST.json shows no others). No axiom is added; no compiled evaluation.
* The reading of the C++ source embodied in `Verif/Model`.
* The assumptions on external code in `Ext.lean`:
  * `sl::FixedPriorityQueue`: a finite map value -> int32 key; `peek`/`pop`/`max` refer to an entry with
    a maximal key; adding a present value, removing/updating an absent one, popping an empty queue or
    using a value beyond the capacity is treated as undefined behaviour.
  * `sl::FixedSet`: a finite set with arbitrary iteration order; same conventions.
  * `sl::Array`/`sl::ConstArray`/`std::vector`: plain arrays, unchecked access; `Array(n)` is
    uninitialised, `Array(n, x)` is filled.
  * `sl::VectorMath::prefixSumExclusive`, `increment`: exclusive prefix sum, identity fill.
  * `sl::Random`, `sl::Sort`, `sl::FastIntDistribution`: permutations, sorted permutations, numbers in
    the closed range; anything else about them (distribution, determinism between builds) is open.
  * `double`: IEEE binary64, used only through the hypotheses of `SpecFP.lean`. `Concrete.F64` contains
    all rationals (not only representable ones) and rounds after every operation. The theorems over binary64
    hold for every `log2` (`Concrete.Log2Impl`) that is exact on powers of two below 2^32 and otherwise between the
    neighbouring exponents; the instance used in evaluated examples rounds down. Signed zeros are not distinguished.
    That `Concrete.rnd` is IEEE 754 rounding is not taken on trust: `Concrete.rnd_ieee` (`Proofs/F64Ieee.lean`) proves
    against `SpecIeee.lean` (53-bit significands, exponents -1074 to 971) that it yields a nearest double, the even one
    on ties, and an infinity of the right sign exactly from 2^1024 - 2^970 on; `Concrete.fp_rounds` that the
    operations, literals, comparisons and the conversion to `uint32_t` are the exact ones, rounded.
* C++ undefined behaviour is a single outcome `ub` that absorbs what follows. What memory holds after it
  is not described.

### Modelled

`Poros.cpp`, `PorosParameters.cpp`, `PartitionParameters.cpp`, all of
`src/aggregation` (including the factories' choices and timed wrappers), all of `src/graph`,
all of `src/multilevel`, all of `src/partition`, `util/VisitTracker`, `util/TimeKeeper`,
`util/TimedProcess`, `util/VertexQueue` (over the external queue).

### Not modelled

The clock (`sl::Timer`; the theorems on times, C111–C113, hold for every sequence of clock readings, and
all timers, time reports and printed times are modelled in `Model/Timed.lean`; the other theorems use the
model without them, which C111 justifies), the text of messages and the formatting of printed numbers, `DEBUG_MESSAGE`, object lifetime, moves and reference counting
(`GraphHandle`, `std::unique_ptr`; a moved-from object is never read on the modelled paths), allocation
failure, sizes of C++ allocations above the 32-bit index range (`n + 1` array sizes are assumed not to
wrap), concurrent callers (there is no shared mutable state across calls: the engine and all objects are
created per call), and the test programs.

## 3. Properties: what is modelled and how it is proved

| property | model and method | outcome |
|---|---|---|
| C01 | constructor of `Graph`; fold lemma for wrapped sums | proved |
| C02–C06 | `OneStepGraphBuilder` with hash table and self-loop slot, `SummationContractor`; invariant per vertex, sums over groups | proved, total (no UB) for every symmetric graph and aggregation |
| C07 | `TwoStepGraphBuilder`; invariant: filled prefix per vertex = insertions so far, any interleaving | proved |
| C08–C10 | `SubgraphExtractor::partitions` refined to the induced-subgraph specification | proved, total |
| C11 | fold invariant with frame | proved |
| C12 | counting sort invariant | proved |
| C13–C18, C51 | invariant on the match array (involution without fixpoints) over call histories and visiting orders | proved; C15 needs pair weights below 2^32-1 (shown necessary) |
| C19–C22 | all histories of operations, invariant `weights = sums`; symmetric double sum is even | proved |
| C23–C25, C68 | sums over adjacency; invariant for incremental updates | proved |
| C26–C29 | FM state invariant through forward moves and undo; fuel bound = number of vertices | proved; C27 `never_worse` needs a consistent target (shown necessary); over binary64 the uniform target of two parts is consistent (error bound of the computed imbalance against a gap of 1/n) |
| C30 | uses C06 and the border invariant | proved |
| C31, C32, C55 | loop invariants on the bisectors | proved |
| C33 | induction over candidates | proved |
| C34, C35, C56 | induction on fuel; the edge count decreases | proved, under `n/n > 0.95` in doubles (proved for binary64) |
| C36, C37, C58, C59 | induction on k over any bisector satisfying a contract; tree of bisections `RBTree` | proved |
| C38–C40, C54, C60, C61 | end-to-end composition | proved |
| C41–C43, C53, C57, C62–C65, C67 | documented or expected behaviour that the code does not have: the refutation is proved, for all inputs of a class | refuted (theorem states the actual behaviour) |
| C44–C46, C52, C64–C66 | direct induction over ranges, histories, lists | proved |
| C47 | three nested loops; invariant on the written prefix | proved for grids within 32 bits |
| C48, C49, C63 | target weights and balance analysis over abstract doubles with order laws; binary64 instances | proved |
| C50 | case analysis | proved |
| C69 | the debug-only `Graph::isValid` (Model/GraphValid.lean) against the definition of a valid graph | proved (and: parallel edges of different weight are rejected) |
| C70 | FM refinement refines the FM procedure of SpecFM.lean: relation between states, induction over moves | proved |
| C71 | aggregation refines greedy matching (SpecMatch.lean): relation between match array and matching, induction over the visiting order; the specification is deterministic | proved |
| C72, C73 | multilevel bisection refines the multilevel scheme (SpecML.lean), induction on fuel; resource bounds by induction over runs | proved |
| C74 | the initial bisectors refine growing and filling (SpecInit.lean): loop invariants | proved |
| C75, C77 | a whole call refines the procedure of SpecRun.lean: the runs of C36, C39, C72, C74 composed, the random engine threaded through | proved |
| C76 | all histories of operations, the assignment tracked as a function; the stored cut computed by `historyCut` | proved |
| C78 | growing leaves a first part within its limits and a vertex; coarsening keeps weights and bounds the heaviest vertex; refinement keeps the greater imbalance, with rounding errors bounded | proved |
| C79 | every bisection in a recorded run was of a graph with a vertex; induction over the recursion tree | proved |
| C80, C81 | bounds on the loads of both sides of every bisection (growing, coarsening, refinement, rounding of limits and fractions); an invariant of the recursion (`SafeNode`) that no side with several parts is empty or of unit weight | proved |
| C82, C83 | function by function, erasing the weight array of a graph flagged with unit weights changes nothing (edges), or nothing except the fallback of BFS bisection, which becomes undefined (vertices); lifted through multilevel and recursive bisection to the call | proved |
| C84 | simulation of the loop over cuts on two output buffers; the graph constructor reads a prefix of the arrays | proved |
| C85 | the load bound of one bisection (as for C80) in terms of the larger of weight and room, a potential that shrinks along the recursion tree, induction on the depth | proved |
| C86, C88 | induction over the history of setters | proved |
| C87 | the 32-bit loop of C44 and the weights of C19 | proved |
| C89 | growing in a unit-weight graph reaches the target weight exactly, so the balancing fallback runs iff target plus limit do not cover the graph; coarser graphs always have a weight array | proved |
| C90 | the same, by induction over the recursive bisection; rounding lemma: an even share of a multiple is exact for up to 48 parts | proved |
| C91 | progress invariant that bounds the counters by the wrapped array sizes; some vertex in the middle of the grid reads a weight beyond the wrapped array | proved |
| C92 | invariant of the matching loop: the vertex is unmatched or matched with itself and no other vertex is matched with it; a vertex matched with itself gets no coarse number, so the coarse map is read uninitialised; generalises C53 | proved |
| C93 | the final partitioning is built from labels (whose weights are added up label by label, so a label out of range would be out of bounds) and its cut recalculated; label memory keeps its length through the recursion | proved |
| C94 | all targets and limits truncate to 0, so the fractions are not numbers and every imbalance compares as 0: growing never starts, the fallback compares infinity with infinity, refinement accepts nothing; all vertices go right, and the empty left side with two or more parts is bisected by growing from a vertex that does not exist | proved |
| C95 | debug-build model of refinement (Model/DebugFM.lean); debug and release run in lockstep under the pass invariant of C26-C29, so every assertion operand is known; a vertex of weighted degree 0 is out of the border at the end of the first pass whether moved or not, which `verify` rejects | proved |
| C96 | debug-build model of the whole call (Model/Debug.lean, Model/DebugFM.lean); simulation proof function by function that a debug run that returns is the release run; for valid inputs each assertion operand is shown defined by the invariants of the release proofs | proved |
| C97 | an invariant kept by coarsening (every closed vertex set has two vertices and exceeds the coarse vertex limit) implies the assertions of refinement on every level; doubles of the two shares are positive; the wrong balancing fallback is not reached | proved |
| C98 | the same simulation, with the first refinement (or imbalance computation) of every run shown to fail | proved |
| C99 | the stages of extraction (counting, filling, finishing) in the debug model against the release proof; the counting assertion is characterised by the final degrees, the validity check at the end by the first reverse edges of the induced subgraph | proved |
| C100 | an invariant of the recursion (small, simple, mutual; exact shares of unit weights or no unit weight) gives the assertions at every bisection and extraction | proved |
| C101 | the debug model of the two loops and of refinement step by step against the release model | proved |
| C102 | the bounds asserted in Grid::get and the neighbour functions from the loop ranges; size equations modulo 2^32 | proved |
| C103 | induction over the run of recursive bisection (RBRun), with the sizes of the two induced subgraphs; the hierarchies collected along the run and bounded by C73 | proved |
| C104 | invariant of the growing phase without symmetry: weights right modulo 2^32, a priority is at most 1 plus the weight of the edges from the vertices that have left the queue; no coarsening happens, so no other code runs | proved |
| C105 | two-run lockstep relation `Lock` over the whole model (Proofs/Scale*.lean): matching and BFS compare weights only with each other; FM keys scale; contraction and extraction keep the relation; refuted for all-1 weights by evaluation | proved |
| C106 | balance bound of the first bisection + density of the graph rule out uncoarsened sides (`rbExecute_inv`); grids: pigeonhole on the pairs of a Hamiltonian walk | proved |
| C107 | counting on `Filled`/`Grown` (C74); rounding analysis of the imbalance comparison; `ImprovesStar` for refinement | proved |
| C108 | the chain of C27 has no first step; complete graphs: cut = product of sizes | proved |
| C109 | `rbExecute_inv` with the invariant that a subgraph for m parts has m times the share; rounding analysis of fractions and imbalances | proved |
| C110 | C75 gives the runs; the choice among candidates by induction over the list; projection and refinement keep limits and cut | proved |
| C111, C112 | model with clock readings and time keeper threaded through; step-by-step simulation with the model without timers | proved |
| C113 | C112 and monotonicity of rounded addition | proved |
| C114 | invariant of the refinement without symmetry (stored connection minus connection by in-edges is constant during a refinement), carried through projection, multilevel recursion and the call | proved |
| C115 | termination measures that need no invariant of the graph: FM marks one more vertex per move, BFS shrinks its queue, a coarse graph has at most as many edges as slots, splits halve the number of parts | proved |
| C116 | the loose description of a multilevel bisection (grown, projected, refinement keeps every predicate kept by admissible steps) proved for directed graphs; the weight bounds of C78, C80, C81, C85 proved from it; recursion invariant as for C80 | proved |
| C117 | sharper bound on growing (the extra vertex needs the other side over its limit); each bisection of a node of weight X for n + m equal parts bounded by shares of the least T with T >= X, room and what growing leaves; a table of weight intervals per number of parts, closed under bisection; recursion invariants as for C80 and C116; induction over the levels for two, four and eight parts | proved |
| C118 | induction over the loop over the cuts with its first c runs peeled off: once there is an answer the loop keeps it or replaces it by one of smaller cut | proved |
| C119 | each chosen edge has a matched end, since the matching is maximal, and different edges have different ends; groups have one or two vertices, so matched vertices are twice the vertices saved; for leaves, induction over the visits by increasing degree: until a leaf of v is visited only vertices of degree at most one are | proved |
| C120 | from C38 the reported cut is that of the labels; induction over the number of labels in use: a path between two parts has an edge between two parts, and merging these saves at least its weight; with C81 all labels are in use | proved |
| C121 | the first move of a pass that keeps nothing is, within the limits, one of largest gain of all border vertices; that it was rejected means that it does not lower the cut or leaves the limits; passes that keep something lower the cut by at least one | proved |
| C122 | the finest level of a run with at least one coarsening is refined from a projection within the limits whose cut is at most the candidate's (C110), so C121 applies on the caller's graph; a graph that is its own coarsest graph is returned as grown | proved |
| C123 | growing (C74) takes a vertex of strongest tie; in a connected graph some vertex outside has a positive tie, so the taken one is joined to the left side; the left subgraph of recursive bisection is connected again, down to part 0 | proved |
| C124 | sum over the vertices of the gain of a single move, which is not positive at a local optimum | proved |
| C125 | induction over growth, levels and the bisection tree; binary64 error bounds for the imbalance | proved |
| C126 | invariant of growth (the group taken in part is finished first); induction over the bisection tree | proved |
| C127 | binary64 error analysis of the rounded reciprocal; then as C90 and C125 | proved |
| C128 | tree weight of a connected part and double counting of degrees | proved |
| C129 | relative rounding errors; integer arithmetic | proved |
| C130 | exact sums of doubles; induction over the recursion | proved |

## 4. Findings about the code (each is a theorem)

* `BFSBisector` calls the two balancing functions the wrong way round: null vertex weights are undefined
  behaviour (C42), explicit all-ones weights too with four parts (C57).
* One part or none is undefined behaviour (C43).
* `imbalanceTolerance`, `targetPartitionFractions`, `refinementIterations` are ignored (C41); null options
  are not the defaults (C62).
* Self loops make coarsening undefined (C53).
* A pair of weight exactly 2^32-1 passes every maximum weight (C15).
* Invalid fractions for one part and NaN escape validation (C63).
* `VertexSet::operator[]` and the vertex orders ignore where a set begins (C64, C65).
* The balancing swap of random bisection misses some swaps, and with infeasible limits may make things
  worse (C55). Limits set by the C interface are infeasible for small odd weights (C60).
* The k-way multilevel partitioner is a stub (C67).
* `Graph::isValid` rejects symmetric graphs with parallel edges of different weight (C69).
* The incrementally kept border drops isolated vertices that a fresh one contains (C68).
* The last vertex breadth-first bisection moves is judged by weight 1 whatever its weight, and the exchange of random
  bisection computes its bounds with 32-bit wrap-around (C74).
* `Partitioning::unassignAll` keeps the stored cut of before (C76).
* More than three parts per vertex is always undefined behaviour (C79).
* Parts can be empty: a graph with one vertex splits into three parts, two of them empty (example at C81).
* `AggregationParameters::isAllowedVertexWeight` tests the weight instead of the maximum for "not set", so the weight
  2^32-1 passes whatever maximum is set (C88).
* Null vertex weights are safe for two parts exactly if n is even, n >= 35, or n > 20 with an edge (C89); for more parts
  and at most 20 vertices exactly if k divides n (C90).
* 49 parts of 49 unit vertices get target weight 0 each, as `1.0 / 49 * 49` truncates to 0 (C90).
* The grid generator computes array sizes in 32 bits without a check; a 900 x 900 x 900 grid or a line of 1.5 thousand million points is undefined behaviour. (C91)
* A light vertex whose only edges lead to itself makes every call on more than 20 vertices undefined behaviour. (C92)
* The written cut loses its highest bit: for an undirected graph whose cut reaches 2^31 the call returns 1 with the cut modulo 2^31. (C93)
* Four or more parts with a total vertex weight below the number of parts (e.g. 25 unit-weight vertices into 26 parts, or all weights zero) are undefined behaviour on every graph. (C94)
* In a debug build two-way refinement aborts on every graph of at most 25 vertices with an isolated vertex (FMRefiner.cpp:250). (C95)
* In a debug build a call for two parts aborts on every valid graph of 21 to 25 vertices that has an edge and an isolated vertex, and whenever the total vertex weight is 0 or 1; for an odd number of up to 19 unit weights the assertion in `weightOf<true>` (Graph.hpp:313) catches what is undefined behaviour in a release build. (C97, C98)
* In a debug build a call for three or more parts aborts in subgraph extraction when a part holds a vertex with as many parallel edges as the part has vertices, e.g. two vertices joined by two edges, although such graphs are legal and the release build succeeds. (C99)
* GridGraphGenerator with exactly one dimension 0 (release build) computes an edge count near 2^32 and reads uninitialised edge lists; a debug build stops at the assertions of the constructor. (C102)
* Vertex weights are added up modulo 2^32 without a check: if the total is a multiple of 2^32, all vertices are put into part 1 and the call reports success with cut 0. (C104)
* The answer depends on the unit of the edge weights when they are all 1 (or, with more than two parts, are all 1 inside one side of a bisection): `Graph` then sets its unit flag and `SHEMRMAggregator` silently replaces the requested heavy edge matching by random matching, so scaling all weights from 1 to 2 can change labels and even the number of cut edges. (C105)
* For a graph without vertex weights, three or more parts are safe only if no side handed to a further bisection is edgeless or has at most 20 vertices; `SubgraphExtractor` gives it no weight array and the (swapped) balancing step of `BFSBisector` then reads it. A density condition rules this out, and all grids of at least 60 vertices meet it for three parts; for four parts of a grid (test `PartGraphRecursiveFourCut`) the condition fails (half of a grid can be an independent set), so nothing is proved there. (C106)
* `FMRefiner::refine` accepts a state within the limits only if its cut is smaller than the best one (line 236); the first alternative of the condition (`!isBalanced && balance < bestBalance`) covers unbalanced states only. So a bisection that is one vertex over the limit and cannot be improved in cut is returned as it is, although one move would balance it. (C108)
* The limit of a part and the computed imbalance may disagree by rounding: three quarters of 30 with tolerance 0.2 is 27,
  the computed limit is 26, and refinement takes a bisection within the limits to 3 and 27. (C27)
* Directed graphs: the refinement starts from the edges a vertex lists and updates along the edges that list it, so on a graph that is not symmetric its gains are wrong by a constant per vertex; this never leads outside the arrays, and the reported cut is still computed from scratch. (C114)
* The balance of the parts does not depend on the edges: the bounds proved for undirected graphs hold verbatim for directed ones, although refinement then works with wrong gains. (C116)
* Calls for up to sixteen parts are safe under mild conditions on the weights (C80 had eight), and with two, four or eight parts none is lighter than a fifth of its share; beyond sixteen the intervals for the inner nodes reach zero, so nothing is claimed. (C117)
* Heavy-edge matching visits vertices by increasing degree, so where a vertex has a leaf, the leaf is contracted into it before its heavy edges are looked at; on the path with edge weights 1, w, 1 the middle edge is never contracted, whatever w and the seed. (C119)
* A graph of at most twenty vertices (and one without edges) is never refined: the grown bisection is returned as it is, so a call can return labels for which moving one vertex lowers the cut from 4 to 1 within the limits. (C122)
* Growing skips vertices that are too heavy and goes on behind them, so even the grown side (part 0) of a connected graph can come apart; part 1 is never looked at in this respect. (C123)
* A graph whose two components have weights 100 and 102 is cut although the split along them cuts nothing and is within the limits of 104: growth starts in the lighter component and takes a vertex of the other one to reach the target of 101. (C125)
* Two rings of 14 vertices with edges of weight 9, joined by edges of weight 1, are both split under random matching (cut 36 instead of 14): matching takes the first free neighbour whatever its edge weighs, and refinement does not undo it. Up to 20 vertices such rings are always found. (C126)
* The bound of 48 parts for exactly even shares generalises: shares of any multiple of k are exact if and only if 1.0 / k * k is 1 in doubles (all k up to 48, all powers of two; not 49, 98, 103, 107, 161, ...). Where it is not, k unweighted vertices without edges in k parts are undefined behaviour. (C127)
* A small ring of vertices of weight 1 is always cut optimally by a call for two parts (twice), and a small tree with 2c vertices at most c times, because the part that is grown is connected; a path may still be cut twice. (C128)
* The limit of three per cent can come out one unit too small: of a total weight of 700 in seven parts, 102 instead of 103. For two, four, eight, ... parts it never does. (C129)
* In calls for 4, 8, ... parts the first split of a small graph has no room for the graph unless the number of parts divides its weight: 100 vertices of weight 1 in eight parts must be split into two halves of at most 48. (C130)

## 5. Testing the theorems

`seeded/LOG.jsonl` lists edits of model definitions made in a scratch copy, the claim each breaks, and the
theorems that then fail to prove. Where an edit survived, the entry says what was tightened, or why the
edited program still satisfies all claims.
