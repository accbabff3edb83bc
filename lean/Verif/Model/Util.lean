import Verif.Model.Aggregation
import Verif.Model.Partitioning
/-
Model of src/graph/VertexSet.hpp, src/graph/EdgeSet.hpp, src/graph/PermutedVertexSet.hpp, the vertex orders of
src/graph/RandomOrderVertexSet.cpp and src/graph/DegreeSortedVertexSet.cpp for arbitrary sets, src/util/VisitTracker.hpp,
src/util/TimeKeeper.hpp/.cpp, src/util/TimedProcess.hpp/.cpp and the timed wrappers
src/aggregation/TimedAggregator.cpp, src/aggregation/TimedContractor.cpp, src/partition/TimedBisector.cpp,
src/partition/TimedTwoWayRefiner.cpp; and src/partition/MultilevelPartitioner.cpp.
-/
namespace Poros
open Res

/-! ### Index ranges -/

/-- `class VertexSet`, src/graph/VertexSet.hpp:41-161, and `class EdgeSet`, src/graph/EdgeSet.hpp:40-133: members
`m_begin` and `m_end`, both 32-bit numbers (`vtx_type`, `adj_type`). -/
structure IndexSet where
  b : Nat
  e : Nat
deriving DecidableEq, Repr

namespace IndexSet

/-- `size`, src/graph/VertexSet.hpp:137-140 and src/graph/EdgeSet.hpp:123-126: 32-bit subtraction. -/
def size (s : IndexSet) : Nat := usub s.e s.b

/-- `VertexSet::operator[]`, src/graph/VertexSet.hpp:150-154: `m_begin` is not used. -/
def get (_ : IndexSet) (i : Nat) : Nat := i

/-- The loop `for (it = from; it != end; ++it) yield *it`, i.e. `Iterator::operator!=`, `operator++` (32-bit) and
`operator*`, src/graph/VertexSet.hpp:56-91 and src/graph/EdgeSet.hpp:53-74, with fuel; the result is the list of indices
yielded. -/
def loop (stop : Nat) : Nat → Nat → Res (List Nat)
  | 0, _ => .diverge
  | fuel + 1, it =>
    if it ≠ stop then do
      let rest ← loop stop fuel (uadd it 1)
      .ok (it :: rest)
    else .ok []

/-- A range-based `for` over the set: `begin()`, src/graph/VertexSet.hpp:117-120 / src/graph/EdgeSet.hpp:102-105, `end()`,
src/graph/VertexSet.hpp:127-130 / src/graph/EdgeSet.hpp:113-116. -/
def iterate (s : IndexSet) (fuel : Nat) : Res (List Nat) := loop s.e fuel s.b

end IndexSet

/-- `Graph::vertices()`, src/graph/Graph.hpp:225-228. -/
def Graph.vertices (g : Graph) : IndexSet := ⟨0, g.nv⟩

/-- `Graph::edgesOf(vertex)`, src/graph/Graph.hpp:249-254. -/
def Graph.edgeSetOf (g : Graph) (v : Nat) : Res IndexSet := do
  let b ← rd g.xadj v
  let e ← rd g.xadj (v + 1)
  .ok ⟨b, e⟩

/-! ### Orders of arbitrary vertex sets -/

/-- `RandomOrderVertexSet::generate`, src/graph/RandomOrderVertexSet.cpp:39-50: a permutation of `0 .. size-1`. -/
def randomOrderOf (E : Env) (s : IndexSet) (r : E.rng.S) : List Nat × E.rng.S := E.rng.perm r s.size

/-- The degree array, src/graph/DegreeSortedVertexSet.cpp:45-49 and 63-67: one entry per vertex of the set, written at the
index of the vertex. -/
def degreesOf (g : Graph) (s : IndexSet) (fuel : Nat) : Res (List Nat) := do
  let vs ← s.iterate fuel
  let ds ← vs.foldlM (fun ds v => do
    let d ← g.degreeOf v
    Mem.wr ds v d) (Mem.alloc s.size)
  ds.freeze

/-- `DegreeSortedVertexSet::ascending`, src/graph/DegreeSortedVertexSet.cpp:40-55. -/
def ascendingOf (E : Env) (g : Graph) (s : IndexSet) (fuel : Nat) : Res (List Nat) := do
  let ds ← degreesOf g s fuel
  .ok (E.rng.sort ds)

/-- `DegreeSortedVertexSet::ascendingRandom`, src/graph/DegreeSortedVertexSet.cpp:57-75. -/
def ascendingRandomOf (E : Env) (g : Graph) (s : IndexSet) (fuel : Nat) (r : E.rng.S) : Res (List Nat × E.rng.S) := do
  let ds ← degreesOf g s fuel
  .ok (E.rng.sortRandom r ds)

/-! ### Visit tracker -/

/-- `class VisitTracker`, src/util/VisitTracker.hpp:45-114: the bits. -/
structure VisitTracker where
  bits : List Bool
deriving DecidableEq, Repr

namespace VisitTracker

/-- Constructor, src/util/VisitTracker.hpp:52-57. -/
def new (n : Nat) : VisitTracker := ⟨List.replicate n false⟩

/-- `visit`, src/util/VisitTracker.hpp:64-68. -/
def visit (t : VisitTracker) (i : Nat) : Res VisitTracker := do
  let b ← wr t.bits i true
  .ok ⟨b⟩

/-- `unvisit`, src/util/VisitTracker.hpp:75-79. -/
def unvisit (t : VisitTracker) (i : Nat) : Res VisitTracker := do
  let b ← wr t.bits i false
  .ok ⟨b⟩

/-- `hasVisited`, src/util/VisitTracker.hpp:88-92. -/
def hasVisited (t : VisitTracker) (i : Nat) : Res Bool := rd t.bits i

/-- `clear`, src/util/VisitTracker.hpp:97-100. -/
def clear (t : VisitTracker) : VisitTracker := ⟨List.replicate t.bits.length false⟩

/-- `size`, src/util/VisitTracker.hpp:107-110. -/
def size (t : VisitTracker) : Nat := t.bits.length

end VisitTracker

/-! ### Time keeper -/

/-- The names of the categories, src/util/TimeKeeper.cpp:45-54, in the order of the enumeration
src/util/TimeKeeper.hpp:43-53. -/
def timeNames : List String :=
  ["Total", "Coarsening", "Aggregation", "Contraction", "Initial Partitioning", "Uncoarsening", "Refinement", "Projection"]

/-- `class TimeKeeper`, src/util/TimeKeeper.hpp:38-100: the times; the names are constant. -/
structure TimeKeeper (fp : FP) where
  secs : List fp.F

namespace TimeKeeper
variable {fp : FP}

/-- Constructor, src/util/TimeKeeper.cpp:43-57; `NUM_TIME_CATEGORIES` is 8. -/
def new (fp : FP) : TimeKeeper fp := ⟨List.replicate 8 (fp.lit 0 0)⟩

/-- `reportTime`, src/util/TimeKeeper.cpp:64-74. -/
def reportTime (t : TimeKeeper fp) (key : Nat) (s : fp.F) : Res (TimeKeeper fp) :=
  if t.secs.length ≤ key then .exn else do
    let old ← rd t.secs key
    let l ← wr t.secs key (fp.add old s)
    .ok ⟨l⟩

/-- `times`, src/util/TimeKeeper.cpp:76-86. -/
def times (t : TimeKeeper fp) : Res (List (String × fp.F)) :=
  (List.range t.secs.length).mapM fun i => do
    let n ← rd timeNames i
    let s ← rd t.secs i
    .ok (n, s)

end TimeKeeper

/-- `TimedProcess::reportTime`, src/util/TimedProcess.cpp:62-69: nothing without a time keeper; the `int` category is
converted to `uint32_t`. -/
def timedReport {fp : FP} (tk : Option (TimeKeeper fp)) (cat : Int) (s : fp.F) : Res (Option (TimeKeeper fp)) :=
  match tk with
  | none => .ok none
  | some t => do
    let t ← t.reportTime (ofI32 cat) s
    .ok (some t)

/-- The timed wrappers, which differ only in the category: `TimedAggregator::aggregate` (2),
src/aggregation/TimedAggregator.cpp:52-66, `TimedContractor::contract` (3), src/aggregation/TimedContractor.cpp:52-65,
`TimedBisector::execute` (4), src/partition/TimedBisector.cpp:52-66, `TimedTwoWayRefiner::refine` (6),
src/partition/TimedTwoWayRefiner.cpp:52-66. `op` is the wrapped operation and `s` the time the timer measured. -/
def timed {fp : FP} {α : Type} (cat : Int) (op : Res α) (tk : Option (TimeKeeper fp)) (s : fp.F) :
    Res (α × Option (TimeKeeper fp)) := do
  let a ← op
  let tk ← timedReport tk cat s
  .ok (a, tk)

/-! ### Unfinished partitioner -/

/-- `MultilevelPartitioner::execute`, src/partition/MultilevelPartitioner.cpp:57-74: all steps are comments. -/
def multilevelPartition {fp : FP} (t : Target fp) (g : Graph) : Partitioning := Partitioning.fresh t.k g

end Poros
