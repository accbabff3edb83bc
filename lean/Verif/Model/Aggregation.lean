import Verif.Model.Graph
/-
Model of src/aggregation: Aggregation.cpp, VertexGrouping.hpp, VertexGroup.hpp,
MatchedAggregationBuilder.hpp/.cpp, AggregationParameters.hpp/.cpp, RandomMatchingAggregator.cpp,
HeavyEdgeMatchingAggregator.cpp, SHEMRMAggregator.cpp, AggregatorFactory.cpp; and the vertex orders of
src/graph/RandomOrderVertexSet.cpp, DegreeSortedVertexSet.cpp, PermutedVertexSet.hpp.
-/
namespace Poros
open Res

/-- `sl::VectorMath::prefixSumExclusive` on `uint32_t`: entry `i` becomes the sum of the entries before it. -/
def prefixSumExclusive (l : List Nat) : List Nat :=
  (List.range l.length).map fun i => (l.take i).sum % M32

/-- Members of `class Aggregation`, src/aggregation/Aggregation.hpp. -/
structure Aggregation where
  nf : Nat
  nc : Nat
  cmap : List Nat
  fprefix : List Nat
  fmap : List Nat
deriving DecidableEq, Repr

/-- First loop of the constructor, src/aggregation/Aggregation.cpp:50-52. -/
def countGroups (cmap : List Nat) (nc : Nat) : Res (List Nat) :=
  (List.range cmap.length).foldlM (fun pre v => do
    let c ← rd cmap v
    let old ← rd pre (c + 1)
    wr pre (c + 1) (uadd old 1)) (List.replicate (nc + 1) 0)

/-- Last loop of the constructor, src/aggregation/Aggregation.cpp:54-58. -/
def fillGroups (cmap : List Nat) (pre : List Nat) : Res (List Nat × Mem) :=
  (List.range cmap.length).foldlM (fun (s : List Nat × Mem) v => do
    let c ← rd cmap v
    let pos ← rd s.1 (c + 1)
    let fmap ← s.2.wr pos v
    let pre ← wr s.1 (c + 1) (uadd pos 1)
    .ok (pre, fmap)) (pre, Mem.alloc cmap.length)

/-- `Aggregation(coarseMap, numCoarseVertices)`, src/aggregation/Aggregation.cpp:41-59. The coarse map is
handed over from uninitialised memory; the first loop reads all of it, so an uninitialised cell is `ub`. -/
def Aggregation.make (cmap : Mem) (nc : Nat) : Res Aggregation := do
  let cm ← cmap.freeze
  let cnt ← countGroups cm nc
  let r ← fillGroups cm (prefixSumExclusive cnt)
  let fm ← r.2.freeze
  .ok { nf := cm.length, nc := nc, cmap := cm, fprefix := r.1, fmap := fm }

/-- `getCoarseVertexNumber(v)`, src/aggregation/Aggregation.hpp. -/
def Aggregation.coarse (a : Aggregation) (v : Nat) : Res Nat := rd a.cmap v

/-- The vertices a loop over group `c` visits: src/aggregation/VertexGrouping.hpp:51-56 and
VertexGroup.hpp:90-130. -/
def Aggregation.group (a : Aggregation) (c : Nat) : Res (List Nat) := do
  let b ← rd a.fprefix c
  let e ← rd a.fprefix (c + 1)
  (List.range' b (usub e b)).mapM fun i => rd a.fmap i

/-- `coarseVertices()`, src/aggregation/Aggregation.cpp:96-100, iterated from begin to end
(src/aggregation/VertexGrouping.hpp:118-131). -/
def Aggregation.groups (a : Aggregation) : Res (List (List Nat)) :=
  (List.range a.nc).mapM fun c => a.group c

/-! ### MatchedAggregationBuilder -/

/-- Members of `class MatchedAggregationBuilder`, src/aggregation/MatchedAggregationBuilder.hpp:112-114. -/
structure Matcher where
  next : Nat
  mtch : List Nat
deriving DecidableEq, Repr

namespace Matcher

/-- src/aggregation/MatchedAggregationBuilder.cpp:42-48 -/
def new (n : Nat) : Matcher := { next := 0, mtch := List.replicate n NULL32 }

/-- `isMatched`, src/aggregation/MatchedAggregationBuilder.hpp:70-76 -/
def isMatched (m : Matcher) (v : Nat) : Res Bool := do
  let u ← rd m.mtch v
  .ok (decide (u ≠ NULL32))

/-- `match`, src/aggregation/MatchedAggregationBuilder.hpp:85-96 -/
def mate (m : Matcher) (a b : Nat) : Res Matcher := do
  let x ← wr m.mtch a b
  let x ← wr x b a
  .ok { m with mtch := x }

/-- the loop of `getNextUnmatched`, src/aggregation/MatchedAggregationBuilder.hpp:105-107 -/
def advance (mtch : List Nat) : Nat → Nat → Res Nat
  | 0, _ => .diverge
  | fuel + 1, next =>
    if next < mtch.length then do
      let u ← rd mtch next
      if u ≠ NULL32 then advance mtch fuel (next + 1) else .ok next
    else .ok next

/-- `getNextUnmatched`, src/aggregation/MatchedAggregationBuilder.hpp:103-110 -/
def getNextUnmatched (m : Matcher) : Res (Nat × Matcher) := do
  let n ← advance m.mtch (m.mtch.length + 1) m.next
  .ok (n, { m with next := n })

/-- Loop body of `build`, src/aggregation/MatchedAggregationBuilder.cpp:61-72. -/
def buildStep (m : Matcher) (s : Mem × Nat) (v : Nat) : Res (Mem × Nat) := do
  let u ← rd m.mtch v
  if u = NULL32 then do
    let cmap ← s.1.wr v s.2
    .ok (cmap, uadd s.2 1)
  else if v < u then do
    let cmap ← s.1.wr v s.2
    let cmap ← cmap.wr u s.2
    .ok (cmap, uadd s.2 1)
  else .ok s

/-- `build`, src/aggregation/MatchedAggregationBuilder.cpp:56-75. -/
def build (m : Matcher) : Res Aggregation := do
  let s ← (List.range m.mtch.length).foldlM (buildStep m) (Mem.alloc m.mtch.length, 0)
  Aggregation.make s.1 s.2

end Matcher

/-! ### Vertex orders -/

/-- `RandomOrderVertexSet::generate`, src/graph/RandomOrderVertexSet.cpp:39-50. -/
def randomOrder (E : Env) (g : Graph) (r : E.rng.S) : List Nat × E.rng.S := E.rng.perm r g.nv

/-- The degrees, src/graph/DegreeSortedVertexSet.cpp:45-49, 63-67. -/
def degrees (g : Graph) : Res (List Nat) := (List.range g.nv).mapM g.degreeOf

/-- `DegreeSortedVertexSet::ascendingRandom`, src/graph/DegreeSortedVertexSet.cpp:57-75. -/
def ascendingRandom (E : Env) (g : Graph) (r : E.rng.S) : Res (List Nat × E.rng.S) := do
  let ds ← degrees g
  .ok (E.rng.sortRandom r ds)

/-- `DegreeSortedVertexSet::ascending`, src/graph/DegreeSortedVertexSet.cpp:40-55. -/
def ascending (E : Env) (g : Graph) : Res (List Nat) := do
  let ds ← degrees g
  .ok (E.rng.sort ds)

/-! ### Aggregators -/

/-- `isAllowedVertexWeight`, src/aggregation/AggregationParameters.hpp:61-66. -/
def isAllowed (maxW w : Nat) : Bool := decide (w = NULL32) || decide (w ≤ maxW)

/-- The edge loop of `firstMatch`, src/aggregation/RandomMatchingAggregator.cpp:58-72, over the
(destination, weight) pairs of the vertex, leaving at the first hit. -/
def firstMate (g : Graph) (has : Bool) (maxW : Nat) (order : List Nat) (m : Matcher) (vw : Nat) :
    List (Nat × Nat) → Res (Option Nat)
  | [] => .ok none
  | q :: qs => do
    let uw ← g.vwgtOf has q.1
    let isM ← m.isMatched q.1
    if !isM && isAllowed maxW (uadd vw uw) then do
      let _ ← rd order q.1
      .ok (some q.1)
    else firstMate g has maxW order m vw qs

/-- Loop body of `firstMatch`, src/aggregation/RandomMatchingAggregator.cpp:49-77. -/
def rmStep (g : Graph) (has : Bool) (maxW : Nat) (order : List Nat) (m : Matcher) (v : Nat) :
    Res Matcher := do
  let isM ← m.isMatched v
  if isM then .ok m else do
  let vw ← g.vwgtOf has v
  let ns ← g.nbrsOf false v
  let best ← firstMate g has maxW order m vw ns
  match best with
  | some u => m.mate v u
  | none => .ok m

/-- `RandomMatchingAggregator::aggregate`, src/aggregation/RandomMatchingAggregator.cpp:101-117. -/
def rmAggregate (E : Env) (maxW : Nat) (g : Graph) (r : E.rng.S) : Res (Aggregation × E.rng.S) := do
  let (order, r) := randomOrder E g r
  let m ← order.foldlM (rmStep g (!g.unitVtx) maxW order) (Matcher.new g.nv)
  let a ← m.build
  .ok (a, r)

/-- Loop body of the edge loop of `shem`, src/aggregation/HeavyEdgeMatchingAggregator.cpp:61-73: the best
(vertex, priority) so far. -/
def heavyMate (g : Graph) (has : Bool) (maxW : Nat) (m : Matcher) (vw : Nat)
    (best : Option (Nat × Nat)) (q : Nat × Nat) : Res (Option (Nat × Nat)) := do
  let uw ← g.vwgtOf has q.1
  let isM ← m.isMatched q.1
  if !isM && isAllowed maxW (uadd vw uw) then
    match best with
    | none => .ok (some q)
    | some b => if b.2 < q.2 then .ok (some q) else .ok (some b)
  else .ok best

/-- Loop body of `shem`, src/aggregation/HeavyEdgeMatchingAggregator.cpp:53-78. The template argument for edge
weights keeps its default `true`, so edge weights are always read. -/
def shemStep (g : Graph) (has : Bool) (maxW : Nat) (m : Matcher) (v : Nat) : Res Matcher := do
  let isM ← m.isMatched v
  if isM then .ok m else do
  let vw ← g.vwgtOf has v
  let ns ← g.nbrsOf true v
  let best ← ns.foldlM (heavyMate g has maxW m vw) none
  match best with
  | some b => m.mate v b.1
  | none => .ok m

/-- `HeavyEdgeMatchingAggregator::aggregate`, src/aggregation/HeavyEdgeMatchingAggregator.cpp:103-120. -/
def shemAggregate (E : Env) (maxW : Nat) (g : Graph) (r : E.rng.S) : Res (Aggregation × E.rng.S) := do
  let (order, r) ← ascendingRandom E g r
  let m ← order.foldlM (shemStep g (!g.unitVtx) maxW) (Matcher.new g.nv)
  let a ← m.build
  .ok (a, r)

/-- `SHEMRMAggregator::aggregate`, src/aggregation/SHEMRMAggregator.cpp:51-60. -/
def shemrmAggregate (E : Env) (maxW : Nat) (g : Graph) (r : E.rng.S) : Res (Aggregation × E.rng.S) :=
  if g.unitEdge then rmAggregate E maxW g r else shemAggregate E maxW g r

/-- The two aggregation schemes of include/poros.h. -/
inductive Scheme where
  | randomMatching | sortedHeavyEdge
deriving DecidableEq, Repr

/-- Virtual call of `IAggregator::aggregate` on what the factory made
(src/aggregation/AggregatorFactory.cpp:45-60). -/
def aggregate (E : Env) (s : Scheme) (maxW : Nat) (g : Graph) (r : E.rng.S) :
    Res (Aggregation × E.rng.S) :=
  match s with
  | .randomMatching => rmAggregate E maxW g r
  | .sortedHeavyEdge => shemrmAggregate E maxW g r

end Poros
