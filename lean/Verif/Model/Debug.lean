import Verif.Model.DebugFM
import Verif.Model.GraphValid
import Verif.Model.Api
/-
Model of the debug build, part 2: the rest of the call `POROS_PartGraphRecursive`. See Model/DebugFM.lean for the
conventions.

Not repeated here are functions whose only assertions are about an index they go on to use, or compare a template
argument with the flag of the graph it was computed from (`Graph::weightOf`, src/graph/Graph.hpp:293, 313, called with
the flags of the same graph). The phases of `TwoStepGraphBuilder` (src/graph/TwoStepGraphBuilder.hpp:118, 133, 152, 171,
.cpp:69, 88, 101, 124) are left out: src/graph/SubgraphExtractor.cpp calls the functions of the builder in the order of
the phases, whatever the data. So is src/graph/SubgraphExtractor.cpp:117, which compares a loop counter with the length
of the vector that grows by one in every iteration, and src/multilevel/DiscreteCoarseGraph.cpp:173, which compares a
field with the value assigned to it one line before.
-/
namespace Poros
open Res

/-- `Partitioning(numParts, graph)`, src/partition/Partitioning.cpp:85-94 with the assertion of line 93. -/
def Partitioning.freshD (k : Nat) (g : Graph) : Res Partitioning := do
  check (k > 0)
  .ok (Partitioning.fresh k g)

/-- `Partitioning(numParts, graph, partitionLabels)`, src/partition/Partitioning.cpp:97-120 with the assertion of line
106. -/
def Partitioning.ofLabelsD (k : Nat) (g : Graph) (labels : List Nat) : Res Partitioning := do
  check (k > 0)
  Partitioning.ofLabels k g labels

/-- `assign`, src/partition/Partitioning.hpp:272-287 with the assertion of line 280. -/
def Partitioning.assignD (g : Graph) (v part : Nat) (p : Partitioning) : Res Partitioning := do
  let a ← rd p.asg v
  check (a = NULL32)
  p.assign g v part

/-! ### aggregation -/

/-- `match`, src/aggregation/MatchedAggregationBuilder.hpp:85-96 with the assertions of lines 91-92. -/
def Matcher.mateD (m : Matcher) (a b : Nat) : Res Matcher := do
  let x ← rd m.mtch a
  check (x = NULL32)
  let y ← rd m.mtch b
  check (y = NULL32)
  m.mate a b

/-- `firstMatch`, src/aggregation/RandomMatchingAggregator.cpp:49-77. -/
def rmStepD (g : Graph) (has : Bool) (maxW : Nat) (order : List Nat) (m : Matcher) (v : Nat) : Res Matcher := do
  let isM ← m.isMatched v
  if isM then .ok m else do
  let vw ← g.vwgtOf has v
  let ns ← g.nbrsOf false v
  let best ← firstMate g has maxW order m vw ns
  match best with
  | some u => m.mateD v u
  | none => .ok m

/-- `RandomMatchingAggregator::aggregate`, src/aggregation/RandomMatchingAggregator.cpp:101-117. -/
def rmAggregateD (E : Env) (maxW : Nat) (g : Graph) (r : E.rng.S) : Res (Aggregation × E.rng.S) := do
  let (order, r) := randomOrder E g r
  let m ← order.foldlM (rmStepD g (!g.unitVtx) maxW order) (Matcher.new g.nv)
  let a ← m.build
  .ok (a, r)

/-- A loop over the edges of a vertex that calls `weightOf<true>(edge)`, src/graph/Graph.hpp:289-300: the assertion of
line 293 is evaluated if there is an edge. -/
def Graph.nbrsTrueD (g : Graph) (v : Nat) : Res (List (Nat × Nat)) := do
  let es ← g.edgesOf v
  check (es = [] ∨ g.unitEdge = false)
  g.nbrsOf true v

/-- `shem`, src/aggregation/HeavyEdgeMatchingAggregator.cpp:53-78. -/
def shemStepD (g : Graph) (has : Bool) (maxW : Nat) (m : Matcher) (v : Nat) : Res Matcher := do
  let isM ← m.isMatched v
  if isM then .ok m else do
  let vw ← g.vwgtOf has v
  let ns ← g.nbrsTrueD v
  let best ← ns.foldlM (heavyMate g has maxW m vw) none
  match best with
  | some b => m.mateD v b.1
  | none => .ok m

/-- `HeavyEdgeMatchingAggregator::aggregate`, src/aggregation/HeavyEdgeMatchingAggregator.cpp:103-120. -/
def shemAggregateD (E : Env) (maxW : Nat) (g : Graph) (r : E.rng.S) : Res (Aggregation × E.rng.S) := do
  let (order, r) ← ascendingRandom E g r
  let m ← order.foldlM (shemStepD g (!g.unitVtx) maxW) (Matcher.new g.nv)
  let a ← m.build
  .ok (a, r)

/-- `SHEMRMAggregator::aggregate`, src/aggregation/SHEMRMAggregator.cpp:51-60. -/
def shemrmAggregateD (E : Env) (maxW : Nat) (g : Graph) (r : E.rng.S) : Res (Aggregation × E.rng.S) :=
  if g.unitEdge then rmAggregateD E maxW g r else shemAggregateD E maxW g r

/-- The aggregators of src/aggregation/AggregatorFactory.cpp:45-60. -/
def aggregateD (E : Env) (s : Scheme) (maxW : Nat) (g : Graph) (r : E.rng.S) : Res (Aggregation × E.rng.S) :=
  match s with
  | .randomMatching => rmAggregateD E maxW g r
  | .sortedHeavyEdge => shemrmAggregateD E maxW g r

/-! ### contraction and projection -/

/-- `getCoarseVertexNumber`, src/aggregation/Aggregation.hpp with the assertion of line 115. -/
def Aggregation.coarseD (a : Aggregation) (v : Nat) : Res Nat := do
  let c ← rd a.cmap v
  check (c < a.nc)
  .ok c

/-- The loop over the vertices of group `c`, src/aggregation/SummationContractor.cpp:62-76 with the assertion of line
64. -/
def contractGroupD (g : Graph) (hasV hasE : Bool) (a : Aggregation) (c : Nat) (group : List Nat) (b : OneStep) :
    Res (OneStep × Nat) :=
  group.foldlM (fun (s : OneStep × Nat) v => do
    let cv ← a.coarseD v
    check (c = cv)
    let vw ← g.vwgtOf hasV v
    let ns ← g.nbrsOf hasE v
    let b ← ns.foldlM (fun (b : OneStep) q => do
      let c ← a.coarseD q.1
      b.addEdge c q.2) s.1
    .ok (b, uadd s.2 vw)) (b, 0)

/-- `finish()`, src/graph/OneStepGraphBuilder.cpp:75-96 with the assertion of line 90. -/
def OneStep.finishD (b : OneStep) : Res Graph := do
  let g ← b.finish
  let v ← g.isValid
  check (v = true)
  .ok g

/-- `contractGraph`, src/aggregation/SummationContractor.cpp:51-85. -/
def contractGraphD (g : Graph) (hasV hasE : Bool) (a : Aggregation) : Res Graph := do
  let b ← OneStep.new a.nc g.ne
  let b ← (List.range a.nc).foldlM (fun b c => do
    let group ← a.group c
    let r ← contractGroupD g hasV hasE a c group b
    r.1.finishVertex r.2) b
  b.finishD

/-- `SummationContractor::contract`, src/aggregation/SummationContractor.cpp:107-123. -/
def contractD (g : Graph) (a : Aggregation) : Res Graph := contractGraphD g (!g.unitVtx) (!g.unitEdge) a

/-- The constructor of `DiscreteCoarseGraph`, src/multilevel/DiscreteCoarseGraph.cpp:117-125. -/
def CoarseGraph.makeD (g : Graph) (a : Aggregation) : Res CoarseGraph := do
  let cg ← contractD g a
  let cmap ← a.fillCoarseMap (Mem.alloc g.nv)
  .ok { fine := g, coarse := cg, cmap := cmap }

/-- `project(info)`, src/multilevel/DiscreteCoarseGraph.cpp:140-176. -/
def CoarseGraph.projectD {P : SetImpl} (cg : CoarseGraph) (cp : Partitioning) (cc : Conn P) :
    Res (Partitioning × Conn P) := do
  let start ← Partitioning.freshD cp.pw.length cg.fine
  let fp ← (List.range cg.fine.nv).foldlM (fun (fp : Partitioning) v => do
    let c ← cg.cmap.rd v
    let q ← rd cp.asg c
    fp.assignD cg.fine v q) start
  let b ← fillInConnectivity cg.fine (!cg.fine.unitEdge) fp cc cg.cmap (ConnBuilder.start cg.fine.nv)
  let conn ← b.finish P
  .ok (fp.setCut cp.cut, conn)

variable {E : Env}

/-! ### bisection -/

/-- `MultilevelBisector::recurse`, src/partition/MultilevelBisector.cpp:97-150. -/
def Multilevel.recurseD (m : Multilevel E) (maxW : Nat) (stop : Criterion) (t : Target E.fp) :
    Nat → Nat → Option Graph → Graph → E.rng.S → Res ((Partitioning × Conn E.set) × E.rng.S)
  | 0, _, _, _, _ => .diverge
  | fuel + 1, level, parent, g, r => do
    let s ← stop level parent (some g)
    if s then do
      let (p, r) ← m.init t g r
      let c ← Conn.fromPartitioning E.set g p
      .ok ((p, c), r)
    else do
      let (a, r) ← m.agg maxW g r
      let cg ← CoarseGraph.makeD g a
      let (info, r) ← m.recurseD maxW stop t fuel (level + 1) (some g) cg.coarse r
      let fine ← cg.projectD info.1 info.2
      let out ← m.refine t g fine.1 fine.2
      .ok (out, r)

/-- `MultilevelBisector::execute`, src/partition/MultilevelBisector.cpp:67-90. -/
def Multilevel.executeD (m : Multilevel E) : Bisector E := fun t g r => do
  let ratio ← edgeRatioMake E.fp (E.fp.lit 95 2)
  let maxW ← E.fp.cast (E.fp.div (E.fp.mul (E.fp.lit 15 1) (E.fp.ofNat g.totVtx)) (E.fp.ofNat 20))
  let (info, r) ← m.recurseD maxW (compositeStop [vertexNumberStop 20, ratio]) t (g.ne + 2) 0 none g r
  .ok (info.1, r)

/-- One iteration of the loop of `bfsPriorityMove`, src/partition/BFSBisector.cpp:54-69. -/
def bfsStepD (g : Graph) (hasV hasE : Bool) (t : Target E.fp) (s : VQueue E.pq × Partitioning) :
    Res (VQueue E.pq × Partitioning) := do
  let (v, q) ← s.1.pop
  let w ← g.vwgtOf hasV v
  let w0 ← rd s.2.pw 0
  let m0 ← rd t.mx 0
  if uadd w w0 ≤ m0 then do
    let p ← s.2.moveD g v 0
    let ns ← g.nbrsOf hasE v
    let q ← bfsTouch ns q
    .ok (q, p)
  else .ok (q, s.2)

/-- The loop of `bfsPriorityMove`, src/partition/BFSBisector.cpp:44-71. -/
def bfsPriorityMoveD (g : Graph) (hasV hasE : Bool) (t : Target E.fp) :
    Nat → VQueue E.pq × Partitioning → Res (VQueue E.pq × Partitioning)
  | 0, _ => .diverge
  | fuel + 1, s =>
    if s.1.size > 0 then do
      let w0 ← rd s.2.pw 0
      let t0 ← rd t.tw 0
      if w0 < t0 then do
        let s ← bfsStepD g hasV hasE t s
        bfsPriorityMoveD g hasV hasE t fuel s
      else .ok s
    else .ok s

/-- `weightOf<true>(vertex)`, src/graph/Graph.hpp:309-319 with the assertion of line 313. -/
def Graph.vwgtTrueD (g : Graph) (v : Nat) : Res Nat := do
  check (g.unitVtx = false)
  g.vwgtOf true v

/-- The loop of `bfsWeightBalance`, src/partition/BFSBisector.cpp:89-98. -/
def bfsWeightLoopD (g : Graph) (t : Target E.fp) : Nat → VQueue E.pq → Partitioning → Res Partitioning
  | 0, _, _ => .diverge
  | fuel + 1, q, p =>
    if q.size > 0 then do
      let (v, q) ← q.pop
      let w ← g.vwgtTrueD v
      let w0 ← rd p.pw 0
      let b ← bfsLighter t (uadd w w0) p
      if b then p.moveD g v 0 else bfsWeightLoopD g t fuel q p
    else .ok p

/-- `bfsWeightBalance`, src/partition/BFSBisector.cpp:74-99. -/
def bfsWeightBalanceD (g : Graph) (t : Target E.fp) (remaining : List Nat) (p : Partitioning) : Res Partitioning := do
  let q ← remaining.foldlM (fun (q : VQueue E.pq) v => do
    let w ← g.vwgtTrueD v
    q.add (toI32 w) v) (VQueue.new E.pq g.nv)
  bfsWeightLoopD g t (remaining.length + 1) q p

/-- `bfsUnitBalance`, src/partition/BFSBisector.cpp:101-117. -/
def bfsUnitBalanceD (g : Graph) (t : Target E.fp) : List Nat → Partitioning → Res Partitioning
  | [], p => .ok p
  | v :: vs, p => do
    let w0 ← rd p.pw 0
    let b ← bfsLighter t (uadd 1 w0) p
    if b then p.moveD g v 0 else bfsUnitBalanceD g t vs p

/-- The growing phase, src/partition/BFSBisector.cpp:153-179. -/
def bfsGrowD (t : Target E.fp) (g : Graph) (seed : Nat) : Res (VQueue E.pq × Partitioning) := do
  let q ← (VQueue.new E.pq g.nv).add 1 seed
  let q ← (List.range g.nv).foldlM (fun (q : VQueue E.pq) v =>
    if v ≠ seed then q.add 0 v else .ok q) q
  let start ← Partitioning.freshD t.k g
  let p ← start.assignAll g 1
  bfsPriorityMoveD g (!g.unitVtx) (!g.unitEdge) t (g.nv + 1) (q, p)

/-- The balancing fallback, src/partition/BFSBisector.cpp:181-187. -/
def bfsBalanceD (t : Target E.fp) (g : Graph) (remaining : List Nat) (p : Partitioning) : Res Partitioning := do
  let w1 ← rd p.pw 1
  let m1 ← rd t.mx 1
  if w1 > m1 then
    (if g.unitVtx then bfsWeightBalanceD g t remaining p else bfsUnitBalanceD g t remaining p)
  else .ok p

/-- `execute(target, graph, seed)`, src/partition/BFSBisector.cpp:146-192 with the assertion of line 151. -/
def bfsFromD (t : Target E.fp) (g : Graph) (seed : Nat) : Res Partitioning := do
  check (t.k = 2)
  let (q, p) ← bfsGrowD t g seed
  let p ← bfsBalanceD t g q.remaining p
  p.recalcCut g

/-- `BFSBisector::execute(target, graph)`, src/partition/BFSBisector.cpp:136-144. -/
def bfsBisectD : Bisector E := fun t g r => do
  let (seed, r) ← E.rng.randInRange r 0 (usub g.nv 1)
  let p ← bfsFromD t g seed
  .ok (p, r)

/-- One iteration of the loop of `MultiBisector::execute`, src/partition/MultiBisector.cpp:77-102. -/
def multiStepD (bis : Bisector E) (t : Target E.fp) (g : Graph) (s : MultiState E) (b : Nat) :
    Res (MultiState E) := do
  let (p, r) ← bis t g s.rng
  let balance ← calcMaxImbalanceD g p t
  let bal ← isBalanced p t
  if b = 0 || (!s.found && E.fp.lt balance s.bestBal) || (s.found && bal && decide (p.cut < s.bestCut)) then
    .ok { bestCut := p.cut, bestBal := balance, found := if bal then true else s.found, best := p, rng := r }
  else .ok { s with rng := r }

/-- `MultiBisector::execute`, src/partition/MultiBisector.cpp:67-105. -/
def multiBisectD (n : Nat) (bis : Bisector E) : Bisector E := fun t g r => do
  let start ← Partitioning.freshD 2 g
  let s ← (List.range n).foldlM (multiStepD bis t g)
    { bestCut := 0, bestBal := E.fp.lit 0 0, found := false, best := start, rng := r }
  .ok (s.best, s.rng)

/-- The multilevel bisector of src/Poros.cpp:104-114. -/
def makeMultilevelD (E : Env) (s : Scheme) : Multilevel E :=
  { agg := aggregateD E s, init := multiBisectD 8 bfsBisectD, refine := fun t g p c => fmRefineD g t 8 150 p c }

/-! ### subgraphs -/

/-- `incVertexNumEdges`, src/graph/TwoStepGraphBuilder.hpp:131-140 with the assertion of line 138. -/
def TwoStep.incVertexNumEdgesD (v : Nat) (b : TwoStep) : Res TwoStep := do
  let b ← b.incVertexNumEdges v
  let d ← rd b.pre v
  check (d < b.nv)
  .ok b

/-- `setVertexWeight`, src/graph/TwoStepGraphBuilder.hpp:149-157 with the assertion of line 153. -/
def TwoStep.setVertexWeightD (v w : Nat) (b : TwoStep) : Res TwoStep := do
  check (b.unitV = false)
  b.setVertexWeight v w

/-- `addEdgeToVertex`, src/graph/TwoStepGraphBuilder.hpp:167-181 with the assertions of lines 173-174. -/
def TwoStep.addEdgeToVertexD (v dest w : Nat) (b : TwoStep) : Res TwoStep := do
  check (v < b.nv)
  check (dest < b.nv)
  b.addEdgeToVertex v dest w

/-- `finish`, src/graph/TwoStepGraphBuilder.cpp:122-137 with the assertion of line 134. -/
def TwoStep.finishD (b : TwoStep) : Res Graph := do
  let g ← b.finish
  let v ← g.isValid
  check (v = true)
  .ok g

/-- `fillVertexWeights`, src/graph/SubgraphExtractor.cpp:47-68, as called in lines 151-153. -/
def maybeFillWeightsD (g : Graph) (part : Partitioning) (subMap : Mem) (bs : List TwoStep) : Res (List TwoStep) :=
  if !g.unitVtx then
    (List.range g.nv).foldlM (fun bs v => do
      let vSub ← subMap.rd v
      let pid ← rd part.asg v
      let w ← g.vwgtOf true v
      onNth bs pid (TwoStep.setVertexWeightD vSub w)) bs
  else .ok bs

/-- Counting edges, src/graph/SubgraphExtractor.cpp:155-169. -/
def countSubEdgesD (g : Graph) (part : Partitioning) (subMap : Mem) (bs : List TwoStep) : Res (List TwoStep) :=
  (List.range g.nv).foldlM (fun bs v => do
    let subV ← subMap.rd v
    let vPid ← rd part.asg v
    let ns ← g.nbrsOf false v
    ns.foldlM (fun bs q => do
      let uPid ← rd part.asg q.1
      if vPid = uPid then onNth bs vPid (TwoStep.incVertexNumEdgesD subV) else .ok bs) bs) bs

/-- `fillEdges`, src/graph/SubgraphExtractor.cpp:71-96. -/
def fillSubEdgesD (g : Graph) (has : Bool) (part : Partitioning) (subMap : Mem) (bs : List TwoStep) :
    Res (List TwoStep) :=
  (List.range g.nv).foldlM (fun bs v => do
    let subV ← subMap.rd v
    let vPid ← rd part.asg v
    let ns ← g.nbrsOf has v
    ns.foldlM (fun bs q => do
      let uPid ← rd part.asg q.1
      if vPid = uPid then do
        let subU ← subMap.rd q.1
        onNth bs vPid (TwoStep.addEdgeToVertexD subV subU q.2)
      else .ok bs) bs) bs

/-- `SubgraphExtractor::partitions(graph, part, labels)`, src/graph/SubgraphExtractor.cpp:106-191. -/
def extractPartitionsD (g : Graph) (part : Partitioning) (labels : Option (List Nat)) : Res (List Subgraph) := do
  let counts ← part.calcVertexCounts
  let m ← fillMaps g part labels
    (List.replicate counts.length 0, counts.map Mem.alloc, Mem.alloc g.nv)
  let bs := counts.map (TwoStep.configured g)
  let bs ← maybeFillWeightsD g part m.2.2 bs
  let bs ← countSubEdgesD g part m.2.2 bs
  let bs ← bs.mapM TwoStep.beginEdgePhase
  let bs ← fillSubEdgesD g (!g.unitEdge) part m.2.2 bs
  (List.range counts.length).mapM fun pid => do
    let b ← rd bs pid
    let sm ← rd m.2.1 pid
    let sg ← b.finishD
    let sm ← sm.freeze
    .ok { superMap := sm, graph := sg }

/-! ### recursive bisection and the interface -/

/-- One iteration of the first loop, src/partition/RecursiveBisectionPartitioner.cpp:71-78; `getMaxExcessWeight`
(src/partition/TargetPartitioning.hpp:185-192) has the assertion of line 189. -/
def halvesStepD {fp : FP} (t : Target fp) (s : Halves) (pid : Nat) : Res Halves := do
  let w ← rd t.tw pid
  let m ← rd t.mx pid
  check (m ≥ w)
  halvesStep t s pid

/-- The first loop, src/partition/RecursiveBisectionPartitioner.cpp:65-82. -/
def makeHalvesD {fp : FP} (t : Target fp) : Res Halves := do
  let s ← (List.range t.k).foldlM (halvesStepD t) { tw := [0, 0], mx := [0, 0], num := [0, 0, 0] }
  .ok { s with num := prefixSumExclusive s.num }

/-- The assertion of src/partition/RecursiveBisectionPartitioner.cpp:103-104: the second half has at least as many parts
as the first. -/
def checkNum (num : List Nat) : Res Unit := do
  let n2 ← rd num 2
  let n1 ← rd num 1
  let n0 ← rd num 0
  check (usub n2 n1 ≥ usub n1 n0)

/-- `recurse`, src/partition/RecursiveBisectionPartitioner.cpp:48-144 with the message of lines 91-100, which computes
the imbalance, and the assertions of lines 103 and 117. -/
def rbRecurseD (bis : Bisector E) :
    Nat → Target E.fp → Mapped → Nat → Mem × E.rng.S → Res (Mem × E.rng.S)
  | 0, _, _, _, _ => .diverge
  | fuel + 1, t, mg, offset, s => do
    let h ← makeHalvesD t
    let bt ← Target.ofWeights 2 h.tw h.mx
    let o ← bis bt mg.graph s.2
    let _ ← calcMaxImbalanceD mg.graph o.1 bt
    checkNum h.num
    let labels ← mg.mapPartitioning o.1 s.1 offset
    if t.k > 2 then do
      let parts ← extractPartitionsD mg.graph o.1 mg.superMap
      check (parts.length = 2)
      (List.range parts.length).foldlM (rbSide (rbRecurseD bis fuel) t h.num parts offset) (labels, o.2)
    else .ok (labels, o.2)

/-- `execute`, src/partition/RecursiveBisectionPartitioner.cpp:162-174. -/
def rbExecuteD (bis : Bisector E) (t : Target E.fp) (g : Graph) (r : E.rng.S) : Res (Partitioning × E.rng.S) := do
  let o ← rbRecurseD bis t.k t { superMap := none, graph := g } 0 (Mem.alloc g.nv, r)
  let labels ← o.1.freeze
  let p ← Partitioning.ofLabelsD t.k g labels
  let p ← p.recalcCut g
  .ok (p, o.2)

/-- `RecursiveBisectionPartitioner::execute` with the bisector of src/Poros.cpp:104-117. -/
def partitionerD (E : Env) (s : Scheme) : Bisector E := rbExecuteD (makeMultilevelD E s).executeD

/-- `POROS_PartGraphRecursive`, src/Poros.cpp:72-145, in a debug build. -/
def partGraphRecursiveD (E : Env) (i : Input) (options : Option (Options E.fp)) (out : Out) : Out × Res Nat :=
  match options with
  | none => (out, .ok 0)
  | some o =>
    andThen (prepare E i o) out fun p =>
      let l := cutsLoop (partitionerD E p.scheme p.target p.graph) o.numGlobalCuts.toNat 0 0 out
        (E.rng.seed o.randomSeed)
      andThen l.2 l.1 fun _ => (l.1, .ok 1)

end Poros
