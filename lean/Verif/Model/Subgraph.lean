import Verif.Model.Partitioning
import Verif.Model.Aggregation
/-
Model of src/graph/TwoStepGraphBuilder.hpp/.cpp, SubgraphExtractor.cpp, Subgraph.cpp,
MappedGraphWrapper.cpp.
-/
namespace Poros
open Res

/-- Members of `class TwoStepGraphBuilder`, src/graph/TwoStepGraphBuilder.hpp:184-194. The phase counter is
only used by assertions and is left out. -/
structure TwoStep where
  nv : Nat
  ne : Nat
  unitV : Bool
  unitE : Bool
  pre : List Nat
  elist : Mem
  vwgt : Mem
  ewgt : Mem
deriving DecidableEq, Repr, Inhabited

namespace TwoStep

/-- The constructor, src/graph/TwoStepGraphBuilder.cpp:43-55. -/
def new : TwoStep :=
  { nv := 0, ne := 0, unitV := false, unitE := false, pre := [], elist := [], vwgt := [], ewgt := [] }

/-- `setNumVertices`, src/graph/TwoStepGraphBuilder.cpp:66-72. -/
def setNumVertices (n : Nat) (b : TwoStep) : TwoStep := { b with nv := n }

/-- `setUnitVertexWeight`, src/graph/TwoStepGraphBuilder.cpp:74-78. -/
def setUnitVertexWeight (u : Bool) (b : TwoStep) : TwoStep := { b with unitV := u }

/-- `setUnitEdgeWeight`, src/graph/TwoStepGraphBuilder.cpp:80-84. -/
def setUnitEdgeWeight (u : Bool) (b : TwoStep) : TwoStep := { b with unitE := u }

/-- `beginVertexPhase`, src/graph/TwoStepGraphBuilder.cpp:86-96. -/
def beginVertexPhase (b : TwoStep) : TwoStep :=
  { b with pre := List.replicate (uadd b.nv 1) 0,
           vwgt := if b.unitV then b.vwgt else Mem.alloc b.nv }

/-- `setVertexNumEdges`, src/graph/TwoStepGraphBuilder.hpp:115-123. -/
def setVertexNumEdges (v d : Nat) (b : TwoStep) : Res TwoStep := do
  let pre ← wr b.pre v d
  .ok { b with pre := pre }

/-- `incVertexNumEdges`, src/graph/TwoStepGraphBuilder.hpp:131-140. -/
def incVertexNumEdges (v : Nat) (b : TwoStep) : Res TwoStep := do
  let old ← rd b.pre v
  let pre ← wr b.pre v (uadd old 1)
  .ok { b with pre := pre }

/-- `setVertexWeight`, src/graph/TwoStepGraphBuilder.hpp:149-157. -/
def setVertexWeight (v w : Nat) (b : TwoStep) : Res TwoStep := do
  let vw ← b.vwgt.wr v w
  .ok { b with vwgt := vw }

/-- The loop that shifts the edge prefix, src/graph/TwoStepGraphBuilder.cpp:109-111:
`for (v = n; v > 0; --v) pre[v] = pre[v-1]`. -/
def shiftRight : Nat → List Nat → Res (List Nat)
  | 0, pre => .ok pre
  | v + 1, pre => do
    let x ← rd pre v
    let pre ← wr pre (v + 1) x
    shiftRight v pre

/-- `beginEdgePhase`, src/graph/TwoStepGraphBuilder.cpp:99-119. -/
def beginEdgePhase (b : TwoStep) : Res TwoStep := do
  let pre := prefixSumExclusive b.pre
  let ne ← rd pre b.nv
  let pre ← shiftRight b.nv pre
  .ok { b with ne := ne, pre := pre, elist := Mem.alloc ne,
               ewgt := if b.unitE then b.ewgt else Mem.alloc ne }

/-- `addEdgeToVertex`, src/graph/TwoStepGraphBuilder.hpp:167-181. -/
def addEdgeToVertex (v dest w : Nat) (b : TwoStep) : Res TwoStep := do
  let index ← rd b.pre (v + 1)
  let pre ← wr b.pre (v + 1) (uadd index 1)
  let el ← b.elist.wr index dest
  if b.unitE then .ok { b with pre := pre, elist := el }
  else do
    let ew ← b.ewgt.wr index w
    .ok { b with pre := pre, elist := el, ewgt := ew }

/-- `finish`, src/graph/TwoStepGraphBuilder.cpp:122-137. Handing over an array with an uninitialised cell
counts as undefined behaviour. -/
def finish (b : TwoStep) : Res Graph := do
  let el ← b.elist.freeze
  let vw ← b.vwgt.freeze
  let ew ← b.ewgt.freeze
  Graph.make b.pre el vw ew

end TwoStep

/-! ### Subgraphs -/

/-- Members of `class Subgraph`, src/graph/Subgraph.hpp. -/
structure Subgraph where
  superMap : List Nat
  graph : Graph
deriving DecidableEq, Repr

/-- Call a method on the `p`-th builder, `builder[p].f()`, as in src/graph/SubgraphExtractor.cpp:63, 87, 123, 165, 186. -/
def onNth (bs : List β) (p : Nat) (f : β → Res β) : Res (List β) := do
  let b ← rd bs p
  let b ← f b
  wr bs p b

/-- The label recorded for vertex `v`, src/graph/SubgraphExtractor.cpp:140-144. -/
def superLabel (labels : Option (List Nat)) (v : Nat) : Res Nat :=
  match labels with
  | some l => rd l v
  | none => .ok v

/-- Populating the super-map and the sub-map, src/graph/SubgraphExtractor.cpp:134-148. The state is the vertex
counters (reset to zero), the super-maps and the sub-map. -/
def fillMaps (g : Graph) (part : Partitioning) (labels : Option (List Nat))
    (s : List Nat × List Mem × Mem) : Res (List Nat × List Mem × Mem) :=
  (List.range g.nv).foldlM (fun (s : List Nat × List Mem × Mem) v => do
    let whr ← rd part.asg v
    let subV ← rd s.1 whr
    let counts ← wr s.1 whr (uadd subV 1)
    let x ← superLabel labels v
    let supers ← onNth s.2.1 whr fun m => m.wr subV x
    let sub ← s.2.2.wr v subV
    .ok (counts, supers, sub)) s

/-- `fillVertexWeights`, src/graph/SubgraphExtractor.cpp:47-68. -/
def fillVertexWeights (g : Graph) (part : Partitioning) (subMap : Mem) (bs : List TwoStep) :
    Res (List TwoStep) :=
  (List.range g.nv).foldlM (fun bs v => do
    let vSub ← subMap.rd v
    let pid ← rd part.asg v
    let w ← g.vwgtOf true v
    onNth bs pid (TwoStep.setVertexWeight vSub w)) bs

/-- src/graph/SubgraphExtractor.cpp:151-153: vertex weights are only filled in if the graph has some. -/
def maybeFillWeights (g : Graph) (part : Partitioning) (subMap : Mem) (bs : List TwoStep) :
    Res (List TwoStep) :=
  if !g.unitVtx then fillVertexWeights g part subMap bs else .ok bs

/-- Counting edges, src/graph/SubgraphExtractor.cpp:155-169. -/
def countSubEdges (g : Graph) (part : Partitioning) (subMap : Mem) (bs : List TwoStep) :
    Res (List TwoStep) :=
  (List.range g.nv).foldlM (fun bs v => do
    let subV ← subMap.rd v
    let vPid ← rd part.asg v
    let ns ← g.nbrsOf false v
    ns.foldlM (fun bs q => do
      let uPid ← rd part.asg q.1
      if vPid = uPid then onNth bs vPid (TwoStep.incVertexNumEdges subV) else .ok bs) bs) bs

/-- `fillEdges`, src/graph/SubgraphExtractor.cpp:71-96. -/
def fillSubEdges (g : Graph) (has : Bool) (part : Partitioning) (subMap : Mem) (bs : List TwoStep) :
    Res (List TwoStep) :=
  (List.range g.nv).foldlM (fun bs v => do
    let subV ← subMap.rd v
    let vPid ← rd part.asg v
    let ns ← g.nbrsOf has v
    ns.foldlM (fun bs q => do
      let uPid ← rd part.asg q.1
      if vPid = uPid then do
        let subU ← subMap.rd q.1
        onNth bs vPid (TwoStep.addEdgeToVertex subV subU q.2)
      else .ok bs) bs) bs

/-- Configuring one builder, src/graph/SubgraphExtractor.cpp:123-127. -/
def TwoStep.configured (g : Graph) (n : Nat) : TwoStep :=
  (((TwoStep.new.setNumVertices n).setUnitEdgeWeight g.unitEdge).setUnitVertexWeight
    g.unitVtx).beginVertexPhase

/-- `SubgraphExtractor::partitions(graph, part, labels)`, src/graph/SubgraphExtractor.cpp:106-191. -/
def extractPartitions (g : Graph) (part : Partitioning) (labels : Option (List Nat)) :
    Res (List Subgraph) := do
  let counts ← part.calcVertexCounts
  let m ← fillMaps g part labels
    (List.replicate counts.length 0, counts.map Mem.alloc, Mem.alloc g.nv)
  let bs := counts.map (TwoStep.configured g)
  let bs ← maybeFillWeights g part m.2.2 bs
  let bs ← countSubEdges g part m.2.2 bs
  let bs ← bs.mapM TwoStep.beginEdgePhase
  let bs ← fillSubEdges g (!g.unitEdge) part m.2.2 bs
  (List.range counts.length).mapM fun pid => do
    let b ← rd bs pid
    let sm ← rd m.2.1 pid
    let sg ← b.finish
    let sm ← sm.freeze
    .ok { superMap := sm, graph := sg }

/-- `Subgraph(graph)`, src/graph/Subgraph.cpp:51-57: the identity super-map. -/
def Subgraph.ofGraph (g : Graph) : Subgraph := { superMap := List.range g.nv, graph := g }

/-- `Subgraph::mapPartitioning`, src/graph/Subgraph.cpp:79-90. The caller's label array may be
uninitialised. -/
def Subgraph.mapPartitioning (s : Subgraph) (p : Partitioning) (labels : Mem) (offset : Nat) : Res Mem :=
  (List.range s.graph.nv).foldlM (fun labels v => do
    let a ← rd p.asg v
    let sup ← rd s.superMap v
    Mem.wr labels sup (uadd a offset)) labels

/-- `MappedGraphWrapper::mapPartitioning`, src/graph/MappedGraphWrapper.cpp:58-67. -/
def wrapperMapPartitioning (g : Graph) (p : Partitioning) (labels : Mem) (offset : Nat) : Res Mem :=
  (List.range g.nv).foldlM (fun labels v => do
    let a ← rd p.asg v
    Mem.wr labels v (uadd a offset)) labels

end Poros
