import Verif.Model.Contraction
import Verif.Model.Connectivity
/-
Model of src/multilevel/DiscreteCoarseGraph.cpp, src/partition/TwoWayConnectivityBuilder.hpp/.cpp and
src/partition/PartitioningInformation.hpp.
-/
namespace Poros
open Res

/-- `fillCoarseMap(data)`, src/aggregation/Aggregation.cpp:100-106, into uninitialised memory. -/
def Aggregation.fillCoarseMap (a : Aggregation) (data : Mem) : Res Mem :=
  (List.range a.nf).foldlM (fun data v => do
    let c ← rd a.cmap v
    data.wr v c) data

/-- Members of `class DiscreteCoarseGraph` (src/multilevel/DiscreteCoarseGraph.hpp): the fine graph, the coarse
graph and the coarse map. -/
structure CoarseGraph where
  fine : Graph
  coarse : Graph
  cmap : Mem

/-- The constructor, src/multilevel/DiscreteCoarseGraph.cpp:117-125. -/
def CoarseGraph.make (g : Graph) (a : Aggregation) : Res CoarseGraph := do
  let cg ← contract g a
  let cmap ← a.fillCoarseMap (Mem.alloc g.nv)
  .ok { fine := g, coarse := cg, cmap := cmap }

/-- Members of `class TwoWayConnectivityBuilder`, src/partition/TwoWayConnectivityBuilder.hpp:92-93: the fields
`external` and `internal` of the array of `vertex_struct`, both uninitialised after `begin`. -/
structure ConnBuilder where
  ext : Mem
  int : Mem

namespace ConnBuilder

/-- `begin(numVertices)`, src/partition/TwoWayConnectivityBuilder.cpp:53-57. -/
def start (n : Nat) : ConnBuilder := { ext := Mem.alloc n, int := Mem.alloc n }

/-- `setInternalConnectivityOf`, src/partition/TwoWayConnectivityBuilder.hpp:63-69. -/
def setInternal (b : ConnBuilder) (v w : Nat) : Res ConnBuilder := do
  let m ← b.int.wr v w
  .ok { b with int := m }

/-- `setExternalConnectivityOf`, src/partition/TwoWayConnectivityBuilder.hpp:77-83. -/
def setExternal (b : ConnBuilder) (v w : Nat) : Res ConnBuilder := do
  let m ← b.ext.wr v w
  .ok { b with ext := m }

/-- `finish()`, src/partition/TwoWayConnectivityBuilder.cpp:60-63, which hands the array to the constructor
src/partition/TwoWayConnectivity.cpp:131-142; that reads every entry. -/
def finish (P : SetImpl) (b : ConnBuilder) : Res (Conn P) := do
  let e ← b.ext.freeze
  let i ← b.int.freeze
  Conn.ofArray P (e.zip i)

end ConnBuilder

/-- The weight of all edges of an interior vertex, src/multilevel/DiscreteCoarseGraph.cpp:95-102. -/
def interiorSum (g : Graph) (has : Bool) (v : Nat) : Res Nat :=
  if has then do
    let ns ← g.nbrsOf has v
    ns.foldlM (fun (acc : Nat) (q : Nat × Nat) => .ok (uadd acc q.2)) 0
  else g.degreeOf v

/-- The body of the loop over vertices of `fillInConnectivity<HAS_EDGE_WEIGHTS>`,
src/multilevel/DiscreteCoarseGraph.cpp:71-106. -/
def fillInOne {P : SetImpl} (g : Graph) (has : Bool) (part : Partitioning) (cc : Conn P) (cmap : Mem)
    (b : ConnBuilder) (v : Nat) : Res ConnBuilder := do
  let c ← cmap.rd v
  let inB ← cc.border.has c
  if inB then do
    let home ← rd part.asg v
    let ns ← g.nbrsOf has v
    let s ← ns.foldlM (fun (s : Nat × Nat) q => do
      let other ← rd part.asg q.1
      if other = home then .ok (uadd s.1 q.2, s.2) else .ok (s.1, uadd s.2 q.2)) (0, 0)
    let b ← b.setInternal v s.1
    b.setExternal v s.2
  else do
    let sum ← interiorSum g has v
    let b ← b.setInternal v sum
    b.setExternal v 0

/-- `fillInConnectivity<HAS_EDGE_WEIGHTS>`, src/multilevel/DiscreteCoarseGraph.cpp:62-108. -/
def fillInConnectivity {P : SetImpl} (g : Graph) (has : Bool) (part : Partitioning) (cc : Conn P) (cmap : Mem)
    (b : ConnBuilder) : Res ConnBuilder :=
  (List.range g.nv).foldlM (fillInOne g has part cc cmap) b

/-- `project(info)`, src/multilevel/DiscreteCoarseGraph.cpp:140-176. -/
def CoarseGraph.project {P : SetImpl} (cg : CoarseGraph) (cp : Partitioning) (cc : Conn P) :
    Res (Partitioning × Conn P) := do
  let fp ← (List.range cg.fine.nv).foldlM (fun (fp : Partitioning) v => do
    let c ← cg.cmap.rd v
    let q ← rd cp.asg c
    fp.assign cg.fine v q) (Partitioning.fresh cp.pw.length cg.fine)
  let b ← fillInConnectivity cg.fine (!cg.fine.unitEdge) fp cc cg.cmap (ConnBuilder.start cg.fine.nv)
  let conn ← b.finish P
  .ok (fp.setCut cp.cut, conn)

end Poros
