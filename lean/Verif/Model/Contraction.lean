import Verif.Model.Aggregation
/-
Model of src/graph/OneStepGraphBuilder.hpp/.cpp and src/aggregation/SummationContractor.cpp.
Array sizes computed as `n + 1` are not wrapped: vertex and edge counts are below 2^32 - 1 in every theorem.
-/
namespace Poros
open Res

/-- Members of `class OneStepGraphBuilder`, src/graph/OneStepGraphBuilder.hpp:127-141. -/
structure OneStep where
  nv : Nat
  ne : Nat
  pre : Mem
  elist : Mem
  vwgt : Mem
  ewgt : Mem
  totV : Nat
  totE : Nat
  ht : List Nat
deriving DecidableEq, Repr

namespace OneStep

/-- The constructor, src/graph/OneStepGraphBuilder.cpp:44-66. -/
def new (numVertices maxNumEdges : Nat) : Res OneStep := do
  let pre ← (Mem.alloc (numVertices + 1)).wr 0 0
  let ht ← wr (List.replicate (numVertices + 1) NULL32) 0 0
  let el ← (Mem.alloc (maxNumEdges + 1)).wr 0 0
  let ew ← (Mem.alloc (maxNumEdges + 1)).wr 0 0
  .ok { nv := 0, ne := 1, pre := pre, elist := el, vwgt := Mem.alloc numVertices, ewgt := ew,
        totV := 0, totE := 0, ht := ht }

/-- `addEdge(dest, wgt)`, src/graph/OneStepGraphBuilder.hpp:65-81. -/
def addEdge (b : OneStep) (dst w : Nat) : Res OneStep := do
  let idx ← rd b.ht dst
  if idx = NULL32 then do
    let ht ← wr b.ht dst b.ne
    let el ← b.elist.wr b.ne dst
    let ew ← b.ewgt.wr b.ne w
    .ok { b with ht := ht, elist := el, ewgt := ew, ne := uadd b.ne 1, totE := uadd b.totE w }
  else do
    let old ← b.ewgt.rd idx
    let ew ← b.ewgt.wr idx (uadd old w)
    .ok { b with ewgt := ew, totE := uadd b.totE w }

/-- `finishVertex(vertexWeight)`, src/graph/OneStepGraphBuilder.hpp:89-117. -/
def finishVertex (b : OneStep) (w : Nat) : Res OneStep := do
  let this := b.nv
  let nv := uadd b.nv 1
  let first ← b.pre.rd this
  let ht ← (List.range' first (b.ne - first)).foldlM (fun ht j => do
    let u ← b.elist.rd j
    wr ht u NULL32) b.ht
  let last := usub b.ne 1
  let sw ← b.ewgt.rd first
  let totE := usub b.totE sw
  let lu ← b.elist.rd last
  let el ← b.elist.wr first lu
  let lw ← b.ewgt.rd last
  let ew ← b.ewgt.wr first lw
  let vwgt ← b.vwgt.wr this w
  let pre ← b.pre.wr nv last
  let ht ← wr ht nv last
  let el ← el.wr last nv
  let ew ← ew.wr last 0
  .ok { b with nv := nv, totE := totE, elist := el, ewgt := ew, totV := uadd b.totV w, vwgt := vwgt,
               pre := pre, ht := ht }

/-- `finish()`, src/graph/OneStepGraphBuilder.cpp:75-96. -/
def finish (b : OneStep) : Res Graph := do
  let ne := usub b.ne 1
  let pre ← b.pre.freeze
  let el ← Mem.freeze (b.elist.take ne)
  let vwgt ← b.vwgt.freeze
  let ew ← Mem.freeze (b.ewgt.take ne)
  .ok (Graph.makeRaw pre el vwgt ew b.totV b.totE false false)

end OneStep

/-- The loop over the vertices of one group, src/aggregation/SummationContractor.cpp:65-76. -/
def contractGroup (g : Graph) (hasV hasE : Bool) (a : Aggregation) (group : List Nat)
    (b : OneStep) : Res (OneStep × Nat) :=
  group.foldlM (fun (s : OneStep × Nat) v => do
    let vw ← g.vwgtOf hasV v
    let ns ← g.nbrsOf hasE v
    let b ← ns.foldlM (fun (b : OneStep) q => do
      let c ← a.coarse q.1
      b.addEdge c q.2) s.1
    .ok (b, uadd s.2 vw)) (b, 0)

/-- `contractGraph<HAS_VERTEX_WEIGHTS, HAS_EDGE_WEIGHTS>`, src/aggregation/SummationContractor.cpp:51-85. -/
def contractGraph (g : Graph) (hasV hasE : Bool) (a : Aggregation) : Res Graph := do
  let b ← OneStep.new a.nc g.ne
  let b ← (List.range a.nc).foldlM (fun b c => do
    let group ← a.group c
    let r ← contractGroup g hasV hasE a group b
    r.1.finishVertex r.2) b
  b.finish

/-- `SummationContractor::contract`, src/aggregation/SummationContractor.cpp:107-123. -/
def contract (g : Graph) (a : Aggregation) : Res Graph := contractGraph g (!g.unitVtx) (!g.unitEdge) a

end Poros
