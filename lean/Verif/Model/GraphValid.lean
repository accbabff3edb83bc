import Verif.Model.Graph
/-
Model of the debug-build check `Graph::isValid`, src/graph/Graph.cpp:183-251, and of the iteration it uses.
-/
namespace Poros
open Res

/-- A loop that returns false from the function as soon as its body does, as those of src/graph/Graph.cpp:223-248. -/
def allM (f : α → Res Bool) : List α → Res Bool
  | [] => .ok true
  | x :: xs => do
    let b ← f x
    if b then allM f xs else .ok false

namespace Graph

/-- The search for the reverse edge of edge `e` of `v`, src/graph/Graph.cpp:229-240 and 241-246: the first edge
back to `v` decides. -/
def revOk (g : Graph) (v e : Nat) : List Nat → Res Bool
  | [] => .ok false
  | f :: fs => do
    let d ← g.dest f
    if v = d then
      if g.unitEdge then .ok true
      else do
        let w ← g.ewgt true e
        let w' ← g.ewgt true f
        .ok (decide (w = w'))
    else revOk g v e fs

/-- src/graph/Graph.cpp:223-248: the edges of one vertex have return edges. -/
def checkVertex (g : Graph) (v : Nat) : Res Bool := do
  let es ← g.edgesOf v
  allM (fun e => do
    let u ← g.dest e
    let fs ← g.edgesOf u
    revOk g v e fs) es

/-- `isValid()`, src/graph/Graph.cpp:184-251. The messages to the error stream are dropped. `vertices()` and
`edges()` (src/graph/Graph.hpp:229-246) run over all indices in increasing order. -/
def isValid (g : Graph) : Res Bool := do
  let vs ← (List.range g.nv).foldlM (fun s v => do
    let w ← g.vwgtOf (!g.unitVtx) v
    .ok (uadd s w)) 0
  if vs ≠ g.totVtx then .ok false else do
  let d ← allM (fun e => do
    let u ← g.dest e
    .ok (decide (u < g.nv))) (List.range g.ne)
  if !d then .ok false else do
  let es ← (List.range g.ne).foldlM (fun s e => do
    let w ← g.ewgt (!g.unitEdge) e
    .ok (uadd s w)) 0
  if es ≠ g.totEdge then .ok false else
  allM (checkVertex g) (List.range g.nv)

end Graph
end Poros
