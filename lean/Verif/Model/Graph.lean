import Verif.Ext
/-
Model of src/graph/Graph.hpp, Graph.cpp.
-/
namespace Poros
open Res

/-- Members of `class Graph`, src/graph/Graph.hpp:351-364. Arrays are lists; ownership and moves are not
modelled. All stored numbers stand for `uint32_t` values. -/
structure Graph where
  unitEdge : Bool
  unitVtx : Bool
  nv : Nat
  ne : Nat
  totVtx : Nat
  totEdge : Nat
  xadj : List Nat
  adjncy : List Nat
  vwgt : List Nat
  adjwgt : List Nat
deriving DecidableEq, Repr

/-- `emptyIfNull` followed by reading the array, src/graph/Graph.cpp:47-57: a null weight array becomes an
empty one. -/
def emptyIfNull : Option (List Nat) → List Nat
  | none => []
  | some l => l

/-- The caller passed an array with fewer than `n` entries (not a test in the code: reading it would be out of bounds), for the
constructor in src/graph/Graph.cpp. -/
def shorter (w : Option (List Nat)) (n : Nat) : Prop :=
  match w with
  | none => False
  | some l => l.length < n

instance : Decidable (shorter w n) := by unfold shorter; cases w <;> infer_instance

/-- One half of the constructor src/graph/Graph.cpp:97-131: total weight and unit flag for `n` weights
(lines 97-113 for vertices, 116-131 for edges; the two blocks have the same shape). -/
def sumWeights (n : Nat) (w : List Nat) : Res (Nat × Bool) :=
  if n > 0 then
    if w.length = 0 then .ok (n % M32, true)
    else (List.range n).foldlM (fun (s : Nat × Bool) i => do
      let x ← rd w i
      .ok (uadd s.1 x, if x ≠ 1 then false else s.2)) (0, true)
  else .ok (0, true)

/-- `Graph(edgePrefix, edgeList, vertexWeight, edgeWeight)`, src/graph/Graph.cpp:81-133. -/
def Graph.make (xadj adjncy vwgt adjwgt : List Nat) : Res Graph := do
  let nv := usub xadj.length 1
  let ne := adjncy.length
  let v ← sumWeights nv vwgt
  let e ← sumWeights ne adjwgt
  .ok { unitEdge := e.2, unitVtx := v.2, nv := nv, ne := ne, totVtx := v.1, totEdge := e.1,
        xadj := xadj, adjncy := adjncy, vwgt := vwgt, adjwgt := adjwgt }

/-- The constructor with explicit totals and flags, src/graph/Graph.cpp:135-155. -/
def Graph.makeRaw (xadj adjncy vwgt adjwgt : List Nat) (totV totE : Nat) (unitV unitE : Bool) : Graph :=
  { unitEdge := unitE, unitVtx := unitV, nv := usub xadj.length 1, ne := adjncy.length,
    totVtx := totV, totEdge := totE, xadj := xadj, adjncy := adjncy, vwgt := vwgt, adjwgt := adjwgt }

/-- The pointer constructor, src/graph/Graph.cpp:66-79: the caller's arrays hold at least
`numVertices+1`, `numEdges`, `numVertices`, `numEdges` entries. Reading past a caller's array is `ub`. -/
def Graph.ofPtrs (nv ne : Nat) (xadj adjncy : List Nat) (vwgt adjwgt : Option (List Nat)) : Res Graph :=
  if xadj.length < nv + 1 ∨ adjncy.length < ne ∨
      shorter vwgt nv ∨ shorter adjwgt ne
  then .ub
  else Graph.make (xadj.take (nv + 1)) (adjncy.take ne) ((emptyIfNull vwgt).take nv)
    ((emptyIfNull adjwgt).take ne)

namespace Graph

/-- `edgesOf(v)`, src/graph/Graph.hpp:249-254, iterated as `EdgeSet` (src/graph/EdgeSet.hpp:40-130): edge
indices from `edgePrefix[v]` up to `edgePrefix[v+1]`. A decreasing pair would run over the whole index
space and is `ub`. -/
def edgesOf (g : Graph) (v : Nat) : Res (List Nat) := do
  let b ← rd g.xadj v
  let e ← rd g.xadj (v + 1)
  if b ≤ e then .ok (List.range' b (e - b)) else .ub

/-- `degreeOf(v)`, src/graph/Graph.hpp:263-267. -/
def degreeOf (g : Graph) (v : Nat) : Res Nat := do
  let b ← rd g.xadj v
  let e ← rd g.xadj (v + 1)
  .ok (usub e b)

/-- `destinationOf(e)`, src/graph/Graph.hpp:276-280. -/
def dest (g : Graph) (e : Nat) : Res Nat := rd g.adjncy e

/-- `weightOf<HAS_EDGE_WEIGHT>(Edge)`, src/graph/Graph.hpp:289-300. -/
def ewgt (g : Graph) (has : Bool) (e : Nat) : Res Nat := if has then rd g.adjwgt e else .ok 1

/-- `weightOf<HAS_VERTEX_WEIGHT>(Vertex)`, src/graph/Graph.hpp:309-319. -/
def vwgtOf (g : Graph) (has : Bool) (v : Nat) : Res Nat := if has then rd g.vwgt v else .ok 1

/-- The (destination, weight) pairs a loop `for (Edge e : edgesOf(v))` sees, src/graph/Graph.hpp:249, 290-300. Simplification: the pairs are
read before the loop body runs, also where the body leaves the loop early (on the valid graphs of the
theorems these extra reads are in bounds and the graph is constant). -/
def nbrsOf (g : Graph) (has : Bool) (v : Nat) : Res (List (Nat × Nat)) := do
  let es ← g.edgesOf v
  es.mapM fun e => do
    let u ← g.dest e
    let w ← g.ewgt has e
    .ok (u, w)

end Graph
end Poros
