import Verif.Model.Graph
/-
Model of src/graph/GridGraphGenerator.hpp/.cpp.
-/
namespace Poros
open Res

/-- `Grid::numVertices`, src/graph/GridGraphGenerator.cpp:64-67 (32-bit; wrapping at each product is the same as reducing
once). -/
def gridNumVertices (X Y Z : Nat) : Nat := X * Y * Z % M32

/-- `Grid::numEdges`, src/graph/GridGraphGenerator.cpp:69-74 (32-bit; reduced once). -/
def gridNumEdges (X Y Z : Nat) : Nat :=
  (usub X 1 * (Y * Z) + usub Y 1 * (X * Z) + usub Z 1 * (X * Y)) * 2 % M32

/-- `Grid::get`, src/graph/GridGraphGenerator.cpp:91-101 (32-bit; reduced once). -/
def gridGet (X Y x y z : Nat) : Nat := ((z * Y + y) * X + x) % M32

/-- The local variables of `generate`, src/graph/GridGraphGenerator.cpp:159-162, 175-176. -/
structure GridState where
  edge : Nat
  vertex : Nat
  xadj : Mem
  elist : Mem
  ewgt : Mem
deriving DecidableEq, Repr

/-- One block `edgeList[edge] = dest; edgeWeight[edge] = srcEdgeWeights[i]; ++edge;`, e.g.
src/graph/GridGraphGenerator.cpp:185-187. -/
def gridPlace (src : List Nat) (dest i : Nat) (s : GridState) : Res GridState := do
  let el ← Mem.wr s.elist s.edge dest
  let w ← rd src (i % M32)
  let ew ← Mem.wr s.ewgt s.edge w
  .ok { s with elist := el, ewgt := ew, edge := uadd s.edge 1 }

/-- An `if` without `else` around such a block, src/graph/GridGraphGenerator.cpp:181-228. -/
def gridIf (c : Prop) [Decidable c] (f : GridState → Res GridState) (s : GridState) : Res GridState :=
  if c then f s else .ok s

/-- The body of the three loops, src/graph/GridGraphGenerator.cpp:181-228. -/
def gridVertex (X Y Z : Nat) (src : List Nat) (x y z : Nat) (s : GridState) : Res GridState := do
  let source := gridGet X Y x y z
  let s ← gridIf (x > 0) (gridPlace src (gridGet X Y (x - 1) y z) (gridGet X Y (x - 1) y z * 3)) s
  let s ← gridIf (x < usub X 1) (gridPlace src (gridGet X Y (x + 1) y z) (source * 3)) s
  let s ← gridIf (y > 0) (gridPlace src (gridGet X Y x (y - 1) z) (gridGet X Y x (y - 1) z * 3 + 1)) s
  let s ← gridIf (y < usub Y 1) (gridPlace src (gridGet X Y x (y + 1) z) (source * 3 + 1)) s
  let s ← gridIf (z > 0) (gridPlace src (gridGet X Y x y (z - 1)) (gridGet X Y x y (z - 1) * 3 + 2)) s
  let s ← gridIf (z < usub Z 1) (gridPlace src (gridGet X Y x y (z + 1)) (source * 3 + 2)) s
  let xa ← Mem.wr s.xadj (uadd s.vertex 1) s.edge
  .ok { s with xadj := xa, vertex := uadd s.vertex 1 }

/-- The loops over `z`, `y`, `x`, src/graph/GridGraphGenerator.cpp:178-180. -/
def gridLoops (X Y Z : Nat) (src : List Nat) (s : GridState) : Res GridState :=
  (List.range Z).foldlM (fun s z => (List.range Y).foldlM (fun s y => (List.range X).foldlM (fun s x =>
    gridVertex X Y Z src x y z s) s) s) s

/-- `GridGraphGenerator::generate`, src/graph/GridGraphGenerator.cpp:154-241. `src` is `srcEdgeWeights` (of length
`numVertices*3`) and `vws` is `vertexWeight`, as filled by the external `sl::Random::fillWithRange` with the ranges set by
`setRandomEdgeWeight`, `setRandomVertexWeight` (lines 136-151). -/
def gridGenerate (X Y Z : Nat) (src vws : List Nat) : Res Graph := do
  let n := gridNumVertices X Y Z
  let m := gridNumEdges X Y Z
  let xa ← Mem.wr (Mem.alloc (uadd n 1)) 0 0
  let s ← gridLoops X Y Z src { edge := 0, vertex := 0, xadj := xa, elist := Mem.alloc m, ewgt := Mem.alloc m }
  let xadj ← s.xadj.freeze
  let elist ← s.elist.freeze
  let ewgt ← s.ewgt.freeze
  Graph.make xadj elist vws ewgt

end Poros
