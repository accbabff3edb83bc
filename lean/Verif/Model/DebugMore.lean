import Verif.Model.Debug
import Verif.Model.Grid
/-
Model of the debug build, part 3: code that a call does not reach, the random bisectors and the grid generator. See
Model/DebugFM.lean for the conventions.
-/
namespace Poros
open Res

variable {E : Env}

/-! ### random bisection -/

/-- The loop of `fillLeft<HAS_VERTEX_WEIGHTS>`, src/partition/RandomBisector.cpp:171-198, with the assertions of the
functions it calls. -/
def fillLeftD (g : Graph) (has : Bool) (t : Target E.fp) : List Nat → Partitioning → Res Partitioning
  | [], p => .ok p
  | v :: vs, p => do
    let w0 ← rd p.pw 0
    let w ← g.vwgtOf has v
    let m0 ← rd t.mx 0
    if uadd w0 w > m0 then .ok p else do
    let balance ← calcMaxImbalanceD g p t
    let p ← p.moveD g v 0
    let after ← calcMaxImbalanceD g p t
    if E.fp.lt balance after then p.moveD g v 1 else fillLeftD g has t vs p

/-- `fillVertexWeightPairs<HAS_VERTEX_WEIGHTS>`, src/partition/RandomBisector.cpp:85-107 with the assertion of line 107.
`left` has become the number of vertices of the left side; `right` (64 bits) starts at `numVertices() - 1`, computed in 32
bits, and is decremented once for every vertex of the right side. -/
def weightPairsD (g : Graph) (has : Bool) (p : Partitioning) : Res (List (Nat × Nat) × List (Nat × Nat)) := do
  let s ← weightPairs g has p
  let right := (usub g.nv 1 + 2 ^ 64 - s.2.length) % 2 ^ 64
  check (s.1.length = (right + 1) % 2 ^ 64)
  .ok s

/-- `swapBalanceRight`, src/partition/RandomBisector.cpp:124-168. -/
def swapBalanceRightD (E : Env) (g : Graph) (maxL maxR : Nat) (p : Partitioning) : Res Partitioning := do
  let (ls, rs) ← weightPairsD g (!g.unitVtx) p
  let left := sortPairs E ls
  let all := left ++ sortPairs E rs
  let w1 ← rd p.pw 1
  let w0 ← rd p.pw 0
  let minDelta := toI32 (usub w1 maxR)
  let maxDelta := toI32 (usub maxL w0)
  let last ← lastPair all
  let weight := toI32 last.2
  let minOffset ← isub weight maxDelta
  let maxOffset ← isub weight minDelta
  let lower := lowerBound left minOffset
  let upper := lowerBound left maxOffset
  if lower < upper then do
    let p ← p.moveD g last.1 0
    let l ← rd all lower
    p.moveD g l.1 1
  else .ok p

/-- The end of `RandomBisector::execute`, src/partition/RandomBisector.cpp:243-252, with the assertion of lines
244-245. -/
def randBalanceD (t : Target E.fp) (g : Graph) (p : Partitioning) : Res Partitioning := do
  let w0 ← rd p.pw 0
  let m0 ← rd t.mx 0
  check (w0 ≤ m0)
  let w1 ← rd p.pw 1
  let m1 ← rd t.mx 1
  if w1 > m1 then do
    let m0 ← rd t.mx 0
    swapBalanceRightD E g m0 m1 p
  else .ok p

/-- `RandomBisector::execute`, src/partition/RandomBisector.cpp:224-257. -/
def randomBisectD : Bisector E := fun t g r => do
  let start ← Partitioning.freshD 2 g
  let p ← start.assignAll g 1
  let (order, r) := randomOrder E g r
  let p ← fillLeftD g (!g.unitVtx) t order p
  let p ← randBalanceD t g p
  let p ← p.recalcCut g
  .ok (p, r)

/-- `RandomFMBisector::execute`, src/partition/RandomFMBisector.cpp:61-72, with the refiner of the constructor
(lines 41-48). -/
def randomFMBisectD (maxIters : Nat) : Bisector E := fun t g r => do
  let (p, r) ← randomBisectD t g r
  let c ← Conn.fromPartitioning E.set g p
  let o ← fmRefineD g t maxIters 1000 p c
  .ok (o.1, r)

/-! ### grids -/

/-- `Grid::get`, src/graph/GridGraphGenerator.cpp:91-101 with the assertions of lines 96-98. -/
def gridGetD (X Y Z x y z : Nat) : Res Nat := do
  check (x < X)
  check (y < Y)
  check (z < Z)
  .ok (gridGet X Y x y z)

/-- The block for an edge back, e.g. src/graph/GridGraphGenerator.cpp:182-188: the weight is that of the edge stored at
the other end, in direction `d`. -/
def gridBackD (X Y Z : Nat) (src : List Nat) (x y z d : Nat) (s : GridState) : Res GridState := do
  let dest ← gridGetD X Y Z x y z
  gridPlace src dest (dest * 3 + d) s

/-- The block for an edge forward, e.g. src/graph/GridGraphGenerator.cpp:189-195. -/
def gridForwardD (X Y Z : Nat) (src : List Nat) (source x y z d : Nat) (s : GridState) : Res GridState := do
  let dest ← gridGetD X Y Z x y z
  gridPlace src dest (source * 3 + d) s

/-- The body of the three loops, src/graph/GridGraphGenerator.cpp:181-228. -/
def gridVertexD (X Y Z : Nat) (src : List Nat) (x y z : Nat) (s : GridState) : Res GridState := do
  let source ← gridGetD X Y Z x y z
  let s ← gridIf (x > 0) (gridBackD X Y Z src (x - 1) y z 0) s
  let s ← gridIf (x < usub X 1) (gridForwardD X Y Z src source (x + 1) y z 0) s
  let s ← gridIf (y > 0) (gridBackD X Y Z src x (y - 1) z 1) s
  let s ← gridIf (y < usub Y 1) (gridForwardD X Y Z src source x (y + 1) z 1) s
  let s ← gridIf (z > 0) (gridBackD X Y Z src x y (z - 1) 2) s
  let s ← gridIf (z < usub Z 1) (gridForwardD X Y Z src source x y (z + 1) 2) s
  let xa ← Mem.wr s.xadj (uadd s.vertex 1) s.edge
  .ok { s with xadj := xa, vertex := uadd s.vertex 1 }

/-- The loops over `z`, `y`, `x`, src/graph/GridGraphGenerator.cpp:178-180. -/
def gridLoopsD (X Y Z : Nat) (src : List Nat) (s : GridState) : Res GridState :=
  (List.range Z).foldlM (fun s z => (List.range Y).foldlM (fun s y => (List.range X).foldlM (fun s x =>
    gridVertexD X Y Z src x y z s) s) s) s

/-- The constructor of `Grid` (src/graph/GridGraphGenerator.cpp:51-62, assertions of lines 59-61) and
`GridGraphGenerator::generate`, lines 154-241 with the assertions of lines 232-233. -/
def gridGenerateD (X Y Z : Nat) (src vws : List Nat) : Res Graph := do
  check (X > 0)
  check (Y > 0)
  check (Z > 0)
  let n := gridNumVertices X Y Z
  let m := gridNumEdges X Y Z
  let xa ← Mem.wr (Mem.alloc (uadd n 1)) 0 0
  let s ← gridLoopsD X Y Z src { edge := 0, vertex := 0, xadj := xa, elist := Mem.alloc m, ewgt := Mem.alloc m }
  check (s.vertex = n)
  check (s.edge = m)
  let xadj ← s.xadj.freeze
  let elist ← s.elist.freeze
  let ewgt ← s.ewgt.freeze
  Graph.make xadj elist vws ewgt

end Poros
