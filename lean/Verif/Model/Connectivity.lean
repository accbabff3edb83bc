import Verif.Model.Partitioning
/-
Model of src/partition/TwoWayConnectivity.hpp, TwoWayConnectivity.cpp.
-/
namespace Poros
open Res

/-- Members of `class TwoWayConnectivity`, src/partition/TwoWayConnectivity.hpp:307-308: the border set and
per vertex the pair (external, internal) of `vertex_struct` (lines 61-65). -/
structure Conn (P : SetImpl) where
  border : VSet P
  con : List (Nat × Nat)

/-- `border_status_enum`, src/partition/TwoWayConnectivity.hpp:54-59. -/
inductive BorderStatus where
  | added | removed | stillIn | stillOut
deriving DecidableEq, Repr

/-- `getDirection`, src/partition/TwoWayConnectivity.hpp:78-83. -/
def getDirection (a b : Nat) : Res Int := do
  let x ← isub (toI32 ((a ^^^ b) * 2 % M32)) 1
  ineg x

/-- `shouldBeInBorder`, src/partition/TwoWayConnectivity.cpp:55-59. -/
def shouldBeInBorder (c : Nat × Nat) : Bool := decide (c.1 > 0) || decide (c.2 = 0)

/-- `setupConnections<HAS>`, src/partition/TwoWayConnectivity.cpp:61-85, into an array of `numVertices`
entries (every entry is written before it is read, so the initial content is irrelevant: modelled as a
map over the vertices). -/
def setupConnections (g : Graph) (has : Bool) (p : Partitioning) : Res (List (Nat × Nat)) :=
  (List.range g.nv).mapM fun v => do
    let home ← rd p.asg v
    let ns ← g.nbrsOf has v
    ns.foldlM (fun (pair : Nat × Nat) q => do
      let other ← rd p.asg q.1
      if other = home then .ok (pair.1, uadd pair.2 q.2)
      else .ok (uadd pair.1 q.2, pair.2)) (0, 0)

namespace Conn
variable {P : SetImpl}

/-- The constructor from an array, src/partition/TwoWayConnectivity.cpp:131-142. -/
def ofArray (P : SetImpl) (con : List (Nat × Nat)) : Res (Conn P) := do
  let border ← (List.range con.length).foldlM (fun border v => do
    let c ← rd con v
    if shouldBeInBorder c then border.add v else .ok border) (VSet.new P con.length)
  .ok { border := border, con := con }

/-- `fromPartitioning`, src/partition/TwoWayConnectivity.cpp:109-123. -/
def fromPartitioning (P : SetImpl) (g : Graph) (p : Partitioning) : Res (Conn P) := do
  let con ← setupConnections g (!g.unitEdge) p
  ofArray P con

/-- `updateBorderStatus`, src/partition/TwoWayConnectivity.hpp:327-348. -/
def updateBorderStatus (c : Conn P) (v : Nat) : Res (BorderStatus × Conn P) := do
  let inB ← c.border.has v
  let x ← rd c.con v
  if inB then
    if x.1 = 0 then do
      let b ← c.border.remove v
      .ok (.removed, { c with border := b })
    else .ok (.stillIn, c)
  else
    if x.1 > 0 then do
      let b ← c.border.add v
      .ok (.added, { c with border := b })
    else .ok (.stillOut, c)

/-- `move(vertex)`, src/partition/TwoWayConnectivity.hpp:163-172. -/
def move (c : Conn P) (v : Nat) : Res (BorderStatus × Conn P) := do
  let x ← rd c.con v
  let con ← wr c.con v (x.2, x.1)
  updateBorderStatus { c with con := con } v

/-- `updateNeighbor(neighbor, edgeWeight, direction)`, src/partition/TwoWayConnectivity.hpp:184-200. -/
def updateNeighbor (c : Conn P) (u w : Nat) (dir : Int) : Res (BorderStatus × Conn P) := do
  let x ← rd c.con u
  let con ← wr c.con u (usub x.1 (umulI dir w), uadd x.2 (umulI dir w))
  updateBorderStatus { c with con := con } u

/-- `getVertexDelta(vertex)`, src/partition/TwoWayConnectivity.hpp:211-232. -/
def delta (c : Conn P) (v : Nat) : Res Int := do
  let x ← rd c.con v
  isub (toI32 x.2) (toI32 x.1)

/-- `verify(graph, part)`, src/partition/TwoWayConnectivity.cpp:161-204 (the different border sizes only
produce a debug message, they do not affect the result). -/
def verify (c : Conn P) (g : Graph) (p : Partitioning) : Res Bool := do
  let base ← fromPartitioning P g p
  let good ← c.border.elems.foldlM (fun good v => do
    let b ← base.border.has v
    .ok (if b then good else false)) true
  let good ← base.border.elems.foldlM (fun good v => do
    let b ← c.border.has v
    .ok (if b then good else false)) good
  (List.range g.nv).foldlM (fun good v => do
    let x ← rd c.con v
    let y ← rd base.con v
    .ok (if x.1 ≠ y.1 ∨ x.2 ≠ y.2 then false else good)) good

end Conn
end Poros
