import Verif.Model.Graph
/-
Model of src/partition/Partitioning.hpp, Partitioning.cpp, TargetPartitioning.cpp,
PartitioningAnalyzer.hpp/.cpp.
-/
namespace Poros
open Res

/-- Members of `class Partitioning`, src/partition/Partitioning.hpp:443-448. The graph pointer `m_graph`
is passed explicitly to the functions that use it. -/
structure Partitioning where
  cut : Nat
  pw : List Nat
  asg : List Nat
deriving DecidableEq, Repr

/-- `sumPartitionWeight<HAS>`, src/partition/Partitioning.cpp:43-55. -/
def sumPartitionWeight (g : Graph) (has : Bool) (asg pw : List Nat) : Res (List Nat) :=
  (List.range g.nv).foldlM (fun pw v => do
    let part ← rd asg v
    let w ← g.vwgtOf has v
    let old ← rd pw part
    wr pw part (uadd old w)) pw

/-- `sumCutEdgeWeight<HAS>`, src/partition/Partitioning.cpp:57-77. -/
def sumCutEdgeWeight (g : Graph) (has : Bool) (asg : List Nat) : Res Nat := do
  let t ← (List.range g.nv).foldlM (fun acc v => do
    let home ← rd asg v
    let ns ← g.nbrsOf has v
    ns.foldlM (fun acc q => do
      let other ← rd asg q.1
      if other ≠ home then .ok (uadd acc q.2) else .ok acc) acc) 0
  .ok (t / 2)

namespace Partitioning

/-- `Partitioning(numParts, graph)`, src/partition/Partitioning.cpp:85-94. -/
def fresh (k : Nat) (g : Graph) : Partitioning :=
  { cut := 0, pw := List.replicate k 0, asg := List.replicate g.nv NULL32 }

/-- `Partitioning(numParts, graph, partitionLabels)`, src/partition/Partitioning.cpp:97-120. -/
def ofLabels (k : Nat) (g : Graph) (labels : List Nat) : Res Partitioning := do
  let pw ← sumPartitionWeight g (!g.unitVtx) labels (List.replicate k 0)
  let cut ← sumCutEdgeWeight g (!g.unitEdge) labels
  .ok { cut := cut, pw := pw, asg := labels }

/-- `calcVertexCounts()`, src/partition/Partitioning.cpp:138-146. -/
def calcVertexCounts (p : Partitioning) : Res (List Nat) :=
  p.asg.foldlM (fun counts part => do
    let old ← rd counts part
    wr counts part (uadd old 1)) (List.replicate p.pw.length 0)

/-- `recalcCutEdgeWeight()`, src/partition/Partitioning.cpp:149-156. -/
def recalcCut (g : Graph) (p : Partitioning) : Res Partitioning := do
  let cut ← sumCutEdgeWeight g (!g.unitEdge) p.asg
  .ok { p with cut := cut }

/-- `assignAll(partition)`, src/partition/Partitioning.cpp:159-178. -/
def assignAll (g : Graph) (part : Nat) (p : Partitioning) : Res Partitioning := do
  let pw ← wr (List.replicate p.pw.length 0) part g.totVtx
  .ok { cut := 0, pw := pw, asg := List.replicate p.asg.length part }

/-- `unassignAll()`, src/partition/Partitioning.cpp:181-191 (the stored cut is left alone). -/
def unassignAll (p : Partitioning) : Partitioning :=
  { cut := p.cut, pw := List.replicate p.pw.length 0, asg := List.replicate p.asg.length NULL32 }

/-- `setCutEdgeWeight`, src/partition/Partitioning.hpp:224-228. -/
def setCut (w : Nat) (p : Partitioning) : Partitioning := { p with cut := w }

/-- `addCutEdgeWeight`, src/partition/Partitioning.hpp:236-240; the signed delta of the caller is converted
to `wgt_type`. -/
def addCut (d : Int) (p : Partitioning) : Partitioning := { p with cut := uadd p.cut (ofI32 d) }

/-- `assign(vertex, partition)`, src/partition/Partitioning.hpp:272-287. -/
def assign (g : Graph) (v part : Nat) (p : Partitioning) : Res Partitioning := do
  let w ← g.vwgtOf (!g.unitVtx) v
  let old ← rd p.pw part
  let pw ← wr p.pw part (uadd old w)
  let asg ← wr p.asg v part
  .ok { p with pw := pw, asg := asg }

/-- `move(vertex, partition)`, src/partition/Partitioning.hpp:296-317. -/
def move (g : Graph) (v part : Nat) (p : Partitioning) : Res Partitioning := do
  let w ← g.vwgtOf (!g.unitVtx) v
  let current ← rd p.asg v
  let o1 ← rd p.pw current
  let pw ← wr p.pw current (usub o1 w)
  let o2 ← rd pw part
  let pw ← wr pw part (uadd o2 w)
  let asg ← wr p.asg v part
  .ok { p with pw := pw, asg := asg }

/-- `unassign(vertex)`, src/partition/Partitioning.hpp:326-340. -/
def unassign (g : Graph) (v : Nat) (p : Partitioning) : Res Partitioning := do
  let current ← rd p.asg v
  let w ← g.vwgtOf (!g.unitVtx) v
  let old ← rd p.pw current
  let pw ← wr p.pw current (usub old w)
  let asg ← wr p.asg v NULL32
  .ok { p with pw := pw, asg := asg }

/-- `output(totalCutEdgeWeight, partitionAssignment)`, src/partition/Partitioning.cpp:194-204: the two values
written to the caller (the first `numVertices` entries of the caller's buffer). -/
def output (p : Partitioning) (buf : List Nat) : Res (Nat × List Nat) := do
  let out ← (List.range p.asg.length).foldlM (fun out v => do
    let a ← rd p.asg v
    wr out v a) buf
  .ok (p.cut, out)

end Partitioning

/-! ### Target partitioning -/

/-- Members of `class TargetPartitioning`, src/partition/TargetPartitioning.hpp:205-211. -/
structure Target (fp : FP) where
  k : Nat
  frac : List fp.F
  tw : List Nat
  mx : List Nat

/-- `calcTargetWeight`, src/partition/TargetPartitioning.cpp:63-77. -/
def calcTargetWeight (fp : FP) (tot : Nat) (fr : List fp.F) : Res (List Nat) :=
  fr.mapM fun f => fp.cast (fp.mul f (fp.ofNat tot))

/-- `calcMaxWeight`, src/partition/TargetPartitioning.cpp:80-91. -/
def calcMaxWeight (fp : FP) (tot : Nat) (tol : fp.F) (fr : List fp.F) : Res (List Nat) :=
  fr.mapM fun f => fp.cast (fp.mul (fp.mul f (fp.add (fp.lit 1 0) tol)) (fp.ofNat tot))

/-- `calcFractions`, src/partition/TargetPartitioning.cpp:93-107. -/
def calcFractions (fp : FP) (k : Nat) (tw : List Nat) : Res (List fp.F) := do
  let total ← (List.range k).foldlM (fun acc i => do
    let w ← rd tw i
    .ok (uadd acc w)) 0
  let inv := fp.div (fp.lit 1 0) (fp.ofNat total)
  (List.range k).mapM fun i => do
    let w ← rd tw i
    .ok (fp.mul (fp.ofNat w) inv)

namespace Target
variable {fp : FP}

/-- Raising `InvalidPartitionFractionsException`, src/partition/TargetPartitioning.cpp:145-148, 152-156: the
message reads the fractions 0 and 1, whether they exist or not. -/
def invalidFractions (fr : List fp.F) : Res α := do
  let _ ← rd fr 0
  let _ ← rd fr 1
  .exn

/-- The constructor from fractions, src/partition/TargetPartitioning.cpp:130-163. -/
def ofFractions (k tot : Nat) (tol : fp.F) (fractions : List fp.F) : Res (Target fp) := do
  let fr := fractions.take k
  if fractions.length < k then .ub else do
  let sum ← (List.range k).foldlM (fun acc i => do
    let f ← rd fr i
    if fp.lt f (fp.lit 0 0) || fp.lt (fp.lit 1 0) f then invalidFractions fr
    else .ok (fp.add acc f)) (fp.lit 0 0)
  if fp.lt sum (fp.sub (fp.lit 1 0) (fp.lit 1 4)) || fp.lt (fp.add (fp.lit 1 0) (fp.lit 1 4)) sum then
    invalidFractions fr
  else do
    let tw ← calcTargetWeight fp tot fr
    let mx ← calcMaxWeight fp tot tol fr
    .ok { k := k, frac := fr, tw := tw, mx := mx }

/-- The uniform constructor, src/partition/TargetPartitioning.cpp:119-127. -/
def uniform (k tot : Nat) (tol : fp.F) : Res (Target fp) :=
  ofFractions k tot tol (List.replicate k (fp.div (fp.lit 1 0) (fp.ofNat k)))

/-- The constructor from weights, src/partition/TargetPartitioning.cpp:166-176. -/
def ofWeights (k : Nat) (tw mx : List Nat) : Res (Target fp) := do
  let fr ← calcFractions fp k tw
  .ok { k := k, frac := fr, tw := tw, mx := mx }

end Target

/-! ### Analysis -/

variable {fp : FP}

/-- `Partitioning::getFraction`, src/partition/Partitioning.hpp:411-417. -/
def getFraction (fp : FP) (g : Graph) (p : Partitioning) (part : Nat) : Res fp.F := do
  let w ← rd p.pw part
  .ok (fp.div (fp.ofNat w) (fp.ofNat g.totVtx))

/-- `getImbalance`, src/partition/PartitioningAnalyzer.hpp:83-90. -/
def getImbalance (g : Graph) (p : Partitioning) (t : Target fp) (part : Nat) : Res fp.F := do
  let target ← rd t.frac part
  let f ← getFraction fp g p part
  .ok (fp.sub (fp.div f target) (fp.lit 1 0))

/-- `isOverWeight`, src/partition/PartitioningAnalyzer.hpp:99-103. -/
def isOverWeight (p : Partitioning) (t : Target fp) (part : Nat) : Res Bool := do
  let m ← rd t.mx part
  let w ← rd p.pw part
  .ok (decide (m < w))

/-- `isBalanced`, src/partition/PartitioningAnalyzer.hpp:111-119; the short-circuit `&&` skips the reads once
unbalanced. -/
def isBalanced (p : Partitioning) (t : Target fp) : Res Bool :=
  (List.range p.pw.length).foldlM (fun bal i =>
    if bal then do
      let o ← isOverWeight p t i
      .ok !o
    else .ok false) true

/-- `findMax`, src/partition/PartitioningAnalyzer.cpp:46-62. -/
def findMax (g : Graph) (p : Partitioning) (t : Target fp) : Res (Nat × fp.F) :=
  (List.range p.pw.length).foldlM (fun best i => do
    let f ← getImbalance g p t i
    if fp.lt best.2 f then .ok (i, f) else .ok best) (0, fp.lit 0 0)

/-- `calcMaxImbalance`, src/partition/PartitioningAnalyzer.cpp:84-87. -/
def calcMaxImbalance (g : Graph) (p : Partitioning) (t : Target fp) : Res fp.F := do
  let m ← findMax g p t
  .ok m.2

/-- `findMostOverWeightPartition`, src/partition/PartitioningAnalyzer.cpp:90-93. -/
def findMostOverWeight (g : Graph) (p : Partitioning) (t : Target fp) : Res Nat := do
  let m ← findMax g p t
  .ok m.1

end Poros
