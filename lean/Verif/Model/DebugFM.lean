import Verif.Model.FM
/-
Model of the debug build (`NDEBUG` not defined, CMakeLists.txt:12-15), part 1: the `ASSERT_*` statements of
src/partition/Partitioning.hpp, PartitioningAnalyzer.hpp, TwoWayConnectivity.hpp and FMRefiner.cpp. A function whose
name ends in `D` is the function of the debug build; it repeats the release function and adds its assertions.

A failed assertion ends the program; the outcome is `.exn` (the message and the way the program ends are in the
absent `solidutils` library). The operands of a `DEBUG_MESSAGE` are evaluated. Left out are assertions about an index
that the same function goes on to use for an access: where such an assertion fails, the access is already `.ub` here.
-/
namespace Poros
open Res

/-- `ASSERT_TRUE`, `ASSERT_EQUAL`, ... (the external solidutils/Debug.hpp; used for example in
src/partition/FMRefiner.cpp:66, 109, 217, 223) in a debug build. -/
def check (c : Prop) [Decidable c] : Res Unit := if c then .ok () else .exn

/-- `Partitioning::move`, src/partition/Partitioning.hpp:296-317 with the assertions of lines 304-305. -/
def Partitioning.moveD (g : Graph) (v part : Nat) (p : Partitioning) : Res Partitioning := do
  let a ← rd p.asg v
  check (a ≠ NULL32)
  check (a ≠ part)
  p.move g v part

/-- `getImbalance`, src/partition/PartitioningAnalyzer.hpp:83-90 with the assertion of line 87. -/
def getImbalanceD {fp : FP} (g : Graph) (p : Partitioning) (t : Target fp) (part : Nat) : Res fp.F := do
  let target ← rd t.frac part
  check (fp.lt (fp.lit 0 0) target = true)
  getImbalance g p t part

/-- `findMax`, src/partition/PartitioningAnalyzer.cpp:46-62. -/
def findMaxD {fp : FP} (g : Graph) (p : Partitioning) (t : Target fp) : Res (Nat × fp.F) :=
  (List.range p.pw.length).foldlM (fun best i => do
    let f ← getImbalanceD g p t i
    if fp.lt best.2 f then .ok (i, f) else .ok best) (0, fp.lit 0 0)

/-- `calcMaxImbalance`, src/partition/PartitioningAnalyzer.cpp:84-87. -/
def calcMaxImbalanceD {fp : FP} (g : Graph) (p : Partitioning) (t : Target fp) : Res fp.F := do
  let m ← findMaxD g p t
  .ok m.2

/-- `updateNeighbor`, src/partition/TwoWayConnectivity.hpp:184-200 with the assertion of line 190. -/
def Conn.updateNeighborD {P : SetImpl} (c : Conn P) (u w : Nat) (dir : Int) : Res (BorderStatus × Conn P) := do
  check (1 = dir * dir)
  c.updateNeighbor u w dir

variable {E : Env}

/-- `pickSide`, src/partition/FMRefiner.cpp:62-96 with the assertion of line 66. -/
def pickSideD (s : FMState E) (t : Target E.fp) : Res Nat := do
  check (s.q0.size + s.q1.size > 0)
  pickSide s t

/-- The body of the edge loop of `move`, src/partition/FMRefiner.cpp:118-142. -/
def fmEdgeD (queues : Bool) (dst : Nat) (s : FMState E) (q : Nat × Nat) : Res (FMState E) := do
  let u := q.1
  let home ← rd s.part.asg u
  let dir ← getDirection dst home
  let (st, conn) ← s.conn.updateNeighborD u q.2 dir
  let s := { s with conn := conn }
  if queues then do
    let vis ← rd s.visited u
    if vis then .ok s else
    match st with
    | .added => do
      let d ← s.conn.delta u
      let k ← ineg d
      let pq ← s.getQ home
      let pq ← pq.add k u
      s.setQ home pq
    | .removed => do
      let pq ← s.getQ home
      let pq ← pq.remove u
      s.setQ home pq
    | .stillIn => do
      let d ← s.conn.delta u
      let k ← ineg d
      let pq ← s.getQ home
      let pq ← pq.update k u
      s.setQ home pq
    | .stillOut => .ok s
  else .ok s

/-- `move<HAS_EDGE_WEIGHTS>`, src/partition/FMRefiner.cpp:99-143 with the assertion of line 109. -/
def fmMoveD (g : Graph) (queues : Bool) (v dst : Nat) (s : FMState E) : Res (FMState E) := do
  let a ← rd s.part.asg v
  check (dst ≠ a)
  let d ← s.conn.delta v
  let (_, conn) ← s.conn.move v
  let part ← s.part.moveD g v dst
  let part := part.addCut d
  let ns ← g.nbrsOf (!g.unitEdge) v
  ns.foldlM (fmEdgeD queues dst) { s with conn := conn, part := part }

/-- The assertion of src/partition/FMRefiner.cpp:217-218: the largest priority is minus the delta of the vertex that
has it. -/
def checkTop (pq : VQueue E.pq) (c : Conn E.set) : Res Unit := do
  let m ← pq.max
  let u ← pq.peek
  let d ← c.delta u
  let k ← ineg d
  check (m = k)

/-- One iteration of the move loop, src/partition/FMRefiner.cpp:214-245 with the assertions of lines 217-218 and
223. -/
def fmStepD (g : Graph) (t : Target E.fp) (ps : PassState E) : Res (PassState E) := do
  let from_ ← pickSideD ps.s t
  let dst := from_ ^^^ 1
  let pq ← ps.s.getQ from_
  checkTop pq ps.s.conn
  let (v, pq) ← pq.pop
  let s ← ps.s.setQ from_ pq
  let visited ← wr s.visited v true
  let a ← rd s.part.asg v
  check (from_ = a)
  let s ← fmMoveD g true v dst { s with visited := visited }
  let balance ← calcMaxImbalanceD g s.part t
  let bal ← isBalanced s.part t
  if fmAccept E.fp bal balance ps.bestBal s.part.cut ps.bestCut then
    .ok { s := s, moves := [], bestCut := s.part.cut, bestBal := balance, numMoved := ps.numMoved + 1 }
  else
    .ok { ps with s := s, moves := ps.moves ++ [v], numMoved := ps.numMoved + 1 }

/-- The move loop, src/partition/FMRefiner.cpp:212-246, with fuel. -/
def fmLoopD (g : Graph) (t : Target E.fp) (maxBad : Nat) : Nat → PassState E → Res (PassState E)
  | 0, _ => .diverge
  | fuel + 1, ps =>
    if (ps.s.q0.size > 0 ∨ ps.s.q1.size > 0) ∧ ps.moves.length < maxBad then do
      let ps ← fmStepD g t ps
      fmLoopD g t maxBad fuel ps
    else .ok ps

/-- Undoing the moves in reverse order, src/partition/FMRefiner.cpp:252-265. -/
def fmUndoD (g : Graph) (moves : List Nat) (s : FMState E) : Res (FMState E) :=
  moves.reverse.foldlM (fun s v => do
    let from_ ← rd s.part.asg v
    fmMoveD g false v (from_ ^^^ 1) s) s

/-- One pass, src/partition/FMRefiner.cpp:188-273 with the assertions of lines 250, 266 and 267 and the messages of
lines 189-196, which compute the imbalance. -/
def fmPassD (g : Graph) (t : Target E.fp) (maxBad : Nat) (s : FMState E) : Res (FMState E × Bool) := do
  let _ ← calcMaxImbalanceD g s.part t
  let s ← fillQueues s
  let bal ← calcMaxImbalanceD g s.part t
  let ps ← fmLoopD g t maxBad (g.nv + 1)
    { s := s, moves := [], bestCut := s.part.cut, bestBal := bal, numMoved := 0 }
  let b ← ps.s.conn.verify g ps.s.part
  check (b = true)
  let s ← fmUndoD g ps.moves ps.s
  let b ← s.conn.verify g s.part
  check (b = true)
  check (s.part.cut = ps.bestCut)
  .ok (s, decide (ps.numMoved = ps.moves.length))

/-- The refinement loop, src/partition/FMRefiner.cpp:188-282, with the number of remaining iterations. -/
def fmItersD (g : Graph) (t : Target E.fp) (maxBad : Nat) : Nat → FMState E → Res (FMState E)
  | 0, s => .ok s
  | n + 1, s => do
    let (s, stop) ← fmPassD g t maxBad s
    if stop then .ok s else fmItersD g t maxBad n s.clear

/-- `FMRefiner::refine`, src/partition/FMRefiner.cpp:168-284. -/
def fmRefineD (g : Graph) (t : Target E.fp) (maxIters maxMoves : Nat) (p : Partitioning) (c : Conn E.set) :
    Res (Partitioning × Conn E.set) := do
  let maxBad ← maxBadMoves E.fp maxMoves g.nv
  let s ← fmItersD g t maxBad maxIters
    { part := p, conn := c, q0 := VQueue.new E.pq g.nv, q1 := VQueue.new E.pq g.nv,
      visited := List.replicate g.nv false }
  .ok (s.part, s.conn)

end Poros
