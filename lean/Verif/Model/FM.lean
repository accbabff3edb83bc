import Verif.Model.Connectivity
/-
Model of src/partition/FMRefiner.cpp and src/util/VisitTracker.hpp.
-/
namespace Poros
open Res

/-- What `refine` works on: the partitioning, the connectivity, the two queues `pqs` and the visit tracker
(src/util/VisitTracker.hpp:45-112, a `std::vector<bool>`). -/
structure FMState (E : Env) where
  part : Partitioning
  conn : Conn E.set
  q0 : VQueue E.pq
  q1 : VQueue E.pq
  visited : List Bool

namespace FMState
variable {E : Env}

/-- `pqs[side]` of a `std::array<VertexQueue,2>`, src/partition/FMRefiner.cpp:174. -/
def getQ (s : FMState E) (side : Nat) : Res (VQueue E.pq) :=
  if side = 0 then .ok s.q0 else if side = 1 then .ok s.q1 else .ub

/-- Update of `pqs[side]`, src/partition/FMRefiner.cpp:174. -/
def setQ (s : FMState E) (side : Nat) (q : VQueue E.pq) : Res (FMState E) :=
  if side = 0 then .ok { s with q0 := q } else if side = 1 then .ok { s with q1 := q } else .ub

end FMState

variable {E : Env}

/-- `pickSide`, src/partition/FMRefiner.cpp:62-96. -/
def pickSide (s : FMState E) (t : Target E.fp) : Res Nat := do
  let o0 ← isOverWeight s.part t 0
  if o0 && decide (s.q0.size > 0) then .ok 0 else do
  let o1 ← isOverWeight s.part t 1
  if o1 && decide (s.q1.size > 0) then .ok 1 else
  if s.q0.size = 0 then .ok 1
  else if s.q1.size = 0 then .ok 0
  else do
    let m0 ← s.q0.max
    let m1 ← s.q1.max
    if m0 > m1 then .ok 0
    else if m0 < m1 then .ok 1
    else do
      let a ← s.q0.peek
      let b ← s.q1.peek
      .ok (uadd a b % 2)

/-- The body of the edge loop of `move`, src/partition/FMRefiner.cpp:118-142; `queues` tells whether the
pointers `pqs`/`visited` are non-null. -/
def fmEdge (queues : Bool) (dst : Nat) (s : FMState E) (q : Nat × Nat) : Res (FMState E) := do
  let u := q.1
  let home ← rd s.part.asg u
  let dir ← getDirection dst home
  let (st, conn) ← s.conn.updateNeighbor u q.2 dir
  let s := { s with conn := conn }
  if queues then do
    let vis ← rd s.visited u
    if vis then .ok s else
    match st with
    | .added => do
      let d ← s.conn.delta u
      let k ← ineg d
      let pq ← s.getQ home
      let pq ← pq.add k u
      s.setQ home pq
    | .removed => do
      let pq ← s.getQ home
      let pq ← pq.remove u
      s.setQ home pq
    | .stillIn => do
      let d ← s.conn.delta u
      let k ← ineg d
      let pq ← s.getQ home
      let pq ← pq.update k u
      s.setQ home pq
    | .stillOut => .ok s
  else .ok s

/-- `move<HAS_EDGE_WEIGHTS>`, src/partition/FMRefiner.cpp:99-143. -/
def fmMove (g : Graph) (queues : Bool) (v dst : Nat) (s : FMState E) : Res (FMState E) := do
  let d ← s.conn.delta v
  let (_, conn) ← s.conn.move v
  let part ← s.part.move g v dst
  let part := part.addCut d
  let ns ← g.nbrsOf (!g.unitEdge) v
  ns.foldlM (fmEdge queues dst) { s with conn := conn, part := part }

/-- State of one pass, src/partition/FMRefiner.cpp:205-209. -/
structure PassState (E : Env) where
  s : FMState E
  moves : List Nat
  bestCut : Nat
  bestBal : E.fp.F
  numMoved : Nat

/-- Filling the queues, src/partition/FMRefiner.cpp:199-203. -/
def fillQueues (s : FMState E) : Res (FMState E) :=
  s.conn.border.elems.foldlM (fun s v => do
    let side ← rd s.part.asg v
    let d ← s.conn.delta v
    let k ← ineg d
    let pq ← s.getQ side
    let pq ← pq.add k v
    s.setQ side pq) s

/-- The acceptance test, src/partition/FMRefiner.cpp:235-237. -/
def fmAccept (fp : FP) (balanced : Bool) (balance bestBal : fp.F) (cut bestCut : Nat) : Bool :=
  (!balanced && fp.lt balance bestBal) ||
    (decide (cut < bestCut) && (balanced || fp.le balance bestBal))

/-- One iteration of the move loop, src/partition/FMRefiner.cpp:214-245. -/
def fmStep (g : Graph) (t : Target E.fp) (ps : PassState E) : Res (PassState E) := do
  let from_ ← pickSide ps.s t
  let dst := from_ ^^^ 1
  let pq ← ps.s.getQ from_
  let (v, pq) ← pq.pop
  let s ← ps.s.setQ from_ pq
  let visited ← wr s.visited v true
  let s ← fmMove g true v dst { s with visited := visited }
  let balance ← calcMaxImbalance g s.part t
  let bal ← isBalanced s.part t
  if fmAccept E.fp bal balance ps.bestBal s.part.cut ps.bestCut then
    .ok { s := s, moves := [], bestCut := s.part.cut, bestBal := balance, numMoved := ps.numMoved + 1 }
  else
    .ok { ps with s := s, moves := ps.moves ++ [v], numMoved := ps.numMoved + 1 }

/-- The move loop, src/partition/FMRefiner.cpp:212-246, with fuel. -/
def fmLoop (g : Graph) (t : Target E.fp) (maxBad : Nat) : Nat → PassState E → Res (PassState E)
  | 0, _ => .diverge
  | fuel + 1, ps =>
    if (ps.s.q0.size > 0 ∨ ps.s.q1.size > 0) ∧ ps.moves.length < maxBad then do
      let ps ← fmStep g t ps
      fmLoop g t maxBad fuel ps
    else .ok ps

/-- Undoing the moves in reverse order, src/partition/FMRefiner.cpp:252-265. -/
def fmUndo (g : Graph) (moves : List Nat) (s : FMState E) : Res (FMState E) :=
  moves.reverse.foldlM (fun s v => do
    let from_ ← rd s.part.asg v
    fmMove g false v (from_ ^^^ 1) s) s

/-- One pass (one iteration of the refinement loop without its final clearing),
src/partition/FMRefiner.cpp:188-273: the new state and whether to stop. The move loop gets fuel
`numVertices + 1`; that this always suffices is a theorem (C28). -/
def fmPass (g : Graph) (t : Target E.fp) (maxBad : Nat) (s : FMState E) : Res (FMState E × Bool) := do
  let s ← fillQueues s
  let bal ← calcMaxImbalance g s.part t
  let ps ← fmLoop g t maxBad (g.nv + 1)
    { s := s, moves := [], bestCut := s.part.cut, bestBal := bal, numMoved := 0 }
  let s ← fmUndo g ps.moves ps.s
  .ok (s, decide (ps.numMoved = ps.moves.length))

/-- Emptying queues and visit tracker before another pass, src/partition/FMRefiner.cpp:275-281. -/
def FMState.clear (s : FMState E) : FMState E :=
  { s with q0 := s.q0.clear, q1 := s.q1.clear, visited := List.replicate s.visited.length false }

/-- The refinement loop, src/partition/FMRefiner.cpp:188-282, with the number of remaining iterations. The
queues are not looked at after the last iteration, so clearing them there too makes no difference. -/
def fmIters (g : Graph) (t : Target E.fp) (maxBad : Nat) : Nat → FMState E → Res (FMState E)
  | 0, s => .ok s
  | n + 1, s => do
    let (s, stop) ← fmPass g t maxBad s
    if stop then .ok s else fmIters g t maxBad n s.clear

/-- `maxNumBadMoves`, src/partition/FMRefiner.cpp:184-186. -/
def maxBadMoves (fp : FP) (maxMoves nv : Nat) : Res Nat := do
  let a ← fp.cast (fp.mul (fp.ofNat nv) (fp.lit 1 2))
  .ok (min maxMoves (max a 25))

/-- `FMRefiner::refine`, src/partition/FMRefiner.cpp:168-284. A non-positive number of iterations is 0. -/
def fmRefine (g : Graph) (t : Target E.fp) (maxIters maxMoves : Nat) (p : Partitioning) (c : Conn E.set) :
    Res (Partitioning × Conn E.set) := do
  let maxBad ← maxBadMoves E.fp maxMoves g.nv
  let s ← fmIters g t maxBad maxIters
    { part := p, conn := c, q0 := VQueue.new E.pq g.nv, q1 := VQueue.new E.pq g.nv,
      visited := List.replicate g.nv false }
  .ok (s.part, s.conn)

end Poros
