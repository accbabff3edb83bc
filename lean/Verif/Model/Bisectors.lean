import Verif.Model.Multilevel
/-
Model of src/partition/BFSBisector.cpp, RandomBisector.cpp, RandomFMBisector.cpp, MultiBisector.cpp,
BisectorFactory.cpp and TwoWayRefinerFactory.cpp.
-/
namespace Poros
open Res

variable {E : Env}

/-! ### BFSBisector -/

/-- Raising the priority of the neighbours of a moved vertex, src/partition/BFSBisector.cpp:62-68. -/
def bfsTouch (ns : List (Nat × Nat)) (q : VQueue E.pq) : Res (VQueue E.pq) :=
  ns.foldlM (fun (q : VQueue E.pq) e => do
    let c ← q.contains e.1
    if c then q.updateByDelta (toI32 e.2) e.1 else .ok q) q

/-- One iteration of the loop of `bfsPriorityMove`, src/partition/BFSBisector.cpp:54-69. -/
def bfsStep (g : Graph) (hasV hasE : Bool) (t : Target E.fp) (s : VQueue E.pq × Partitioning) :
    Res (VQueue E.pq × Partitioning) := do
  let (v, q) ← s.1.pop
  let w ← g.vwgtOf hasV v
  let w0 ← rd s.2.pw 0
  let m0 ← rd t.mx 0
  if uadd w w0 ≤ m0 then do
    let p ← s.2.move g v 0
    let ns ← g.nbrsOf hasE v
    let q ← bfsTouch ns q
    .ok (q, p)
  else .ok (q, s.2)

/-- The loop of `bfsPriorityMove`, src/partition/BFSBisector.cpp:44-71, with fuel. -/
def bfsPriorityMove (g : Graph) (hasV hasE : Bool) (t : Target E.fp) :
    Nat → VQueue E.pq × Partitioning → Res (VQueue E.pq × Partitioning)
  | 0, _ => .diverge
  | fuel + 1, s =>
    if s.1.size > 0 then do
      let w0 ← rd s.2.pw 0
      let t0 ← rd t.tw 0
      if w0 < t0 then do
        let s ← bfsStep g hasV hasE t s
        bfsPriorityMove g hasV hasE t fuel s
      else .ok s
    else .ok s

/-- The test of the balancing functions, src/partition/BFSBisector.cpp:93-94, 111-112: does giving the left side
the weight `newWeight` leave it relatively lighter than the right side is now. -/
def bfsLighter (t : Target E.fp) (newWeight : Nat) (p : Partitioning) : Res Bool := do
  let m0 ← rd t.mx 0
  let w1 ← rd p.pw 1
  let m1 ← rd t.mx 1
  .ok (E.fp.lt (E.fp.div (E.fp.ofNat newWeight) (E.fp.ofNat m0)) (E.fp.div (E.fp.ofNat w1) (E.fp.ofNat m1)))

/-- The loop of `bfsWeightBalance`, src/partition/BFSBisector.cpp:89-98, with fuel. -/
def bfsWeightLoop (g : Graph) (t : Target E.fp) : Nat → VQueue E.pq → Partitioning → Res Partitioning
  | 0, _, _ => .diverge
  | fuel + 1, q, p =>
    if q.size > 0 then do
      let (v, q) ← q.pop
      let w ← g.vwgtOf true v
      let w0 ← rd p.pw 0
      let b ← bfsLighter t (uadd w w0) p
      if b then p.move g v 0 else bfsWeightLoop g t fuel q p
    else .ok p

/-- `bfsWeightBalance`, src/partition/BFSBisector.cpp:74-99. -/
def bfsWeightBalance (g : Graph) (t : Target E.fp) (remaining : List Nat) (p : Partitioning) :
    Res Partitioning := do
  let q ← remaining.foldlM (fun (q : VQueue E.pq) v => do
    let w ← g.vwgtOf true v
    q.add (toI32 w) v) (VQueue.new E.pq g.nv)
  bfsWeightLoop g t (remaining.length + 1) q p

/-- `bfsUnitBalance`, src/partition/BFSBisector.cpp:101-117. -/
def bfsUnitBalance (g : Graph) (t : Target E.fp) : List Nat → Partitioning → Res Partitioning
  | [], p => .ok p
  | v :: vs, p => do
    let w0 ← rd p.pw 0
    let b ← bfsLighter t (uadd 1 w0) p
    if b then p.move g v 0 else bfsUnitBalance g t vs p

/-- First half of `execute(target, graph, seed)`, src/partition/BFSBisector.cpp:153-179: the state after the
growing phase. -/
def bfsGrow (t : Target E.fp) (g : Graph) (seed : Nat) : Res (VQueue E.pq × Partitioning) := do
  let q ← (VQueue.new E.pq g.nv).add 1 seed
  let q ← (List.range g.nv).foldlM (fun (q : VQueue E.pq) v =>
    if v ≠ seed then q.add 0 v else .ok q) q
  let p ← (Partitioning.fresh t.k g).assignAll g 1
  bfsPriorityMove g (!g.unitVtx) (!g.unitEdge) t (g.nv + 1) (q, p)

/-- The balancing fallback, src/partition/BFSBisector.cpp:181-187. The balancing function for weighted graphs is
called on unit-weight graphs and the other way round, as in lines 182-186. -/
def bfsBalance (t : Target E.fp) (g : Graph) (remaining : List Nat) (p : Partitioning) : Res Partitioning := do
  let w1 ← rd p.pw 1
  let m1 ← rd t.mx 1
  if w1 > m1 then
    (if g.unitVtx then bfsWeightBalance g t remaining p else bfsUnitBalance g t remaining p)
  else .ok p

/-- `execute(target, graph, seed)`, src/partition/BFSBisector.cpp:146-192. -/
def bfsFrom (t : Target E.fp) (g : Graph) (seed : Nat) : Res Partitioning := do
  let (q, p) ← bfsGrow t g seed
  let p ← bfsBalance t g q.remaining p
  p.recalcCut g

/-- `BFSBisector::execute(target, graph)`, src/partition/BFSBisector.cpp:136-144. -/
def bfsBisect : Bisector E := fun t g r => do
  let (seed, r) ← E.rng.randInRange r 0 (usub g.nv 1)
  let p ← bfsFrom t g seed
  .ok (p, r)

/-! ### RandomBisector -/

/-- The loop of `fillLeft<HAS_VERTEX_WEIGHTS>`, src/partition/RandomBisector.cpp:171-198. -/
def fillLeft (g : Graph) (has : Bool) (t : Target E.fp) : List Nat → Partitioning → Res Partitioning
  | [], p => .ok p
  | v :: vs, p => do
    let w0 ← rd p.pw 0
    let w ← g.vwgtOf has v
    let m0 ← rd t.mx 0
    if uadd w0 w > m0 then .ok p else do
    let balance ← calcMaxImbalance g p t
    let p ← p.move g v 0
    let after ← calcMaxImbalance g p t
    if E.fp.lt balance after then p.move g v 1 else fillLeft g has t vs p

/-- `fillVertexWeightPairs<HAS_VERTEX_WEIGHTS>`, src/partition/RandomBisector.cpp:85-107: the (vertex, weight)
pairs of the left side and of the right side, before sorting. The C++ fills one array, the left side in
increasing order from the front, the right side in increasing order from the back. -/
def weightPairs (g : Graph) (has : Bool) (p : Partitioning) :
    Res (List (Nat × Nat) × List (Nat × Nat)) :=
  (List.range g.nv).foldlM (fun (s : List (Nat × Nat) × List (Nat × Nat)) v => do
    let w ← g.vwgtOf has v
    let a ← rd p.asg v
    if a = 0 then .ok (s.1 ++ [(v, w)], s.2) else .ok (s.1, (v, w) :: s.2)) ([], [])

/-- `std::sort` by weight (src/partition/RandomBisector.cpp:109-111, operator at 54-58): some sorted
rearrangement. -/
def sortPairs (E : Env) (l : List (Nat × Nat)) : List (Nat × Nat) :=
  (E.rng.sort (l.map Prod.snd)).map (nth l)

/-- `std::lower_bound(begin, end, value)` on pairs sorted by weight: the number of leading pairs with smaller
weight. The `int32_t` value is converted to `uint32_t` by the comparison operator
(src/partition/RandomBisector.cpp:61-65, 156-160). -/
def lowerBound (l : List (Nat × Nat)) (value : Int) : Nat :=
  (l.takeWhile fun q => decide (q.2 < ofI32 value)).length

/-- `vertices[right]`, src/partition/RandomBisector.cpp:148-151: the last pair. -/
def lastPair (all : List (Nat × Nat)) : Res (Nat × Nat) :=
  if all.length = 0 then .ub else rd all (all.length - 1)

/-- `swapBalanceRight`, src/partition/RandomBisector.cpp:124-168. -/
def swapBalanceRight (E : Env) (g : Graph) (maxL maxR : Nat) (p : Partitioning) : Res Partitioning := do
  let (ls, rs) ← weightPairs g (!g.unitVtx) p
  let left := sortPairs E ls
  let all := left ++ sortPairs E rs
  let w1 ← rd p.pw 1
  let w0 ← rd p.pw 0
  let minDelta := toI32 (usub w1 maxR)
  let maxDelta := toI32 (usub maxL w0)
  let last ← lastPair all
  let weight := toI32 last.2
  let minOffset ← isub weight maxDelta
  let maxOffset ← isub weight minDelta
  let lower := lowerBound left minOffset
  let upper := lowerBound left maxOffset
  if lower < upper then do
    let p ← p.move g last.1 0
    let l ← rd all lower
    p.move g l.1 1
  else .ok p

/-- The fallback of `RandomBisector::execute`, src/partition/RandomBisector.cpp:246-252. -/
def randBalance (t : Target E.fp) (g : Graph) (p : Partitioning) : Res Partitioning := do
  let w1 ← rd p.pw 1
  let m1 ← rd t.mx 1
  if w1 > m1 then do
    let m0 ← rd t.mx 0
    swapBalanceRight E g m0 m1 p
  else .ok p

/-- `RandomBisector::execute`, src/partition/RandomBisector.cpp:224-257. -/
def randomBisect : Bisector E := fun t g r => do
  let p ← (Partitioning.fresh 2 g).assignAll g 1
  let (order, r) := randomOrder E g r
  let p ← fillLeft g (!g.unitVtx) t order p
  let p ← randBalance t g p
  let p ← p.recalcCut g
  .ok (p, r)

/-! ### RandomFMBisector -/

/-- `RandomFMBisector::execute`, src/partition/RandomFMBisector.cpp:61-72, with the refiner of the constructor
(lines 41-48). -/
def randomFMBisect (maxIters : Nat) : Bisector E := fun t g r => do
  let (p, r) ← randomBisect t g r
  let c ← Conn.fromPartitioning E.set g p
  let o ← fmRefine g t maxIters 1000 p c
  .ok (o.1, r)

/-! ### MultiBisector -/

/-- The local variables of `MultiBisector::execute`, src/partition/MultiBisector.cpp:71-75. -/
structure MultiState (E : Env) where
  bestCut : Nat
  bestBal : E.fp.F
  found : Bool
  best : Partitioning
  rng : E.rng.S

/-- One iteration of the loop, src/partition/MultiBisector.cpp:77-102. -/
def multiStep (bis : Bisector E) (t : Target E.fp) (g : Graph) (s : MultiState E) (b : Nat) :
    Res (MultiState E) := do
  let (p, r) ← bis t g s.rng
  let balance ← calcMaxImbalance g p t
  let bal ← isBalanced p t
  if b = 0 || (!s.found && E.fp.lt balance s.bestBal) || (s.found && bal && decide (p.cut < s.bestCut)) then
    .ok { bestCut := p.cut, bestBal := balance, found := if bal then true else s.found, best := p, rng := r }
  else .ok { s with rng := r }

/-- `MultiBisector::execute`, src/partition/MultiBisector.cpp:67-105; a non-positive number is 0. -/
def multiBisect (n : Nat) (bis : Bisector E) : Bisector E := fun t g r => do
  let s ← (List.range n).foldlM (multiStep bis t g)
    { bestCut := 0, bestBal := E.fp.lit 0 0, found := false, best := Partitioning.fresh 2 g, rng := r }
  .ok (s.best, s.rng)

/-! ### Factories -/

/-- The bisection schemes of src/partition/BisectorFactory.cpp:48-52 known to the factory. -/
inductive BisectScheme where
  | random | bfs

/-- `BisectorFactory::make`, src/partition/BisectorFactory.cpp:42-58 (an unknown scheme throws and is not
representable here). -/
def makeBisector (E : Env) (s : BisectScheme) (n : Nat) : Bisector E :=
  match s with
  | .random => multiBisect n randomBisect
  | .bfs => multiBisect n bfsBisect

/-- `TwoWayRefinerFactory::make(FM_TWOWAY_REFINEMENT)`, src/partition/TwoWayRefinerFactory.cpp:42-54. -/
def makeRefiner (E : Env) : Refiner E := fun t g p c => fmRefine g t 8 150 p c

/-- The multilevel bisector of src/Poros.cpp:104-114. -/
def makeMultilevel (E : Env) (s : Scheme) : Multilevel E :=
  { agg := aggregate E s, init := makeBisector E .bfs 8, refine := makeRefiner E }

end Poros
