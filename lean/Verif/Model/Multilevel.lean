import Verif.Model.Projection
import Verif.Model.FM
/-
Model of src/multilevel/VertexNumberStoppingCriteria.cpp, EdgeRatioStoppingCriteria.cpp,
CompositeStoppingCriteria.cpp and src/partition/MultilevelBisector.cpp.
The `IAggregator`, `IBisector` and `ITwoWayRefiner` pointers are function parameters. Timers are
left out here and added in Model/Timed.lean; debug messages are not modelled.
-/
namespace Poros
open Res

/-- `IStoppingCriteria::shouldStop(level, fine, coarse)`, src/multilevel/IStoppingCriteria.hpp:57: graph pointers may be null. -/
abbrev Criterion := Nat → Option Graph → Option Graph → Res Bool

/-- `VertexNumberStoppingCriteria::shouldStop`, src/multilevel/VertexNumberStoppingCriteria.cpp:49-55. -/
def vertexNumberStop (n : Nat) : Criterion := fun _ _ coarse =>
  match coarse with
  | none => .ub
  | some g => .ok (decide (g.nv ≤ n))

/-- `EdgeRatioStoppingCriteria::shouldStop`, src/multilevel/EdgeRatioStoppingCriteria.cpp:58-90. -/
def edgeRatioStop (fp : FP) (ratio : fp.F) : Criterion := fun level fine coarse =>
  if level > 0 ∧ fine.isNone then .exn else
  match coarse with
  | none => .exn
  | some c =>
    if c.ne = 0 then .ok true else
    match fine with
    | none => .ok false
    | some f =>
      if f.ne = 0 then .ok true
      else .ok (fp.lt ratio (fp.div (fp.ofNat c.ne) (fp.ofNat f.ne)))

/-- `EdgeRatioStoppingCriteria(ratio)`, src/multilevel/EdgeRatioStoppingCriteria.cpp:43-51. -/
def edgeRatioMake (fp : FP) (ratio : fp.F) : Res Criterion :=
  if fp.le ratio (fp.lit 0 0) || fp.le (fp.lit 1 0) ratio then .exn else .ok (edgeRatioStop fp ratio)

/-- `CompositeStoppingCriteria::shouldStop`, src/multilevel/CompositeStoppingCriteria.cpp:56-68. -/
def compositeStop : List Criterion → Criterion
  | [], _, _, _ => .ok false
  | c :: cs, level, fine, coarse => do
    let b ← c level fine coarse
    if b then .ok true else compositeStop cs level fine coarse

/-- `IBisector::execute(target, graph)`, src/partition/IBisector.hpp:60; the shared random engine is threaded through. -/
abbrev Bisector (E : Env) := Target E.fp → Graph → E.rng.S → Res (Partitioning × E.rng.S)

/-- `IAggregator::aggregate(params, graph)`, src/aggregation/IAggregator.hpp:58; the parameters are the maximum vertex weight. -/
abbrev Aggregator (E : Env) := Nat → Graph → E.rng.S → Res (Aggregation × E.rng.S)

/-- `ITwoWayRefiner::refine(target, connectivity, partitioning, graph)`, src/partition/ITwoWayRefiner.hpp:63. -/
abbrev Refiner (E : Env) :=
  Target E.fp → Graph → Partitioning → Conn E.set → Res (Partitioning × Conn E.set)

/-- The three parts of a `MultilevelBisector`, src/partition/MultilevelBisector.cpp:43-53. -/
structure Multilevel (E : Env) where
  agg : Aggregator E
  init : Bisector E
  refine : Refiner E

variable {E : Env}

/-- `MultilevelBisector::recurse`, src/partition/MultilevelBisector.cpp:97-150, with fuel for the recursion. -/
def Multilevel.recurse (m : Multilevel E) (maxW : Nat) (stop : Criterion) (t : Target E.fp) :
    Nat → Nat → Option Graph → Graph → E.rng.S → Res ((Partitioning × Conn E.set) × E.rng.S)
  | 0, _, _, _, _ => .diverge
  | fuel + 1, level, parent, g, r => do
    let s ← stop level parent (some g)
    if s then do
      let (p, r) ← m.init t g r
      let c ← Conn.fromPartitioning E.set g p
      .ok ((p, c), r)
    else do
      let (a, r) ← m.agg maxW g r
      let cg ← CoarseGraph.make g a
      let (info, r) ← m.recurse maxW stop t fuel (level + 1) (some g) cg.coarse r
      let fine ← cg.project info.1 info.2
      let out ← m.refine t g fine.1 fine.2
      .ok (out, r)

/-- `MultilevelBisector::execute`, src/partition/MultilevelBisector.cpp:67-90. The recursion gets fuel
`numEdges + 2`; that this always suffices is a theorem (C34). -/
def Multilevel.execute (m : Multilevel E) : Bisector E := fun t g r => do
  let ratio ← edgeRatioMake E.fp (E.fp.lit 95 2)
  let maxW ← E.fp.cast (E.fp.div (E.fp.mul (E.fp.lit 15 1) (E.fp.ofNat g.totVtx)) (E.fp.ofNat 20))
  let (info, r) ← m.recurse maxW (compositeStop [vertexNumberStop 20, ratio]) t (g.ne + 2) 0 none g r
  .ok (info.1, r)

end Poros
