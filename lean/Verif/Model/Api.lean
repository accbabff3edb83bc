import Verif.Model.RecursiveBisection
/-
Model of src/Poros.cpp, src/PorosParameters.cpp, src/partition/PartitionParameters.cpp and the choice made in
src/aggregation/AggregatorFactory.cpp: the C interface of include/poros.h.

Timers, the time keeper shared by the components and the printing of times (lines 135-142) are left out here; the same
call with them is in Model/Timed.lean, and theorem C111 says that they make no difference to the result and the caller's
memory.
-/
namespace Poros
open Res

/-- `poros_options_struct`, include/poros.h:74-118. The pointer to the fractions may be null. -/
structure Options (fp : FP) where
  imbalanceTolerance : fp.F
  targetPartitionFractions : Option (List fp.F)
  randomSeed : Nat
  refinementIterations : Int
  aggregationScheme : Int
  outputTimes : Int
  numGlobalCuts : Int

/-- `POROS_defaultOptions`, src/Poros.cpp:57-70; `SORTED_HEAVY_EDGE_MATCHING` is 1 (include/poros.h:51-54). -/
def defaultOptions (fp : FP) : Options fp :=
  { imbalanceTolerance := fp.lit 3 2, targetPartitionFractions := none, randomSeed := 0, refinementIterations := 8,
    aggregationScheme := 1, outputTimes := 0, numGlobalCuts := 1 }

/-- The input arrays of `POROS_PartGraphRecursive`, src/Poros.cpp:72-78. -/
structure Input where
  numVertices : Nat
  edgePrefix : List Nat
  edgeList : List Nat
  vertexWeights : Option (List Nat)
  edgeWeights : Option (List Nat)
  numPartitions : Nat
deriving DecidableEq, Repr

/-- The caller's memory that the call may write: `*totalCutEdgeWeight` and `partitionAssignment[]`,
src/Poros.cpp:80-81. -/
structure Out where
  cut : Nat
  asg : List Nat
deriving DecidableEq, Repr

/-- `AggregatorFactory::make`, src/aggregation/AggregatorFactory.cpp:45-60. -/
def makeScheme (scheme : Int) : Res Scheme :=
  if scheme = 0 then .ok .randomMatching
  else if scheme = 1 then .ok .sortedHeavyEdge
  else .exn

/-- `m_targetPartitionFractions` after `PartitionParameters(numPartitions)`,
src/partition/PartitionParameters.cpp:43-54. -/
def paramFractions (fp : FP) (k : Nat) : List fp.F := List.replicate k (fp.div (fp.lit 1 0) (fp.ofNat k))

/-- What exists before the loop (the locals of src/Poros.cpp:93-121): the graph, the partitioner (given by the aggregation
scheme), the target. -/
structure Prepared (E : Env) where
  graph : Graph
  scheme : Scheme
  target : Target E.fp

/-- src/Poros.cpp:93-121: graph, parameters, aggregator, bisector, refiner, partitioner, target. Nothing here
writes to the caller's memory. The tolerance is the one of src/partition/PartitionParameters.cpp:46. -/
def prepare (E : Env) (i : Input) (o : Options E.fp) : Res (Prepared E) := do
  let ne ← rd i.edgePrefix i.numVertices
  let g ← Graph.ofPtrs i.numVertices ne i.edgePrefix i.edgeList i.vertexWeights i.edgeWeights
  let s ← makeScheme o.aggregationScheme
  let t ← Target.ofFractions i.numPartitions g.totVtx (E.fp.lit 3 2) (paramFractions E.fp i.numPartitions)
  .ok { graph := g, scheme := s, target := t }

/-- Continue with the value of `r`; any other outcome of `r` ends the call (src/Poros.cpp:72-144) with the caller's memory as
it is. -/
def andThen (r : Res α) (out : Out) (k : α → Out × Res β) : Out × Res β :=
  match r with
  | .ok a => k a
  | .ub => (out, .ub)
  | .exn => (out, .exn)
  | .diverge => (out, .diverge)

/-- `Partitioning::output`, src/partition/Partitioning.cpp:194-204, on the caller's memory. (What is left in the
memory after undefined behaviour does not matter.) -/
def writeOut (p : Partitioning) (out : Out) (k : Out → Out × Res β) : Out × Res β :=
  andThen (p.output out.asg) out fun w => k { cut := w.1, asg := w.2 }

/-- The loop of src/Poros.cpp:123-132: `n` more runs, the next one has number `i`. -/
def cutsLoop {S : Type} (run : S → Res (Partitioning × S)) : Nat → Nat → Nat → Out → S → Out × Res Unit
  | 0, _, _, out, _ => (out, .ok ())
  | n + 1, i, bestCut, out, s =>
    andThen (run s) out fun r =>
      if i = 0 ∨ r.1.cut < bestCut then writeOut r.1 out fun out' => cutsLoop run n (i + 1) r.1.cut out' r.2
      else cutsLoop run n (i + 1) bestCut out r.2

/-- `RecursiveBisectionPartitioner::execute` with the bisector of src/Poros.cpp:104-117. -/
def partitioner (E : Env) (s : Scheme) : Bisector E := rbExecute (makeMultilevel E s).execute

/-- `POROS_PartGraphRecursive`, src/Poros.cpp:72-145: the caller's memory afterwards and the outcome of the call.
The random engine is created from the seed (src/PorosParameters.cpp:41-47). -/
def partGraphRecursive (E : Env) (i : Input) (options : Option (Options E.fp)) (out : Out) : Out × Res Nat :=
  match options with
  | none => (out, .ok 0)
  | some o =>
    andThen (prepare E i o) out fun p =>
      let l := cutsLoop (partitioner E p.scheme p.target p.graph) o.numGlobalCuts.toNat 0 0 out
        (E.rng.seed o.randomSeed)
      andThen l.2 l.1 fun _ => (l.1, .ok 1)

end Poros
