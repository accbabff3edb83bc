import Verif.Model.Api
import Verif.Model.Util
/-
Model of src/partition/PartitionParameters.cpp, src/aggregation/AggregationParameters.cpp and the iteration over the
partitions of src/partition/Partitioning.hpp.
-/
namespace Poros
open Res

/-- Members of `class PartitionParameters`, src/partition/PartitionParameters.hpp:109-112. -/
structure PartParams (fp : FP) where
  k : Nat
  tol : fp.F
  frac : List fp.F

namespace PartParams
variable {fp : FP}

/-- The constructor, src/partition/PartitionParameters.cpp:43-54: the vector of `numPartitions` zeroes is overwritten entry
by entry with `1.0 / numPartitions`. -/
def new (fp : FP) (k : Nat) : Res (PartParams fp) := do
  let fr ← (List.range k).foldlM (fun fr i => wr fr i (fp.div (fp.lit 1 0) (fp.ofNat k))) (List.replicate k (fp.lit 0 0))
  .ok { k := k, tol := fp.lit 3 2, frac := fr }

/-- `setImbalanceTolerance`, src/partition/PartitionParameters.cpp:62-66. -/
def setTolerance (tol : fp.F) (p : PartParams fp) : PartParams fp := { p with tol := tol }

/-- `setTargetPartitionFractions`, src/partition/PartitionParameters.cpp:69-75; `fractions` is the array the pointer points
to. -/
def setFractions (fractions : List fp.F) (p : PartParams fp) : Res (PartParams fp) := do
  let fr ← (List.range p.k).foldlM (fun fr i => do
    let f ← rd fractions i
    wr fr i f) p.frac
  .ok { p with frac := fr }

/-- The target built from the parameters as in src/Poros.cpp:119-121 with `numPartitions`, `getImbalanceTolerance` and
`getTargetPartitionFractions`, src/partition/PartitionParameters.cpp:78-93. -/
def target (p : PartParams fp) (tot : Nat) : Res (Target fp) := Target.ofFractions p.k tot p.tol p.frac

end PartParams

/-- The member of `class AggregationParameters`, src/aggregation/AggregationParameters.hpp:69. -/
structure AggParams where
  maxW : Nat

namespace AggParams

/-- The constructor, src/aggregation/AggregationParameters.cpp:39-43. -/
def new : AggParams := ⟨NULL32⟩

/-- `setMaxVertexWeight`, src/aggregation/AggregationParameters.cpp:49-53. -/
def setMax (w : Nat) (_ : AggParams) : AggParams := ⟨w⟩

/-- `isAllowedVertexWeight`, src/aggregation/AggregationParameters.hpp:61-66. -/
def allowed (p : AggParams) (w : Nat) : Bool := isAllowed p.maxW w

end AggParams

/-- A range-based `for` over a partitioning, src/partition/Partitioning.hpp:51-89 and 420-439: the iterators count with a
32-bit index from 0 to the number of partitions (`size()` converted to 32 bits), and `operator*` reads the weight at the
index (src/partition/Partition.hpp:48-55 pairs index and weight). -/
def Partitioning.partitions (p : Partitioning) (fuel : Nat) : Res (List (Nat × Nat)) := do
  let is ← IndexSet.iterate ⟨0, p.pw.length % M32⟩ fuel
  is.mapM fun i => do
    let w ← rd p.pw i
    .ok (i, w)

end Poros
