import Verif.Model.Subgraph
import Verif.Model.Bisectors
/-
Model of src/partition/RecursiveBisectionPartitioner.cpp.
-/
namespace Poros
open Res

variable {E : Env}

/-- `IMappedGraph` (src/graph/IMappedGraph.hpp): a `MappedGraphWrapper` (no super-map) or a `Subgraph`. -/
structure Mapped where
  superMap : Option (List Nat)
  graph : Graph
deriving DecidableEq, Repr

/-- The virtual call `mapPartitioning`: src/graph/MappedGraphWrapper.cpp:58-67, Subgraph.cpp:79-90. -/
def Mapped.mapPartitioning (m : Mapped) (p : Partitioning) (labels : Mem) (offset : Nat) : Res Mem :=
  match m.superMap with
  | none => wrapperMapPartitioning m.graph p labels offset
  | some l => (Subgraph.mk l m.graph).mapPartitioning p labels offset

/-- State of the first loop of `recurse`, src/partition/RecursiveBisectionPartitioner.cpp:64-78: target weights, maximum weights and numbers of parts of the two halves. -/
structure Halves where
  tw : List Nat
  mx : List Nat
  num : List Nat
deriving DecidableEq, Repr

/-- `toleranceFactor`, src/partition/RecursiveBisectionPartitioner.cpp:63. -/
def toleranceFactor (fp : FP) (k : Nat) : fp.F := fp.div (fp.lit 1 0) (fp.log2 (fp.ofNat k))

/-- The half a part goes to, src/partition/RecursiveBisectionPartitioner.cpp:73. -/
def halfOf (k pid : Nat) : Nat := if pid ≥ k / 2 then 1 else 0

/-- One iteration of the first loop, src/partition/RecursiveBisectionPartitioner.cpp:71-78.
`getMaxExcessWeight` is src/partition/TargetPartitioning.hpp:185-192; the compound assignment adds in double and
converts back. -/
def halvesStep {fp : FP} (t : Target fp) (s : Halves) (pid : Nat) : Res Halves := do
  let half := halfOf t.k pid
  let w ← rd t.tw pid
  let o ← rd s.tw half
  let tw ← wr s.tw half (uadd o w)
  let m ← rd t.mx pid
  let excess := usub m w
  let om ← rd s.mx half
  let nm ← fp.cast (fp.add (fp.ofNat om)
    (fp.add (fp.ofNat w) (fp.mul (fp.ofNat excess) (toleranceFactor fp t.k))))
  let mx ← wr s.mx half nm
  let on ← rd s.num half
  let num ← wr s.num half (uadd on 1)
  .ok { tw := tw, mx := mx, num := num }

/-- The first loop with its initialisation, src/partition/RecursiveBisectionPartitioner.cpp:65-82: the weights of
the two halves and the exclusive prefix sums of the numbers of parts. -/
def makeHalves {fp : FP} (t : Target fp) : Res Halves := do
  let s ← (List.range t.k).foldlM (halvesStep t) { tw := [0, 0], mx := [0, 0], num := [0, 0, 0] }
  .ok { s with num := prefixSumExclusive s.num }

/-- The target of one half, src/partition/RecursiveBisectionPartitioner.cpp:126-137. -/
def halfTarget {fp : FP} (t : Target fp) (offset n : Nat) : Res (Target fp) := do
  let tw ← (List.range n).mapM fun pid => rd t.tw (pid + offset)
  let mx ← (List.range n).mapM fun pid => rd t.mx (pid + offset)
  Target.ofWeights n tw mx

/-- The body of the loop over the two subgraphs, src/partition/RecursiveBisectionPartitioner.cpp:121-141; `rec` is
the recursive call. -/
def rbSide {S : Type} (rec : Target E.fp → Mapped → Nat → Mem × S → Res (Mem × S)) (t : Target E.fp) (num : List Nat)
    (parts : List Subgraph) (offset : Nat) (s : Mem × S) (part : Nat) : Res (Mem × S) := do
  let b ← rd num part
  let e ← rd num (part + 1)
  if usub e b > 1 then do
    let st ← halfTarget t b (usub e b)
    let sg ← rd parts part
    rec st { superMap := some sg.superMap, graph := sg.graph } (uadd offset b) s
  else .ok s

/-- `recurse`, src/partition/RecursiveBisectionPartitioner.cpp:48-144, with fuel for the recursion. The debug
message of lines 94-104 is not modelled. -/
def rbRecurse (bis : Bisector E) :
    Nat → Target E.fp → Mapped → Nat → Mem × E.rng.S → Res (Mem × E.rng.S)
  | 0, _, _, _, _ => .diverge
  | fuel + 1, t, mg, offset, s => do
    let h ← makeHalves t
    let bt ← Target.ofWeights 2 h.tw h.mx
    let o ← bis bt mg.graph s.2
    let labels ← mg.mapPartitioning o.1 s.1 offset
    if t.k > 2 then do
      let parts ← extractPartitions mg.graph o.1 mg.superMap
      (List.range parts.length).foldlM (rbSide (rbRecurse bis fuel) t h.num parts offset) (labels, o.2)
    else .ok (labels, o.2)

/-- `execute`, src/partition/RecursiveBisectionPartitioner.cpp:162-174. The recursion gets fuel `numPartitions`;
that this suffices for two or more parts is a theorem (C36). -/
def rbExecute (bis : Bisector E) (t : Target E.fp) (g : Graph) (r : E.rng.S) : Res (Partitioning × E.rng.S) := do
  let o ← rbRecurse bis t.k t { superMap := none, graph := g } 0 (Mem.alloc g.nv, r)
  let labels ← o.1.freeze
  let p ← Partitioning.ofLabels t.k g labels
  let p ← p.recalcCut g
  .ok (p, o.2)

end Poros
