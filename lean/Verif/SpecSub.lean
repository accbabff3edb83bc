import Verif.SpecPart
import Verif.SpecAgg
import Verif.Model.Subgraph
/-
Specification vocabulary for the two-step builder and for subgraphs.
-/
namespace Poros
open Finset

/-- Calls on the two-step builder during its vertex phase. -/
inductive VOp where
  | setDegree (v d : Nat)
  | incDegree (v : Nat)
  | setWeight (v w : Nat)

/-- Running one call in the model. -/
def VOp.run (b : TwoStep) : VOp → Res TwoStep
  | .setDegree v d => b.setVertexNumEdges v d
  | .incDegree v => b.incVertexNumEdges v
  | .setWeight v w => b.setVertexWeight v w

/-- What a call does to the declared degrees. -/
def VOp.deg (f : Nat → Nat) : VOp → Nat → Nat
  | .setDegree v d => fun u => if u = v then d else f u
  | .incDegree v => fun u => if u = v then f u + 1 else f u
  | .setWeight _ _ => f

/-- What a call does to the declared vertex weights (`none`: not yet declared). -/
def VOp.wgt (f : Nat → Option Nat) : VOp → Nat → Option Nat
  | .setWeight v w => fun u => if u = v then some w else f u
  | _ => f

/-- Precondition of a call: an existing vertex, numbers that fit their type, and no weights if the builder was
told that all are one. -/
def VOp.Legal (n : Nat) (unitV : Bool) (f : Nat → Nat) : VOp → Prop
  | .setDegree v d => v < n ∧ d < M32
  | .incDegree v => v < n ∧ f v + 1 < M32
  | .setWeight v _ => v < n ∧ unitV = false

/-- A history each call of which is legal when it is executed. -/
def VHistory (n : Nat) (unitV : Bool) : (Nat → Nat) → List VOp → Prop
  | _, [] => True
  | f, op :: ops => op.Legal n unitV f ∧ VHistory n unitV (op.deg f) ops

/-- Degrees declared by a history. -/
def declaredDeg (H : List VOp) : Nat → Nat := H.foldl VOp.deg (fun _ => 0)

/-- Vertex weights declared by a history. -/
def declaredWgt (H : List VOp) : Nat → Option Nat := H.foldl VOp.wgt (fun _ => none)

/-- One edge insertion `addEdgeToVertex(v, dest, w)`. -/
structure Ins where
  v : Nat
  dest : Nat
  w : Nat
deriving DecidableEq, Repr

/-- The (destination, weight) pairs inserted at `v`, in the order of insertion. -/
def insertedAt (L : List Ins) (v : Nat) : List (Nat × Nat) :=
  (L.filter fun i => decide (i.v = v)).map fun i => (i.dest, i.w)

/-- A complete use of the builder: configure, vertex calls `H`, edge insertions `L`, finish. -/
def buildTwoStep (n : Nat) (unitV unitE : Bool) (H : List VOp) (L : List Ins) : Res Graph := do
  let b := (((TwoStep.new.setNumVertices n).setUnitEdgeWeight unitE).setUnitVertexWeight
    unitV).beginVertexPhase
  let b ← H.foldlM VOp.run b
  let b ← b.beginEdgePhase
  let b ← L.foldlM (fun b i => b.addEdgeToVertex i.v i.dest i.w) b
  b.finish

/-- The vertices of `g` with label `p`, in increasing order. -/
def vertsOf (g : Graph) (lab : Nat → Nat) (p : Nat) : List Nat :=
  (List.range g.nv).filter fun v => decide (lab v = p)

/-- The label recorded in the super-map for vertex `v`. -/
def superOf (labels : Option (List Nat)) (v : Nat) : Nat :=
  match labels with
  | some l => nth l v
  | none => v

/-- The caller's label array, if any, covers all vertices. -/
def LabelsOK (n : Nat) (labels : Option (List Nat)) : Prop :=
  match labels with
  | some l => n ≤ l.length
  | none => True

/-- `s` is a valid graph, the subgraph of `g` induced by the vertices labelled `p`: vertex `i` of `s` is the `i`-th such vertex,
with its weight, and its adjacency list is that of the vertex in `g` restricted to the part, in the same order
with the same weights. -/
structure IsInduced (g : Graph) (lab : Nat → Nat) (p : Nat) (s : Graph) : Prop where
  nv : s.nv = (vertsOf g lab p).length
  vw : ∀ i, i < s.nv → s.vw i = g.vw (nth (vertsOf g lab p) i)
  dest : ∀ i, i < s.nv → ∀ q ∈ s.nbrs i, q.1 < s.nv
  nbrs : ∀ i, i < s.nv → (s.nbrs i).map (fun q => (nth (vertsOf g lab p) q.1, q.2)) =
    (g.nbrs (nth (vertsOf g lab p) i)).filter fun q => decide (lab q.1 = p)
  valid : s.WF

end Poros
