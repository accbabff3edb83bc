import Verif.SpecCsr
import Verif.SpecFP
import Verif.SpecRB
import Verif.SpecBisect
import Verif.Model.Api
/-
Specification vocabulary for the C interface: what a valid input is, in terms of the caller's arrays.
-/
namespace Poros
open Finset

/-- The number of directed edges of the input. -/
def Input.numEdges (i : Input) : Nat := nth i.edgePrefix i.numVertices

/-- The caller's arrays describe an undirected graph without self loops whose total weights fit. -/
structure Input.Valid (i : Input) : Prop where
  csr : CSR i.numVertices i.numEdges i.edgePrefix i.edgeList i.vertexWeights i.edgeWeights
  symm : ∀ v u, v < i.numVertices → u < i.numVertices →
    csrWt i.edgePrefix i.edgeList i.edgeWeights v u = csrWt i.edgePrefix i.edgeList i.edgeWeights u v
  noLoop : ∀ v, v < i.numVertices → ∀ e, nth i.edgePrefix v ≤ e → e < nth i.edgePrefix (v + 1) →
    nth i.edgeList e ≠ v
  vtxFits : ∑ v ∈ range i.numVertices, weightAt i.vertexWeights v < 2 ^ 32
  edgeFits : ∑ e ∈ range i.numEdges, weightAt i.edgeWeights e < 2 ^ 32

/-- The weight of the undirected edges of the input joining differently labelled vertices. -/
def Input.cut (i : Input) (lab : Nat → Nat) : Nat :=
  csrCut i.numVertices i.edgePrefix i.edgeList i.edgeWeights lab

/-- The weight of the vertices of the input with label `q`. -/
def Input.partWeight (i : Input) (lab : Nat → Nat) (q : Nat) : Nat :=
  ∑ v ∈ range i.numVertices, if lab v = q then weightAt i.vertexWeights v else 0

/-- The total vertex weight of the input. -/
def Input.totalWeight (i : Input) : Nat := ∑ v ∈ range i.numVertices, weightAt i.vertexWeights v

/-- Every set of at least `num / den` of the vertices contains both ends of an edge. -/
def Input.Dense (i : Input) (num den : Nat) : Prop :=
  ∀ S : Finset Nat, S ⊆ range i.numVertices → num * i.numVertices ≤ den * S.card →
    ∃ v ∈ S, ∃ e, nth i.edgePrefix v ≤ e ∧ e < nth i.edgePrefix (v + 1) ∧ nth i.edgeList e ∈ S

/-- A known aggregation scheme is selected. -/
def Options.Known {fp : FP} (o : Options fp) : Prop := o.aggregationScheme = 0 ∨ o.aggregationScheme = 1

/-- `out'` is `out` with the cut and the first entries of the assignment overwritten by those of `p`. -/
structure IsOutput (p : Partitioning) (out out' : Out) : Prop where
  cut : out'.cut = p.cut
  len : out'.asg.length = out.asg.length
  labels : ∀ v, v < p.asg.length → nth out'.asg v = nth p.asg v
  rest : ∀ v, p.asg.length ≤ v → nth out'.asg v = nth out.asg v

/-- Position `j` is the first among the minimal cuts of the list. -/
def FirstBest (l : List Partitioning) (j : Nat) : Prop :=
  j < l.length ∧ (∀ m, m < l.length → (nth l j).cut ≤ (nth l m).cut) ∧
    ∀ m, m < j → (nth l j).cut < (nth l m).cut

end Poros

namespace Poros

/-- The laws of doubles behind "the target weight is at most the maximum weight": a fraction `f` between 0 and 1
(`f * 1 = f` holds of every double) and a non-negative tolerance. -/
structure FP.TargetOK (fp : FP) : Prop where
  mono : ∀ (f tol : fp.F) (tot a b : Nat), tot < M32 → fp.mul f (fp.lit 1 0) = f → fp.lt f (fp.lit 0 0) = false →
    fp.lt (fp.lit 1 0) f = false → fp.le (fp.lit 0 0) tol = true → fp.toU32 (fp.mul f (fp.ofNat tot)) = some a →
    fp.toU32 (fp.mul (fp.mul f (fp.add (fp.lit 1 0) tol)) (fp.ofNat tot)) = some b → a ≤ b

/-- Doubles are exact enough for the uniform target of the C interface to be accepted, for any number of parts from 2
and any total weight, with weights that fit. -/
structure FP.UniformOK (fp : FP) : Prop where
  uniform : ∀ k tot, 2 ≤ k → k < M32 → tot < M32 →
    ∃ t, Target.uniform (fp := fp) k tot (fp.lit 3 2) = .ok t ∧ WeightsFit NULL32 t.tw t.mx

end Poros

namespace Poros

/-- All laws of doubles a call of the C interface relies on (binary64 obeys them: `Concrete.callOK`). -/
structure FP.CallOK (fp : FP) : Prop where
  multilevel : ∀ tot, tot < M32 → fp.MultilevelOK tot
  badMoves : ∀ n, n < NULL32 → fp.BadMovesOK n
  recursive : fp.RecursiveOK
  uniform : fp.UniformOK

end Poros

namespace Poros

/-- When a call for two parts on a graph without vertex weights is safe: with an even number of vertices, or at least
35, or more than 20 and an edge. -/
def NullSafe (i : Input) : Prop :=
  0 < i.numVertices ∧ (i.numVertices % 2 = 0 ∨ 35 ≤ i.numVertices ∨ (21 ≤ i.numVertices ∧ 0 < i.numEdges))

/-- The number of vertices with label `q`. -/
def Input.partSize (i : Input) (lab : Nat → Nat) (q : Nat) : Nat :=
  ((Finset.range i.numVertices).filter fun v => lab v = q).card

end Poros
