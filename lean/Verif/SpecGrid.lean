import Verif.Spec
import Verif.Model.Grid
import Verif.SpecApi
/-
Specification vocabulary for grid graphs.
-/
namespace Poros
open Finset

/-- A point of the grid. -/
structure Pt where
  x : Nat
  y : Nat
  z : Nat
deriving DecidableEq, Repr

/-- The point lies in the `X` by `Y` by `Z` grid. -/
def Pt.In (X Y Z : Nat) (p : Pt) : Prop := p.x < X ∧ p.y < Y ∧ p.z < Z

/-- The vertex of a point: points are numbered with `x` varying fastest and `z` slowest. -/
def Pt.id (X Y : Nat) (p : Pt) : Nat := (p.z * Y + p.y) * X + p.x

/-- Two points are neighbours in dimension 0, 1 or 2: that coordinate differs by one, the others are equal. -/
def Pt.Step (d : Nat) (p q : Pt) : Prop :=
  (d = 0 ∧ (p.x = q.x + 1 ∨ q.x = p.x + 1) ∧ p.y = q.y ∧ p.z = q.z) ∨
  (d = 1 ∧ p.x = q.x ∧ (p.y = q.y + 1 ∨ q.y = p.y + 1) ∧ p.z = q.z) ∨
  (d = 2 ∧ p.x = q.x ∧ p.y = q.y ∧ (p.z = q.z + 1 ∨ q.z = p.z + 1))

/-- The number of edges (in both directions) of a grid: `(X-1)YZ + X(Y-1)Z + XY(Z-1)` undirected ones. -/
def gridEdgeCount (X Y Z : Nat) : Nat := 2 * ((X - 1) * Y * Z + X * (Y - 1) * Z + X * Y * (Z - 1))

/-- The caller passes the arrays of the graph `g`, vertex weights null or all 1, and edge weights null, all 1 or those of
`g`. -/
structure GridInput (g : Graph) (i : Input) : Prop where
  nv : i.numVertices = g.nv
  pre : i.edgePrefix = g.xadj
  list : i.edgeList = g.adjncy
  vlen : ¬ shorter i.vertexWeights g.nv
  vone : ∀ v, v < g.nv → weightAt i.vertexWeights v = 1
  elen : ¬ shorter i.edgeWeights g.ne
  ewts : (∀ e, e < g.ne → weightAt i.edgeWeights e = g.ew e) ∨ (∀ e, e < g.ne → weightAt i.edgeWeights e = 1)
  fits : ∑ e ∈ range g.ne, weightAt i.edgeWeights e < 2 ^ 32

end Poros
