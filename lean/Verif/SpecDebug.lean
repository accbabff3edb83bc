import Verif.SpecApi
import Mathlib.Logic.Relation
/-
Specification vocabulary for debug builds: when a call can run without failing an assertion.
-/
namespace Poros
open Finset

/-- Every listed edge has a listed edge in the other direction (as an edge of weight 0 need not, in a valid input). -/
def Input.Mutual (i : Input) : Prop :=
  ∀ v u, v < i.numVertices → u < i.numVertices →
    (∃ e, nth i.edgePrefix v ≤ e ∧ e < nth i.edgePrefix (v + 1) ∧ nth i.edgeList e = u) →
    ∃ e, nth i.edgePrefix u ≤ e ∧ e < nth i.edgePrefix (u + 1) ∧ nth i.edgeList e = v

/-- No edge is listed twice. -/
def Input.Simple (i : Input) : Prop :=
  ∀ v, v < i.numVertices → ∀ e e', nth i.edgePrefix v ≤ e → e < nth i.edgePrefix (v + 1) →
    nth i.edgePrefix v ≤ e' → e' < nth i.edgePrefix (v + 1) → nth i.edgeList e = nth i.edgeList e' → e = e'

/-- A set of vertices that no edge of positive weight leaves. -/
def Input.Closed (i : Input) (S : Finset Nat) : Prop :=
  S ⊆ range i.numVertices ∧ ∀ v ∈ S, ∀ u, u < i.numVertices → u ∉ S →
    csrWt i.edgePrefix i.edgeList i.edgeWeights v u = 0

/-- Every nonempty closed set of vertices (that is, every connected component) has at least two vertices and weighs more
than 7.5% of the total, the limit for coarse vertices. A connected graph with two vertices and positive total weight is an
instance. -/
def Input.NoSmallComponent (i : Input) : Prop :=
  ∀ S : Finset Nat, i.Closed S → S.Nonempty → 2 ≤ S.card ∧ 3 * i.totalWeight / 40 < ∑ v ∈ S, weightAt i.vertexWeights v

/-- All vertices have weight 1 (so, for instance, those of a null array). -/
def Input.AllOnes (i : Input) : Prop := ∀ v, v < i.numVertices → weightAt i.vertexWeights v = 1

/-- There is an edge from `v` to `u`. -/
def Input.Edge (i : Input) (v u : Nat) : Prop :=
  v < i.numVertices ∧ u < i.numVertices ∧
    ∃ e, nth i.edgePrefix v ≤ e ∧ e < nth i.edgePrefix (v + 1) ∧ nth i.edgeList e = u

/-- Any two vertices are joined by a path. -/
def Input.Connected (i : Input) : Prop :=
  ∀ v u, v < i.numVertices → u < i.numVertices → Relation.ReflTransGen i.Edge v u

/-- The number of edges from `v` to vertices with the label of `v`. -/
def innerDegree (g : Graph) (lab : Nat → Nat) (v : Nat) : Nat :=
  ((g.nbrs v).filter fun q => decide (lab q.1 = lab v)).length

/-- A vertex with edges inside its part has fewer of them than the part has vertices, and for every edge inside a part
the first edge listed in the other direction exists and has the same weight. -/
structure ExtractOK (g : Graph) (lab : Nat → Nat) : Prop where
  deg : ∀ v, v < g.nv → innerDegree g lab v = 0 ∨ innerDegree g lab v < (vertsOf g lab (lab v)).length
  rev : ∀ v, v < g.nv → ∀ u w, (u, w) ∈ g.nbrs v → lab u = lab v →
    (g.nbrs u).find? (fun q => q.1 == v) = some (v, w)

/-- All edge weights are positive. -/
def Input.PositiveEdges (i : Input) : Prop := ∀ e, e < i.numEdges → 0 < weightAt i.edgeWeights e

end Poros
