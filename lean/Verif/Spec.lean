import Verif.Model.Graph
import Mathlib.Algebra.BigOperators.Group.Finset.Basic
import Mathlib.Algebra.Order.BigOperators.Group.Finset
/-
Specification vocabulary: what a graph, a cut, a part weight *is*, independent of how the code computes
them. Read this file to read the property theorems.
-/
namespace Poros
open Finset

namespace Graph

/-- Weight of vertex `v` as reported by the graph. -/
def vw (g : Graph) (v : Nat) : Nat := if g.unitVtx then 1 else nth g.vwgt v

/-- Weight of the edge slot `e`. -/
def ew (g : Graph) (e : Nat) : Nat := if g.unitEdge then 1 else nth g.adjwgt e

/-- Adjacency list of `v`: (neighbour, weight) pairs. -/
def nbrs (g : Graph) (v : Nat) : List (Nat × Nat) :=
  (List.range' (nth g.xadj v) (nth g.xadj (v + 1) - nth g.xadj v)).map
    fun e => (nth g.adjncy e, g.ew e)

/-- Total weight of the edges listed at `v` whose other end satisfies `p`. -/
def wsum (g : Graph) (v : Nat) (p : Nat → Bool) : Nat :=
  ((g.nbrs v).map fun q => if p q.1 then q.2 else 0).sum

/-- Total weight of the edges from `v` to `u`. -/
def wt (g : Graph) (v u : Nat) : Nat := g.wsum v (fun x => x == u)

/-- Total vertex weight. -/
def sumVtx (g : Graph) : Nat := ∑ v ∈ range g.nv, g.vw v

/-- Total weight of all stored (directed) edges. -/
def sumEdge (g : Graph) : Nat := ∑ v ∈ range g.nv, g.wsum v (fun _ => true)

/-- A valid CSR graph whose numbers fit their 32-bit types. -/
structure WF (g : Graph) : Prop where
  nv_lt : g.nv < NULL32
  ne_lt : g.ne < NULL32
  xadj_len : g.xadj.length = g.nv + 1
  adj_len : g.adjncy.length = g.ne
  xadj_zero : nth g.xadj 0 = 0
  xadj_mono : ∀ v, v < g.nv → nth g.xadj v ≤ nth g.xadj (v + 1)
  xadj_last : nth g.xadj g.nv = g.ne
  dest_lt : ∀ e, e < g.ne → nth g.adjncy e < g.nv
  vwgt_len : g.unitVtx = false → g.vwgt.length = g.nv
  vwgt_unit : g.unitVtx = true → ∀ v, v < g.vwgt.length → nth g.vwgt v = 1
  adjwgt_len : g.unitEdge = false → g.adjwgt.length = g.ne
  adjwgt_unit : g.unitEdge = true → ∀ e, e < g.adjwgt.length → nth g.adjwgt e = 1
  tot_vtx : g.totVtx = g.sumVtx % M32
  tot_edge : g.totEdge = g.sumEdge % M32

/-- Total weights small enough that no sum of them leaves its type. -/
structure Small (g : Graph) : Prop where
  vtx : g.sumVtx < M32
  edge : g.sumEdge < M32

/-- Undirected: equal weight in both directions. -/
def Symm (g : Graph) : Prop := ∀ v u, v < g.nv → u < g.nv → g.wt v u = g.wt u v

/-- No edge joins a vertex with itself. -/
def NoLoop (g : Graph) : Prop := ∀ v, v < g.nv → ∀ q ∈ g.nbrs v, q.1 ≠ v

/-- An edge from `v` to `u` is stored. -/
def Adj (g : Graph) (v u : Nat) : Prop := ∃ w, (u, w) ∈ g.nbrs v

/-- Adjacency is symmetric (also for edges of weight zero). -/
def SymmAdj (g : Graph) : Prop := ∀ v u, v < g.nv → u < g.nv → g.Adj v u → g.Adj u v

end Graph

/-- The weight of the undirected edges joining differently labelled vertices. -/
def cutWeight (g : Graph) (lab : Nat → Nat) : Nat :=
  ∑ v ∈ range g.nv, ∑ u ∈ range v, if lab u ≠ lab v then g.wt v u else 0

/-- The weight of the vertices with label `p`. -/
def partWeight (g : Graph) (lab : Nat → Nat) (p : Nat) : Nat :=
  ∑ v ∈ range g.nv, if lab v = p then g.vw v else 0

/-- The weight of the edges of `v` to equally labelled vertices. -/
def internalWeight (g : Graph) (lab : Nat → Nat) (v : Nat) : Nat :=
  ∑ u ∈ range g.nv, if lab u = lab v then g.wt v u else 0

/-- The weight of the edges of `v` to differently labelled vertices. -/
def externalWeight (g : Graph) (lab : Nat → Nat) (v : Nat) : Nat :=
  ∑ u ∈ range g.nv, if lab u ≠ lab v then g.wt v u else 0

/-- A valid graph: the arrays are consistent, edges are symmetric, there are no self loops, and the total weights fit. -/
structure Graph.Good (g : Graph) : Prop where
  wf : g.WF
  symm : g.Symm
  noLoop : g.NoLoop
  small : g.Small

end Poros
