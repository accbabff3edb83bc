import Verif.Spec
import Mathlib.Algebra.BigOperators.Intervals
/-
Specification vocabulary for the arrays a caller hands in (compressed sparse row).
-/
namespace Poros
open Finset

/-- Entry `i` of an optional weight array; a null array means all ones. -/
def weightAt (w : Option (List Nat)) (i : Nat) : Nat :=
  match w with
  | none => 1
  | some l => nth l i

/-- The arrays the caller passes describe a graph with `nv` vertices and `ne` (directed) edges. -/
structure CSR (nv ne : Nat) (xadj adjncy : List Nat) (vw aw : Option (List Nat)) : Prop where
  nv_lt : nv < NULL32
  ne_lt : ne < NULL32
  xadj_len : nv + 1 ≤ xadj.length
  adj_len : ne ≤ adjncy.length
  vw_len : ¬ shorter vw nv
  aw_len : ¬ shorter aw ne
  zero : nth xadj 0 = 0
  mono : ∀ v, v < nv → nth xadj v ≤ nth xadj (v + 1)
  last : nth xadj nv = ne
  dest : ∀ e, e < ne → nth adjncy e < nv

/-- Total weight, in the caller's arrays, of the edges listed at `v` that lead to `u`. -/
def csrWt (xadj adjncy : List Nat) (aw : Option (List Nat)) (v u : Nat) : Nat :=
  ∑ e ∈ Ico (nth xadj v) (nth xadj (v + 1)), if nth adjncy e = u then weightAt aw e else 0

/-- The weight of the undirected edges of the caller's graph that join differently labelled vertices. -/
def csrCut (nv : Nat) (xadj adjncy : List Nat) (aw : Option (List Nat)) (lab : Nat → Nat) : Nat :=
  ∑ v ∈ range nv, ∑ u ∈ range v, if lab u ≠ lab v then csrWt xadj adjncy aw v u else 0

end Poros
