/-
Copyright (c) 2026. Properties of calls on directed graphs.
-/
import Verif.Proofs.Directed
import Verif.ExamplesApi

/-!
C114: a call for two parts of a directed graph of any size.

The caller's arrays are well formed, but an edge need not be listed at both of its end points, or may be listed with two
different weights.  Nothing else of the pipeline relies on symmetry: the matching, the contraction, the initial bisection,
the refinement and the final evaluation stay within their arrays and the call ends with the promised effects.
-/

namespace Poros

open Finset Res

variable {E : Env}

/-- Arrays of a directed graph without self loops: well-formed arrays, vertex weights adding up to less than 2^32 and listed
edge weights adding up to less than 2^30. Edges need not be listed at both ends. -/
structure Input.Arcs (i : Input) : Prop where
  csr : CSR i.numVertices i.numEdges i.edgePrefix i.edgeList i.vertexWeights i.edgeWeights
  noLoop : ∀ v, v < i.numVertices → ∀ e, nth i.edgePrefix v ≤ e → e < nth i.edgePrefix (v + 1) →
    nth i.edgeList e ≠ v
  vtxFits : ∑ v ∈ range i.numVertices, weightAt i.vertexWeights v < 2 ^ 32
  edges : ∑ e ∈ range i.numEdges, weightAt i.edgeWeights e < 2 ^ 30

/-- A loop-free directed graph: well-formed arrays, at least one vertex, no self loops, vertex weights adding up to less
than 2^32 and listed edge weights adding up to less than 2^30.  The vertex weights may be left out if the graph has more than
20 vertices and an edge.  Edges need not be listed at both ends. -/
structure Input.Loopless (i : Input) : Prop where
  csr : CSR i.numVertices i.numEdges i.edgePrefix i.edgeList i.vertexWeights i.edgeWeights
  vertices : 0 < i.numVertices
  noLoop : ∀ v, v < i.numVertices → ∀ e, nth i.edgePrefix v ≤ e → e < nth i.edgePrefix (v + 1) →
    nth i.edgeList e ≠ v
  weights : i.vertexWeights.isSome ∨ (20 < i.numVertices ∧ 0 < i.numEdges)
  vtxFits : ∑ v ∈ range i.numVertices, weightAt i.vertexWeights v < 2 ^ 32
  edges : ∑ e ∈ range i.numEdges, weightAt i.edgeWeights e < 2 ^ 30

/-- The graph made of such arrays. -/
theorem Input.Arcs.free {i : Input} (h : i.Arcs) :
    ∃ g, Graph.ofPtrs i.numVertices i.numEdges i.edgePrefix i.edgeList i.vertexWeights i.edgeWeights = ok g ∧ g.Free ∧
      Represents i.numVertices i.numEdges i.edgePrefix i.edgeList i.vertexWeights i.edgeWeights g := by
  have hc := h.csr
  obtain ⟨g, hg, hr⟩ := ofPtrs_spec hc.nv_lt hc.xadj_len hc.adj_len hc.vw_len hc.aw_len
  have hwf := hc.wf hr
  refine ⟨g, hg, ⟨hwf, ?_, ?_, ?_⟩, hr⟩
  · intro v hv q hq
    rw [hr.nv_eq] at hv
    unfold Graph.nbrs at hq
    obtain ⟨e, he, rfl⟩ := List.mem_map.mp hq
    rw [List.mem_range'_1] at he
    rw [hr.xadj_at (by omega), hr.xadj_at (by omega)] at he
    have h1 : nth i.edgePrefix v ≤ nth i.edgePrefix (v + 1) := hc.mono v hv
    have h2 : nth i.edgePrefix (v + 1) ≤ i.numEdges := by
      have := hc.xadj_le (u := v + 1) (v := i.numVertices) (by omega) (le_refl _)
      rw [hc.last] at this
      exact this
    show nth g.adjncy e ≠ v
    rw [hr.adj_at (by omega)]
    exact h.noLoop v hv e he.1 (by omega)
  · have := h.vtxFits
    unfold Graph.sumVtx
    rw [hr.nv_eq, sum_congr rfl fun v hv => hr.vw_at (mem_range.mp hv)]
    norm_num at this
    exact this
  · have := h.edges
    rw [sumEdge_eq_slots hwf.xadj_zero hwf.xadj_last hwf.xadj_mono, hr.ne_eq,
      sum_congr rfl fun e he => hr.ew_at (mem_range.mp he)]
    norm_num at this
    exact this

theorem Input.Loopless.arcs {i : Input} (h : i.Loopless) : i.Arcs := ⟨h.csr, h.noLoop, h.vtxFits, h.edges⟩

theorem Input.Loopless.free {i : Input} (h : i.Loopless) :
    ∃ g, Graph.ofPtrs i.numVertices i.numEdges i.edgePrefix i.edgeList i.vertexWeights i.edgeWeights = ok g ∧ g.Free ∧
      Represents i.numVertices i.numEdges i.edgePrefix i.edgeList i.vertexWeights i.edgeWeights g := h.arcs.free

/-- The listed cut is at most the weight of all edges. -/
theorem Input.listedCut_le {i : Input}
    (hc : CSR i.numVertices i.numEdges i.edgePrefix i.edgeList i.vertexWeights i.edgeWeights) (lab : Nat → Nat) :
    i.listedCut lab ≤ ∑ e ∈ range i.numEdges, weightAt i.edgeWeights e := by
  have key : ∀ n, n ≤ i.numVertices →
      ∑ v ∈ range n, ∑ e ∈ Ico (nth i.edgePrefix v) (nth i.edgePrefix (v + 1)), weightAt i.edgeWeights e =
        ∑ e ∈ Ico (nth i.edgePrefix 0) (nth i.edgePrefix n), weightAt i.edgeWeights e := by
    intro n
    induction n with
    | zero => intro _; simp
    | succ n ih =>
      intro hn
      rw [sum_range_succ, ih (by omega)]
      exact sum_Ico_consecutive _ (hc.xadj_le (by omega) (by omega)) (hc.mono n (by omega))
  have h := key i.numVertices (le_refl _)
  rw [hc.zero, hc.last, ← range_eq_Ico] at h
  rw [← h]
  refine sum_le_sum fun v _ => sum_le_sum fun e _ => ?_
  split
  · exact le_refl _
  · exact Nat.zero_le _

/-- **C114.** A call for two parts of a directed graph without self loops, of any size, returns 1 with labels below 2 and
the halved listed cut. -/
theorem C114_directed (hfp : E.fp.CallOK) {i : Input} (hi : i.Loopless) (hk : i.numPartitions = 2) {o : Options E.fp}
    (ho : o.Known) (hcuts : 0 < o.numGlobalCuts) {out : Out} (hb : i.numVertices ≤ out.asg.length) :
    ∃ out', partGraphRecursive E i (some o) out = (out', ok 1) ∧ (∀ v, v < i.numVertices → nth out'.asg v < 2) ∧
      out'.cut = i.listedCut (nth out'.asg) / 2 ∧ out'.asg.length = out.asg.length ∧
      ∀ v, i.numVertices ≤ v → nth out'.asg v = nth out.asg v := by
  have hc := hi.csr
  obtain ⟨g, hg, hfree, hr⟩ := hi.free
  have htot : g.totVtx = i.totalWeight % 2 ^ 32 := by
    rw [hr.totVtx_eq]
    norm_num
    rfl
  obtain ⟨s, hs⟩ := makeScheme_known ho
  obtain ⟨t, ht, hfit⟩ := hfp.uniform.uniform 2 (i.totalWeight % 2 ^ 32) (le_refl _) (by omega)
    (by have := Nat.mod_lt i.totalWeight (show 0 < 2 ^ 32 by norm_num); norm_num at this ⊢; exact this)
  have hprep : prepare E i o = ok ⟨g, s, t⟩ := by
    unfold prepare
    rw [rd_of_lt (by have := hc.xadj_len; omega), ok_bind]
    rw [show nth i.edgePrefix i.numVertices = i.numEdges from rfl, hg, ok_bind, hs, ok_bind, htot, hk]
    show (Target.uniform 2 _ _ >>= _) = _
    rw [ht, ok_bind]
  obtain ⟨-, h3, -, h4, h5, -⟩ := ofFractions_shape ht
  have hvw : g.nv ≤ 20 ∨ g.ne = 0 → g.unitVtx = true → g.vwgt.length = g.nv := by
    intro hsm _
    rw [hr.nv_eq, hr.ne_eq] at hsm
    rw [hr.vwgt_eq, hr.nv_eq]
    obtain ⟨l, hl⟩ := Option.isSome_iff_exists.mp (hi.weights.resolve_right (by omega))
    have := hc.vw_len
    rw [hl] at this ⊢
    simp only [shorter, not_lt] at this
    simp only [emptyIfNull, List.length_take]
    omega
  have hrun : ∀ r, Sat (partitioner E s t g r) (fun x => x.1.asg.length = g.nv) := fun r =>
    (rbExecute_any_two (R := fun _ _ => True) hfree.wf (fun bt r hbt =>
      (execute_free s hfp.multilevel hfp.badMoves hfree (by rw [hr.nv_eq]; exact hi.vertices) hvw hbt.two r).mono
        fun o ho => ⟨ho, trivial⟩) h3 (by rw [h3]; exact h4) (by rw [h3]; exact h5) hfp.recursive hfit r).mono
      fun x hx => hx.1
  have h := call_total hprep (fun r => by
    obtain ⟨x, hx, h1⟩ := sat_iff.mp (hrun r)
    exact ⟨x.1, x.2, hx, h1⟩) (out := out) (by show g.nv ≤ _; rw [hr.nv_eq]; exact hb)
  have he : partGraphRecursive E i (some o) out = ((partGraphRecursive E i (some o) out).1, ok 1) := Prod.ext rfl h
  obtain ⟨h1, h2, h3⟩ := C93_any_graph hc hcuts he
  rw [hk] at h1
  refine ⟨_, he, h1, ?_, h3⟩
  rw [h2, Nat.mod_eq_of_lt]
  have h4 := Input.listedCut_le hc (nth (partGraphRecursive E i (some o) out).1.asg)
  have h5 := hi.edges
  norm_num at h5 ⊢
  omega

/-- A directed ring of 24 vertices with a chord, every edge listed at its tail only. -/
def circleIn : Input :=
  { numVertices := 24, edgePrefix := (List.range 25).map fun v => if v = 0 then 0 else v + 1,
    edgeList := 12 :: (List.range 24).map fun v => (v + 1) % 24,
    vertexWeights := none, edgeWeights := none, numPartitions := 2 }


/-- The hypotheses are met by a directed ring, which is coarsened before it is divided; it is not a valid undirected
graph, since the edge from 0 to 1 is not listed at 1. -/
example : circleIn.Loopless ∧ circleIn.numPartitions = 2 ∧ (Ex.cuts 1).Known ∧ 0 < (Ex.cuts 1).numGlobalCuts ∧
    csrWt circleIn.edgePrefix circleIn.edgeList circleIn.edgeWeights 0 1 ≠
      csrWt circleIn.edgePrefix circleIn.edgeList circleIn.edgeWeights 1 0 ∧
    partGraphRecursive Concrete.env circleIn (some (Ex.cuts 1)) { cut := 7, asg := List.replicate 26 9 } =
      ({ cut := 2, asg := [0, 1, 1, 1, 1, 1, 1, 1, 1, 1, 1, 1, 0, 0, 0, 0, 0, 0, 0, 0, 0, 0, 1, 0, 9, 9] }, ok 1) :=
  ⟨⟨by constructor <;> decide +kernel, by decide, by decide +kernel, Or.inr (by decide +kernel), by decide +kernel,
    by decide +kernel⟩, rfl, Or.inr rfl, by decide, by decide +kernel, by decide +kernel⟩

end Poros
