import Verif.Proofs.Csr
import Verif.Examples
/-
C01: graph construction.
-/
namespace Poros
open Finset Res

/-- **C01.** For every choice of caller arrays that are long enough, constructing a graph succeeds; the graph
has the given counts, the total weights are the 32-bit sums of the per-item weights (a null array meaning
ones), the unit flags hold exactly when every weight is one, and every reported per-vertex and per-edge
weight and endpoint is the caller's. -/
theorem C01_graph_construction {nv ne : Nat} {xadj adjncy : List Nat} {vw aw : Option (List Nat)}
    (hnv : nv < NULL32) (hx : nv + 1 ≤ xadj.length) (ha : ne ≤ adjncy.length)
    (hv : ¬ shorter vw nv) (he : ¬ shorter aw ne) :
    ∃ g, Graph.ofPtrs nv ne xadj adjncy vw aw = ok g ∧
      g.nv = nv ∧ g.ne = ne ∧
      g.totVtx = (∑ i ∈ range nv, weightAt vw i) % 2 ^ 32 ∧
      g.totEdge = (∑ i ∈ range ne, weightAt aw i) % 2 ^ 32 ∧
      (g.unitVtx = true ↔ ∀ i, i < nv → weightAt vw i = 1) ∧
      (g.unitEdge = true ↔ ∀ i, i < ne → weightAt aw i = 1) ∧
      (∀ v, v < nv → g.vwgtOf (!g.unitVtx) v = ok (weightAt vw v)) ∧
      (∀ e, e < ne → g.ewgt (!g.unitEdge) e = ok (weightAt aw e)) ∧
      (∀ e, e < ne → g.dest e = ok (nth adjncy e)) ∧
      (∀ v, v < nv → nth xadj v ≤ nth xadj (v + 1) →
        g.edgesOf v = ok (List.range' (nth xadj v) (nth xadj (v + 1) - nth xadj v))) := by
  obtain ⟨g, hg, hr⟩ := ofPtrs_spec hnv hx ha hv he
  refine ⟨g, hg, hr.nv_eq, hr.ne_eq, by rw [hr.totVtx_eq]; rfl, by rw [hr.totEdge_eq]; rfl,
    hr.unitVtx_iff, hr.unitEdge_iff, ?_, ?_, ?_, ?_⟩
  · intro v hvn
    have := hr.vw_at hvn
    unfold Graph.vwgtOf
    unfold Graph.vw at this
    cases hu : g.unitVtx with
    | true => simp [hu] at this ⊢; exact this
    | false =>
      simp [hu] at this ⊢
      rw [rd_of_lt, this]
      rw [hr.vwgt_eq]
      cases vw with
      | none => exact absurd (hr.unitVtx_iff.mpr (by intros; rfl)) (by simp [hu])
      | some l => simp only [shorter, not_lt] at hv; simp [emptyIfNull]; omega
  · intro v hvn
    have := hr.ew_at hvn
    unfold Graph.ewgt
    unfold Graph.ew at this
    cases hu : g.unitEdge with
    | true => simp [hu] at this ⊢; exact this
    | false =>
      simp [hu] at this ⊢
      rw [rd_of_lt, this]
      rw [hr.adjwgt_eq]
      cases aw with
      | none => exact absurd (hr.unitEdge_iff.mpr (by intros; rfl)) (by simp [hu])
      | some l => simp only [shorter, not_lt] at he; simp [emptyIfNull]; omega
  · intro e hen
    unfold Graph.dest
    rw [rd_of_lt (by rw [hr.adj_eq]; simp; omega), hr.adj_at hen]
  · intro v hvn hm
    have hl : g.xadj.length = nv + 1 := by rw [hr.xadj_eq]; simp; omega
    unfold Graph.edgesOf
    rw [rd_of_lt (by omega), ok_bind, rd_of_lt (by omega), ok_bind, hr.xadj_at (by omega),
      hr.xadj_at (by omega), if_pos hm]

/-- **C01, validity.** If the arrays describe a graph, so does the constructed object: it is well formed and
the weight between two vertices is the one the caller's arrays give. -/
theorem C01_graph_valid {nv ne : Nat} {xadj adjncy : List Nat} {vw aw : Option (List Nat)}
    (h : CSR nv ne xadj adjncy vw aw) :
    ∃ g, Graph.ofPtrs nv ne xadj adjncy vw aw = ok g ∧ g.WF ∧ g.nv = nv ∧
      (∀ v u, v < nv → g.wt v u = csrWt xadj adjncy aw v u) ∧
      (∀ v, v < nv → g.vw v = weightAt vw v) ∧
      (∀ lab, cutWeight g lab = csrCut nv xadj adjncy aw lab) := by
  obtain ⟨g, hg, hr⟩ := ofPtrs_spec h.nv_lt h.xadj_len h.adj_len h.vw_len h.aw_len
  exact ⟨g, hg, h.wf hr, hr.nv_eq, fun v u hv => h.wt_eq hr hv u, fun v hv => hr.vw_at hv, h.cut_eq hr⟩

/-- The hypotheses are met by a weighted graph, by null weights, and the results are as computed. -/
example : CSR 6 14 Ex.tri2.xadj Ex.tri2.adjncy (some Ex.tri2.vwgt) none ∧
    Graph.ofPtrs 6 14 Ex.tri2.xadj Ex.tri2.adjncy (some Ex.tri2.vwgt) (some Ex.tri2.adjwgt) = ok Ex.tri2 ∧
    Graph.ofPtrs 3 6 [0, 2, 4, 6] [1, 2, 0, 2, 0, 1] none none = ok Ex.triU :=
  ⟨by constructor <;> decide +kernel, by decide +kernel, by decide +kernel⟩

end Poros
