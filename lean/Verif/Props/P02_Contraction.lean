import Verif.Proofs.Contraction
import Verif.Examples
/-
C02–C06: contraction. All theorems quantify over every valid graph (totals below 2^32) and every coarse map;
`betweenWeight` and `groupWeight` are in SpecAgg.lean.
-/
namespace Poros
open Finset Res

/-- A coarse map of the vertices of `g` onto `nc` groups (groups may be empty). -/
structure CoarseMap (g : Graph) (cmap : List Nat) (nc : Nat) : Prop where
  len : cmap.length = g.nv
  lt : ∀ v, v < g.nv → nth cmap v < nc
  fits : nc < NULL32

theorem contract_total {g : Graph} (hg : g.WF) (hS : g.sumEdge < M32) (hV : g.sumVtx < M32) {cmap : List Nat}
    {nc : Nat} (hc : CoarseMap g cmap nc) :
    ∃ a cg, Aggregation.make (cmap.map some) nc = ok a ∧ contract g a = ok cg ∧ AggOK g.nv a ∧ a.nc = nc ∧
      a.cmap = cmap ∧ Contracted g a cg := by
  have hnv := hg.nv_lt
  have hf : Mem.freeze (cmap.map some) = ok cmap := by
    have := freeze_spec (m := cmap.map some) (n := cmap.length) (nth cmap) (by simp) (fun i hi => nth_map hi)
    rw [this]
    refine congrArg ok (list_ext_nth (by simp) fun i hi => ?_)
    have hi' : i < cmap.length := by simpa using hi
    rw [nth_map (by simpa using hi'), nth_range hi']
  obtain ⟨a, h1, h2, h3, h4⟩ := sat_iff.mp
    (Aggregation.make_spec (n := g.nv) (nc := nc) hf hc.len (by omega) hc.lt)
  obtain ⟨cg, h5, h6⟩ := sat_iff.mp (contract_spec hg hS hV h2 (by rw [h3]; exact hc.fits))
  exact ⟨a, cg, h1, h5, h2, h3, h4, h6⟩

/-- **C02.** Contraction finishes normally and yields a graph with one vertex per group, whose vertex weights are
the group weights, and in which the weight between two different coarse vertices is the weight of all fine edges
from the one group to the other. -/
theorem C02_contraction_sums {g : Graph} (hg : g.WF) (hS : g.sumEdge < M32) (hV : g.sumVtx < M32)
    {cmap : List Nat} {nc : Nat} (hc : CoarseMap g cmap nc) :
    ∃ a cg, Aggregation.make (cmap.map some) nc = ok a ∧ contract g a = ok cg ∧ cg.nv = nc ∧
      (∀ c, c < nc → cg.vw c = groupWeight g (nth cmap) c) ∧
      (∀ c d, c < nc → d < nc → c ≠ d → cg.wt c d = betweenWeight g (nth cmap) c d) := by
  obtain ⟨a, cg, h1, h2, h3, h4, h5, h6⟩ := contract_total hg hS hV hc
  refine ⟨a, cg, h1, h2, by rw [h6.nv, h4], ?_, ?_⟩
  · intro c hcn; rw [← h5]; exact h6.vw c (by omega)
  · intro c d hcn hdn hne; rw [← h5]; exact h6.wt c d (by omega) (by omega) hne

/-- **C03.** The contracted graph is valid (in particular all endpoints are vertices), stores no edge from a
vertex to itself and no two edges with the same ends, and stores an edge exactly where the fine graph joins the
two groups. -/
theorem C03_contraction_simple {g : Graph} (hg : g.WF) (hS : g.sumEdge < M32) (hV : g.sumVtx < M32)
    {cmap : List Nat} {nc : Nat} (hc : CoarseMap g cmap nc) :
    ∃ a cg, Aggregation.make (cmap.map some) nc = ok a ∧ contract g a = ok cg ∧ cg.WF ∧
      (∀ c, c < nc → ((cg.nbrs c).map Prod.fst).Nodup ∧ ∀ q ∈ cg.nbrs c, q.1 ≠ c ∧ q.1 < nc) ∧
      (∀ c d, c < nc → (cg.Adj c d ↔ c ≠ d ∧ ∃ v u, v < g.nv ∧ g.Adj v u ∧ nth cmap v = c ∧ nth cmap u = d)) := by
  obtain ⟨a, cg, h1, h2, h3, h4, h5, h6⟩ := contract_total hg hS hV hc
  refine ⟨a, cg, h1, h2, h6.wf, ?_, ?_⟩
  · intro c hcn
    refine ⟨h6.simple c (by omega), fun q hq => ⟨?_, ?_⟩⟩
    · exact h6.noLoop c (by rw [h6.nv]; omega) q hq
    · have := Graph.nbrs_lt h6.wf (by rw [h6.nv]; omega) hq
      rw [h6.nv, h4] at this; exact this
  · intro c d hcn
    rw [← h5]; exact h6.adj c d (by omega)

/-- **C04.** The total vertex weight reported by the contracted graph is that of the fine graph and equals the sum
of its vertex weights; the reported total edge weight is the sum of the weights of the stored edges. -/
theorem C04_contraction_totals {g : Graph} (hg : g.WF) (hS : g.sumEdge < M32) (hV : g.sumVtx < M32)
    {cmap : List Nat} {nc : Nat} (hc : CoarseMap g cmap nc) :
    ∃ a cg, Aggregation.make (cmap.map some) nc = ok a ∧ contract g a = ok cg ∧
      cg.totVtx = g.totVtx ∧ cg.totVtx = ∑ c ∈ range nc, cg.vw c ∧
      cg.totEdge = ∑ c ∈ range nc, ((cg.nbrs c).map Prod.snd).sum ∧ cg.ne ≤ g.ne := by
  obtain ⟨a, cg, h1, h2, h3, h4, h5, h6⟩ := contract_total hg hS hV hc
  have e1 := h6.sumVtx h3
  have e2 := h6.wf.tot_vtx
  have e3 := hg.tot_vtx
  have e4 := h6.wf.tot_edge
  have e5 := h6.sumEdge_le
  refine ⟨a, cg, h1, h2, by rw [e2, e1, e3], ?_, ?_, h6.ne_le⟩
  · rw [e2, Nat.mod_eq_of_lt (by omega)]
    unfold Graph.sumVtx
    rw [h6.nv, h4]
  · rw [e4, Nat.mod_eq_of_lt (by omega)]
    unfold Graph.sumEdge Graph.wsum
    rw [h6.nv, h4]
    rfl

/-- **C05.** Contraction preserves symmetry, of the weights and of the stored edges. -/
theorem C05_contraction_symm {g : Graph} (hg : g.WF) (hS : g.sumEdge < M32) (hV : g.sumVtx < M32)
    {cmap : List Nat} {nc : Nat} (hc : CoarseMap g cmap nc) :
    ∃ a cg, Aggregation.make (cmap.map some) nc = ok a ∧ contract g a = ok cg ∧
      (g.Symm → cg.Symm) ∧ (g.SymmAdj → cg.SymmAdj) := by
  obtain ⟨a, cg, h1, h2, h3, h4, h5, h6⟩ := contract_total hg hS hV hc
  exact ⟨a, cg, h1, h2, h6.symm, h6.symmAdj hg⟩

/-- **C06.** For every labelling of the coarse vertices, its cut in the contracted graph is the cut in the fine
graph of the labelling inherited through the coarse map (and likewise the part weights). -/
theorem C06_contraction_cut {g : Graph} (hg : g.WF) (hs : g.Symm) (hS : g.sumEdge < M32) (hV : g.sumVtx < M32)
    {cmap : List Nat} {nc : Nat} (hc : CoarseMap g cmap nc) :
    ∃ a cg, Aggregation.make (cmap.map some) nc = ok a ∧ contract g a = ok cg ∧
      ∀ lab : Nat → Nat, cutWeight cg lab = cutWeight g (fun v => lab (nth cmap v)) ∧
        ∀ p, partWeight cg lab p = partWeight g (fun v => lab (nth cmap v)) p := by
  obtain ⟨a, cg, h1, h2, h3, h4, h5, h6⟩ := contract_total hg hS hV hc
  refine ⟨a, cg, h1, h2, fun lab => ?_⟩
  rw [← h5]
  exact ⟨h6.cut h3 hs lab, h6.partWeight h3 lab⟩

/-- The hypotheses are met by a weighted graph and a coarse map with groups of sizes 2, 1, 3 and 0. -/
theorem coarse_example : CoarseMap Ex.tri2 [0, 0, 1, 2, 2, 2] 4 :=
  ⟨rfl, by decide, by decide⟩

example : ∃ a cg, Aggregation.make ([0, 0, 1, 2, 2, 2].map some) 4 = ok a ∧ contract Ex.tri2 a = ok cg ∧
    cg.vwgt = [3, 1, 5, 0] ∧ cg.nbrs 0 = [(1, 4)] ∧ cg.nbrs 1 = [(2, 1), (0, 4)] ∧ cg.nbrs 2 = [(1, 1)] ∧
    cg.nbrs 3 = [] ∧ cg.totVtx = 9 ∧ cg.totEdge = 10 ∧
    cutWeight cg (fun c => c % 2) = 5 ∧
    cutWeight Ex.tri2 (fun v => nth [0, 0, 1, 2, 2, 2] v % 2) = 5 := by
  obtain ⟨a, cg, h1, h2, -⟩ := C06_contraction_cut Ex.tri2_wf Ex.tri2_symm (by decide +kernel) (by decide +kernel)
    coarse_example
  refine ⟨_, _, rfl, rfl, ?_⟩
  decide +kernel

end Poros
