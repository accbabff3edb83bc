import Verif.Concrete
import Verif.Proofs.FM
import Verif.SpecCsr
/-
Small concrete graphs, used only beside the theorems to show that their hypotheses can be met.
-/
namespace Poros

theorem Graph.symm_of {g : Graph} (h : ∀ v, v < g.nv → ∀ u, u < g.nv → g.wt v u = g.wt u v) : g.Symm :=
  fun v u hv hu => h v hv u hu

namespace Ex

/-- Two weighted triangles joined by an edge, with vertex weights. -/
def tri2 : Graph :=
  { unitEdge := false, unitVtx := false, nv := 6, ne := 14, totVtx := 9, totEdge := 30,
    xadj := [0, 2, 4, 7, 10, 12, 14],
    adjncy := [1, 2, 0, 2, 1, 0, 3, 2, 4, 5, 3, 5, 3, 4],
    vwgt := [1, 2, 1, 3, 1, 1],
    adjwgt := [2, 1, 2, 3, 3, 1, 1, 1, 2, 4, 2, 2, 4, 2] }

theorem tri2_wf : tri2.WF := by constructor <;> decide +kernel
theorem tri2_symm : tri2.Symm := Graph.symm_of (by decide +kernel)
theorem tri2_noLoop : tri2.NoLoop := by unfold Graph.NoLoop; decide +kernel
theorem tri2_small : tri2.Small := by constructor <;> decide +kernel
theorem tri2_good : tri2.Good := ⟨tri2_wf, tri2_symm, tri2_noLoop, tri2_small⟩

/-- A triangle with unit weights and no weight arrays. -/
def triU : Graph :=
  { unitEdge := true, unitVtx := true, nv := 3, ne := 6, totVtx := 3, totEdge := 6,
    xadj := [0, 2, 4, 6], adjncy := [1, 2, 0, 2, 0, 1], vwgt := [], adjwgt := [] }

theorem triU_wf : triU.WF := by constructor <;> decide +kernel
theorem triU_symm : triU.Symm := Graph.symm_of (by decide +kernel)
theorem triU_noLoop : triU.NoLoop := by unfold Graph.NoLoop; decide +kernel
theorem triU_small : triU.Small := by constructor <;> decide +kernel
theorem triU_good : triU.Good := ⟨triU_wf, triU_symm, triU_noLoop, triU_small⟩

/-- A bad bisection of `tri2`: one vertex on the wrong side. -/
def badPart : Partitioning := { cut := 6, pw := [7, 2], asg := [0, 0, 0, 0, 1, 1] }

theorem badPart_exact : IsExact tri2 2 badPart := by constructor <;> decide +kernel

end Ex
end Poros
