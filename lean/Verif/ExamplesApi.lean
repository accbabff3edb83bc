import Verif.Examples
import Verif.SpecApi
/-
Concrete calls of the C interface, used only beside the theorems to show that their hypotheses can be met.
-/
namespace Poros.Ex

/-- The arrays of `tri2`, to be split in two. -/
def tri2In : Input :=
  { numVertices := 6, edgePrefix := [0, 2, 4, 7, 10, 12, 14],
    edgeList := [1, 2, 0, 2, 1, 0, 3, 2, 4, 5, 3, 5, 3, 4],
    vertexWeights := some [1, 2, 1, 3, 1, 1],
    edgeWeights := some [2, 1, 2, 3, 3, 1, 1, 1, 2, 4, 2, 2, 4, 2], numPartitions := 2 }

/-- A triangle without weight arrays. -/
def triIn : Input :=
  { numVertices := 3, edgePrefix := [0, 2, 4, 6], edgeList := [1, 2, 0, 2, 0, 1], vertexWeights := none,
    edgeWeights := none, numPartitions := 2 }

/-- Validity, by bounded checks in the order the kernel can evaluate. -/
theorem valid_of {i : Input} (csr : CSR i.numVertices i.numEdges i.edgePrefix i.edgeList i.vertexWeights i.edgeWeights)
    (symm : ∀ v, v < i.numVertices → ∀ u, u < i.numVertices →
      csrWt i.edgePrefix i.edgeList i.edgeWeights v u = csrWt i.edgePrefix i.edgeList i.edgeWeights u v)
    (noLoop : ∀ v, v < i.numVertices → ∀ e, e < nth i.edgePrefix (v + 1) → nth i.edgePrefix v ≤ e →
      nth i.edgeList e ≠ v)
    (vtx : (∑ v ∈ Finset.range i.numVertices, weightAt i.vertexWeights v) < 2 ^ 32)
    (edge : (∑ e ∈ Finset.range i.numEdges, weightAt i.edgeWeights e) < 2 ^ 32) : i.Valid :=
  ⟨csr, fun v u hv hu => symm v hv u hu, fun v hv e h1 h2 => noLoop v hv e h2 h1, vtx, edge⟩

theorem tri2In_valid : tri2In.Valid :=
  valid_of (by constructor <;> decide +kernel) (by decide +kernel) (by decide +kernel) (by decide +kernel)
    (by decide +kernel)

theorem triIn_valid : triIn.Valid :=
  valid_of (by constructor <;> decide +kernel) (by decide +kernel) (by decide +kernel) (by decide +kernel)
    (by decide +kernel)

/-- Memory of the caller before the call. -/
def before : Out := { cut := 7, asg := List.replicate 8 9 }

/-- Default options with a number of cuts. -/
def cuts (n : Int) : Options Concrete.env.fp := { defaultOptions Concrete.env.fp with numGlobalCuts := n }

theorem tri2In_call : partGraphRecursive Concrete.env tri2In (some (cuts 3)) before =
    ({ cut := 1, asg := [0, 0, 0, 1, 1, 1, 9, 9] }, .ok 1) := by decide +kernel

theorem tri2In_call1 : partGraphRecursive Concrete.env tri2In (some (cuts 1)) before =
    ({ cut := 1, asg := [0, 0, 0, 1, 1, 1, 9, 9] }, .ok 1) := by decide +kernel

end Poros.Ex
