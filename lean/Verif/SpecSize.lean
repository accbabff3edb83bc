import Verif.SpecBisect
/-
Specification vocabulary for bisections of graphs whose vertices all weigh 1.
-/
namespace Poros

/-- The number of vertices with label `q`. -/
def sideSize (g : Graph) (lab : Nat → Nat) (q : Nat) : Nat := ((Finset.range g.nv).filter fun v => lab v = q).card

/-- The number of vertices of the larger side. -/
def largerSide (g : Graph) (lab : Nat → Nat) : Nat := max (sideSize g lab 0) (sideSize g lab 1)

/-- Every two vertices are joined by an edge of weight 1. -/
def Complete (g : Graph) : Prop := ∀ u v, u < g.nv → v < g.nv → u ≠ v → g.wt u v = 1

end Poros
