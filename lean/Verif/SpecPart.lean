import Verif.Spec
import Verif.Model.Partitioning
/-
Specification vocabulary for partitionings.
-/
namespace Poros
open Finset

/-- The label of each vertex. -/
def Partitioning.lab (p : Partitioning) : Nat → Nat := nth p.asg

/-- `p` is a complete `k`-way partitioning of `g` whose reported weights and cut are the true ones. -/
structure IsExact (g : Graph) (k : Nat) (p : Partitioning) : Prop where
  asg_len : p.asg.length = g.nv
  pw_len : p.pw.length = k
  complete : ∀ v, v < g.nv → p.lab v < k
  weights : ∀ q, q < k → nth p.pw q = partWeight g p.lab q
  cut_eq : p.cut = cutWeight g p.lab

/-- Operations of `class Partitioning` that change assignments. -/
inductive POp where
  | assign (v part : Nat)
  | move (v part : Nat)
  | unassign (v : Nat)
  | assignAll (part : Nat)
  | unassignAll
  | recalcCut
  | setCut (w : Nat)
  | addCut (d : Int)

/-- Running one operation in the model. -/
def POp.run (g : Graph) (p : Partitioning) : POp → Res Partitioning
  | .assign v q => p.assign g v q
  | .move v q => p.move g v q
  | .unassign v => p.unassign g v
  | .assignAll q => p.assignAll g q
  | .unassignAll => .ok p.unassignAll
  | .recalcCut => p.recalcCut g
  | .setCut w => .ok (p.setCut w)
  | .addCut d => .ok (p.addCut d)

/-- What an operation should do to the abstract map vertex → partition (`none` = unassigned). -/
def POp.spec (f : Nat → Option Nat) : POp → Nat → Option Nat
  | .assign v q => fun u => if u = v then some q else f u
  | .move v q => fun u => if u = v then some q else f u
  | .unassign v => fun u => if u = v then none else f u
  | .assignAll q => fun _ => some q
  | .unassignAll => fun _ => none
  | .recalcCut | .setCut _ | .addCut _ => f

/-- The documented precondition of an operation (`ASSERT_*` in src/partition/Partitioning.hpp:278-280,
302-305, 331-335 and Partitioning.cpp:162). -/
def POp.Legal (n k : Nat) (f : Nat → Option Nat) : POp → Prop
  | .assign v q => v < n ∧ q < k ∧ f v = none
  | .move v q => v < n ∧ q < k ∧ f v ≠ none ∧ f v ≠ some q
  | .unassign v => v < n ∧ f v ≠ none
  | .assignAll q => q < k
  | .unassignAll => True
  | .recalcCut => True
  | .setCut _ => True
  | .addCut _ => True

/-- A history of operations each of which is legal when it is executed. -/
def LegalHistory (n k : Nat) : (Nat → Option Nat) → List POp → Prop
  | _, [] => True
  | f, op :: ops => op.Legal n k f ∧ LegalHistory n k (op.spec f) ops

/-- Weight of the vertices a map sends to `q`. -/
def mapWeight (g : Graph) (f : Nat → Option Nat) (q : Nat) : Nat :=
  ∑ v ∈ range g.nv, if f v = some q then g.vw v else 0

end Poros

namespace Poros
open Finset

/-- The weight of the undirected edges whose ends a map treats differently; being unassigned is one more treatment. -/
def mapCut (g : Graph) (f : Nat → Option Nat) : Nat :=
  ∑ v ∈ range g.nv, ∑ u ∈ range v, if f u ≠ f v then g.wt v u else 0

/-- What an operation should do to the stored cut `c` when the map is `f`: assigning or moving single vertices and
clearing all assignments leaves it alone, assigning all vertices to one partition resets it. -/
def POp.specCut (g : Graph) (f : Nat → Option Nat) (c : Nat) : POp → Nat
  | .assignAll _ => 0
  | .recalcCut => mapCut g f
  | .setCut w => w
  | .addCut d => (((c : Int) + d) % 2 ^ 32).toNat
  | .assign _ _ | .move _ _ | .unassign _ | .unassignAll => c

/-- Map and stored cut after a history. -/
def historyCut (g : Graph) : (Nat → Option Nat) → Nat → List POp → Nat
  | _, c, [] => c
  | f, c, op :: ops => historyCut g (op.spec f) (op.specCut g f c) ops

end Poros
