import Verif.SpecConn
import Verif.Model.Bisectors
/-
Specification vocabulary for bisectors.
-/
namespace Poros
open Res

variable {E : Env}

/-- Running a bisector `n` times, one after the other: all results. -/
def candidates (bis : Bisector E) (t : Target E.fp) (g : Graph) : Nat → E.rng.S → Res (List Partitioning × E.rng.S)
  | 0, r => .ok ([], r)
  | n + 1, r => do
    let o ← candidates bis t g n r
    let c ← bis t g o.2
    .ok (o.1 ++ [c.1], c.2)

instance : Inhabited Partitioning := ⟨{ cut := 0, pw := [], asg := [] }⟩

/-- The result without the random state. -/
def Res.value (x : Res (α × β)) : Res α := x >>= fun y => .ok y.1

/-- Every split of the total weight within the maximum weights has a smaller imbalance than every other split. -/
def Separates {fp : FP} (t : Target fp) (g : Graph) : Prop :=
  ∀ lab lab' : Nat → Nat, (∀ v, v < g.nv → lab v < 2) → (∀ v, v < g.nv → lab' v < 2) → Balanced g t lab →
    ¬ Balanced g t lab' → fp.lt (maxImbalance g t lab) (maxImbalance g t lab') = true

/-- Execution comes to an end, by an exception only if `be`, or in undefined behaviour, or normally with a result
satisfying `Q`. -/
def EndsE (be : Prop) (r : Res α) (Q : α → Prop) : Prop :=
  match r with
  | .ok a => Q a
  | .diverge => False
  | .exn => be
  | .ub => True

/-- Execution comes to an end (normally, by an exception or in undefined behaviour), and a normal result
satisfies `Q`. -/
abbrev Ends (r : Res α) (Q : α → Prop) : Prop := EndsE True r Q

end Poros
