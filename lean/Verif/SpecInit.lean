import Verif.SpecBisect
/-
Specification of the two initial bisectors: growing a side from a seed, and filling a side in random order. Nothing here
mentions queues, partitioning objects or sorted arrays.
-/
namespace Poros

/-- `lab` with `v` put on side `q`. -/
def put (lab : Nat → Nat) (v q : Nat) : Nat → Nat := fun u => if u = v then q else lab u

/-- How strongly `u` is tied to the left side: the weight of its edges to it; the seed counts one extra. -/
def tie (g : Graph) (seed : Nat) (lab : Nat → Nat) (u : Nat) : Nat :=
  (if u = seed then 1 else 0) + ∑ v ∈ Finset.range g.nv, if lab v = 0 then g.wt v u else 0

/-- The next vertex growing looks at: one not looked at yet, of strongest tie. -/
def NextGrown (g : Graph) (seed : Nat) (lab : Nat → Nat) (seen : List Nat) (v : Nat) : Prop :=
  v < g.nv ∧ v ∉ seen ∧ ∀ u, u < g.nv → u ∉ seen → tie g seed lab u ≤ tie g seed lab v

/-- Growing the left side from a seed: it has reached the labels `lab` having looked at the vertices `seen`. As long as
the left side is below its target weight the next vertex is looked at, and taken if it fits. -/
inductive Grown {fp : FP} (g : Graph) (t : Target fp) (seed : Nat) : (Nat → Nat) → List Nat → Prop
  | start {lab} : (∀ v, v < g.nv → lab v = 1) → Grown g t seed lab []
  | take {lab seen v} : Grown g t seed lab seen → partWeight g lab 0 < nth t.tw 0 → NextGrown g seed lab seen v →
      partWeight g lab 0 + g.vw v ≤ nth t.mx 0 → Grown g t seed (put lab v 0) (v :: seen)
  | skip {lab seen v} : Grown g t seed lab seen → partWeight g lab 0 < nth t.tw 0 → NextGrown g seed lab seen v →
      nth t.mx 0 < partWeight g lab 0 + g.vw v → Grown g t seed lab (v :: seen)

/-- Growing ends when the left side has its target weight or all vertices have been looked at. -/
def GrownOut {fp : FP} (g : Graph) (t : Target fp) (lab : Nat → Nat) (seen : List Nat) : Prop :=
  nth t.tw 0 ≤ partWeight g lab 0 ∨ ∀ v, v < g.nv → v ∈ seen

/-- After growing, one further vertex goes left if the right side is too heavy, there is a vertex not looked at, and
the left side with weight 1 added is fuller (relative to its maximum) than the right side is. -/
def OneMore {fp : FP} (g : Graph) (t : Target fp) (lab : Nat → Nat) (seen : List Nat) : Prop :=
  nth t.mx 1 < partWeight g lab 1 ∧ (∃ v, v < g.nv ∧ v ∉ seen) ∧
  fp.lt (fp.div (fp.ofNat (1 + partWeight g lab 0)) (fp.ofNat (nth t.mx 0)))
    (fp.div (fp.ofNat (partWeight g lab 1)) (fp.ofNat (nth t.mx 1))) = true

/-- A whole run of growing from the vertex `seed`. -/
def GrownTo {fp : FP} (g : Graph) (t : Target fp) (seed : Nat) (out : Nat → Nat) : Prop :=
  seed < g.nv ∧ ∃ lab seen, Grown g t seed lab seen ∧ GrownOut g t lab seen ∧
    ((OneMore g t lab seen ∧ ∃ v, v < g.nv ∧ v ∉ seen ∧ out = put lab v 0) ∨ (¬ OneMore g t lab seen ∧ out = lab))

/-- Filling the left side from a list of vertices: it stops at the first vertex that does not fit or would make the
imbalance larger. -/
inductive Filled {fp : FP} (g : Graph) (t : Target fp) : List Nat → (Nat → Nat) → (Nat → Nat) → Prop
  | done {lab} : Filled g t [] lab lab
  | full {v vs lab} : nth t.mx 0 < partWeight g lab 0 + g.vw v → Filled g t (v :: vs) lab lab
  | worse {v vs lab} : partWeight g lab 0 + g.vw v ≤ nth t.mx 0 →
      fp.lt (maxImbalance g t lab) (maxImbalance g t (put lab v 0)) = true → Filled g t (v :: vs) lab lab
  | take {v vs lab out} : partWeight g lab 0 + g.vw v ≤ nth t.mx 0 →
      fp.lt (maxImbalance g t lab) (maxImbalance g t (put lab v 0)) = false →
      Filled g t vs (put lab v 0) out → Filled g t (v :: vs) lab out

/-- `n - m` in 32-bit arithmetic. -/
def wrapSub (n m : Nat) : Nat := (n + 4294967296 - m) % 4294967296

/-- The exchange tried when the right side is too heavy: a heaviest right vertex `v` goes left, and of the left vertices
whose weight is at least the weight of `v` minus the room on the left, and less than the weight of `v` minus the excess
on the right (both in 32-bit arithmetic), a lightest one goes right; if there is none nothing is exchanged. -/
def Exchanged {fp : FP} (g : Graph) (t : Target fp) (lab out : Nat → Nat) : Prop :=
  ∃ v, v < g.nv ∧ lab v = 1 ∧ (∀ u, u < g.nv → lab u = 1 → g.vw u ≤ g.vw v) ∧
    let fits := fun u => u < g.nv ∧ lab u = 0 ∧ wrapSub (g.vw v) (nth t.mx 0 - partWeight g lab 0) ≤ g.vw u ∧
      g.vw u < wrapSub (g.vw v) (partWeight g lab 1 - nth t.mx 1)
    ((∃ u, fits u ∧ (∀ x, fits x → g.vw u ≤ g.vw x) ∧ out = put (put lab v 0) u 1) ∨
      ((∀ u, ¬ fits u) ∧ out = lab))

/-- A whole run of random bisection with the given order of the vertices. -/
def FilledTo {fp : FP} (g : Graph) (t : Target fp) (order : List Nat) (out : Nat → Nat) : Prop :=
  ∃ lab0 lab, (∀ v, v < g.nv → lab0 v = 1) ∧ Filled g t order lab0 lab ∧
    ((nth t.mx 1 < partWeight g lab 1 ∧ Exchanged g t lab out) ∨ (partWeight g lab 1 ≤ nth t.mx 1 ∧ out = lab))

end Poros
