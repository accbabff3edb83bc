import Verif.SpecPart
import Verif.Model.FM
/-
Specification vocabulary for two-way connectivity and refinement.
-/
namespace Poros

/-- The connectivity `c` is the true one for the labels `lab`: every vertex has its true external and
internal weight; the border holds every vertex with external weight, and otherwise only vertices without
internal weight. -/
structure ConnExact {P : SetImpl} (g : Graph) (lab : Nat → Nat) (c : Conn P) : Prop where
  len : c.con.length = g.nv
  cap : c.border.cap = g.nv
  vals : ∀ v, v < g.nv → nth c.con v = (externalWeight g lab v, internalWeight g lab v)
  border_of_ext : ∀ v, v < g.nv → 0 < externalWeight g lab v → P.has c.border.s v = true
  border_only : ∀ v, P.has c.border.s v = true →
    v < g.nv ∧ (0 < externalWeight g lab v ∨ internalWeight g lab v = 0)

/-- The labels after moving `v` to the other side. -/
def flip (lab : Nat → Nat) (v : Nat) : Nat → Nat := fun u => if u = v then 1 - lab v else lab u

/-- A target for two parts. -/
structure Target.Two {fp : FP} (t : Target fp) : Prop where
  k : t.k = 2
  frac : t.frac.length = 2
  tw : t.tw.length = 2
  mx : t.mx.length = 2

/-- No side exceeds its maximum weight. -/
def Balanced {fp : FP} (g : Graph) (t : Target fp) (lab : Nat → Nat) : Prop :=
  ∀ q, q < 2 → partWeight g lab q ≤ nth t.mx q

instance {fp : FP} (g : Graph) (t : Target fp) (lab : Nat → Nat) : Decidable (Balanced g t lab) := by
  unfold Balanced; infer_instance

/-- The fraction of the total weight in part `q`, relative to its target fraction, minus one. -/
def imbalanceOf {fp : FP} (g : Graph) (lab : Nat → Nat) (q : Nat) (f : fp.F) : fp.F :=
  fp.sub (fp.div (fp.div (fp.ofNat (partWeight g lab q)) (fp.ofNat g.totVtx)) f) (fp.lit 1 0)

/-- The larger of two doubles, preferring the first. -/
def fmaxF (fp : FP) (a b : fp.F) : fp.F := if fp.lt a b then b else a

/-- The imbalance of a bisection: the largest of zero and the imbalances of its two parts. -/
def maxImbalance {fp : FP} (g : Graph) (t : Target fp) (lab : Nat → Nat) : fp.F :=
  match t.frac with
  | f0 :: f1 :: _ =>
    fmaxF fp (fmaxF fp (fp.lit 0 0) (imbalanceOf g lab 0 f0)) (imbalanceOf g lab 1 f1)
  | _ => fp.lit 0 0

/-- `lab'` is an acceptable replacement of `lab`: it is unbalanced but less so, or it has a smaller cut
and is balanced or at least not less balanced. -/
def Improves {fp : FP} (g : Graph) (t : Target fp) (lab lab' : Nat → Nat) : Prop :=
  (¬ Balanced g t lab' ∧ fp.lt (maxImbalance g t lab') (maxImbalance g t lab) = true) ∨
  (cutWeight g lab' < cutWeight g lab ∧
    (Balanced g t lab' ∨ fp.le (maxImbalance g t lab') (maxImbalance g t lab) = true))

/-- Reachable by a chain of improvements, every member of which is a bisection. -/
inductive ImprovesStar {fp : FP} (g : Graph) (t : Target fp) : (Nat → Nat) → (Nat → Nat) → Prop
  | refl (lab) : ImprovesStar g t lab lab
  | step {a b c} : ImprovesStar g t a b → Improves g t b c →
      (∀ v, v < g.nv → c v < 2) → ImprovesStar g t a c

end Poros
