import Verif.SpecPart
import Verif.SpecApi
/-
Specification vocabulary for targets and balance analysis.
-/
namespace Poros

/-- The fractions are accepted: none is below 0 or above 1, and their sum (in the order given, in doubles) is neither
below `1 - 0.0001` nor above `1 + 0.0001`. -/
structure ValidFractions (fp : FP) (l : List fp.F) : Prop where
  each : ∀ f ∈ l, fp.lt f (fp.lit 0 0) = false ∧ fp.lt (fp.lit 1 0) f = false
  low : fp.lt (l.foldl fp.add (fp.lit 0 0)) (fp.sub (fp.lit 1 0) (fp.lit 1 4)) = false
  high : fp.lt (fp.add (fp.lit 1 0) (fp.lit 1 4)) (l.foldl fp.add (fp.lit 0 0)) = false

/-- The imbalance of part `q`: its share of the total weight relative to its target fraction, minus one. -/
def imbalance {fp : FP} (g : Graph) (t : Target fp) (lab : Nat → Nat) (q : Nat) : fp.F :=
  imbalanceOf g lab q (nth t.frac q)

/-- "Less" on doubles is transitive (also with infinities and NaN). -/
def FP.LtTrans (fp : FP) : Prop := ∀ a b c, fp.lt a b = true → fp.lt b c = true → fp.lt a c = true

/-- No double is less than itself. -/
def FP.LtIrrefl (fp : FP) : Prop := ∀ a, fp.lt a a = false

end Poros
