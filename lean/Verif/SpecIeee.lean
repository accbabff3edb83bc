import Mathlib.Algebra.Order.Field.Power
import Mathlib.Algebra.Order.AbsoluteValue.Basic
import Mathlib.Data.Rat.Cast.Order
/-
What IEEE 754 says of binary64 and round-to-nearest, ties-to-even, written without the definitions of Concrete.lean.
-/
namespace Poros
namespace Spec

/-- The finite numbers of binary64: 53 significant bits, exponents of the last place from -1074 to 971. -/
def IsDouble (q : ℚ) : Prop := ∃ m e : ℤ, |m| < 2 ^ 53 ∧ -1074 ≤ e ∧ e ≤ 971 ∧ q = m * 2 ^ e

/-- `r` is a nearest double to `q`, and when another double `s` is just as near, `r` is an even multiple of the distance
between the two neighbours (its last significand bit is 0). -/
def NearestEven (q r : ℚ) : Prop :=
  IsDouble r ∧ ∀ s, IsDouble s → |q - r| ≤ |q - s| ∧ (|q - r| = |q - s| → s ≠ r → ∃ k : ℤ, r = 2 * k * |r - s|)

/-- The numbers that round to an infinity: as large as the middle between the greatest double and 2^1024. -/
def Overflows (q : ℚ) : Prop := 2 ^ 1024 - 2 ^ 970 ≤ |q|

end Spec
end Poros
