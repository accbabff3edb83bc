import Verif.Ext
/-
The laws of `double` arithmetic that some theorems assume. Each is proved for binary64 (Proofs/F64*.lean).
-/
namespace Poros

/-- The cast in the bad move limit of FM refinement is defined. -/
def FP.BadMovesOK (fp : FP) (n : Nat) : Prop := (fp.toU32 (fp.mul (fp.ofNat n) (fp.lit 1 2))).isSome

/-- A number divided by itself counts as more than `0.95`. -/
def FP.SelfRatio (fp : FP) : Prop :=
  ∀ n, 0 < n → n < M32 → fp.lt (fp.lit 95 2) (fp.div (fp.ofNat n) (fp.ofNat n)) = true

/-- The double-to-integer conversion and the literals used by the multilevel bisector are as expected. -/
structure FP.MultilevelOK (fp : FP) (tot : Nat) : Prop where
  ratio_pos : fp.le (fp.lit 95 2) (fp.lit 0 0) = false
  ratio_lt : fp.le (fp.lit 1 0) (fp.lit 95 2) = false
  self : fp.SelfRatio
  cast : (fp.toU32 (fp.div (fp.mul (fp.lit 15 1) (fp.ofNat tot)) (fp.ofNat 20))).isSome

end Poros
