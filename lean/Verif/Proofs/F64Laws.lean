import Verif.Proofs.F64
import Verif.Proofs.Multilevel
import Verif.Proofs.FMPass
/-
The floating point hypotheses of the theorems hold for binary64.
-/
namespace Poros
namespace Concrete

theorem pow2_53 : pow2 (53 + 0) = 9007199254740992 := by decide +kernel
theorem pow2_big : (9007199254740992 : ℚ) < pow2 1024 := by
  have h : pow2 (53 + 0) < pow2 1024 := pow2_lt.mpr (by omega)
  rw [pow2_53] at h; exact h

/-- Rounding keeps a number between 0 and an integer there. -/
theorem rnd_le_nat {q : ℚ} {n : Nat} (h0 : 0 ≤ q) (h : q ≤ n) (hn : n < 9007199254740992) :
    ∃ r, rnd q = .fin r ∧ 0 ≤ r ∧ r ≤ n := by
  have hn' : (n : ℚ) < 9007199254740992 := by exact_mod_cast hn
  have := rnd_between (q := q) (j := 0) (m := 0) (n := n) (by simpa using h0) (by rw [pow2_zero]; simpa using h)
    (by rw [pow2_53]; linarith) (by omega) (by rw [pow2_zero, mul_one]; exact lt_trans hn' pow2_big)
  simpa [pow2_zero] using this

theorem mul_fin [Concrete.Log2Impl] (a b : ℚ) : fp.mul (F64.fin a) (F64.fin b) = rnd (a * b) := rfl
theorem add_fin [Concrete.Log2Impl] (a b : ℚ) : fp.add (F64.fin a) (F64.fin b) = rnd (a + b) := rfl
theorem div_fin [Concrete.Log2Impl] (a : ℚ) {b : ℚ} (h : b ≠ 0) : fp.div (F64.fin a) (F64.fin b) = rnd (a / b) := by
  show F64.div (F64.fin a) (F64.fin b) = _
  unfold F64.div
  simp [h]

theorem rnd_one : rnd 1 = .fin 1 := by decide +kernel

theorem selfRatio [Concrete.Log2Impl] : fp.SelfRatio := by
  intro n h0 hn
  rw [ofNat_exact (lt_pow_of_lt32 hn), div_fin _ (by exact_mod_cast (show n ≠ 0 by omega)),
    div_self (by exact_mod_cast (show n ≠ 0 by omega)), rnd_one]
  exact (by decide +kernel : (@fp floorLog2).lt ((@fp floorLog2).lit 95 2) (F64.fin 1) = true)

theorem lit_15 [Concrete.Log2Impl] : fp.lit 15 1 = F64.fin (3 / 2) := by
  show rnd (((15 : Nat) : ℚ) / ((10 ^ 1 : Nat) : ℚ)) = F64.fin (3 / 2)
  decide +kernel

theorem multilevelOK [Concrete.Log2Impl] {tot : Nat} (h : tot < M32) : fp.MultilevelOK tot where
  ratio_pos := (by decide +kernel : (@fp floorLog2).le ((@fp floorLog2).lit 95 2) ((@fp floorLog2).lit 0 0) = false)
  ratio_lt := (by decide +kernel : (@fp floorLog2).le ((@fp floorLog2).lit 1 0) ((@fp floorLog2).lit 95 2) = false)
  self := selfRatio
  cast := by
    have ht : (tot : ℚ) < 4294967296 := by exact_mod_cast h
    rw [lit_15, ofNat_exact (lt_pow_of_lt32 h), ofNat_exact (n := 20) (by norm_num), mul_fin]
    have e : (3 / 2 : ℚ) * (tot : ℚ) = ((3 * tot : Nat) : ℚ) * pow2 (-1) := by
      rw [show pow2 (-1) = 1 / 2 by decide +kernel]; push_cast; ring
    have h3 : 3 * tot < 2 ^ 53 := lt_of_le_of_lt (by omega : 3 * tot ≤ 3 * 4294967296) (by norm_num)
    rw [e, rnd_exact h3 (by omega) (by omega), ← e, div_fin _ (by norm_num)]
    have ht0 : (0 : ℚ) ≤ tot := Nat.cast_nonneg tot
    obtain ⟨r, h1, h2, h4⟩ := rnd_le_nat (q := 3 / 2 * (tot : ℚ) / ((20 : Nat) : ℚ)) (n := tot) (by positivity)
      (by push_cast; linarith) (by omega)
    rw [h1]
    obtain ⟨n, hn, -⟩ := toU32_fin h2 (lt_of_le_of_lt h4 ht)
    show (F64.toU32 (F64.fin r)).isSome = true
    rw [hn]; rfl

theorem badMovesOK [Concrete.Log2Impl] {n : Nat} (h : n < M32) : fp.BadMovesOK n := by
  have ht : (n : ℚ) < 4294967296 := by exact_mod_cast h
  have ht0 : (0 : ℚ) ≤ n := Nat.cast_nonneg n
  unfold FP.BadMovesOK
  rw [ofNat_exact (lt_pow_of_lt32 h)]
  obtain ⟨c, h1, h2, h3⟩ := rnd_le_nat (q := ((1 : Nat) : ℚ) / ((10 ^ 2 : Nat) : ℚ)) (n := 1) (by positivity)
    (by norm_num) (by omega)
  have hl : fp.lit 1 2 = F64.fin c := h1
  rw [hl, mul_fin]
  have h3' : c ≤ 1 := by simpa using h3
  obtain ⟨r, g1, g2, g3⟩ := rnd_le_nat (q := (n : ℚ) * c) (n := n) (mul_nonneg ht0 h2)
    (mul_le_of_le_one_right ht0 h3') (by omega)
  rw [g1]
  obtain ⟨m, hm, -⟩ := toU32_fin g2 (lt_of_le_of_lt g3 ht)
  show (F64.toU32 (F64.fin r)).isSome = true
  rw [hm]; rfl

end Concrete
end Poros
