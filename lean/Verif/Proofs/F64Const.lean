import Verif.Proofs.F64Laws
import Mathlib.Tactic.Positivity
/-
The constants of the code under binary64: one per cent of the number of vertices, 1.5 times the average weight,
the ratio 0.95.
-/
namespace Poros.Concrete
open Poros

/-- The integer part of a number that rounding cannot push to the next integer. -/
theorem trunc_rnd {q : ℚ} {k : Nat} (hk : k < M32) (h0 : (k : ℚ) ≤ q) (h1 : q ≤ k + 255 / 256) :
    ∃ r, rnd q = .fin r ∧ F64.toU32 (.fin r) = some k := by
  have p8 : pow2 (-8) = 1 / 256 := by decide +kernel
  have p45 : pow2 (53 + -8) = 35184372088832 := by decide +kernel
  have hk' : (k : ℚ) < 4294967296 := by exact_mod_cast hk
  have big := pow2_big
  have hlt : ((256 * k + 255 : Nat) : ℚ) * pow2 (-8) < pow2 1024 := by
    refine lt_of_lt_of_le ?_ big.le
    rw [p8]; push_cast; linarith
  clear big
  obtain ⟨r, g1, g2, g3⟩ := rnd_between (q := q) (j := -8) (m := 256 * k) (n := 256 * k + 255)
    (by rw [p8]; push_cast; linarith) (by rw [p8]; push_cast; linarith) (by rw [p45]; linarith) (by omega) hlt
  clear hlt
  rw [p8] at g2 g3
  push_cast at g2 g3
  have hr0 : (0 : ℚ) ≤ r := by
    have : (0 : ℚ) ≤ k := Nat.cast_nonneg k
    linarith
  obtain ⟨n, hn, hn1, hn2⟩ := toU32_fin hr0 (by
    have : (k : ℚ) + 1 ≤ 4294967296 := by exact_mod_cast (show k + 1 ≤ 4294967296 by omega)
    linarith)
  refine ⟨r, g1, ?_⟩
  rw [hn]
  congr 1
  have a1 : (k : ℚ) < n + 1 := by linarith
  have a2 : (n : ℚ) < k + 1 := by linarith
  have a1' : k < n + 1 := by exact_mod_cast a1
  have a2' : n < k + 1 := by exact_mod_cast a2
  omega

theorem lit_001 [Concrete.Log2Impl] : fp.lit 1 2 = F64.fin (5764607523034235 / 576460752303423488) := by
  show rnd (((1 : Nat) : ℚ) / ((10 ^ 2 : Nat) : ℚ)) = _
  decide +kernel

/-- One per cent of `n`, converted to an integer, is `n / 100`. -/
theorem onePercent [Concrete.Log2Impl] {n : Nat} (h : n < M32) : fp.toU32 (fp.mul (fp.ofNat n) (fp.lit 1 2)) = some (n / 100) := by
  rw [ofNat_exact (lt_pow_of_lt32 h), lit_001, mul_fin]
  have hn : (n : ℚ) < 4294967296 := by exact_mod_cast h
  have hd : n = 100 * (n / 100) + n % 100 := (Nat.div_add_mod n 100).symm
  have hm := Nat.mod_lt n (show 0 < 100 by omega)
  have hdq : (n : ℚ) = 100 * ((n / 100 : Nat) : ℚ) + ((n % 100 : Nat) : ℚ) := by exact_mod_cast hd
  have hmq : ((n % 100 : Nat) : ℚ) ≤ 99 := by exact_mod_cast (show n % 100 ≤ 99 by omega)
  have hm0 : (0 : ℚ) ≤ ((n % 100 : Nat) : ℚ) := Nat.cast_nonneg _
  have h0 : (0 : ℚ) ≤ n := Nat.cast_nonneg n
  obtain ⟨r, h1, h2⟩ := trunc_rnd (q := (n : ℚ) * (5764607523034235 / 576460752303423488)) (k := n / 100)
    (by omega) (by linarith) (by linarith)
  rw [h1]
  exact h2

/-- `1.5 * tot / 20`, converted to an integer, is `3 tot / 40`. -/
theorem coarseLimit [Concrete.Log2Impl] {tot : Nat} (h : tot < M32) :
    fp.toU32 (fp.div (fp.mul (fp.lit 15 1) (fp.ofNat tot)) (fp.ofNat 20)) = some (3 * tot / 40) := by
  rw [lit_15, ofNat_exact (lt_pow_of_lt32 h), ofNat_exact (n := 20) (by norm_num), mul_fin]
  have e : (3 / 2 : ℚ) * (tot : ℚ) = ((3 * tot : Nat) : ℚ) * pow2 (-1) := by
    rw [show pow2 (-1) = 1 / 2 by decide +kernel]; push_cast; ring
  have h3 : 3 * tot < 2 ^ 53 := lt_of_le_of_lt (by omega : 3 * tot ≤ 3 * 4294967296) (by norm_num)
  rw [e, rnd_exact h3 (by omega) (by omega), ← e, div_fin _ (by norm_num)]
  have hd : 3 * tot = 40 * (3 * tot / 40) + 3 * tot % 40 := (Nat.div_add_mod _ 40).symm
  have hm := Nat.mod_lt (3 * tot) (show 0 < 40 by omega)
  have hdq : 3 * (tot : ℚ) = 40 * ((3 * tot / 40 : Nat) : ℚ) + ((3 * tot % 40 : Nat) : ℚ) := by exact_mod_cast hd
  have hmq : ((3 * tot % 40 : Nat) : ℚ) ≤ 39 := by exact_mod_cast (show 3 * tot % 40 ≤ 39 by omega)
  have hm0 : (0 : ℚ) ≤ ((3 * tot % 40 : Nat) : ℚ) := Nat.cast_nonneg _
  obtain ⟨r, h1, h2⟩ := trunc_rnd (q := 3 / 2 * (tot : ℚ) / ((20 : Nat) : ℚ)) (k := 3 * tot / 40)
    (by omega) (by push_cast; linarith) (by push_cast; linarith)
  rw [h1]
  exact h2

theorem lit_095 [Concrete.Log2Impl] : fp.lit 95 2 = F64.fin (8556839292003942 / 9007199254740992) := by
  show rnd (((95 : Nat) : ℚ) / ((10 ^ 2 : Nat) : ℚ)) = _
  decide +kernel

/-- The comparison of `a / b` with 0.95 is exact. -/
theorem ratio_095 [Concrete.Log2Impl] {a b : Nat} (hb : 0 < b) (hb' : b < M32) (hab : a ≤ b) :
    fp.lt (fp.lit 95 2) (fp.div (fp.ofNat a) (fp.ofNat b)) = true ↔ 19 * b < 20 * a := by
  have hb0 : (0 : ℚ) < b := by exact_mod_cast hb
  have hbq : (b : ℚ) < 4294967296 := by exact_mod_cast hb'
  have habq : (a : ℚ) ≤ b := by exact_mod_cast hab
  have ha0 : (0 : ℚ) ≤ a := Nat.cast_nonneg a
  rw [lit_095, ofNat_exact (lt_pow_of_lt32 hb'), ofNat_exact (lt_pow_of_lt32 (by omega)), div_fin _ (ne_of_gt hb0)]
  have p53 : pow2 (-53) = 1 / 9007199254740992 := by decide +kernel
  have p0 : pow2 (53 + -53) = 1 := by decide +kernel
  have big := pow2_big
  by_cases h : 19 * b < 20 * a
  · simp only [h, iff_true]
    by_cases heq : a = b
    · subst heq
      rw [div_self (ne_of_gt hb0), rnd_one]
      exact (by decide +kernel : F64.lt (F64.fin (8556839292003942 / 9007199254740992)) (F64.fin 1) = true)
    have hlt : (a : ℚ) < b := by exact_mod_cast (show a < b by omega)
    have hq1 : (a : ℚ) / b < 1 := by rw [div_lt_one hb0]; exact hlt
    have hlow : (8556839292003943 : ℚ) / 9007199254740992 ≤ (a : ℚ) / b := by
      rw [div_le_div_iff₀ (by norm_num) hb0]
      have : 19 * (b : ℚ) + 1 ≤ 20 * a := by exact_mod_cast h
      linarith
    have hx : ((9007199254740992 : Nat) : ℚ) * pow2 (-53) < pow2 1024 := by
      refine lt_of_lt_of_le ?_ big.le
      rw [p53]; norm_num
    clear big
    obtain ⟨r, g1, g2, g3⟩ := rnd_between (q := (a : ℚ) / b) (j := -53) (m := 8556839292003943) (n := 9007199254740992)
      (by rw [p53]; push_cast; linarith) (by rw [p53]; push_cast; linarith) (by rw [p0]; exact hq1) (by omega) hx
    rw [g1]
    show decide _ = true
    rw [p53] at g2
    push_cast at g2
    rw [decide_eq_true_iff]
    have : (8556839292003942 : ℚ) / 9007199254740992 < 8556839292003943 * (1 / 9007199254740992) := by norm_num
    exact lt_of_lt_of_le this g2
  · simp only [h, iff_false]
    have hle : 20 * (a : ℚ) ≤ 19 * b := by exact_mod_cast (show 20 * a ≤ 19 * b by omega)
    have hup : (a : ℚ) / b ≤ 8556839292003942 / 9007199254740992 + 0 ∨ (a : ℚ) / b = 95 / 100 := by
      rcases hle.lt_or_eq with hl | he
      · left
        rw [add_zero, div_le_div_iff₀ hb0 (by norm_num)]
        have : 20 * (a : ℚ) + 1 ≤ 19 * b := by exact_mod_cast (show 20 * a + 1 ≤ 19 * b by
          have : (20 * a : Nat) < 19 * b := by exact_mod_cast hl
          omega)
        linarith
      · right
        rw [div_eq_div_iff (ne_of_gt hb0) (by norm_num)]
        linarith
    rcases hup with hup | he
    · rw [add_zero] at hup
      have hup2 : (a : ℚ) / b ≤ ((8556839292003942 : Nat) : ℚ) * pow2 (-53) := by
        clear big
        rw [p53]; push_cast; linarith
      have hlow2 : ((0 : Nat) : ℚ) * pow2 (-53) ≤ (a : ℚ) / b := by
        clear big
        simp only [Nat.cast_zero, zero_mul]; positivity
      have hone : (a : ℚ) / b < pow2 (53 + -53) := by rw [p0]; exact lt_of_le_of_lt hup (by norm_num)
      have hx : ((8556839292003942 : Nat) : ℚ) * pow2 (-53) < pow2 1024 := by
        refine lt_of_lt_of_le ?_ big.le
        rw [p53]; norm_num
      clear big
      obtain ⟨r, g1, g2, g3⟩ := rnd_between (q := (a : ℚ) / b) (j := -53) (m := 0) (n := 8556839292003942)
        hlow2 hup2 hone (by omega) hx
      rw [g1]
      show ¬ decide _ = true
      rw [p53] at g3
      push_cast at g3
      rw [decide_eq_true_iff, not_lt]
      have : (8556839292003942 : ℚ) * (1 / 9007199254740992) = 8556839292003942 / 9007199254740992 := by ring
      rw [this] at g3; exact g3
    · rw [he]
      rw [show rnd (95 / 100) = F64.fin (8556839292003942 / 9007199254740992) by decide +kernel]
      exact (by decide +kernel : ¬ F64.lt (F64.fin (8556839292003942 / 9007199254740992)) (F64.fin (8556839292003942 / 9007199254740992)) = true)

end Poros.Concrete
