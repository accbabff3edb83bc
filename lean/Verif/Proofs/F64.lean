import Verif.Concrete
import Mathlib.Algebra.Order.Field.Power
import Mathlib.Tactic.FieldSimp
import Mathlib.Tactic.Ring
import Mathlib.Tactic.NormNum
import Mathlib.Tactic.Positivity
/-
Rounding facts about the binary64 model of Concrete.lean.
-/
namespace Poros
namespace Concrete

theorem pow2_eq (e : Int) : pow2 e = (2 : ℚ) ^ e := by
  unfold pow2
  split
  · rename_i h
    obtain ⟨n, rfl⟩ := Int.eq_ofNat_of_zero_le h
    simp
  · rename_i h
    obtain ⟨n, hn⟩ := Int.eq_ofNat_of_zero_le (show 0 ≤ -e by omega)
    have : e = -(n : Int) := by omega
    subst this
    simp [zpow_neg]

theorem pow2_pos (e : Int) : 0 < pow2 e := by rw [pow2_eq]; positivity

theorem pow2_add (a b : Int) : pow2 (a + b) = pow2 a * pow2 b := by
  simp only [pow2_eq]; exact zpow_add₀ (by norm_num) a b

theorem pow2_nat (n : Nat) : pow2 (n : Int) = ((2 ^ n : Nat) : ℚ) := by rw [pow2_eq]; simp

theorem pow2_zero : pow2 0 = 1 := by rw [pow2_eq]; simp

theorem pow2_le {a b : Int} : pow2 a ≤ pow2 b ↔ a ≤ b := by
  simp only [pow2_eq]; exact zpow_le_zpow_iff_right₀ (by norm_num)

theorem pow2_lt {a b : Int} : pow2 a < pow2 b ↔ a < b := by
  simp only [pow2_eq]; exact zpow_lt_zpow_iff_right₀ (by norm_num)

theorem log2_le {n : Nat} (h : 0 < n) : pow2 (Nat.log2 n : Int) ≤ n := by
  rw [pow2_nat]; exact_mod_cast Nat.log2_self_le (by omega)

theorem lt_log2 (n : Nat) : (n : ℚ) < pow2 (Nat.log2 n + 1 : Int) := by
  have : (Nat.log2 n + 1 : Int) = ((Nat.log2 n + 1 : Nat) : Int) := by push_cast; rfl
  rw [this, pow2_nat]
  exact_mod_cast Nat.lt_log2_self

theorem ilog2_le {q : ℚ} (h : 0 < q) : pow2 (ilog2 q) ≤ q := by
  unfold ilog2
  simp only
  split
  · assumption
  · have hn : 0 < q.num.natAbs := by have := Rat.num_pos.mpr h; omega
    have hd : 0 < q.den := q.den_pos
    have h1 := log2_le hn
    have h2 := lt_log2 q.den
    have hq : q = (q.num.natAbs : ℚ) / (q.den : ℚ) := by
      have hnn : ((q.num.natAbs : ℤ) : ℚ) = q.num := by
        have := Rat.num_pos.mpr h
        rw [Int.natAbs_of_nonneg (by omega)]
      have hcast : (q.num.natAbs : ℚ) = (q.num : ℚ) := by rw [← hnn]; simp
      rw [hcast]; exact (Rat.num_div_den q).symm
    have hdp : (0 : ℚ) < q.den := by exact_mod_cast hd
    conv_rhs => rw [hq]
    rw [le_div_iff₀ hdp]
    have e : pow2 (Nat.log2 q.num.natAbs : Int) =
        pow2 ((Nat.log2 q.num.natAbs : Int) - Nat.log2 q.den - 1) * pow2 (Nat.log2 q.den + 1 : Int) := by
      rw [← pow2_add]; congr 1; omega
    have : pow2 ((Nat.log2 q.num.natAbs : Int) - Nat.log2 q.den - 1) * (q.den : ℚ) ≤
        pow2 ((Nat.log2 q.num.natAbs : Int) - Nat.log2 q.den - 1) * pow2 (Nat.log2 q.den + 1 : Int) :=
      mul_le_mul_of_nonneg_left h2.le (pow2_pos _).le
    linarith

theorem rne_nat (n : Nat) : rne (n : ℚ) = n := by
  unfold rne
  simp

theorem rne_near {q : ℚ} (h : 0 ≤ q) : (rne q : ℚ) ≤ q + 1 / 2 ∧ q ≤ (rne q : ℚ) + 1 / 2 := by
  have hf : ((q.num.natAbs / q.den : Nat) : ℚ) ≤ q ∧ q < ((q.num.natAbs / q.den : Nat) : ℚ) + 1 := by
    have hd : (0 : ℚ) < q.den := by exact_mod_cast q.den_pos
    have hq : q = (q.num.natAbs : ℚ) / (q.den : ℚ) := by
      have hnn : ((q.num.natAbs : ℤ) : ℚ) = q.num := by
        have := Rat.num_nonneg.mpr h
        rw [Int.natAbs_of_nonneg (by omega)]
      have hcast : (q.num.natAbs : ℚ) = (q.num : ℚ) := by rw [← hnn]; simp
      rw [hcast]; exact (Rat.num_div_den q).symm
    have h1 := Nat.div_mul_le_self q.num.natAbs q.den
    have h2 := Nat.lt_div_mul_add (a := q.num.natAbs) q.den_pos
    constructor
    · conv_rhs => rw [hq]
      rw [le_div_iff₀ hd]; exact_mod_cast h1
    · conv_lhs => rw [hq]
      rw [div_lt_iff₀ hd]
      have : q.num.natAbs < (q.num.natAbs / q.den + 1) * q.den := by
        rw [Nat.add_mul]; omega
      exact_mod_cast this
  unfold rne
  simp only
  split
  · constructor <;> linarith
  · split
    · push_cast; constructor <;> linarith
    · split
      · constructor <;> linarith
      · push_cast; constructor <;> linarith

theorem rne_le {q : ℚ} (h : 0 ≤ q) {n : Nat} (hn : q ≤ n) : rne q ≤ n := by
  have := (rne_near h).1
  have h2 : (rne q : ℚ) < (n : ℚ) + 1 := by linarith
  have h3 : rne q < n + 1 := by exact_mod_cast h2
  omega

theorem le_rne {q : ℚ} (h : 0 ≤ q) {n : Nat} (hn : (n : ℚ) ≤ q) : n ≤ rne q := by
  have := (rne_near h).2
  have h2 : (n : ℚ) < (rne q : ℚ) + 1 := by linarith
  have h3 : n < rne q + 1 := by exact_mod_cast h2
  omega

/-- Rounding a number between two multiples of a coarse enough power of two stays between them. -/
theorem rnd_between {q : ℚ} {j : Int} {m n : Nat} (hm : (m : ℚ) * pow2 j ≤ q) (hn : q ≤ n * pow2 j)
    (hb : q < pow2 (53 + j)) (hj : -1074 ≤ j) (hn' : (n : ℚ) * pow2 j < pow2 1024) :
    ∃ r, rnd q = .fin r ∧ (m : ℚ) * pow2 j ≤ r ∧ r ≤ n * pow2 j := by
  have hmp : (0 : ℚ) ≤ (m : ℚ) * pow2 j := mul_nonneg (Nat.cast_nonneg m) (pow2_pos j).le
  have h0 : 0 ≤ q := le_trans hmp hm
  unfold rnd
  by_cases hq : q = 0
  · subst hq
    exact ⟨0, by simp, hm, hn⟩
  · have hpos : 0 < q := lt_of_le_of_ne h0 (Ne.symm hq)
    rw [if_neg hq]
    have hnl : ¬ q < 0 := not_lt.mpr h0
    simp only [hnl, if_false]
    set e := max (ilog2 q - 52) (-1074) with he
    have hej : e ≤ j := by
      have h1 := ilog2_le hpos
      have h2 : ilog2 q < 53 + j := pow2_lt.mp (lt_of_le_of_lt h1 hb)
      rw [he]; exact max_le (by omega) hj
    obtain ⟨d, hd⟩ := Int.eq_ofNat_of_zero_le (show 0 ≤ j - e by omega)
    have hpj : pow2 j = pow2 e * ((2 ^ d : Nat) : ℚ) := by
      rw [← pow2_nat, ← hd, ← pow2_add]; congr 1; omega
    have hep := pow2_pos e
    have hqe : 0 ≤ q / pow2 e := div_nonneg h0 hep.le
    have up : rne (q / pow2 e) ≤ n * 2 ^ d := by
      refine rne_le hqe ?_
      rw [div_le_iff₀ hep]
      rw [hpj] at hn
      push_cast at hn ⊢
      linarith
    have lo : m * 2 ^ d ≤ rne (q / pow2 e) := by
      refine le_rne hqe ?_
      rw [le_div_iff₀ hep]
      rw [hpj] at hm
      push_cast at hm ⊢
      linarith
    have up' : (rne (q / pow2 e) : ℚ) * pow2 e ≤ n * pow2 j := by
      have h1 : (rne (q / pow2 e) : ℚ) ≤ ((n * 2 ^ d : Nat) : ℚ) := by exact_mod_cast up
      have := mul_le_mul_of_nonneg_right h1 hep.le
      rw [hpj]; push_cast at this ⊢; linarith
    have lo' : (m : ℚ) * pow2 j ≤ (rne (q / pow2 e) : ℚ) * pow2 e := by
      have h1 : ((m * 2 ^ d : Nat) : ℚ) ≤ (rne (q / pow2 e) : ℚ) := by exact_mod_cast lo
      have := mul_le_mul_of_nonneg_right h1 hep.le
      rw [hpj]; push_cast at this ⊢; linarith
    rw [if_neg (not_le.mpr (lt_of_le_of_lt up' hn'))]
    exact ⟨_, rfl, lo', up'⟩

/-- Representable numbers are not changed by rounding. -/
theorem rnd_exact {j : Int} {m : Nat} (hm : m < 2 ^ 53) (hj : -1074 ≤ j) (hj' : j ≤ 971) :
    rnd ((m : ℚ) * pow2 j) = .fin (m * pow2 j) := by
  have hb : (m : ℚ) * pow2 j < pow2 (53 + j) := by
    rw [pow2_add]
    have : (m : ℚ) < pow2 53 := by
      rw [show (53 : Int) = ((53 : Nat) : Int) from rfl, pow2_nat]; exact_mod_cast hm
    exact mul_lt_mul_of_pos_right this (pow2_pos j)
  obtain ⟨r, h1, h2, h3⟩ := rnd_between (le_refl _) (le_refl _) hb hj
    (lt_of_lt_of_le hb (pow2_le.mpr (by omega)))
  rw [h1, le_antisymm h3 h2]

/-- Integers below 2^53 are doubles. -/
theorem ofNat_exact [Concrete.Log2Impl] {n : Nat} (h : n < 2 ^ 53) : fp.ofNat n = F64.fin n := by
  have := rnd_exact (j := 0) h (by omega) (by omega)
  rw [pow2_zero, mul_one] at this
  exact this

theorem lt_pow_of_lt32 {n : Nat} (h : n < M32) : n < 2 ^ 53 := lt_trans h (by norm_num)

/-- Converting a double between 0 and a 32-bit number to `uint32_t` is defined. -/
theorem toU32_fin {r : ℚ} (h0 : 0 ≤ r) (h : r < 4294967296) : ∃ n : Nat, F64.toU32 (.fin r) = some n ∧
    (n : ℚ) ≤ r ∧ r < n + 1 := by
  unfold F64.toU32
  simp only
  rw [if_pos (by linarith)]
  have hd : (0 : ℚ) < r.den := by exact_mod_cast r.den_pos
  have hq : r = (r.num.toNat : ℚ) / (r.den : ℚ) := by
    have hnn : ((r.num.toNat : ℤ) : ℚ) = r.num := by
      have := Rat.num_nonneg.mpr h0
      rw [Int.toNat_of_nonneg (by omega)]
    have hcast : (r.num.toNat : ℚ) = (r.num : ℚ) := by rw [← hnn]; rfl
    rw [hcast]; exact (Rat.num_div_den r).symm
  have h1 := Nat.div_mul_le_self r.num.toNat r.den
  have h2 := Nat.lt_div_mul_add (a := r.num.toNat) r.den_pos
  have l1 : ((r.num.toNat / r.den : Nat) : ℚ) ≤ r := by
    conv_rhs => rw [hq]
    rw [le_div_iff₀ hd]; exact_mod_cast h1
  have l2 : r < ((r.num.toNat / r.den : Nat) : ℚ) + 1 := by
    conv_lhs => rw [hq]
    rw [div_lt_iff₀ hd]
    have : r.num.toNat < (r.num.toNat / r.den + 1) * r.den := by
      rw [Nat.add_mul]; omega
    exact_mod_cast this
  have l3 : r.num.toNat / r.den < M32 := by
    have : ((r.num.toNat / r.den : Nat) : ℚ) < ((4294967296 : Nat) : ℚ) := lt_of_le_of_lt l1 (by push_cast; exact h)
    exact_mod_cast this
  rw [if_pos l3]
  exact ⟨_, rfl, l1, l2⟩

end Concrete
end Poros
