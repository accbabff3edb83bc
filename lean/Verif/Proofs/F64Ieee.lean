import Verif.Proofs.F64Imbalance
import Verif.SpecIeee
import Mathlib.Tactic.Linarith
import Mathlib.Tactic.LinearCombination
/-
The binary64 of Concrete.lean rounds as IEEE 754 says: to the nearest double, ties to even, to an infinity from
2^1024 - 2^970 on.
-/
namespace Poros
namespace Concrete
open Spec

theorem rne_tie {q : ℚ} (h : 0 ≤ q) (ht : |q - rne q| = 1 / 2) : rne q % 2 = 0 := by
  have hf : ((q.num.natAbs / q.den : Nat) : ℚ) ≤ q ∧ q < ((q.num.natAbs / q.den : Nat) : ℚ) + 1 := by
    have hd : (0 : ℚ) < q.den := by exact_mod_cast q.den_pos
    have hq : q = (q.num.natAbs : ℚ) / (q.den : ℚ) := by
      have hnn : ((q.num.natAbs : ℤ) : ℚ) = q.num := by
        have := Rat.num_nonneg.mpr h
        rw [Int.natAbs_of_nonneg (by omega)]
      have hcast : (q.num.natAbs : ℚ) = (q.num : ℚ) := by rw [← hnn]; simp
      rw [hcast]; exact (Rat.num_div_den q).symm
    have h1 := Nat.div_mul_le_self q.num.natAbs q.den
    have h2 := Nat.lt_div_mul_add (a := q.num.natAbs) q.den_pos
    constructor
    · conv_rhs => rw [hq]
      rw [le_div_iff₀ hd]; exact_mod_cast h1
    · conv_lhs => rw [hq]
      rw [div_lt_iff₀ hd]
      have : q.num.natAbs < (q.num.natAbs / q.den + 1) * q.den := by
        rw [Nat.add_mul]; omega
      exact_mod_cast this
  unfold rne at ht ⊢
  simp only at ht ⊢
  split
  · rename_i c
    rw [if_pos c, abs_of_nonneg (by linarith)] at ht
    linarith
  · rename_i c
    rw [if_neg c] at ht
    split
    · rename_i c2
      rw [if_pos c2, abs_of_nonpos (by push_cast; linarith)] at ht
      push_cast at ht
      linarith
    · split
      · assumption
      · omega

/-- No integer is nearer than the rounded one. -/
theorem rne_best {q : ℚ} (h : 0 ≤ q) (k : ℤ) : |q - rne q| ≤ |q - k| ∧
    (|q - rne q| = |q - k| → k ≠ rne q → |q - rne q| = 1 / 2 ∧ |(rne q : ℚ) - k| = 1) := by
  have hn := rne_near h
  have hle : |q - rne q| ≤ 1 / 2 := by rw [abs_le]; constructor <;> linarith
  rcases lt_trichotomy k (rne q : ℤ) with hk | hk | hk
  · have h1 : (k : ℚ) + 1 ≤ rne q := by exact_mod_cast hk
    have h2 : |q - k| = q - k := abs_of_nonneg (by linarith)
    refine ⟨by rw [h2]; linarith, fun he _ => ?_⟩
    rw [h2] at he
    have h3 : |q - rne q| = 1 / 2 := by linarith
    refine ⟨h3, ?_⟩
    rw [abs_of_nonneg (by linarith)]
    linarith
  · have : (k : ℚ) = rne q := by rw [hk]; simp
    rw [this]
    exact ⟨le_refl _, fun _ hc => absurd hk hc⟩
  · have h1 : (rne q : ℚ) + 1 ≤ k := by exact_mod_cast hk
    have h2 : |q - k| = k - q := by rw [abs_of_nonpos (by linarith)]; ring
    refine ⟨by rw [h2]; linarith, fun he _ => ?_⟩
    rw [h2] at he
    have h3 : |q - rne q| = 1 / 2 := by linarith
    refine ⟨h3, ?_⟩
    rw [abs_of_nonpos (by linarith)]
    linarith

theorem isDouble_neg {q : ℚ} (h : IsDouble q) : IsDouble (-q) := by
  obtain ⟨m, e, h1, h2, h3, rfl⟩ := h
  exact ⟨-m, e, by rwa [abs_neg], h2, h3, by push_cast; ring⟩

theorem nearestEven_neg {q r : ℚ} (h : NearestEven q r) : NearestEven (-q) (-r) := by
  refine ⟨isDouble_neg h.1, fun s hs => ?_⟩
  have h1 := h.2 (-s) (isDouble_neg hs)
  have e1 : |-q - -r| = |q - r| := by rw [← abs_neg]; congr 1; ring
  have e2 : |-q - s| = |q - -s| := by rw [← abs_neg]; congr 1; ring
  have e3 : |-r - s| = |r - -s| := by rw [← abs_neg]; congr 1; ring
  rw [e1, e2, e3]
  refine ⟨h1.1, fun he hne => ?_⟩
  obtain ⟨k, hk⟩ := h1.2 he (fun hc => hne (by rw [← hc]; ring))
  refine ⟨-k, ?_⟩
  push_cast
  linear_combination -hk

/-- The rounded significand. -/
theorem sig_le {q : ℚ} (h : 0 < q) : rne (q / pow2 (ulpExp q)) ≤ 2 ^ 53 := by
  refine rne_le (div_nonneg h.le (pow2_pos _).le) ?_
  rw [div_le_iff₀ (pow2_pos _)]
  have h1 := lt_ilog2 h
  have h2 : pow2 (ilog2 q + 1) ≤ pow2 (53 + ulpExp q) := pow2_le.mpr (by unfold ulpExp; omega)
  rw [show 53 + ulpExp q = ((53 : Nat) : Int) + ulpExp q from rfl, pow2_add ((53 : Nat) : Int), pow2_nat] at h2
  exact (lt_of_lt_of_le h1 h2).le

theorem le_sig {q : ℚ} (h : 0 < q) (hn : -1074 < ulpExp q) : 2 ^ 52 ≤ rne (q / pow2 (ulpExp q)) := by
  refine le_rne (div_nonneg h.le (pow2_pos _).le) ?_
  rw [le_div_iff₀ (pow2_pos _), ← pow2_nat, ← pow2_add]
  refine le_trans (pow2_le.mpr ?_) (ilog2_le h)
  unfold ulpExp at hn ⊢
  omega

theorem rp_isDouble {q : ℚ} (h : 0 < q) (hr : rp q < pow2 1024) : IsDouble (rp q) := by
  have h1 := sig_le h
  have hlow : -1074 ≤ ulpExp q := le_max_right _ _
  have hp := pow2_pos (ulpExp q)
  rcases lt_or_eq_of_le h1 with h2 | h2
  · have h3 : ulpExp q ≤ 971 := by
      by_contra hc
      have h4 := le_sig h (by omega)
      have h5 : pow2 1024 ≤ rp q := by
        have : ((2 ^ 52 : Nat) : ℚ) ≤ rne (q / pow2 (ulpExp q)) := by exact_mod_cast h4
        have := mul_le_mul_of_nonneg_right this hp.le
        rw [← pow2_nat, ← pow2_add] at this
        exact le_trans (pow2_le.mpr (by push_cast; omega)) this
      exact absurd hr (not_lt.mpr h5)
    refine ⟨rne (q / pow2 (ulpExp q)), ulpExp q, ?_, hlow, h3, ?_⟩
    · rw [abs_of_nonneg (Int.natCast_nonneg _)]; exact_mod_cast h2
    · unfold rp; rw [pow2_eq]; norm_cast
  · have e : rp q = pow2 (53 + ulpExp q) := by
      unfold rp
      rw [h2, ← pow2_nat, ← pow2_add]
      rfl
    have h3 : 53 + ulpExp q < 1024 := by rw [e] at hr; exact pow2_lt.mp hr
    refine ⟨2 ^ 52, ulpExp q + 1, by norm_num, by omega, by omega, ?_⟩
    rw [e, show 53 + ulpExp q = 52 + (ulpExp q + 1) by omega, pow2_add, pow2_eq (ulpExp q + 1),
      show (52 : Int) = ((52 : Nat) : Int) from rfl, pow2_nat]
    norm_num

/-- A double is a multiple of the last place of `q`, or below the least significand of `q`'s binade. -/
theorem double_cases {q s : ℚ} (h : 0 < q) (hs : IsDouble s) :
    (∃ k : ℤ, s = k * pow2 (ulpExp q)) ∨ (s < pow2 (52 + ulpExp q) ∧ pow2 (52 + ulpExp q) ≤ q) := by
  obtain ⟨m, f, h1, h2, h3, rfl⟩ := hs
  by_cases hf : ulpExp q ≤ f
  · obtain ⟨d, hd⟩ := Int.eq_ofNat_of_zero_le (show 0 ≤ f - ulpExp q by omega)
    refine Or.inl ⟨m * 2 ^ d, ?_⟩
    have : f = d + ulpExp q := by omega
    rw [this, ← pow2_eq, pow2_add, pow2_nat]
    push_cast
    ring
  · right
    rw [not_le] at hf
    have hu : ulpExp q = ilog2 q - 52 := by
      unfold ulpExp at hf ⊢
      omega
    constructor
    · have hm : (m : ℚ) < ((2 ^ 53 : Nat) : ℚ) := by
        have : m < 2 ^ 53 := lt_of_le_of_lt (le_abs_self m) h1
        exact_mod_cast this
      rw [← pow2_eq]
      have := mul_lt_mul_of_pos_right hm (pow2_pos f)
      rw [← pow2_nat, ← pow2_add] at this
      exact lt_of_lt_of_le this (pow2_le.mpr (by push_cast; omega))
    · rw [show 52 + ulpExp q = ilog2 q by omega]
      exact ilog2_le h

theorem rp_nearest {q : ℚ} (h : 0 < q) (hr : rp q < pow2 1024) : NearestEven q (rp q) := by
  refine ⟨rp_isDouble h hr, fun s hs => ?_⟩
  have hp := pow2_pos (ulpExp q)
  have hx : 0 ≤ q / pow2 (ulpExp q) := div_nonneg h.le hp.le
  have scale : ∀ k : ℚ, |q - k * pow2 (ulpExp q)| = |q / pow2 (ulpExp q) - k| * pow2 (ulpExp q) := by
    intro k
    rw [← abs_of_pos hp, ← abs_mul, abs_of_pos hp, sub_mul, div_mul_cancel₀ _ (ne_of_gt hp)]
  have er : |q - rp q| = |q / pow2 (ulpExp q) - rne (q / pow2 (ulpExp q))| * pow2 (ulpExp q) := scale _
  rcases double_cases h hs with ⟨k, rfl⟩ | ⟨h1, h2⟩
  · obtain ⟨b1, b2⟩ := rne_best hx k
    rw [er, scale]
    refine ⟨mul_le_mul_of_nonneg_right b1 hp.le, fun he hne => ?_⟩
    have hk : k ≠ rne (q / pow2 (ulpExp q)) := by
      intro hc
      apply hne
      unfold rp
      rw [hc]
      simp
    obtain ⟨t1, t2⟩ := b2 (mul_right_cancel₀ (ne_of_gt hp) he) hk
    have ev := rne_tie hx t1
    refine ⟨((rne (q / pow2 (ulpExp q)) / 2 : Nat) : ℤ), ?_⟩
    have e2 : |rp q - k * pow2 (ulpExp q)| = pow2 (ulpExp q) := by
      unfold rp
      rw [← sub_mul, abs_mul, t2, one_mul, abs_of_pos hp]
    rw [e2]
    have e3 : (rne (q / pow2 (ulpExp q)) : ℚ) = 2 * ((rne (q / pow2 (ulpExp q)) / 2 : Nat) : ℚ) := by
      exact_mod_cast (show rne (q / pow2 (ulpExp q)) = 2 * (rne (q / pow2 (ulpExp q)) / 2) by omega)
    conv_lhs => rw [rp, e3]
    norm_cast
  · have h3 := (rne_best hx (2 ^ 52)).1
    have h4 := mul_le_mul_of_nonneg_right h3 hp.le
    have e52 : ((2 ^ 52 : ℤ) : ℚ) * pow2 (ulpExp q) = pow2 (52 + ulpExp q) := by
      rw [pow2_add, show (52 : Int) = ((52 : Nat) : Int) from rfl, pow2_nat]; norm_num
    rw [← er, ← scale, e52] at h4
    have h5 : |q - pow2 (52 + ulpExp q)| < |q - s| := by
      rw [abs_of_nonneg (by linarith), abs_of_nonneg (by linarith)]
      linarith
    exact ⟨le_trans h4 h5.le, fun he _ => absurd he (ne_of_lt (lt_of_le_of_lt h4 h5))⟩

theorem pow_1024 : (2 : ℚ) ^ 1024 = pow2 1024 := by
  rw [show (1024 : Int) = ((1024 : Nat) : Int) from rfl, pow2_nat, Nat.cast_pow]; rfl

theorem pow_970 : (2 : ℚ) ^ 970 = pow2 970 := by
  rw [show (970 : Int) = ((970 : Nat) : Int) from rfl, pow2_nat, Nat.cast_pow]; rfl

theorem rp_overflow {q : ℚ} (h : 0 < q) : pow2 1024 ≤ rp q ↔ pow2 1024 - pow2 970 ≤ q := by
  have hp := pow2_pos (ulpExp q)
  have hx : 0 ≤ q / pow2 (ulpExp q) := div_nonneg h.le hp.le
  have e971 : pow2 971 = 2 * pow2 970 := by
    rw [show (971 : Int) = 1 + 970 by norm_num, pow2_add, show pow2 1 = 2 by decide +kernel]
  have e1024 : pow2 1024 = 9007199254740992 * pow2 971 := by
    rw [show (1024 : Int) = ((53 : Nat) : Int) + 971 by norm_num, pow2_add, pow2_nat]; norm_num
  have p970 := pow2_pos 970
  constructor
  · intro ho
    by_contra hc
    rw [not_le] at hc
    have hl : ilog2 q ≤ 1023 := by
      have : pow2 (ilog2 q) < pow2 1024 := lt_of_le_of_lt (ilog2_le h) (by linarith)
      have := pow2_lt.mp this
      omega
    have hu : ulpExp q ≤ 971 := by unfold ulpExp; omega
    rcases lt_or_eq_of_le hu with hu | hu
    · have h1 : (rne (q / pow2 (ulpExp q)) : ℚ) ≤ ((2 ^ 53 : Nat) : ℚ) := by exact_mod_cast sig_le h
      have h2 := mul_le_mul_of_nonneg_right h1 hp.le
      rw [← pow2_nat, ← pow2_add] at h2
      have h3 : pow2 (((53 : Nat) : Int) + ulpExp q) < pow2 1024 := pow2_lt.mpr (by push_cast; omega)
      have h4 : rp q < pow2 1024 := lt_of_le_of_lt h2 h3
      exact absurd ho (not_le.mpr h4)
    · have h1 := (rne_near hx).1
      have h2 : (rne (q / pow2 (ulpExp q)) : ℚ) < 9007199254740992 := by
        have : q / pow2 (ulpExp q) < 9007199254740992 - 1 / 2 := by
          rw [div_lt_iff₀ hp, hu]
          linarith
        linarith
      unfold rp at ho
      have := mul_lt_mul_of_pos_right h2 hp
      rw [hu] at ho this
      linarith
  · intro ho
    by_cases hl : 1024 ≤ ilog2 q
    · have h1 := le_sig h (by unfold ulpExp; omega)
      have h2 : ((2 ^ 52 : Nat) : ℚ) ≤ rne (q / pow2 (ulpExp q)) := by exact_mod_cast h1
      have h3 := mul_le_mul_of_nonneg_right h2 hp.le
      rw [← pow2_nat, ← pow2_add] at h3
      exact le_trans (pow2_le.mpr (by unfold ulpExp; push_cast; omega)) h3
    · have hl2 : ilog2 q = 1023 := by
        have h1 := lt_ilog2 h
        have h2 : pow2 1023 < pow2 (ilog2 q + 1) := by
          refine lt_of_le_of_lt ?_ (lt_of_le_of_lt ho h1)
          have : pow2 1024 = 2 * pow2 1023 := by
            rw [show (1024 : Int) = 1 + 1023 by norm_num, pow2_add, show pow2 1 = 2 by decide +kernel]
          have : pow2 970 ≤ pow2 1023 := pow2_le.mpr (by norm_num)
          linarith
        have := pow2_lt.mp h2
        omega
      have hu : ulpExp q = 971 := by unfold ulpExp; omega
      have hx2 : 9007199254740992 - 1 / 2 ≤ q / pow2 (ulpExp q) := by
        rw [le_div_iff₀ hp, hu]
        linarith
      have hge : 9007199254740992 ≤ rne (q / pow2 (ulpExp q)) := by
        by_contra hc
        have h1 : (rne (q / pow2 (ulpExp q)) : ℚ) ≤ 9007199254740991 := by
          exact_mod_cast (show rne (q / pow2 (ulpExp q)) ≤ 9007199254740991 by omega)
        have h2 := (rne_near hx).2
        have h3 : |q / pow2 (ulpExp q) - rne (q / pow2 (ulpExp q))| = 1 / 2 := by
          rw [abs_of_nonneg (by linarith)]; linarith
        have h4 := rne_tie hx h3
        have h5 : (9007199254740991 : ℚ) ≤ rne (q / pow2 (ulpExp q)) := by linarith
        have h6 : 9007199254740991 ≤ rne (q / pow2 (ulpExp q)) := by exact_mod_cast h5
        omega
      have h1 : (9007199254740992 : ℚ) ≤ rne (q / pow2 (ulpExp q)) := by exact_mod_cast hge
      have h2 := mul_le_mul_of_nonneg_right h1 hp.le
      unfold rp
      rw [hu] at h2 ⊢
      linarith

theorem rnd_neg_inf {a : ℚ} (h : 0 < a) : rnd (-a) = if pow2 1024 ≤ rp a then .inf true else .fin (-(rp a)) := by
  unfold rnd
  rw [if_neg (by linarith)]
  simp only [if_pos (show -a < 0 by linarith), neg_neg, show decide (-a < 0) = true by simpa using h]
  rfl

/-- Every operation of the doubles of Concrete.lean on finite operands rounds the exact result as IEEE 754 says. -/
theorem rnd_ieee (q : ℚ) :
    (¬ Overflows q → ∃ r, rnd q = .fin r ∧ NearestEven q r) ∧
    (Overflows q → rnd q = .inf (decide (q < 0))) := by
  unfold Overflows
  rw [pow_1024, pow_970]
  have p1 : pow2 970 < pow2 1024 := pow2_lt.mpr (by norm_num)
  rcases lt_trichotomy q 0 with hq | rfl | hq
  · have hpos : 0 < -q := by linarith
    have e := rnd_neg_inf hpos
    rw [neg_neg] at e
    rw [abs_of_neg hq, ← rp_overflow hpos, e]
    refine ⟨fun ho => ⟨-(rp (-q)), by rw [if_neg ho], ?_⟩, fun ho => by rw [if_pos ho]; simp [hq]⟩
    have := nearestEven_neg (rp_nearest hpos (not_le.mp ho))
    rwa [neg_neg] at this
  · refine ⟨fun _ => ⟨0, by simp [rnd], ⟨0, 0, by norm_num, by norm_num, by norm_num, by norm_num⟩, fun s _ => ?_⟩,
      fun ho => ?_⟩
    · refine ⟨by simp, fun he hne => ?_⟩
      exfalso
      apply hne
      simpa using he.symm
    · rw [abs_zero] at ho
      linarith
  · rw [abs_of_pos hq, ← rp_overflow hq, rnd_pos hq]
    refine ⟨fun ho => ⟨rp q, by rw [if_neg ho], rp_nearest hq (not_le.mp ho)⟩, fun ho => ?_⟩
    rw [if_pos ho]
    simp [not_lt.mpr hq.le]

/-- Sums, differences, products, quotients, literals and integers of the doubles of Concrete.lean are the exact values,
rounded; the conversion to an unsigned integer cuts off the fraction, and is undefined outside of the range. -/
theorem fp_rounds [Log2Impl] (a b : ℚ) (m e n : ℕ) :
    fp.add (.fin a) (.fin b) = rnd (a + b) ∧ fp.sub (.fin a) (.fin b) = rnd (a - b) ∧
    fp.mul (.fin a) (.fin b) = rnd (a * b) ∧ (b ≠ 0 → fp.div (.fin a) (.fin b) = rnd (a / b)) ∧
    fp.lit m e = rnd (m / 10 ^ e) ∧ fp.ofNat n = rnd n ∧
    (fp.lt (.fin a) (.fin b) = true ↔ a < b) ∧ (fp.le (.fin a) (.fin b) = true ↔ a ≤ b) ∧
    (-1 < a → a < 4294967296 → fp.toU32 (.fin a) = some ⌊max a 0⌋.toNat) ∧
    (a ≤ -1 ∨ 4294967296 ≤ a → fp.toU32 (.fin a) = none) := by
  refine ⟨rfl, ?_, rfl, fun hb => by simp [fp, F64.div, hb], by simp [fp], rfl, by simp [fp, F64.lt], ?_, ?_, ?_⟩
  · simp [fp, F64.add, F64.neg, sub_eq_add_neg]
  · simp only [fp, F64.le, F64.lt, Bool.or_eq_true, Bool.and_eq_true, decide_eq_true_eq, F64.fin.injEq]
    constructor
    · rintro (h | ⟨h, -⟩)
      · exact h.le
      · exact h.le
    · intro h
      rcases lt_or_eq_of_le h with h | h
      · exact Or.inl h
      · exact Or.inr ⟨h, by simp⟩
  · intro h1 h2
    have hfl : (a.num.toNat / a.den : ℕ) = ⌊max a 0⌋.toNat := by
      rcases le_or_gt 0 a with h | h
      · rw [max_eq_left h]
        have h0 : 0 ≤ a.num := Rat.num_nonneg.mpr h
        rw [Rat.floor_def']
        apply Int.natCast_inj.mp
        rw [Int.toNat_of_nonneg (Int.ediv_nonneg h0 (Int.natCast_nonneg _)), Int.natCast_ediv,
          Int.toNat_of_nonneg h0]
      · rw [max_eq_right h.le]
        have h0 : a.num ≤ 0 := (Rat.num_neg.mpr h).le
        simp [Int.toNat_of_nonpos h0]
    simp only [fp, F64.toU32, if_pos h1]
    rw [hfl, if_pos]
    have h3 : max a 0 < 4294967296 := max_lt h2 (by norm_num)
    have h4 : ⌊max a 0⌋ < 4294967296 := Int.floor_lt.mpr (by exact_mod_cast h3)
    show _ < 4294967296
    omega
  · rintro (h | h)
    · simp [fp, F64.toU32, not_lt.mpr h]
    · simp only [fp, F64.toU32]
      rw [if_pos (by linarith), if_neg]
      rw [not_lt]
      have h0 : 0 ≤ a.num := Rat.num_nonneg.mpr (by linarith)
      have h3 : (4294967296 : ℤ) ≤ ⌊a⌋ := Int.le_floor.mpr (by exact_mod_cast h)
      rw [Rat.floor_def'] at h3
      show 4294967296 ≤ _
      have : ((a.num.toNat / a.den : ℕ) : ℤ) = a.num / (a.den : ℤ) := by
        rw [Int.natCast_ediv, Int.toNat_of_nonneg h0]
      omega

/-- one tenth: the double everyone knows -/
example : rnd (1 / 10) = .fin (3602879701896397 / 36028797018963968) := by decide +kernel
/-- a tie goes to the even neighbour -/
example : rnd (2 ^ 53 + 1) = .fin (2 ^ 53) ∧ rnd (2 ^ 53 + 3) = .fin (2 ^ 53 + 4) := by
  constructor <;> decide +kernel
example : ¬ Overflows (1 / 10) ∧ Overflows (2 ^ 1024) := by
  unfold Overflows
  constructor
  · have e : (2 : ℚ) ^ 1024 = 2 ^ 54 * 2 ^ 970 := by rw [← pow_add]
    have h1 : (1 : ℚ) ≤ 2 ^ 970 := one_le_pow₀ (by norm_num)
    rw [not_le, abs_of_nonneg (by norm_num), e]
    generalize (2 : ℚ) ^ 970 = x at h1 ⊢
    norm_num
    linarith
  · have h1 : (0 : ℚ) < 2 ^ 970 := pow_pos (by norm_num) _
    have h2 : (0 : ℚ) < 2 ^ 1024 := pow_pos (by norm_num) _
    rw [abs_of_pos h2]
    exact sub_le_self _ h1.le

end Concrete
end Poros
