import Verif.Proofs.RBMore
/-
Targets in binary64: monotone rounding, rounding errors, the uniform target.
-/
namespace Poros
open Res
namespace Concrete

theorem lt_ilog2 {q : ℚ} (h : 0 < q) : q < pow2 (ilog2 q + 1) := by
  unfold ilog2
  simp only
  split
  · have hn : 0 < q.num.natAbs := by have := Rat.num_pos.mpr h; omega
    have hd : 0 < q.den := q.den_pos
    have h1 := lt_log2 q.num.natAbs
    have h2 := log2_le hd
    have hdq : (0 : ℚ) < q.den := by exact_mod_cast hd
    have hq : q = (q.num.natAbs : ℚ) / (q.den : ℚ) := by
      have hnn : ((q.num.natAbs : ℤ) : ℚ) = q.num := by
        have := Rat.num_pos.mpr h
        rw [Int.natAbs_of_nonneg (by omega)]
      have hcast : (q.num.natAbs : ℚ) = (q.num : ℚ) := by rw [← hnn]; simp
      rw [hcast]; exact (Rat.num_div_den q).symm
    conv_lhs => rw [hq]
    rw [div_lt_iff₀ hdq]
    refine lt_of_lt_of_le h1 ?_
    have e : pow2 ((Nat.log2 q.num.natAbs : Int) + 1) =
        pow2 ((Nat.log2 q.num.natAbs : Int) - (Nat.log2 q.den : Int) + 1) * pow2 (Nat.log2 q.den : Int) := by
      rw [← pow2_add]; congr 1; omega
    rw [e]
    exact mul_le_mul_of_nonneg_left h2 (pow2_pos _).le
  · rename_i h1
    rw [not_le] at h1
    rwa [show (Nat.log2 q.num.natAbs : Int) - (Nat.log2 q.den : Int) - 1 + 1 =
      (Nat.log2 q.num.natAbs : Int) - (Nat.log2 q.den : Int) by omega]

/-- The exponent of the last place. -/
def ulpExp (q : ℚ) : Int := max (ilog2 q - 52) (-1074)

/-- Rounding of a positive number, without overflow. -/
def rp (q : ℚ) : ℚ := (rne (q / pow2 (ulpExp q)) : ℚ) * pow2 (ulpExp q)

theorem rnd_pos {q : ℚ} (h : 0 < q) : rnd q = if pow2 1024 ≤ rp q then .inf false else .fin (rp q) := by
  unfold rnd
  rw [if_neg (ne_of_gt h)]
  have hnl : ¬ q < 0 := not_lt.mpr h.le
  simp only [hnl, if_false, decide_false]
  rfl

theorem rne_mono {x y : ℚ} (hx : 0 ≤ x) (h : x ≤ y) : rne x ≤ rne y := by
  by_contra hc
  have h1 := (rne_near hx).1
  have h2 := (rne_near (le_trans hx h)).2
  have h3 : (rne y : ℚ) + 1 ≤ rne x := by exact_mod_cast (show rne y + 1 ≤ rne x by omega)
  have : x = y := by linarith
  rw [this] at hc
  exact hc (le_refl _)

theorem rp_mono {q q' : ℚ} (h : 0 < q) (hle : q ≤ q') : rp q ≤ rp q' := by
  have h' : 0 < q' := lt_of_lt_of_le h hle
  have hl : ilog2 q ≤ ilog2 q' := by
    have := pow2_lt.mp (lt_of_le_of_lt (le_trans (ilog2_le h) hle) (lt_ilog2 h'))
    omega
  have he : ulpExp q ≤ ulpExp q' := max_le_max (by omega) (le_refl _)
  rcases lt_or_eq_of_le he with hlt | heq
  · have e' : ulpExp q' = ilog2 q' - 52 := by unfold ulpExp at hlt ⊢; omega
    have hq : q ≤ pow2 (52 + ulpExp q') := by
      refine le_of_lt (lt_of_lt_of_le (lt_ilog2 h) (pow2_le.mpr ?_))
      unfold ulpExp at hlt ⊢; omega
    have hq' : pow2 (52 + ulpExp q') ≤ q' := by
      rw [e', show (52 : Int) + (ilog2 q' - 52) = ilog2 q' by omega]; exact ilog2_le h'
    have up : rp q ≤ pow2 (52 + ulpExp q') := by
      obtain ⟨d, hd⟩ := Int.eq_ofNat_of_zero_le (show 0 ≤ 52 + ulpExp q' - ulpExp q by omega)
      have e : pow2 (52 + ulpExp q') = ((2 ^ d : Nat) : ℚ) * pow2 (ulpExp q) := by
        rw [← pow2_nat, ← hd, ← pow2_add]; congr 1; omega
      rw [e]
      refine mul_le_mul_of_nonneg_right ?_ (pow2_pos _).le
      have := rne_le (q := q / pow2 (ulpExp q)) (n := 2 ^ d) (div_nonneg h.le (pow2_pos _).le) (by
        rw [div_le_iff₀ (pow2_pos _), ← e]; exact hq)
      exact_mod_cast this
    have lo : pow2 (52 + ulpExp q') ≤ rp q' := by
      have e : pow2 (52 + ulpExp q') = ((2 ^ 52 : Nat) : ℚ) * pow2 (ulpExp q') := by
        rw [pow2_add]; congr 1
      rw [e]
      refine mul_le_mul_of_nonneg_right ?_ (pow2_pos _).le
      have := le_rne (q := q' / pow2 (ulpExp q')) (n := 2 ^ 52) (div_nonneg h'.le (pow2_pos _).le) (by
        rw [le_div_iff₀ (pow2_pos _), ← e]; exact hq')
      exact_mod_cast this
    exact le_trans up lo
  · unfold rp
    rw [heq]
    refine mul_le_mul_of_nonneg_right ?_ (pow2_pos _).le
    have := rne_mono (div_nonneg h.le (pow2_pos (ulpExp q')).le)
      ((div_le_div_iff_of_pos_right (pow2_pos (ulpExp q'))).mpr hle)
    exact_mod_cast this

theorem rp_nonneg {q : ℚ} : 0 ≤ rp q := mul_nonneg (Nat.cast_nonneg _) (pow2_pos _).le

theorem rnd_nonneg {q a : ℚ} (h : 0 ≤ q) (ha : rnd q = .fin a) : 0 ≤ a := by
  rcases lt_or_eq_of_le h with hp | rfl
  · rw [rnd_pos hp] at ha
    split at ha
    · cases ha
    · cases ha; exact rp_nonneg
  · have : rnd 0 = .fin 0 := by simp [rnd]
    rw [this] at ha
    cases ha
    exact le_refl _

/-- Rounding is monotone. -/
theorem rnd_mono {q q' a b : ℚ} (h : 0 ≤ q) (hle : q ≤ q') (ha : rnd q = .fin a) (hb : rnd q' = .fin b) : a ≤ b := by
  rcases lt_or_eq_of_le h with hp | rfl
  · rw [rnd_pos hp] at ha
    rw [rnd_pos (lt_of_lt_of_le hp hle)] at hb
    split at ha
    · cases ha
    · split at hb
      · cases hb
      · cases ha
        cases hb
        exact rp_mono hp hle
  · have : rnd 0 = .fin 0 := by simp [rnd]
    rw [this] at ha
    cases ha
    exact rnd_nonneg hle hb

/-- Rounding of a non-negative number does not yield a negative infinity or a non-number. -/
theorem rnd_cases {q : ℚ} (h : 0 ≤ q) : (∃ a, rnd q = .fin a ∧ 0 ≤ a) ∨ rnd q = .inf false := by
  rcases lt_or_eq_of_le h with hp | rfl
  · rw [rnd_pos hp]
    split
    · exact Or.inr rfl
    · exact Or.inl ⟨_, rfl, rp_nonneg⟩
  · exact Or.inl ⟨0, by simp [rnd], le_refl _⟩

/-- The rounding error is at most half a unit in the last place. -/
theorem rnd_err {q : ℚ} {j : Int} (h0 : 0 ≤ q) (hb : q < pow2 (53 + j)) (hj : -1074 ≤ j) (hj' : j ≤ 970) :
    ∃ r, rnd q = .fin r ∧ 0 ≤ r ∧ r ≤ q + pow2 j / 2 ∧ q ≤ r + pow2 j / 2 := by
  have hjp := pow2_pos j
  rcases lt_or_eq_of_le h0 with hp | rfl
  · have hej : ulpExp q ≤ j := by
      have h2 : ilog2 q < 53 + j := pow2_lt.mp (lt_of_le_of_lt (ilog2_le hp) hb)
      exact max_le (by omega) hj
    have hep := pow2_pos (ulpExp q)
    have hle := pow2_le.mpr hej
    obtain ⟨n1, n2⟩ := rne_near (q := q / pow2 (ulpExp q)) (div_nonneg hp.le hep.le)
    have e : q / pow2 (ulpExp q) * pow2 (ulpExp q) = q := div_mul_cancel₀ q (ne_of_gt hep)
    have a1 : rp q ≤ q + pow2 (ulpExp q) / 2 := by
      have := mul_le_mul_of_nonneg_right n1 hep.le
      unfold rp
      rw [add_mul, e] at this
      linarith
    have a2 : q ≤ rp q + pow2 (ulpExp q) / 2 := by
      have := mul_le_mul_of_nonneg_right n2 hep.le
      unfold rp
      rw [add_mul, e] at this
      linarith
    rw [rnd_pos hp, if_neg]
    · exact ⟨_, rfl, rp_nonneg, by linarith, by linarith⟩
    · rw [not_le]
      have b1 : rp q < pow2 (53 + j) + pow2 (53 + j) := by
        have h53 : pow2 j ≤ pow2 (53 + j) := pow2_le.mpr (by omega)
        linarith
      refine lt_of_lt_of_le b1 ?_
      have : pow2 (53 + j) + pow2 (53 + j) = pow2 (53 + j + 1) := by
        rw [pow2_add (53 + j) 1, show pow2 1 = 2 by decide +kernel]; ring
      rw [this]
      exact pow2_le.mpr (by omega)
  · exact ⟨0, by simp [rnd], le_refl _, by linarith, by linarith⟩

end Concrete
end Poros
