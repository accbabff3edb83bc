import Verif.Proofs.F64Target
import Verif.SpecApi
import Mathlib.Algebra.Group.Nat.Defs
import Mathlib.Algebra.Ring.Nat
import Mathlib.Algebra.GroupWithZero.Action.Defs
/-
The uniform target in binary64.
-/
namespace Poros
open Res

theorem uniform_ok {fp : FP} {k tot : Nat} {tol f s : fp.F} {a b : Nat} (hf : fp.div (fp.lit 1 0) (fp.ofNat k) = f)
    (h1 : fp.lt f (fp.lit 0 0) = false) (h2 : fp.lt (fp.lit 1 0) f = false)
    (hs : (List.range k).foldl (fun acc _ => fp.add acc f) (fp.lit 0 0) = s)
    (h3 : fp.lt s (fp.sub (fp.lit 1 0) (fp.lit 1 4)) = false)
    (h4 : fp.lt (fp.add (fp.lit 1 0) (fp.lit 1 4)) s = false)
    (ha : fp.toU32 (fp.mul f (fp.ofNat tot)) = some a)
    (hb : fp.toU32 (fp.mul (fp.mul f (fp.add (fp.lit 1 0) tol)) (fp.ofNat tot)) = some b) :
    Target.uniform k tot tol = ok ⟨k, List.replicate k f, List.replicate k a, List.replicate k b⟩ := by
  unfold Target.uniform Target.ofFractions
  rw [hf]
  have ht : (List.replicate k f).take k = List.replicate k f := by simp
  simp only [ht, List.length_replicate, lt_irrefl, if_false]
  have hfold : (List.range k).foldlM (fun acc i => do
      let g ← rd (List.replicate k f) i
      if fp.lt g (fp.lit 0 0) || fp.lt (fp.lit 1 0) g then Target.invalidFractions (List.replicate k f)
      else (.ok (fp.add acc g) : Res fp.F)) (fp.lit 0 0) = ok s := by
    rw [foldlM_ok_eq_foldl (g := fun acc _ => fp.add acc f), hs]
    intro acc i hi
    rw [rd_of_lt (by simpa using hi), ok_bind, nth_replicate (by simpa using hi)]
    simp [h1, h2]
  rw [hfold, ok_bind]
  simp only [h3, h4, Bool.or_self, Bool.false_eq_true, if_false]
  have c1 : calcTargetWeight fp tot (List.replicate k f) = ok (List.replicate k a) := by
    unfold calcTargetWeight
    rw [mapM_ok_eq_map (g := fun _ => a)]
    · simp
    · intro x hx
      rw [List.eq_of_mem_replicate hx]
      unfold FP.cast
      rw [ha]
  have c2 : calcMaxWeight fp tot tol (List.replicate k f) = ok (List.replicate k b) := by
    unfold calcMaxWeight
    rw [mapM_ok_eq_map (g := fun _ => b)]
    · simp
    · intro x hx
      rw [List.eq_of_mem_replicate hx]
      unfold FP.cast
      rw [hb]
  rw [c1, ok_bind, c2, ok_bind]

namespace Concrete

theorem lit_zero [Concrete.Log2Impl] : fp.lit 0 0 = F64.fin 0 := by
  show rnd (((0 : Nat) : ℚ) / ((10 ^ 0 : Nat) : ℚ)) = F64.fin 0
  decide +kernel

theorem lit_one [Concrete.Log2Impl] : fp.lit 1 0 = F64.fin 1 := by
  show rnd (((1 : Nat) : ℚ) / ((10 ^ 0 : Nat) : ℚ)) = F64.fin 1
  decide +kernel

theorem toU32_mono {a b : ℚ} {m n : Nat} (h0 : 0 ≤ a) (h : a ≤ b) (hm : F64.toU32 (.fin a) = some m)
    (hn : F64.toU32 (.fin b) = some n) : m ≤ n := by
  have hb : b < 4294967296 := by
    by_contra hc
    rw [not_lt] at hc
    have hb0 : (0 : ℚ) ≤ b := le_trans h0 h
    have hd : (0 : ℚ) < b.den := by exact_mod_cast b.den_pos
    simp only [F64.toU32] at hn
    rw [if_pos (by linarith)] at hn
    split at hn
    · rename_i hlt
      have hq : b = (b.num.toNat : ℚ) / (b.den : ℚ) := by
        have hnn : ((b.num.toNat : ℤ) : ℚ) = b.num := by
          have := Rat.num_nonneg.mpr hb0
          rw [Int.toNat_of_nonneg (by omega)]
        have hcast : (b.num.toNat : ℚ) = (b.num : ℚ) := by rw [← hnn]; rfl
        rw [hcast]; exact (Rat.num_div_den b).symm
      rw [hq, le_div_iff₀ hd] at hc
      have hc' : 4294967296 * b.den ≤ b.num.toNat := by exact_mod_cast hc
      have := (Nat.le_div_iff_mul_le b.den_pos).mpr hc'
      omega
    · cases hn
  obtain ⟨m', e1, m1, m2⟩ := toU32_fin h0 (lt_of_le_of_lt h hb)
  obtain ⟨n', e2, n1, n2⟩ := toU32_fin (le_trans h0 h) hb
  rw [e1] at hm
  rw [e2] at hn
  cases hm
  cases hn
  have : (m : ℚ) < ((n + 1 : Nat) : ℚ) := by push_cast; linarith
  have : m < n + 1 := by exact_mod_cast this
  omega

theorem targetOK [Concrete.Log2Impl] : fp.TargetOK where
  mono f tol tot a b htot hrep h0 h1 htol ha hb := by
    rw [lit_zero] at h0 htol
    rw [lit_one] at h1 hrep hb
    rw [ofNat_exact (lt_pow_of_lt32 htot)] at ha hb
    have ht0 : (0 : ℚ) ≤ tot := Nat.cast_nonneg tot
    cases f with
    | nan => cases ha
    | inf s =>
      cases s with
      | true => cases h0
      | false => cases h1
    | fin q =>
      have hq0 : 0 ≤ q := by
        have : decide (q < 0) = false := h0
        simpa using this
      have hrep' : rnd q = .fin q := by
        have : rnd (q * 1) = .fin q := hrep
        rwa [mul_one] at this
      -- the factor
      have hc : (∃ c, F64.add (.fin 1) tol = .fin c ∧ 1 ≤ c) ∨ F64.add (.fin 1) tol = .inf false := by
        cases tol with
        | nan => cases htol
        | inf s =>
          cases s with
          | true => cases htol
          | false => exact Or.inr rfl
        | fin t =>
          have ht : 0 ≤ t := by
            have : (decide (0 < t) || (decide (F64.fin 0 = F64.fin t) && decide (F64.fin 0 ≠ F64.nan))) = true := htol
            simp at this
            rcases this with h | h
            · exact h.le
            · rw [← h]
          rcases rnd_cases (q := 1 + t) (by linarith) with ⟨c, hc, -⟩ | hc
          · exact Or.inl ⟨c, hc, rnd_mono (by norm_num) (by linarith) rnd_one hc⟩
          · exact Or.inr hc
      rcases hc with ⟨c, hc, hc1⟩ | hc
      · have hb' : F64.toU32 (F64.mul (F64.mul (.fin q) (F64.add (.fin 1) tol)) (.fin tot)) = some b := hb
        rw [hc] at hb'
        have hm : F64.mul (.fin q) (.fin c) = rnd (q * c) := rfl
        rw [hm] at hb'
        have hqc : 0 ≤ q * c := mul_nonneg hq0 (by linarith)
        rcases rnd_cases hqc with ⟨d, hd, hd0⟩ | hd
        · rw [hd] at hb'
          have hqd : q ≤ d := rnd_mono hq0 (le_mul_of_one_le_right hq0 hc1) hrep' hd
          have hb2 : F64.toU32 (rnd (d * tot)) = some b := hb'
          have ha2 : F64.toU32 (rnd (q * tot)) = some a := ha
          rcases rnd_cases (mul_nonneg hd0 ht0) with ⟨y, hy, -⟩ | hy
          · rcases rnd_cases (mul_nonneg hq0 ht0) with ⟨x, hx, hx0⟩ | hx
            · rw [hy] at hb2
              rw [hx] at ha2
              exact toU32_mono hx0 (rnd_mono (mul_nonneg hq0 ht0) (mul_le_mul_of_nonneg_right hqd ht0) hx hy) ha2 hb2
            · rw [hx] at ha2; cases ha2
          · rw [hy] at hb2; cases hb2
        · rw [hd] at hb'
          exfalso
          simp only [F64.mul] at hb'
          split at hb' <;> cases hb'
      · exfalso
        have hb' : F64.toU32 (F64.mul (F64.mul (.fin q) (F64.add (.fin 1) tol)) (.fin tot)) = some b := hb
        have e : F64.mul (.fin q) (.inf false) = if q = 0 then .nan else .inf (xor false (decide (q < 0))) := rfl
        rw [hc, e] at hb'
        by_cases hz : q = 0
        · rw [if_pos hz] at hb'
          cases hb'
        · rw [if_neg hz] at hb'
          simp only [F64.mul] at hb'
          split at hb' <;> cases hb'


/-- `2^-52` -/
theorem ulp2 : pow2 (-51) / 2 = 1 / 4503599627370496 := by decide +kernel

theorem near_err {q : ℚ} (h0 : 0 ≤ q) (h : q < 4) :
    ∃ r, rnd q = .fin r ∧ 0 ≤ r ∧ r ≤ q + 1 / 4503599627370496 ∧ q ≤ r + 1 / 4503599627370496 := by
  rw [← ulp2]
  refine rnd_err h0 ?_ (by omega) (by omega)
  rw [show pow2 (53 + -51) = 4 by decide +kernel]
  exact h

theorem far_err {q : ℚ} (h0 : 0 ≤ q) (h : q < 8589934592) :
    ∃ r, rnd q = .fin r ∧ 0 ≤ r ∧ r ≤ q + 1 / 2097152 ∧ q ≤ r + 1 / 2097152 := by
  have e1 : pow2 (53 + -20) = 8589934592 := by decide +kernel
  have e2 : pow2 (-20) / 2 = 1 / 2097152 := by decide +kernel
  obtain ⟨r, a, b, c, d⟩ := rnd_err (q := q) (j := -20) h0 (by rw [e1]; exact h) (by omega) (by omega)
  rw [e2] at c d
  exact ⟨r, a, b, c, d⟩

/-- Rounding twice is rounding once. -/
theorem rnd_idem {q r : ℚ} (h0 : 0 ≤ q) (h : q < 4) (hr : rnd q = .fin r) : rnd r = .fin r := by
  rcases lt_or_eq_of_le h0 with hp | rfl
  · rw [rnd_pos hp] at hr
    split at hr
    · cases hr
    · cases hr
      have hl : ilog2 q < 2 := by
        refine pow2_lt.mp (lt_of_le_of_lt (ilog2_le hp) ?_)
        rw [show pow2 2 = 4 by decide +kernel]; exact h
      have he1 : ulpExp q ≤ 0 := by unfold ulpExp; omega
      have he2 : -1074 ≤ ulpExp q := le_max_right _ _
      have hm : rne (q / pow2 (ulpExp q)) ≤ 2 ^ 53 := by
        refine rne_le (div_nonneg hp.le (pow2_pos _).le) ?_
        rw [div_le_iff₀ (pow2_pos _)]
        have : ((2 ^ 53 : Nat) : ℚ) * pow2 (ulpExp q) = pow2 (53 + ulpExp q) := by rw [pow2_add]; congr 1
        rw [this]
        refine le_of_lt (lt_of_lt_of_le (lt_ilog2 hp) (pow2_le.mpr ?_))
        unfold ulpExp; omega
      rcases lt_or_eq_of_le hm with hlt | heq
      · exact rnd_exact hlt he2 (by omega)
      · have : rp q = ((2 ^ 52 : Nat) : ℚ) * pow2 (ulpExp q + 1) := by
          unfold rp
          rw [heq, pow2_add, show pow2 1 = 2 by decide +kernel]
          push_cast
          ring
        rw [this]
        exact rnd_exact (by norm_num) (by omega) (by omega)
  · have : rnd 0 = .fin 0 := by simp [rnd]
    rw [this] at hr
    cases hr
    exact this

/-- The sum of equal fractions. -/
theorem sum_err [Concrete.Log2Impl] {k : Nat} (hk' : k < M32) {q : ℚ} (h0 : 0 ≤ q) (hq : q ≤ 1 / k + 1 / 4503599627370496) (hk : 0 < k) :
    ∀ n, n ≤ k → ∃ s, (List.range n).foldl (fun acc _ => fp.add acc (F64.fin q)) (fp.lit 0 0) = F64.fin s ∧ 0 ≤ s ∧
      s ≤ n * q + n * (1 / 4503599627370496) ∧ n * q ≤ s + n * (1 / 4503599627370496)
  | 0, _ => ⟨0, lit_zero, le_refl _, by norm_num, by norm_num⟩
  | n + 1, hn => by
    obtain ⟨s, h1, h2, h3, h4⟩ := sum_err hk' h0 hq hk n (by omega)
    have hkq : (k : ℚ) < 4294967296 := by exact_mod_cast hk'
    have hkp : (0 : ℚ) < k := by exact_mod_cast hk
    have hnk : (n : ℚ) + 1 ≤ k := by exact_mod_cast hn
    have hn0 : (0 : ℚ) ≤ n := Nat.cast_nonneg n
    have hb : (n + 1) * q ≤ 1 + k * (1 / 4503599627370496) := by
      have h5 : ((n : ℚ) + 1) * q ≤ k * q := mul_le_mul_of_nonneg_right hnk h0
      have h6 : (k : ℚ) * q ≤ k * (1 / k + 1 / 4503599627370496) := mul_le_mul_of_nonneg_left hq hkp.le
      have h7 : (k : ℚ) * (1 / k + 1 / 4503599627370496) = 1 + k * (1 / 4503599627370496) := by
        rw [mul_add, mul_one_div_cancel (ne_of_gt hkp)]
      linarith
    obtain ⟨r, r1, r2, r3, r4⟩ := near_err (q := s + q) (by linarith) (by linarith)
    refine ⟨r, ?_, r2, ?_, ?_⟩
    · rw [List.range_succ, List.foldl_append, h1]
      exact r1
    · push_cast; linarith
    · push_cast; linarith

/-- The uniform target of the C interface: equal parts, each weight within one unit (plus a rounding error) of the
exact number. -/
theorem uniform_bounds [Concrete.Log2Impl] {k tot : Nat} (hk : 2 ≤ k) (hk' : k < M32) (htot : tot < M32) :
    ∃ f a b, Target.uniform (fp := fp) k tot (fp.lit 3 2) =
        ok ⟨k, List.replicate k f, List.replicate k a, List.replicate k b⟩ ∧ a ≤ b ∧
      (a : ℚ) ≤ 1 / k * tot + 1 / 100000 ∧ 1 / k * tot < (a : ℚ) + 1 + 1 / 100000 ∧
      (b : ℚ) ≤ 103 / 100 * (1 / k * tot) + 1 / 131072 ∧ 103 / 100 * (1 / k * tot) < (b : ℚ) + 1 + 1 / 100000 := by
  have hkq : (k : ℚ) < 4294967296 := by exact_mod_cast hk'
  have hk2 : (2 : ℚ) ≤ k := by exact_mod_cast hk
  have hkp : (0 : ℚ) < k := by linarith
  have htq : (tot : ℚ) < 4294967296 := by exact_mod_cast htot
  have ht0 : (0 : ℚ) ≤ tot := Nat.cast_nonneg tot
  have hinv : 1 / (k : ℚ) ≤ 1 / 2 := one_div_le_one_div_of_le (by norm_num) hk2
  have hinv0 : 0 ≤ 1 / (k : ℚ) := (one_div_pos.mpr hkp).le
  obtain ⟨q, q1, q2, q3, q4⟩ := near_err (q := 1 / k) hinv0 (by linarith)
  have hf : fp.div (fp.lit 1 0) (fp.ofNat k) = F64.fin q := by
    rw [ofNat_exact (lt_pow_of_lt32 hk'), lit_one, div_fin _ (ne_of_gt hkp), q1]
  obtain ⟨s, s1, s2, s3, s4⟩ := sum_err hk' q2 q3 (by omega) k (le_refl _)
  have hkk : (k : ℚ) * (1 / k) = 1 := mul_one_div_cancel (ne_of_gt hkp)
  have u1 : (k : ℚ) * q ≤ 1 + k * (1 / 4503599627370496) := by
    have := mul_le_mul_of_nonneg_left q3 hkp.le
    rw [mul_add, hkk] at this
    exact this
  have u2 : 1 ≤ (k : ℚ) * q + k * (1 / 4503599627370496) := by
    have := mul_le_mul_of_nonneg_left q4 hkp.le
    rw [mul_add, hkk] at this
    exact this
  -- target weight
  have qt0 : 0 ≤ q * tot := mul_nonneg q2 ht0
  have qt1 : q * tot ≤ 4294967296 := by
    have : q * tot ≤ 1 * tot := mul_le_mul_of_nonneg_right (by linarith) ht0
    linarith
  obtain ⟨x, x1, x2, x3, x4⟩ := far_err qt0 (by linarith)
  have qtt : q * tot ≤ 3 / 4 * tot := mul_le_mul_of_nonneg_right (by linarith) ht0
  obtain ⟨a, a1, a2, a3⟩ := toU32_fin (r := x) x2 (by linarith)
  -- maximum weight
  have hc : fp.add (fp.lit 1 0) (fp.lit 3 2) = F64.fin (4638707616191611 / 4503599627370496) := by
    show F64.add (rnd (((1 : Nat) : ℚ) / ((10 ^ 0 : Nat) : ℚ))) (rnd (((3 : Nat) : ℚ) / ((10 ^ 2 : Nat) : ℚ))) = _
    decide +kernel
  have qc0 : 0 ≤ q * (4638707616191611 / 4503599627370496) := mul_nonneg q2 (by norm_num)
  obtain ⟨d, d1, d2, d3, d4⟩ := near_err qc0 (by linarith)
  have hd : d ≤ 103 / 100 * (1 / k) + 3 / 4503599627370496 := by linarith
  have dt0 : 0 ≤ d * tot := mul_nonneg d2 ht0
  have dt1 : d * tot ≤ 103 / 100 * (1 / k * tot) + 1 / 262144 := by
    have h1 := mul_le_mul_of_nonneg_right hd ht0
    have h2 : (3 : ℚ) / 4503599627370496 * tot ≤ 1 / 262144 := by linarith
    have h3 : (103 / 100 * (1 / (k : ℚ)) + 3 / 4503599627370496) * tot =
      103 / 100 * (1 / k * tot) + 3 / 4503599627370496 * tot := by ring
    linarith
  have ikt : 1 / (k : ℚ) * tot ≤ 1 / 2 * tot := mul_le_mul_of_nonneg_right hinv ht0
  obtain ⟨y, y1, y2, y3, y4⟩ := far_err dt0 (by linarith)
  obtain ⟨b, b1, b2, b3⟩ := toU32_fin (r := y) y2 (by linarith)
  have hab : a ≤ b := by
    have hqd : q ≤ d := by
      have hr : rnd q = .fin q := by
        exact rnd_idem hinv0 (by linarith) q1
      exact rnd_mono q2 (le_mul_of_one_le_right q2 (by norm_num)) hr d1
    exact toU32_mono x2 (rnd_mono qt0 (mul_le_mul_of_nonneg_right hqd ht0) x1 y1) a1 b1
  have hb : (b : ℚ) ≤ 103 / 100 * (1 / k * tot) + 1 / 131072 := by linarith
  have low1 : 1 / (k : ℚ) * tot ≤ q * tot + 1 / 1048576 := by
    have h1 := mul_le_mul_of_nonneg_right q4 ht0
    have h2 : (1 : ℚ) / 4503599627370496 * tot ≤ 1 / 1048576 := by linarith
    have h3 : (q + 1 / 4503599627370496) * (tot : ℚ) = q * tot + 1 / 4503599627370496 * tot := by ring
    linarith
  have up1 : q * tot ≤ 1 / (k : ℚ) * tot + 1 / 1048576 := by
    have h1 := mul_le_mul_of_nonneg_right q3 ht0
    have h2 : (1 : ℚ) / 4503599627370496 * tot ≤ 1 / 1048576 := by linarith
    have h3 : (1 / (k : ℚ) + 1 / 4503599627370496) * (tot : ℚ) = 1 / k * tot + 1 / 4503599627370496 * tot := by ring
    linarith
  have hd' : 103 / 100 * (1 / (k : ℚ)) ≤ d + 3 / 4503599627370496 := by linarith
  have low2 : 103 / 100 * (1 / (k : ℚ) * tot) ≤ d * tot + 1 / 262144 := by
    have h1 := mul_le_mul_of_nonneg_right hd' ht0
    have h2 : (3 : ℚ) / 4503599627370496 * tot ≤ 1 / 262144 := by linarith
    have h3 : (d + 3 / 4503599627370496) * (tot : ℚ) = d * tot + 3 / 4503599627370496 * tot := by ring
    linarith
  refine ⟨F64.fin q, a, b, uniform_ok (fp := fp) (a := a) (b := b) hf ?_ ?_ s1 ?_ ?_ ?_ ?_, hab, by linarith,
    by linarith, hb, by linarith⟩
  · rw [lit_zero]
    show decide (q < 0) = false
    simp [q2]
  · rw [lit_one]
    show decide (1 < q) = false
    simp; linarith
  · have : fp.sub (fp.lit 1 0) (fp.lit 1 4) = F64.fin (4503149267407759 / 4503599627370496) := by
      show F64.add (rnd (((1 : Nat) : ℚ) / ((10 ^ 0 : Nat) : ℚ))) (rnd (((1 : Nat) : ℚ) / ((10 ^ 4 : Nat) : ℚ))).neg = _
      decide +kernel
    rw [this]
    show decide (s < _) = false
    simp; linarith
  · have : fp.add (fp.lit 1 0) (fp.lit 1 4) = F64.fin (4504049987333233 / 4503599627370496) := by
      show F64.add (rnd (((1 : Nat) : ℚ) / ((10 ^ 0 : Nat) : ℚ))) (rnd (((1 : Nat) : ℚ) / ((10 ^ 4 : Nat) : ℚ))) = _
      decide +kernel
    rw [this]
    show decide (_ < s) = false
    simp; linarith
  · rw [ofNat_exact (lt_pow_of_lt32 htot), mul_fin, x1]
    exact a1
  · rw [hc, mul_fin, d1, ofNat_exact (lt_pow_of_lt32 htot), mul_fin, y1]
    exact b1

theorem uniformOK [Concrete.Log2Impl] : fp.UniformOK where
  uniform k tot hk hk' htot := by
    have hkq : (k : ℚ) < 4294967296 := by exact_mod_cast hk'
    have hk2 : (2 : ℚ) ≤ k := by exact_mod_cast hk
    have hkp : (0 : ℚ) < k := by linarith
    have htq : (tot : ℚ) < 4294967296 := by exact_mod_cast htot
    have ht0 : (0 : ℚ) ≤ tot := Nat.cast_nonneg tot
    have hinv : 1 / (k : ℚ) ≤ 1 / 2 := one_div_le_one_div_of_le (by norm_num) hk2
    have hkk : (k : ℚ) * (1 / k) = 1 := mul_one_div_cancel (ne_of_gt hkp)
    have ikt : 1 / (k : ℚ) * tot ≤ 1 / 2 * tot := mul_le_mul_of_nonneg_right hinv ht0
    obtain ⟨f, a, b, hu, hab, -, -, hb, -⟩ := uniform_bounds hk hk' htot
    have fits : ∀ m, 2 * m ≤ k + 1 → (m ⊓ k) * b ≤ NULL32 := by
      intro m hm
      have hm' : (((m ⊓ k : Nat)) : ℚ) ≤ (k + 1) / 2 := by
        have : ((2 * (m ⊓ k) : Nat) : ℚ) ≤ ((k + 1 : Nat) : ℚ) := by
          exact_mod_cast (show 2 * (m ⊓ k) ≤ k + 1 by omega)
        push_cast at this
        rw [le_div_iff₀ (by norm_num)]
        push_cast
        linarith
      have hm0 : (0 : ℚ) ≤ ((m ⊓ k : Nat) : ℚ) := Nat.cast_nonneg _
      have h1 : (((m ⊓ k) * b : Nat) : ℚ) ≤ ((k : ℚ) + 1) / 2 * (103 / 100 * (1 / k * tot) + 1 / 131072) := by
        push_cast
        push_cast at hm'
        exact mul_le_mul hm' hb (Nat.cast_nonneg b) (by linarith)
      have h2 : ((k : ℚ) + 1) / 2 * (103 / 100 * (1 / k * tot) + 1 / 131072) =
          103 / 200 * ((k * (1 / k)) * tot) + 103 / 200 * (1 / k * tot) + ((k : ℚ) + 1) / 262144 := by ring
      rw [h2, hkk] at h1
      have h3 : (((m ⊓ k) * b : Nat) : ℚ) < ((4294967295 : Nat) : ℚ) := by
        refine lt_of_le_of_lt h1 ?_
        push_cast
        linarith
      exact le_of_lt (by exact_mod_cast h3)
    refine ⟨_, hu, ?_, ?_, ?_⟩
    · intro i hi
      simp only [List.length_replicate] at hi ⊢
      rw [nth_replicate hi, nth_replicate hi]
      exact hab
    all_goals
      simp only [List.length_replicate, List.take_replicate, List.drop_replicate, List.sum_replicate, smul_eq_mul]
    · exact fits (k / 2) (by omega)
    · have := fits (k - k / 2) (by omega)
      rwa [min_eq_left (by omega)] at this

end Concrete
end Poros
