import Verif.Proofs.F64Uniform
import Verif.Proofs.F64Const
import Mathlib.Tactic.LinearCombination
/-
Rounding up to an integer that is closer than a relative `2^-54`, and the even shares that are exact.
-/
namespace Poros
namespace Concrete

/-- The integer part of a non-negative number. -/
theorem floor_between {q : ℚ} (h : 0 ≤ q) :
    ((q.num.natAbs / q.den : Nat) : ℚ) ≤ q ∧ q < ((q.num.natAbs / q.den : Nat) : ℚ) + 1 := by
  have hd : (0 : ℚ) < q.den := by exact_mod_cast q.den_pos
  have hq : q = (q.num.natAbs : ℚ) / (q.den : ℚ) := by
    have hnn : ((q.num.natAbs : ℤ) : ℚ) = q.num := by
      have := Rat.num_nonneg.mpr h
      rw [Int.natAbs_of_nonneg (by omega)]
    have hcast : (q.num.natAbs : ℚ) = (q.num : ℚ) := by rw [← hnn]; simp
    rw [hcast]; exact (Rat.num_div_den q).symm
  have h1 := Nat.div_mul_le_self q.num.natAbs q.den
  have h2 := Nat.lt_div_mul_add (a := q.num.natAbs) q.den_pos
  constructor
  · conv_rhs => rw [hq]
    rw [le_div_iff₀ hd]; exact_mod_cast h1
  · conv_lhs => rw [hq]
    rw [div_lt_iff₀ hd]
    have : q.num.natAbs < (q.num.natAbs / q.den + 1) * q.den := by
      rw [Nat.add_mul]; omega
    exact_mod_cast this

/-- A half below an even number rounds up. -/
theorem le_rne_tie {m : Nat} (hm : 0 < m) {y : ℚ} (h : ((2 * m : Nat) : ℚ) - 1 / 2 ≤ y) : 2 * m ≤ rne y := by
  have hm' : (1 : ℚ) ≤ m := by exact_mod_cast hm
  have h0 : (0 : ℚ) ≤ ((2 * m : Nat) : ℚ) - 1 / 2 := by push_cast; linarith
  refine le_trans (le_of_eq ?_) (rne_mono h0 h)
  obtain ⟨f1, f2⟩ := floor_between h0
  unfold rne
  simp only
  generalize (((2 * m : Nat) : ℚ) - 1 / 2).num.natAbs / (((2 * m : Nat) : ℚ) - 1 / 2).den = f at *
  have hf : f + 1 = 2 * m := by
    have g1 : (f : ℚ) < ((2 * m : Nat) : ℚ) := by linarith
    have g2 : ((2 * m : Nat) : ℚ) < f + 2 := by linarith
    have g1' : f < 2 * m := by exact_mod_cast g1
    have g2' : 2 * m < f + 2 := by exact_mod_cast g2
    omega
  have hd : ((2 * m : Nat) : ℚ) - 1 / 2 - (f : ℚ) = 1 / 2 := by
    rw [← hf]; push_cast; ring
  rw [hd, if_neg (by norm_num), if_neg (by norm_num), if_neg (by omega)]
  exact hf.symm

/-- A number less than a relative `2^-54` below an integer rounds to the integer. -/
theorem rnd_up {x : ℚ} {q : Nat} (hq0 : 0 < q) (hq : q < 4294967296) (h1 : (q : ℚ) * (1 - 1 / 18014398509481984) ≤ x)
    (h2 : x ≤ q) : rnd x = .fin q := by
  have hqq : (1 : ℚ) ≤ q := by exact_mod_cast hq0
  have hqq' : (q : ℚ) < 4294967296 := by exact_mod_cast hq
  have hx : 0 < x := by linarith
  obtain ⟨r, hr, -, hr2, -⟩ : ∃ r, rnd x = .fin r ∧ 0 ≤ r ∧ r ≤ q ∧ True := by
    obtain ⟨r, a, b⟩ := rnd_le_nat hx.le h2 (by omega)
    exact ⟨r, a, b.1, b.2, trivial⟩
  rw [hr]
  have he1 := ilog2_le hx
  have he2 := lt_ilog2 hx
  generalize he : ilog2 x = e at he1 he2
  have hlo : -1 ≤ e := by
    by_contra hc
    have : pow2 (e + 1) ≤ pow2 (-1) := pow2_le.mpr (by omega)
    rw [show pow2 (-1) = 1 / 2 by decide +kernel] at this
    linarith
  have hhi : e < 32 := by
    refine pow2_lt.mp (lt_of_le_of_lt he1 ?_)
    rw [show pow2 32 = 4294967296 by decide +kernel]
    linarith
  have hle : (q : ℚ) ≤ pow2 (e + 1) := by
    obtain ⟨n, hn⟩ := Int.eq_ofNat_of_zero_le (show 0 ≤ e + 1 by omega)
    rw [hn] at he2 ⊢
    rw [pow2_nat] at he2 ⊢
    by_contra hc
    have h3 : ((2 ^ n : Nat) : ℚ) + 1 ≤ q := by exact_mod_cast (show 2 ^ n + 1 ≤ q by
      have := not_le.mp hc
      exact_mod_cast this)
    linarith
  have hu : ulpExp x = e - 52 := by unfold ulpExp; rw [he]; omega
  rw [rnd_pos hx] at hr
  split at hr
  · cases hr
  · cases hr
    congr 1
    refine le_antisymm hr2 ?_
    unfold rp
    rw [hu]
    obtain ⟨n, hn⟩ := Int.eq_ofNat_of_zero_le (show 0 ≤ 52 - e by omega)
    have hinv : pow2 (e - 52) * ((2 ^ n : Nat) : ℚ) = 1 := by
      rw [← pow2_nat, ← pow2_add, ← pow2_zero]
      congr 1
      omega
    have hp := pow2_pos (e - 52)
    have hy : ((q * 2 ^ n : Nat) : ℚ) - 1 / 2 ≤ x / pow2 (e - 52) := by
      rw [le_div_iff₀ hp]
      have e1 : (((q * 2 ^ n : Nat) : ℚ) - 1 / 2) * pow2 (e - 52) = q - pow2 (e - 52) / 2 := by
        push_cast
        push_cast at hinv
        linear_combination (q : ℚ) * hinv
      have e2 : pow2 (e - 52) = pow2 (e + 1) * (1 / 9007199254740992) := by
        rw [show (1 : ℚ) / 9007199254740992 = pow2 (-53) by decide +kernel, ← pow2_add]
        congr 1
        omega
      rw [e1, e2]
      linarith
    have hge : q * 2 ^ n ≤ rne (x / pow2 (e - 52)) := by
      obtain ⟨l, rfl⟩ : ∃ l, n = l + 1 := ⟨n - 1, by omega⟩
      have e3 : q * 2 ^ (l + 1) = 2 * (q * 2 ^ l) := by ring
      rw [e3] at hy ⊢
      exact le_rne_tie (Nat.mul_pos hq0 (Nat.two_pow_pos l)) hy
    have hge' : ((q * 2 ^ n : Nat) : ℚ) ≤ rne (x / pow2 (e - 52)) := by exact_mod_cast hge
    have := mul_le_mul_of_nonneg_right hge' hp.le
    refine le_trans (le_of_eq ?_) this
    push_cast
    push_cast at hinv
    linear_combination -(q : ℚ) * hinv

/-- Rounding has a small relative error. -/
theorem rnd_rel {q : ℚ} (h0 : 1 / 4294967296 ≤ q) (h1 : q < 8589934592) :
    ∃ r, rnd q = .fin r ∧ 0 < r ∧ r ≤ q * (1 + 1 / 9007199254740992) ∧ q * (1 - 1 / 9007199254740992) ≤ r := by
  have hq : 0 < q := lt_of_lt_of_le (by norm_num) h0
  have l1 : -33 < ilog2 q := by
    have := lt_of_le_of_lt h0 (lt_ilog2 hq)
    have e : (1 : ℚ) / 4294967296 = pow2 (-32) := by decide +kernel
    rw [e, pow2_lt] at this
    omega
  have l2 : ilog2 q < 33 := by
    have := lt_of_le_of_lt (ilog2_le hq) h1
    have e : (8589934592 : ℚ) = pow2 33 := by decide +kernel
    rw [e, pow2_lt] at this
    exact this
  obtain ⟨r, r1, r2, r3, r4⟩ := rnd_err (q := q) (j := ilog2 q - 52) hq.le
    (by rw [show 53 + (ilog2 q - 52) = ilog2 q + 1 by ring]; exact lt_ilog2 hq) (by omega) (by omega)
  have e : pow2 (ilog2 q - 52) / 2 = pow2 (ilog2 q) / 9007199254740992 := by
    rw [sub_eq_add_neg, pow2_add, show pow2 (-52) = 1 / 4503599627370496 by decide +kernel]
    ring
  rw [e] at r3 r4
  have := ilog2_le hq
  exact ⟨r, r1, by linarith, by linarith, by linarith⟩

/-- In doubles, `1.0 / k * k` is 1 again. -/
def RoundTrip [Concrete.Log2Impl] (k : Nat) : Prop :=
  fp.mul (fp.div (fp.lit 1 0) (fp.ofNat k)) (fp.ofNat k) = fp.lit 1 0

theorem recip [Concrete.Log2Impl] {k : Nat} (hk : 1 ≤ k) (hk' : k < 4294967296) : ∃ f, rnd (1 / (k : ℚ)) = .fin f ∧
    (k : ℚ) * f ≤ 1 + 1 / 9007199254740992 ∧ 1 - 1 / 9007199254740992 ≤ (k : ℚ) * f ∧
    ∀ q, k * q < 4294967296 →
      fp.mul (fp.div (fp.lit 1 0) (fp.ofNat k)) (fp.ofNat (k * q)) = rnd (q * (k * f)) := by
  have hk0 : (0 : ℚ) < k := by exact_mod_cast hk
  have hk1 : (1 : ℚ) ≤ k := by exact_mod_cast hk
  have hk2 : (k : ℚ) < 4294967296 := by exact_mod_cast hk'
  obtain ⟨f, h1, h2, h3, h4⟩ := rnd_rel (q := 1 / (k : ℚ)) (one_div_le_one_div_of_le hk0 hk2.le)
    (lt_of_le_of_lt (by rw [div_le_one hk0]; exact hk1) (by norm_num : (1 : ℚ) < 8589934592))
  have e : (k : ℚ) * (1 / k) = 1 := by field_simp
  refine ⟨f, h1, ?_, ?_, fun q hq => ?_⟩
  · have := mul_le_mul_of_nonneg_left h3 hk0.le
    rwa [← mul_assoc, e, one_mul] at this
  · have := mul_le_mul_of_nonneg_left h4 hk0.le
    rwa [← mul_assoc, e, one_mul] at this
  · rw [lit_one, ofNat_exact (n := k) (by omega), ofNat_exact (n := k * q) (by omega), div_fin _ hk0.ne', h1, mul_fin]
    congr 1
    push_cast
    ring

/-- If `1.0 / k * k` is 1 again, the rounded reciprocal is close enough for multiples, too. -/
theorem RoundTrip.close [Concrete.Log2Impl] {k : Nat} (hk : 1 ≤ k) (hk' : k < 4294967296) (h : RoundTrip k) :
    ∃ f, rnd (1 / (k : ℚ)) = .fin f ∧
    (1 - 1 / 18014398509481984 : ℚ) ≤ k * f ∧ (k : ℚ) * f ≤ 1 + 1 / 9007199254740992 := by
  obtain ⟨f, h1, h2, h3, h4⟩ := recip hk hk'
  refine ⟨f, h1, ?_, h2⟩
  have e := h4 1 (by omega)
  rw [mul_one] at e
  unfold RoundTrip at h
  rw [h, lit_one, Nat.cast_one, one_mul] at e
  by_contra hc
  have p0 : pow2 (53 + -53) = 1 := by decide +kernel
  have p1 : pow2 (-53) / 2 = 1 / 18014398509481984 := by decide +kernel
  obtain ⟨r, hr, -, h5, h6⟩ := rnd_err (q := (k : ℚ) * f) (j := -53) (by linarith) (by rw [p0]; linarith) (by decide) (by decide)
  rw [← e] at hr
  cases hr
  rw [p1] at h5 h6
  linarith

theorem RoundTrip.of_le [Concrete.Log2Impl] {k : Nat} (hk : 1 ≤ k) (hk' : k ≤ 48) : RoundTrip k := by
  have h : ∀ k : Fin 49, 1 ≤ k.val → (match rnd (1 / (k.val : ℚ)) with
    | .fin f => decide (rnd (k.val * f) = .fin 1)
    | _ => false) = true := by decide +kernel
  obtain ⟨f, h1, -, -, h4⟩ := recip hk (by omega)
  have e := h4 1 (by omega)
  have := h ⟨k, by omega⟩ hk
  simp only at this
  rw [h1] at this
  simp only [decide_eq_true_eq] at this
  rw [mul_one, Nat.cast_one, one_mul, this] at e
  unfold RoundTrip
  rw [e, lit_one]

theorem RoundTrip.two_pow [Concrete.Log2Impl] {d : Nat} (hd : d < 32) : RoundTrip (2 ^ d) := by
  have hlt : 2 ^ d < 2 ^ 32 := Nat.pow_lt_pow_right (by decide) hd
  have h2 : (2 : Nat) ^ 32 = 4294967296 := by norm_num
  have hp := Nat.two_pow_pos d
  obtain ⟨f, h1, -, -, h4⟩ := recip (k := 2 ^ d) hp (by omega)
  have e := h4 1 (by omega)
  have h3 : rnd (1 / ((2 ^ d : Nat) : ℚ)) = .fin (pow2 (-d)) := by
    have := rnd_exact (j := -(d : Int)) (m := 1) (by norm_num) (by omega) (by omega)
    rw [Nat.cast_one, one_mul] at this
    rw [← this]
    congr 1
    rw [← pow2_nat, eq_comm, eq_div_iff (pow2_pos _).ne', ← pow2_add, ← pow2_zero]
    congr 1
    omega
  rw [h3] at h1
  cases h1
  unfold RoundTrip
  rw [mul_one] at e
  rw [e, lit_one, Nat.cast_one, one_mul, ← pow2_nat, ← pow2_add, show ((d : Int) + -(d : Int)) = 0 by omega, pow2_zero]
  exact rnd_one

/-- Otherwise the share of one unit is truncated to 0. -/
theorem share_zero [Concrete.Log2Impl] {k : Nat} (hk : 1 ≤ k) (hk' : k < 4294967296) (h : ¬ RoundTrip k) :
    fp.toU32 (fp.mul (fp.div (fp.lit 1 0) (fp.ofNat k)) (fp.ofNat k)) = some 0 := by
  obtain ⟨f, h1, h2, h3, h4⟩ := recip hk hk'
  have e := h4 1 (by omega)
  unfold RoundTrip at h
  rw [mul_one, Nat.cast_one, one_mul] at e
  rw [e, lit_one] at h
  rw [e]
  have hone : rnd (1 + 1 / 9007199254740992) = .fin 1 := by decide +kernel
  obtain ⟨r, hr, hr0, hr2⟩ := rnd_le_nat (q := (k : ℚ) * f) (n := 2) (by linarith) (by push_cast; linarith) (by norm_num)
  have hr1 := rnd_mono (by linarith) h2 hr hone
  rw [hr] at h ⊢
  obtain ⟨n, hn, a, b⟩ := toU32_fin hr0 (by linarith)
  refine hn.trans ?_
  congr 1
  by_contra hn0
  have : (1 : ℚ) ≤ n := by exact_mod_cast (show 1 ≤ n by omega)
  exact h (by rw [le_antisymm hr1 (by linarith)])

/-- An even share is exact if the total is a multiple of the number of parts and `1.0 / k * k` is 1. -/
theorem RoundTrip.share [Concrete.Log2Impl] {k q : Nat} (hk : 1 ≤ k) (hk' : k < 4294967296) (h : RoundTrip k)
    (hq : k * q < 4294967296) :
    fp.toU32 (fp.mul (fp.div (fp.lit 1 0) (fp.ofNat k)) (fp.ofNat (k * q))) = some q := by
  obtain ⟨f, h1, h2, h3⟩ := h.close hk hk'
  have hk0 : (k : ℚ) ≠ 0 := by exact_mod_cast (show k ≠ 0 by omega)
  have hqk : q ≤ k * q := Nat.le_mul_of_pos_left _ hk
  have hqq : (q : ℚ) < 4294967296 := by exact_mod_cast (show q < 4294967296 by omega)
  have e : fp.mul (fp.div (fp.lit 1 0) (fp.ofNat k)) (fp.ofNat (k * q)) = rnd (q * (k * f)) := by
    rw [lit_one, ofNat_exact (n := k) (by omega), ofNat_exact (n := k * q) (by omega), div_fin _ hk0, h1, mul_fin]
    congr 1
    push_cast
    ring
  rw [e]
  by_cases hq0 : q = 0
  · subst hq0
    simp only [Nat.cast_zero, zero_mul]
    show F64.toU32 (rnd 0) = some 0
    decide +kernel
  have hq1 : (1 : ℚ) ≤ q := by exact_mod_cast (show 1 ≤ q by omega)
  have hup : (q : ℚ) * (k * f) ≤ q * (1 + 1 / 9007199254740992) := mul_le_mul_of_nonneg_left h3 (by linarith)
  have hlo : (q : ℚ) * (1 - 1 / 18014398509481984) ≤ q * (k * f) := mul_le_mul_of_nonneg_left h2 (by linarith)
  rcases le_total ((q : ℚ) * (k * f)) q with h | h
  · rw [rnd_up (by omega) (by omega) hlo h]
    obtain ⟨n, hn, a, b⟩ := toU32_fin (r := (q : ℚ)) (by linarith) hqq
    refine hn.trans ?_
    congr 1
    have a' : n ≤ q := by exact_mod_cast a
    have b' : q < n + 1 := by exact_mod_cast b
    omega
  · obtain ⟨r, hr, hr'⟩ := trunc_rnd (q := q * (k * f)) (k := q) (by omega) h (by linarith)
    rw [hr]
    exact hr'

/-- An even share among up to 48 parts is exact if the total is a multiple of the number of parts. -/
theorem share_exact [Concrete.Log2Impl] {k q : Nat} (hk : 1 ≤ k) (hk' : k ≤ 48) (hq : k * q < 4294967296) :
    fp.toU32 (fp.mul (fp.div (fp.lit 1 0) (fp.ofNat k)) (fp.ofNat (k * q))) = some q :=
  (RoundTrip.of_le hk hk').share hk (by omega) hq

end Concrete
end Poros
