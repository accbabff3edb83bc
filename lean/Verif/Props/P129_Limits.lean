import Verif.Props.P122_LocalCall
import Verif.Props.P127_Reciprocal
import Verif.Proofs.F64Ieee
/-
C129: the weights a call aims at and the weights it allows, in whole numbers.
-/
namespace Poros
open Finset Res Concrete

variable {pq : PQImpl} {set : SetImpl} {rng : RngImpl}

/-- `n` is the quotient of `a` and `b` without the fraction, or one less, and the latter only if there is no fraction. -/
def QuotientOrOneLess (a b n : Nat) : Prop := n = a / b ∨ (b ∣ a ∧ n + 1 = a / b)

namespace Concrete

/-- Cutting off the fraction of a number close to a quotient. -/
theorem quotient_near {a b n : Nat} (hb : 0 < b) {x ε : ℚ} (h0 : (n : ℚ) ≤ x) (h1 : x < n + 1) (he : ε < 1)
    (hlo : (a : ℚ) - ε ≤ b * x) (hhi : b * x ≤ a + ε) : QuotientOrOneLess a b n := by
  have hbq : (0 : ℚ) < b := by exact_mod_cast hb
  have e := Nat.div_add_mod a b
  have hm := Nat.mod_lt a hb
  have u1 : (b : ℚ) * n < a + 1 := by
    have := mul_le_mul_of_nonneg_left h0 hbq.le
    linarith
  have u2 : (a : ℚ) - 1 < b * (n + 1) := by
    have := mul_lt_mul_of_pos_left h1 hbq
    linarith
  have v1 : b * n < a + 1 := by exact_mod_cast u1
  have v2 : a < b * (n + 1) + 1 := by
    have : (a : ℚ) < b * (n + 1) + 1 := by linarith
    exact_mod_cast this
  have w1 : n ≤ a / b := by
    rw [Nat.le_div_iff_mul_le hb, Nat.mul_comm]; omega
  rcases Nat.lt_or_ge a (b * (n + 1)) with hc | hc
  · left
    have : a / b < n + 1 := by rw [Nat.div_lt_iff_lt_mul hb, Nat.mul_comm]; exact hc
    omega
  · right
    have ha : a = b * (n + 1) := by omega
    exact ⟨⟨n + 1, ha⟩, by rw [ha, Nat.mul_div_cancel_left _ hb]⟩

theorem percent [Concrete.Log2Impl] : fp.add (fp.lit 1 0) (fp.lit 3 2) = F64.fin (4638707616191611 / 4503599627370496) := by
  show F64.add (rnd (((1 : Nat) : ℚ) / ((10 ^ 0 : Nat) : ℚ))) (rnd (((3 : Nat) : ℚ) / ((10 ^ 2 : Nat) : ℚ))) = _
  decide +kernel

/-- The share `1.0 / k` and the share plus three per cent, as doubles. -/
theorem share_limit [Concrete.Log2Impl] {k : Nat} (hk : 1 ≤ k) (hk' : k < 4294967296) :
    ∃ f p : ℚ, rnd (1 / (k : ℚ)) = .fin f ∧ rnd (f * (4638707616191611 / 4503599627370496)) = .fin p ∧
      1 / 4294967296 ≤ f ∧ 1 / 4294967296 ≤ p ∧ f ≤ 2 ∧ p ≤ 2 ∧
      (k : ℚ) * f ≤ 1 + 1 / 9007199254740992 ∧ 1 - 1 / 9007199254740992 ≤ (k : ℚ) * f ∧
      (k : ℚ) * p ≤ 103 / 100 * (1 + 1 / 2251799813685248) ∧ 103 / 100 * (1 - 1 / 2251799813685248) ≤ (k : ℚ) * p := by
  have hk0 : (0 : ℚ) < k := by exact_mod_cast hk
  have hk1 : (1 : ℚ) ≤ k := by exact_mod_cast hk
  have hk2 : (k : ℚ) ≤ 4294967295 := by exact_mod_cast (show k ≤ 4294967295 by omega)
  have i1 : 1 / (4294967295 : ℚ) ≤ 1 / k := one_div_le_one_div_of_le hk0 hk2
  have i2 : 1 / (k : ℚ) ≤ 1 := by rw [div_le_one hk0]; exact hk1
  have hkk : (k : ℚ) * (1 / k) = 1 := mul_one_div_cancel (ne_of_gt hk0)
  obtain ⟨f, f1, f2, f3, f4⟩ := rnd_rel (q := 1 / (k : ℚ)) (le_trans (by norm_num) i1) (by linarith)
  have f5 : 1 / 4294967296 ≤ f := by
    refine le_trans ?_ f4
    have := mul_le_mul_of_nonneg_right i1 (show (0 : ℚ) ≤ 1 - 1 / 9007199254740992 by norm_num)
    refine le_trans ?_ this
    norm_num
  have f6 : f ≤ 1 + 1 / 9007199254740992 := by
    refine le_trans f3 ?_
    have := mul_le_mul_of_nonneg_right i2 (show (0 : ℚ) ≤ 1 + 1 / 9007199254740992 by norm_num)
    linarith
  obtain ⟨p, p1, p2, p3, p4⟩ := rnd_rel (q := f * (4638707616191611 / 4503599627370496)) (by linarith) (by linarith)
  have k3 : (k : ℚ) * f ≤ 1 + 1 / 9007199254740992 := by
    have := mul_le_mul_of_nonneg_left f3 hk0.le
    rw [← mul_assoc, hkk, one_mul] at this
    exact this
  have k4 : 1 - 1 / 9007199254740992 ≤ (k : ℚ) * f := by
    have := mul_le_mul_of_nonneg_left f4 hk0.le
    rw [← mul_assoc, hkk, one_mul] at this
    exact this
  refine ⟨f, p, f1, p1, f5, by linarith, by linarith, by linarith, k3, k4, ?_, ?_⟩
  · have := mul_le_mul_of_nonneg_left p3 hk0.le
    rw [← mul_assoc, ← mul_assoc] at this
    linarith
  · have := mul_le_mul_of_nonneg_left p4 hk0.le
    rw [← mul_assoc, ← mul_assoc] at this
    linarith

/-- A share of `W`, cut off. -/
theorem share_of {a c k W : Nat} (hc : 0 < c) (hk : 1 ≤ k) (hW : W < 4294967296) (ha : a ≤ 103) {p : ℚ} (hp : 1 / 4294967296 ≤ p)
    (hp2 : p ≤ 2)
    (hup : (c : ℚ) * (k * p) ≤ a * (1 + 1 / 2251799813685248)) (hlo : a * (1 - 1 / 2251799813685248) ≤ (c : ℚ) * (k * p))
    {n : Nat} (hn : F64.toU32 (rnd (p * W)) = some n) : QuotientOrOneLess (a * W) (c * k) n := by
  rcases Nat.eq_zero_or_pos W with rfl | hW0
  · left
    have : rnd (p * ((0 : Nat) : ℚ)) = .fin 0 := by simp [rnd]
    rw [this, show F64.toU32 (.fin 0) = some 0 by decide +kernel] at hn
    simpa using (Option.some.inj hn).symm
  have w0 : (1 : ℚ) ≤ W := by exact_mod_cast hW0
  have w1 : (W : ℚ) ≤ 4294967295 := by exact_mod_cast (show W ≤ 4294967295 by omega)
  have hp0 : 0 < p := lt_of_lt_of_le (by norm_num) hp
  have q1 : p ≤ p * W := le_mul_of_one_le_right hp0.le w0
  have q2 : p * W ≤ 2 * 4294967295 := mul_le_mul hp2 w1 (by linarith) (by norm_num)
  obtain ⟨x, x1, x2, x3, x4⟩ := rnd_rel (q := p * W) (by linarith) (by linarith)
  rw [x1] at hn
  have hx : x < 4294967296 := by
    by_contra h
    rw [not_lt] at h
    have := (fp_rounds x 0 0 0 0).2.2.2.2.2.2.2.2.2 (Or.inr h)
    rw [show fp.toU32 (F64.fin x) = F64.toU32 (.fin x) from rfl, hn] at this
    cases this
  obtain ⟨m, m1, m2, m3⟩ := toU32_fin x2.le hx
  rw [m1] at hn
  cases hn
  have hck : (0 : ℚ) < (c * k : Nat) := by exact_mod_cast Nat.mul_pos hc hk
  have haW : (a : ℚ) * W ≤ 103 * 4294967295 :=
    mul_le_mul (by exact_mod_cast ha) w1 (by linarith) (by norm_num)
  have haW0 : (0 : ℚ) ≤ a * W := mul_nonneg (Nat.cast_nonneg a) (by linarith)
  have hup' := mul_le_mul_of_nonneg_right hup (show (0 : ℚ) ≤ W by linarith)
  have hlo' := mul_le_mul_of_nonneg_right hlo (show (0 : ℚ) ≤ W by linarith)
  have b1 := mul_le_mul_of_nonneg_left x3 hck.le
  have b2 := mul_le_mul_of_nonneg_left x4 hck.le
  refine quotient_near (ε := 1 / 2) (Nat.mul_pos hc hk) m2 m3 (by norm_num) ?_ ?_
  · push_cast at b2 ⊢
    have e : (c : ℚ) * k * (p * W * (1 - 1 / 9007199254740992)) = c * (k * p) * W * (1 - 1 / 9007199254740992) := by ring
    rw [e] at b2
    have := mul_le_mul_of_nonneg_right hlo' (show (0 : ℚ) ≤ 1 - 1 / 9007199254740992 by norm_num)
    have e2 : (a : ℚ) * (1 - 1 / 2251799813685248) * W = a * W * (1 - 1 / 2251799813685248) := by ring
    rw [e2] at this
    linarith
  · push_cast at b1 ⊢
    have e : (c : ℚ) * k * (p * W * (1 + 1 / 9007199254740992)) = c * (k * p) * W * (1 + 1 / 9007199254740992) := by ring
    rw [e] at b1
    have := mul_le_mul_of_nonneg_right hup' (show (0 : ℚ) ≤ 1 + 1 / 9007199254740992 by norm_num)
    have e2 : (a : ℚ) * (1 + 1 / 2251799813685248) * W = a * W * (1 + 1 / 2251799813685248) := by ring
    rw [e2] at this
    linarith

end Concrete

/-- **C129.** The target weight of a part is the total weight over the number of parts, and its limit 103 hundredths of that,
both without the fraction; each may come out one too small, but only where there is no fraction. -/
theorem C129_limits [Concrete.Log2Impl] {k W : Nat} (hk : 1 ≤ k) (hk' : k < 2 ^ 32) (hW : W < 2 ^ 32) {tw mx : List Nat}
    (h : EvenShares Concrete.fp k W tw mx) : ∀ q, q < k →
    QuotientOrOneLess W k (nth tw q) ∧ QuotientOrOneLess (103 * W) (100 * k) (nth mx q) := by
  intro q hq
  have e32 : (2 : Nat) ^ 32 = 4294967296 := by norm_num
  rw [e32] at hk' hW
  have hk0 : (k : ℚ) ≠ 0 := by exact_mod_cast (show k ≠ 0 by omega)
  obtain ⟨f, p, f1, p1, f2, p2, f3, p3, k1, k2, k3, k4⟩ := share_limit hk hk'
  have ht := h.target q hq
  have hl := h.limit q hq
  have ef : fp.div (fp.lit 1 0) (fp.ofNat k) = F64.fin f := by
    rw [ofNat_exact (lt_pow_of_lt32 hk'), lit_one, div_fin _ hk0, f1]
  have ep : fp.mul (fp.div (fp.lit 1 0) (fp.ofNat k)) (fp.add (fp.lit 1 0) (fp.lit 3 2)) = F64.fin p := by
    rw [ef, percent]; exact p1
  rw [ef, ofNat_exact (lt_pow_of_lt32 hW)] at ht
  rw [ep, ofNat_exact (lt_pow_of_lt32 hW)] at hl
  constructor
  · have := share_of (a := 1) (c := 1) (by norm_num) hk hW (by norm_num) f2 f3 (by push_cast; linarith) (by push_cast; linarith) ht
    simpa using this
  · exact share_of (a := 103) (c := 100) (by norm_num) hk hW (by norm_num) p2 p3 (by push_cast; linarith)
      (by push_cast; linarith) hl

/-- **C129, powers of two.** For a power of two neither is one too small. -/
theorem C129_power_of_two [Concrete.Log2Impl] {d W : Nat} (hd : d < 32) (hW : W < 2 ^ 32) {tw mx : List Nat}
    (h : EvenShares Concrete.fp (2 ^ d) W tw mx) : ∀ q, q < 2 ^ d →
    nth tw q = W / 2 ^ d ∧ nth mx q = 103 * W / (100 * 2 ^ d) := by
  intro q hq
  have e32 : (2 : Nat) ^ 32 = 4294967296 := by norm_num
  have hk' : 2 ^ d < 2 ^ 32 := Nat.pow_lt_pow_right (by decide) hd
  have hk := Nat.one_le_two_pow (n := d)
  obtain ⟨h1, h2⟩ := C129_limits hk hk' hW h q hq
  rw [e32] at hk' hW
  constructor
  · rcases h1 with h1 | ⟨⟨m, hm⟩, -⟩
    · exact h1
    · have := h.target q hq
      rw [hm, (RoundTrip.two_pow hd).share hk hk' (by omega)] at this
      rw [hm, Nat.mul_div_cancel_left _ hk]
      exact (Option.some.inj this).symm
  · rcases h2 with h2 | ⟨⟨m, hm⟩, h2⟩
    · exact h2
    · exfalso
      rw [hm, Nat.mul_div_cancel_left _ (by omega)] at h2
      have hk0 : (0 : ℚ) < ((2 ^ d : Nat) : ℚ) := by exact_mod_cast hk
      have hl := h.limit q hq
      have ef : rnd (1 / ((2 ^ d : Nat) : ℚ)) = .fin (pow2 (-d)) := by
        have := rnd_exact (j := -(d : Int)) (m := 1) (by norm_num) (by omega) (by omega)
        have e : pow2 (-(d : Int)) = 1 / ((2 ^ d : Nat) : ℚ) := by
          rw [pow2_eq, zpow_neg]
          simp
        rw [← e]
        simpa using this
      have ep : rnd (pow2 (-d) * (4638707616191611 / 4503599627370496)) =
          .fin (4638707616191611 * pow2 (-(d : Int) - 52)) := by
        have := rnd_exact (j := -(d : Int) - 52) (m := 4638707616191611) (by norm_num) (by omega) (by omega)
        push_cast at this
        rw [← this]
        congr 1
        rw [sub_eq_add_neg, pow2_add, show pow2 (-52) = 1 / 4503599627370496 by decide +kernel]
        ring
      have e1 : fp.mul (fp.div (fp.lit 1 0) (fp.ofNat (2 ^ d))) (fp.add (fp.lit 1 0) (fp.lit 3 2)) =
          F64.fin (4638707616191611 * pow2 (-(d : Int) - 52)) := by
        have e0 : fp.div (fp.lit 1 0) (fp.ofNat (2 ^ d)) = F64.fin (pow2 (-d)) := by
          rw [ofNat_exact (lt_pow_of_lt32 hk'), lit_one, div_fin _ (ne_of_gt hk0), ef]
        rw [e0, percent]
        exact ep
      rw [e1, ofNat_exact (lt_pow_of_lt32 hW)] at hl
      -- the product is at least the whole number
      have hpk : pow2 (-(d : Int) - 52) * ((2 ^ d : Nat) : ℚ) = 1 / 4503599627370496 := by
        rw [← pow2_nat, ← pow2_add, show -(d : Int) - 52 + d = -52 by omega]
        decide +kernel
      have hge : ((m : Nat) : ℚ) ≤ 4638707616191611 * pow2 (-(d : Int) - 52) * W := by
        have hm' : (103 : ℚ) * W = 100 * ((2 ^ d : Nat) : ℚ) * m := by exact_mod_cast hm
        have : (m : ℚ) * ((2 ^ d : Nat) : ℚ) ≤ 4638707616191611 * pow2 (-(d : Int) - 52) * W * ((2 ^ d : Nat) : ℚ) := by
          have e : 4638707616191611 * pow2 (-(d : Int) - 52) * W * ((2 ^ d : Nat) : ℚ) =
              4638707616191611 * W * (pow2 (-(d : Int) - 52) * ((2 ^ d : Nat) : ℚ)) := by ring
          rw [e, hpk]
          have w0 : (0 : ℚ) ≤ W := Nat.cast_nonneg W
          linarith
        exact le_of_mul_le_mul_right this hk0
      have hmW : m < 2 ^ 53 := by
        have : m ≤ 100 * 2 ^ d * m := Nat.le_mul_of_pos_left _ (by omega)
        have e53 : (2 : Nat) ^ 53 = 9007199254740992 := by norm_num
        omega
      have hrm : rnd (m : ℚ) = .fin m := ofNat_exact hmW
      change F64.toU32 (rnd _) = _ at hl
      cases hx : rnd (4638707616191611 * pow2 (-(d : Int) - 52) * W) with
      | fin x =>
        rw [hx] at hl
        have hmx := rnd_mono (Nat.cast_nonneg m) hge hrm hx
        have e2 : F64.toU32 (.fin (m : ℚ)) = some m := by
          obtain ⟨n, n1, n2, n3⟩ := toU32_fin (r := (m : ℚ)) (Nat.cast_nonneg m) (by
            by_contra hc
            rw [not_lt] at hc
            have := (fp_rounds x 0 0 0 0).2.2.2.2.2.2.2.2.2 (Or.inr (le_trans hc hmx))
            rw [show fp.toU32 (F64.fin x) = F64.toU32 (.fin x) from rfl, hl] at this
            cases this)
          have n4 : n ≤ m := by exact_mod_cast n2
          have n5 : m < n + 1 := by exact_mod_cast n3
          rw [n1, show n = m by omega]
        have := toU32_mono (Nat.cast_nonneg m) hmx e2 hl
        omega
      | inf b => rw [hx] at hl; cases hl
      | nan => rw [hx] at hl; cases hl

/-- **C129, two parts.** The limit is half of the total plus three per cent of it, without the fraction; the two sides have
room for the whole graph if and only if the total weight is even or at least 34. -/
theorem C129_two_parts [Concrete.Log2Impl] {W : Nat} (hW : W < 2 ^ 32) {tw mx : List Nat}
    (h : EvenShares Concrete.fp 2 W tw mx) :
    (∀ q, q < 2 → nth tw q = W / 2 ∧ nth mx q = 103 * W / 200) ∧
    (W ≤ nth mx 0 + nth mx 1 ↔ W % 2 = 0 ∨ 34 ≤ W) := by
  have key := C129_power_of_two (d := 1) (by norm_num) hW h
  simp only [pow_one] at key
  refine ⟨key, ?_⟩
  rw [(key 0 (by norm_num)).2, (key 1 (by norm_num)).2]
  omega

/-- **C129, seven parts.** The limit of a seventh of 700 is 102, not 103: one less than three per cent allow. The target is the
hundred. -/
theorem C129_one_less [Concrete.Log2Impl] {tw mx : List Nat} (h : EvenShares Concrete.fp 7 700 tw mx) : ∀ q, q < 7 →
    nth tw q = 100 ∧ nth mx q = 102 ∧ 103 * 700 / (100 * 7) = 103 := by
  intro q hq
  have h1 := h.target q hq
  have h2 := h.limit q hq
  have e1 : fp.toU32 (fp.mul (fp.div (fp.lit 1 0) (fp.ofNat 7)) (fp.ofNat 700)) = some 100 := by
    show F64.toU32 (F64.mul (F64.div (rnd (((1 : Nat) : ℚ) / ((10 ^ 0 : Nat) : ℚ))) (rnd ((7 : Nat) : ℚ))) (rnd ((700 : Nat) : ℚ))) = _
    decide +kernel
  have e2 : fp.toU32 (fp.mul (fp.mul (fp.div (fp.lit 1 0) (fp.ofNat 7)) (fp.add (fp.lit 1 0) (fp.lit 3 2))) (fp.ofNat 700)) =
      some 102 := by
    rw [percent]
    show F64.toU32 (F64.mul (F64.mul (F64.div (rnd (((1 : Nat) : ℚ) / ((10 ^ 0 : Nat) : ℚ))) (rnd ((7 : Nat) : ℚ)))
      (.fin (4638707616191611 / 4503599627370496))) (rnd ((700 : Nat) : ℚ))) = _
    decide +kernel
  rw [e1] at h1
  rw [e2] at h2
  exact ⟨(Option.some.inj h1).symm, (Option.some.inj h2).symm, by norm_num⟩

theorem totalWeight_lt {i : Input} (hv : i.Valid) : i.totalWeight < 2 ^ 32 := by
  have := hv.vtxFits
  simpa [Input.totalWeight] using this

/-- **C129, calls.** A call computes, before it partitions, the targets and limits of these theorems. -/
theorem C129_call [Concrete.Log2Impl] {i : Input} (hv : i.Valid) (hk : 2 ≤ i.numPartitions) (hk' : i.numPartitions < 2 ^ 32)
    {o : Options Concrete.fp} (hc : 0 < o.numGlobalCuts) {out out' : Out}
    (h : partGraphRecursive (dblEnv pq set rng) i (some o) out = (out', ok 1)) :
    ∃ g s tw mx labs j, CallRun (dblEnv pq set rng) i o out out' g s tw mx labs j ∧ ∀ q, q < i.numPartitions →
      QuotientOrOneLess i.totalWeight i.numPartitions (nth tw q) ∧
      QuotientOrOneLess (103 * i.totalWeight) (100 * i.numPartitions) (nth mx q) := by
  obtain ⟨g, s, tw, mx, labs, j, hcall⟩ := C75_call (pq := pq) (set := set) (rng := rng) hv hk hk' hc h
  exact ⟨g, s, tw, mx, labs, j, hcall, C129_limits (by omega) hk' (totalWeight_lt hv) hcall.shares⟩

/-- **C129, the answer for two parts of a larger graph.** In the run that is written, if one of the bisections grown for the
coarsest graph puts at most 51.5 per cent of the weight on each side, then so do the parts that are written. -/
theorem C129_written [Concrete.Log2Impl] {i : Input} (hv : i.Valid) (hk : i.numPartitions = 2)
    (hn : 20 < i.numVertices) (he : 0 < i.numEdges)
    {o : Options Concrete.fp} (hc : 0 < o.numGlobalCuts) {out out' : Out}
    (h : partGraphRecursive (dblEnv pq set rng) i (some o) out = (out', ok 1)) :
    ∃ (g : Graph) (s : Scheme) (bt : Target Concrete.fp) (r : rng.S) (lab : Nat → Nat) (r' : rng.S)
      (cg : Graph) (cs : List (Nat → Nat)), i.Describes g ∧ (∀ v, v < i.numVertices → nth out'.asg v = lab v) ∧
      MLGrownFrom (dblEnv pq set rng) s bt g r lab r' cg cs ∧
      ∀ c ∈ cs, (∀ q, q < 2 → 200 * partWeight cg c q ≤ 103 * i.totalWeight) →
        ∀ q, q < 2 → 200 * i.partWeight (nth out'.asg) q ≤ 103 * i.totalWeight := by
  obtain ⟨g, s, tw, mx, bt, r, lab, r', cg, cs, h1, h2, -, h4, h5, h6⟩ := C122_written hv hk hn he hc h
  have hm := (C129_two_parts (totalWeight_lt hv) h2).1
  refine ⟨g, s, bt, r, lab, r', cg, cs, h1, h4, h5, fun c hcs hb q hq => ?_⟩
  have := (h6 c hcs fun q hq => by rw [(hm q hq).2]; have := hb q hq; omega).1 q hq
  rw [(hm q hq).2] at this
  omega

/-- The hypotheses are met by the call for two parts of a path of 22 vertices; its parts weigh 22, the limit. -/
example : Ex.path22In.Valid ∧ Ex.path22In.numPartitions = 2 ∧ 20 < Ex.path22In.numVertices ∧ 0 < Ex.path22In.numEdges ∧
    0 < (Ex.cuts 1).numGlobalCuts ∧
    partGraphRecursive Concrete.env Ex.path22In (some (Ex.cuts 1)) { cut := 0, asg := List.replicate 22 0 } =
      ({ cut := 1, asg := List.replicate 11 0 ++ List.replicate 11 1 }, ok 1) ∧
    Ex.path22In.totalWeight = 44 ∧ 103 * 44 / 200 = 22 := by
  refine ⟨Ex.path22In_valid, rfl, by decide, by decide, by decide, by decide +kernel, by decide +kernel, rfl⟩

/-- Shares as in the hypotheses, of 700 in seven parts and in four parts. -/
example : EvenShares Concrete.fp 7 700 (List.replicate 7 100) (List.replicate 7 102) ∧
    EvenShares Concrete.fp 4 700 (List.replicate 4 175) (List.replicate 4 180) := by
  refine ⟨⟨by decide, ?_, ?_⟩, ⟨by decide, ?_, ?_⟩⟩ <;> decide +kernel

end Poros
