import Verif.Proofs.UnitShares
import Verif.Props.P30_Multilevel
import Verif.Props.P31_Bisectors
/-
Targets of two parts with equal shares and equal limits: in binary64 the limits and the computed imbalance agree.
-/
namespace Poros
open Finset Res Concrete

/-- A two-part target whose shares are the same double, one half up to rounding, and whose limits are equal. -/
structure SameTwo [Concrete.Log2Impl] (t : Target Concrete.fp) (q : ℚ) (M : Nat) : Prop where
  two : t.Two
  frac : t.frac = [F64.fin q, F64.fin q]
  mx : t.mx = [M, M]
  lo : 1 / 2 - 1 / 1000000000000 ≤ q
  hi : q ≤ 1 / 2 + 1 / 1000000000000

theorem imbalanceAt_fin [Concrete.Log2Impl] {n a : Nat} (hn : 0 < n) (hn' : n < 4294967296) (ha : a ≤ n) {q : ℚ}
    (hq : 1 / 2 - 1 / 1000000000000 ≤ q) :
    ∃ z0 z1 : ℚ, imbalanceAt Concrete.fp n (F64.fin q) (F64.fin q) a (n - a) = F64.fin (max (max 0 z0) z1) ∧
      Concrete.fp.sub (Concrete.fp.div (Concrete.fp.div (Concrete.fp.ofNat a) (Concrete.fp.ofNat n)) (F64.fin q))
        (Concrete.fp.lit 1 0) = F64.fin z0 ∧
      Concrete.fp.sub (Concrete.fp.div (Concrete.fp.div (Concrete.fp.ofNat (n - a)) (Concrete.fp.ofNat n)) (F64.fin q))
        (Concrete.fp.lit 1 0) = F64.fin z1 ∧
      (z0 ≤ max 0 ((a : ℚ) / (n * q) - 1) + eps ∧ (a : ℚ) / (n * q) - 1 ≤ max 0 z0 + eps) ∧
      (z1 ≤ max 0 (((n - a : Nat) : ℚ) / (n * q) - 1) + eps ∧ ((n - a : Nat) : ℚ) / (n * q) - 1 ≤ max 0 z1 + eps) := by
  have hq' : 13 / 50 ≤ q := le_trans (by norm_num) hq
  obtain ⟨z0, p1, p2, p3⟩ := imbalance_err hn (by omega) ha hq'
  obtain ⟨z1, r1, r2, r3⟩ := imbalance_err hn (by omega) (Nat.sub_le n a) hq'
  refine ⟨z0, z1, ?_, p1, r1, ⟨p2, p3⟩, r2, r3⟩
  unfold imbalanceAt
  rw [show Concrete.fp.sub (Concrete.fp.div (Concrete.fp.div (Concrete.fp.ofNat a) (Concrete.fp.ofNat n)) (F64.fin q))
      (Concrete.fp.lit 1 0) = _ from p1,
    show Concrete.fp.sub (Concrete.fp.div (Concrete.fp.div (Concrete.fp.ofNat (n - a)) (Concrete.fp.ofNat n)) (F64.fin q))
      (Concrete.fp.lit 1 0) = _ from r1, lit_zero]
  exact (congrArg (fun x => fmaxF Concrete.fp x (F64.fin z1)) (fmaxF_fin 0 z0)).trans (fmaxF_fin _ _)

/-- The computed imbalance of a split compares as the weight of its heavier side does. -/
theorem imbalanceAt_order [Concrete.Log2Impl] {n : Nat} (hn : 0 < n) (hn' : n < 4294967296) {q : ℚ}
    (hq : 1 / 2 - 1 / 1000000000000 ≤ q) (hq' : q ≤ 1 / 2 + 1 / 1000000000000) {a b : Nat} (ha : a ≤ n) (hb : b ≤ n) :
    ∃ x y : ℚ, imbalanceAt Concrete.fp n (F64.fin q) (F64.fin q) a (n - a) = F64.fin x ∧
      imbalanceAt Concrete.fp n (F64.fin q) (F64.fin q) b (n - b) = F64.fin y ∧ 0 ≤ x ∧ 0 ≤ y ∧
      (max a (n - a) < max b (n - b) → x < y) ∧ (max a (n - a) = max b (n - b) → x = y) := by
  obtain ⟨z0, z1, e1, s0, s1, ⟨p2, p3⟩, q2, q3⟩ := imbalanceAt_fin hn hn' ha hq
  obtain ⟨y0, y1, e2, t0, t1, ⟨r2, r3⟩, u2, u3⟩ := imbalanceAt_fin hn hn' hb hq
  refine ⟨_, _, e1, e2, le_trans (le_max_left _ _) (le_max_left _ _), le_trans (le_max_left _ _) (le_max_left _ _),
    fun hlt => ?_, fun heq => ?_⟩
  · have hnq : (0 : ℚ) < n := by exact_mod_cast hn
    have hnq' : (n : ℚ) < 4294967296 := by exact_mod_cast hn'
    have hq0 : 0 < q := lt_of_lt_of_le (by norm_num) hq
    have hnz : 0 < (n : ℚ) * q := mul_pos hnq hq0
    have mono : ∀ x y : Nat, x ≤ y → (x : ℚ) / (n * q) ≤ (y : ℚ) / (n * q) := fun x y h =>
      div_le_div_of_nonneg_right (by exact_mod_cast h) hnz.le
    have hgap : ((max a (n - a) : Nat) : ℚ) / (n * q) + 1 / 4294967295 ≤ ((max b (n - b) : Nat) : ℚ) / (n * q) := by
      have h1 : ((max a (n - a) : Nat) : ℚ) + 1 ≤ ((max b (n - b) : Nat) : ℚ) := by exact_mod_cast hlt
      have h2 : 1 / 4294967295 ≤ 1 / ((n : ℚ) * q) := by
        rw [div_le_div_iff₀ (by norm_num) hnz]
        have : (n : ℚ) * q ≤ n * 1 := mul_le_mul_of_nonneg_left (le_trans hq' (by norm_num)) hnq.le
        have h5 : (n : ℚ) ≤ 4294967295 := by exact_mod_cast (show n ≤ 4294967295 by omega)
        linarith
      have h3 : ((max a (n - a) : Nat) : ℚ) / (n * q) + 1 / (n * q) ≤ ((max b (n - b) : Nat) : ℚ) / (n * q) := by
        rw [← add_div]
        exact div_le_div_of_nonneg_right h1 hnz.le
      linarith
    have hlow : 1 - 1 / 100000000000 ≤ ((max a (n - a) : Nat) : ℚ) / (n * q) := by
      have h1 : (n : ℚ) ≤ 2 * ((max a (n - a) : Nat) : ℚ) := by
        exact_mod_cast (show n ≤ 2 * max a (n - a) by omega)
      rw [le_div_iff₀ hnz]
      have h2 : (1 - 1 / 100000000000) * q ≤ 1 / 2 := by
        have : (1 - 1 / 100000000000 : ℚ) * q ≤ (1 - 1 / 100000000000) * (1 / 2 + 1 / 1000000000000) :=
          mul_le_mul_of_nonneg_left hq' (by norm_num)
        exact le_trans this (by norm_num)
      have h3 : (n : ℚ) * ((1 - 1 / 100000000000) * q) ≤ n * (1 / 2) := mul_le_mul_of_nonneg_left h2 hnq.le
      have h4 : (1 - 1 / 100000000000 : ℚ) * (n * q) = n * ((1 - 1 / 100000000000) * q) := by ring
      rw [h4]
      linarith
    have l0 := mono a _ (le_max_left a (n - a))
    have l1 := mono (n - a) _ (le_max_right a (n - a))
    have hub : ∀ w z : ℚ, z ≤ max 0 (w - 1) + eps → w ≤ ((max a (n - a) : Nat) : ℚ) / (n * q) →
        z ≤ ((max a (n - a) : Nat) : ℚ) / (n * q) - 1 + 1 / 100000000000 + eps := by
      intro w z hz hw
      have : max 0 (w - 1) ≤ ((max a (n - a) : Nat) : ℚ) / (n * q) - 1 + 1 / 100000000000 :=
        max_le (by linarith) (by linarith)
      linarith
    have e0 : (0 : ℚ) < eps := by unfold eps; norm_num
    have ha' : max (max 0 z0) z1 ≤ ((max a (n - a) : Nat) : ℚ) / (n * q) - 1 + 1 / 100000000000 + eps :=
      max_le (max_le (by linarith) (hub _ _ p2 l0)) (hub _ _ q2 l1)
    have hb' : ((max b (n - b) : Nat) : ℚ) / (n * q) - 1 ≤ max (max 0 y0) y1 + eps := by
      rcases max_choice b (n - b) with e | e <;> rw [e]
      · have := le_max_left (max 0 y0) y1; linarith
      · have : max 0 y1 ≤ max (max 0 y0) y1 := max_le (le_trans (le_max_left _ _) (le_max_left _ _)) (le_max_right _ _)
        linarith
    have e2 : 2 * eps + 1 / 100000000000 < 1 / 4294967295 := by unfold eps; norm_num
    linarith
  · have hcases : (a = b ∧ n - a = n - b) ∨ (a = n - b ∧ n - a = b) := by omega
    rcases hcases with ⟨h0, h1⟩ | ⟨h0, h1⟩
    · rw [h0, t0] at s0
      rw [h1, t1] at s1
      rw [F64.fin.inj s0, F64.fin.inj s1]
    · rw [h0, t1] at s0
      rw [h1, t0] at s1
      rw [← F64.fin.inj s0, ← F64.fin.inj s1, max_right_comm]

theorem SameTwo.limits [Concrete.Log2Impl] {t : Target Concrete.fp} {q : ℚ} {M : Nat} (h : SameTwo t q M) :
    nth t.mx 0 = M ∧ nth t.mx 1 = M := by
  rw [h.mx]; exact ⟨rfl, rfl⟩

/-- The limits are a threshold of the imbalance. -/
theorem SameTwo.consistent [Concrete.Log2Impl] {t : Target Concrete.fp} {q : ℚ} {M : Nat} (h : SameTwo t q M) {n : Nat}
    (hn : n < 4294967296) : Consistent t n := by
  refine ⟨?_, F64_lt_le, F64_le_trans⟩
  rw [h.limits.1, h.limits.2]
  rcases Nat.eq_zero_or_pos n with h0 | h0
  · subst h0
    refine ⟨F64.fin 0, _, _, h.frac, fun a ha => ⟨fun _ => ?_, fun _ => by omega⟩⟩
    have ea : a = 0 := by omega
    subst ea
    have e0 : Concrete.fp.ofNat 0 = F64.fin 0 := by
      rw [ofNat_exact (by norm_num)]; rfl
    unfold imbalanceAt
    rw [Nat.sub_zero, e0, lit_zero, lit_one]
    show F64.le (fmaxF Concrete.fp (fmaxF Concrete.fp (F64.fin 0) F64.nan) F64.nan) (F64.fin 0) = true
    rfl
  · by_cases hM : n ≤ 2 * M
    · obtain ⟨x, -, hx, -, -⟩ := imbalanceAt_order h0 hn h.lo h.hi (Nat.min_le_right M n) (Nat.min_le_right M n)
      refine ⟨F64.fin x, _, _, h.frac, fun a ha => ?_⟩
      obtain ⟨y, z, hy, hz, -, -, o1, o2⟩ := imbalanceAt_order h0 hn h.lo h.hi ha (Nat.min_le_right M n)
      obtain ⟨z', y', hz', hy', -, -, o3, -⟩ := imbalanceAt_order h0 hn h.lo h.hi (Nat.min_le_right M n) ha
      rw [hz] at hx
      rw [hz] at hz'
      rw [hy] at hy'
      cases F64.fin.inj hx
      cases F64.fin.inj hz'
      cases F64.fin.inj hy'
      rw [hy]
      constructor
      · intro hh
        refine le_fin.mpr ?_
        rcases lt_or_eq_of_le (show max a (n - a) ≤ max (min M n) (n - min M n) by omega) with c | c
        · exact (o1 c).le
        · exact (o2 c).le
      · intro hh
        have hle := le_fin.mp hh
        by_contra hc
        exact absurd (o3 (by omega)) (not_lt.mpr hle)
    · refine ⟨F64.fin (-1), _, _, h.frac, fun a ha => ⟨fun hh => by omega, fun hh => ?_⟩⟩
      obtain ⟨y, -, hy, -, h1, -⟩ := imbalanceAt_order h0 hn h.lo h.hi ha ha
      rw [hy] at hh
      have := le_fin.mp hh
      linarith

/-- Splits within the limits have a smaller imbalance than the others. -/
theorem SameTwo.separates [Concrete.Log2Impl] {t : Target Concrete.fp} {q : ℚ} {M : Nat} (h : SameTwo t q M) {g : Graph}
    (htot : g.totVtx = g.sumVtx) (hn : g.totVtx < 4294967296) : Separates t g := by
  refine Separates.of_total htot h.frac fun a ha b hb h1 h2 => ?_
  rw [h.limits.1, h.limits.2] at h1 h2
  rcases Nat.eq_zero_or_pos g.totVtx with h0 | h0
  · omega
  · obtain ⟨x, y, hx, hy, -, -, o, -⟩ := imbalanceAt_order h0 hn h.lo h.hi ha hb
    rw [hx, hy]
    exact decide_eq_true (o (by omega))

/-- The uniform target of two parts. -/
theorem SameTwo.uniform [Concrete.Log2Impl] {n : Nat} (hn : n < 4294967296) {tol : Concrete.fp.F} {t : Target Concrete.fp}
    (h : Target.uniform (fp := Concrete.fp) 2 n tol = ok t) : ∃ M, SameTwo t (1 / 2) M := by
  obtain ⟨M, he⟩ := evenTwo hn h
  exact ⟨M, he.two, he.frac, he.mx, by norm_num, by norm_num⟩

/-- The target by which an even number of parts of equal target weight and equal limit are split. -/
theorem SameTwo.evenHalves [Concrete.Log2Impl] {n a b : Nat} (hn : 0 < n) (ha : 0 < a) (ha' : (n + n) * a < 4294967296)
    {bt : Target Concrete.fp} (h : IsHalvesTarget (List.replicate (n + n) a) (List.replicate (n + n) b) bt) :
    ∃ q M, SameTwo bt q M := by
  obtain ⟨q0, q1, hf, ⟨h1, h2⟩, -⟩ := halves_frac (n := n) (m := n) (a := a) (b := b) (by omega) hn ha ha' h
  have hlen : (List.replicate (n + n) a).length / 2 = n := by rw [List.length_replicate]; omega
  have etw : nth bt.tw 0 = nth bt.tw 1 := by
    rw [h.left, h.right, hlen, List.take_replicate, List.drop_replicate, Nat.min_eq_left (by omega), Nat.add_sub_cancel]
  have emx : nth bt.mx 0 = nth bt.mx 1 := by
    have e0 := h.maxLeft
    have e1 := h.maxRight
    have e : ((List.replicate (n + n) a).zip (List.replicate (n + n) b)).take ((List.replicate (n + n) a).length / 2) =
        ((List.replicate (n + n) a).zip (List.replicate (n + n) b)).drop ((List.replicate (n + n) a).length / 2) := by
      rw [hlen, List.zip_replicate', List.take_replicate, List.drop_replicate, Nat.min_eq_left (by omega),
        Nat.add_sub_cancel]
    rw [e, e1] at e0
    exact (Option.some.inj e0).symm
  obtain ⟨x, y, ex⟩ := List.length_eq_two.mp h.two.tw
  obtain ⟨u, v, eu⟩ := List.length_eq_two.mp h.two.mx
  rw [ex] at etw
  rw [eu] at emx
  have exy : x = y := etw
  have euv : u = v := emx
  subst exy
  subst euv
  have hq : q0 = q1 := by
    have := h.frac
    rw [hf, ex] at this
    unfold shares at this
    simp only [List.map_cons, List.map_nil] at this
    obtain ⟨i1, i2⟩ := List.cons.inj this
    exact F64.fin.inj (i1.trans (List.cons.inj i2).1.symm)
  subst hq
  have hnq : (0 : ℚ) < n := by exact_mod_cast hn
  push_cast at h1 h2
  have k1 : q0 * 2 ≤ 1 + 1 / 2251799813685248 := by
    refine le_of_mul_le_mul_left ?_ hnq
    linarith
  have k2 : 1 - 1 / 2251799813685248 ≤ q0 * 2 := by
    refine le_of_mul_le_mul_left ?_ hnq
    linarith
  refine ⟨q0, u, h.two, hf, eu, ?_, ?_⟩
  · norm_num at k2; linarith
  · norm_num at k1; linarith

/-- The target by which two parts of equal target weight and equal limit are split. -/
theorem SameTwo.halves [Concrete.Log2Impl] {a b : Nat} (ha : 0 < a) (ha' : 2 * a < 4294967296) {bt : Target Concrete.fp}
    (h : IsHalvesTarget [a, a] [b, b] bt) : ∃ q M, SameTwo bt q M :=
  SameTwo.evenHalves (n := 1) (by omega) ha ha' h

end Poros
