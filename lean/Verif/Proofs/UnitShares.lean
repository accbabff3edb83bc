import Verif.Proofs.UnitHalves
import Verif.Proofs.UnitSmall
/-
Recursive bisection of unit-weight graphs into equal parts with the component bisectors.
-/
namespace Poros
open Finset Res Concrete

variable {pq : PQImpl} {set : SetImpl} {rng : RngImpl}

/-- The fractions of the bisection for `n + m` equal parts, `n` of them on the left side. -/
theorem halves_frac [Concrete.Log2Impl] {n m a b : Nat} (hn : n = (n + m) / 2) (hn0 : 0 < n) (ha : 0 < a)
    (hk : (n + m) * a < 4294967296) {bt : Target Concrete.fp}
    (h : IsHalvesTarget (List.replicate (n + m) a) (List.replicate (n + m) b) bt) :
    ∃ q0 q1 : ℚ, bt.frac = [F64.fin q0, F64.fin q1] ∧
      (q0 * (n + m : Nat) ≤ n * (1 + 1 / 2251799813685248) ∧ n * (1 - 1 / 2251799813685248) ≤ q0 * (n + m : Nat)) ∧
      (q1 * (n + m : Nat) ≤ m * (1 + 1 / 2251799813685248) ∧ m * (1 - 1 / 2251799813685248) ≤ q1 * (n + m : Nat)) := by
  have hsum : n * a + m * a = (n + m) * a := (Nat.add_mul _ _ _).symm
  have hlen : (List.replicate (n + m) a).length / 2 = n := by rw [List.length_replicate]; exact hn.symm
  have hl := h.left
  have hr := h.right
  rw [hlen, List.take_replicate, min_eq_left (by omega), List.sum_replicate, smul_eq_mul] at hl
  rw [hlen, List.drop_replicate, Nat.add_sub_cancel_left, List.sum_replicate, smul_eq_mul] at hr
  have hl : nth bt.tw 0 = n * a := by rw [hl]; exact Nat.mod_eq_of_lt (show n * a < 4294967296 by omega)
  have hr : nth bt.tw 1 = m * a := by rw [hr]; exact Nat.mod_eq_of_lt (show m * a < 4294967296 by omega)
  have etw : bt.tw = [n * a, m * a] := by
    obtain ⟨x, y, e⟩ := List.length_eq_two.mp h.two.tw
    rw [e] at hl hr ⊢
    rw [show x = n * a from hl, show y = m * a from hr]
  have hspos : 0 < (n + m) * a := Nat.mul_pos (by omega) ha
  have hsq : (0 : ℚ) < (((n + m) * a : Nat) : ℚ) := by exact_mod_cast hspos
  have hsq' : (((n + m) * a : Nat) : ℚ) < 4294967296 := by exact_mod_cast hk
  have haq : (0 : ℚ) < a := by exact_mod_cast ha
  have hNq : (0 : ℚ) < ((n + m : Nat) : ℚ) := by exact_mod_cast (show 0 < n + m by omega)
  have hs1 : (1 : ℚ) ≤ (((n + m) * a : Nat) : ℚ) := by exact_mod_cast hspos
  obtain ⟨i, i1, i2, i3, i4⟩ := rnd_rel (q := 1 / (((n + m) * a : Nat) : ℚ))
    (div_le_div_of_nonneg_left (by norm_num) hsq hsq'.le)
    (lt_of_le_of_lt ((div_le_one hsq).mpr hs1) (by norm_num))
  -- one share
  have one : ∀ x : Nat, n ≤ x → x ≤ n + m → ∃ q : ℚ,
      Concrete.fp.mul (Concrete.fp.ofNat (x * a)) (Concrete.fp.div (Concrete.fp.lit 1 0)
        (Concrete.fp.ofNat ((n + m) * a))) = F64.fin q ∧
      (q * (n + m : Nat) ≤ x * (1 + 1 / 2251799813685248) ∧ x * (1 - 1 / 2251799813685248) ≤ q * (n + m : Nat)) := by
    intro x hx1 hx2
    have hxa : x * a ≤ (n + m) * a := Nat.mul_le_mul_right _ hx2
    have hxq : (1 : ℚ) / 3 ≤ x / ((n + m : Nat) : ℚ) := by
      rw [div_le_div_iff₀ (by norm_num) hNq]
      exact_mod_cast (show 1 * (n + m) ≤ x * 3 by omega)
    have hxq' : (x : ℚ) / ((n + m : Nat) : ℚ) ≤ 1 := by
      rw [div_le_one hNq]; exact_mod_cast hx2
    have ex : ((x * a : Nat) : ℚ) * (1 / (((n + m) * a : Nat) : ℚ)) = x / ((n + m : Nat) : ℚ) := by
      push_cast; field_simp
    have hxa0 : (0 : ℚ) ≤ ((x * a : Nat) : ℚ) := Nat.cast_nonneg _
    have u1 : ((x * a : Nat) : ℚ) * i ≤ x / ((n + m : Nat) : ℚ) * (1 + 1 / 9007199254740992) := by
      rw [← ex, mul_assoc]; exact mul_le_mul_of_nonneg_left i3 hxa0
    have u2 : x / ((n + m : Nat) : ℚ) * (1 - 1 / 9007199254740992) ≤ ((x * a : Nat) : ℚ) * i := by
      rw [← ex, mul_assoc]; exact mul_le_mul_of_nonneg_left i4 hxa0
    obtain ⟨q, q1, q2, q3, q4⟩ := rnd_rel (q := ((x * a : Nat) : ℚ) * i) (by linarith) (by linarith)
    refine ⟨q, ?_, ?_, ?_⟩
    · rw [lit_one, ofNat_exact (by omega), ofNat_exact (by omega), div_fin _ hsq.ne', i1, mul_fin, q1]
    · have e : (x : ℚ) = x / ((n + m : Nat) : ℚ) * ((n + m : Nat) : ℚ) := by field_simp
      rw [e, mul_right_comm]
      refine mul_le_mul_of_nonneg_right ?_ hNq.le
      linarith
    · have e : (x : ℚ) = x / ((n + m : Nat) : ℚ) * ((n + m : Nat) : ℚ) := by field_simp
      rw [e, mul_right_comm]
      refine mul_le_mul_of_nonneg_right ?_ hNq.le
      linarith
  obtain ⟨q0, f1, f2⟩ := one n (le_refl _) (by omega)
  obtain ⟨q1, g1, g2⟩ := one m (by omega) (by omega)
  refine ⟨q0, q1, ?_, f2, g2⟩
  rw [h.frac, etw]
  unfold shares
  have es : [n * a, m * a].sum % 2 ^ 32 = (n + m) * a := by
    rw [show [n * a, m * a].sum = (n + m) * a by simp [hsum]]
    exact Nat.mod_eq_of_lt hk
  rw [es]
  exact congrArg₂ (fun x y => [x, y]) f1 g1

/-- The imbalance computed for a bisection whose left side stands for `n` of `n + m` equal parts. -/
theorem share_imbalance [Concrete.Log2Impl] {n m a b : Nat} (hn : n = (n + m) / 2) (hn0 : 0 < n) (ha : 0 < a)
    (hk : (n + m) * a < 4294967296) {bt : Target Concrete.fp}
    (h : IsHalvesTarget (List.replicate (n + m) a) (List.replicate (n + m) b) bt) {g : Graph}
    (htot : g.totVtx = (n + m) * a) (hsum : g.sumVtx = (n + m) * a) (lab : Nat → Nat) :
    ∃ z, maxImbalance g bt lab = F64.fin z ∧
      z ≤ max 0 (max ((partWeight g lab 0 : ℚ) / (n * a : Nat) - 1) ((partWeight g lab 1 : ℚ) / (m * a : Nat) - 1)) +
        1 / 1000000000000 ∧
      (partWeight g lab 0 : ℚ) / (n * a : Nat) - 1 ≤ z + 1 / 1000000000000 ∧
      (partWeight g lab 1 : ℚ) / (m * a : Nat) - 1 ≤ z + 1 / 1000000000000 := by
  obtain ⟨q0, q1, hf, ⟨a1, a2⟩, ⟨b1, b2⟩⟩ := halves_frac hn hn0 ha hk h
  have haq : (0 : ℚ) < a := by exact_mod_cast ha
  have hNq : (0 : ℚ) < ((n + m : Nat) : ℚ) := by exact_mod_cast (show 0 < n + m by omega)
  have hW : 0 < (n + m) * a := Nat.mul_pos (by omega) ha
  have big : ∀ x : Nat, n ≤ x → ∀ q : ℚ, x * (1 - 1 / 2251799813685248) ≤ q * (n + m : Nat) → 13 / 50 ≤ q := by
    intro x hx q hq
    have h3 : ((n + m : Nat) : ℚ) ≤ 3 * x := by exact_mod_cast (show n + m ≤ 3 * x by omega)
    by_contra hc
    have := mul_lt_mul_of_pos_right (not_le.mp hc) hNq
    linarith
  obtain ⟨z, z1, z2, z3, z4⟩ := maxImbalance_err hf (big n (le_refl _) _ a2) (big m (by omega) _ b2) hW hk htot hsum lab
  -- the ratios
  have ratio : ∀ x : Nat, n ≤ x → ∀ q : ℚ, q * (n + m : Nat) ≤ x * (1 + 1 / 2251799813685248) →
      x * (1 - 1 / 2251799813685248) ≤ q * (n + m : Nat) → ∀ w : Nat, w ≤ (n + m) * a →
      rel ((n + m) * a) w q ≤ (w : ℚ) / (x * a : Nat) + 1 / 100000000000000 ∧
      (w : ℚ) / (x * a : Nat) ≤ rel ((n + m) * a) w q + 1 / 100000000000000 := by
    intro x hx q h1 h2 w hw
    have hxq : (0 : ℚ) < x := by exact_mod_cast (show 0 < x by omega)
    have hxa : (0 : ℚ) < ((x * a : Nat) : ℚ) := by push_cast; exact mul_pos hxq haq
    have hw0 : (0 : ℚ) ≤ w := Nat.cast_nonneg w
    have hr : (w : ℚ) / (x * a : Nat) ≤ 3 := by
      rw [div_le_iff₀ hxa]
      exact_mod_cast (show w ≤ 3 * (x * a) from le_trans hw (by
        rw [← mul_assoc]; exact Nat.mul_le_mul_right _ (by omega)))
    have hr0 : 0 ≤ (w : ℚ) / (x * a : Nat) := div_nonneg hw0 hxa.le
    have hd : (((n + m) * a : Nat) : ℚ) * q = q * ((n + m : Nat) : ℚ) * a := by push_cast; ring
    have d1 : (((n + m) * a : Nat) : ℚ) * q ≤ ((x * a : Nat) : ℚ) * (1 + 1 / 2251799813685248) := by
      rw [hd]; push_cast
      calc _ ≤ (x : ℚ) * (1 + 1 / 2251799813685248) * a := mul_le_mul_of_nonneg_right (by exact_mod_cast h1) haq.le
        _ = _ := by ring
    have d2 : ((x * a : Nat) : ℚ) * (1 - 1 / 2251799813685248) ≤ (((n + m) * a : Nat) : ℚ) * q := by
      rw [hd]; push_cast
      calc _ = (x : ℚ) * (1 - 1 / 2251799813685248) * a := by ring
        _ ≤ _ := mul_le_mul_of_nonneg_right (by exact_mod_cast h2) haq.le
    have d0 : 0 < (((n + m) * a : Nat) : ℚ) * q := lt_of_lt_of_le (mul_pos hxa (by norm_num)) d2
    unfold rel
    have ew : (w : ℚ) = (w : ℚ) / (x * a : Nat) * ((x * a : Nat) : ℚ) := by field_simp
    constructor
    · rw [div_le_iff₀ d0]
      have k1 : ((w : ℚ) / (x * a : Nat) + 1 / 100000000000000) * (((x * a : Nat) : ℚ) * (1 - 1 / 2251799813685248)) ≤
          ((w : ℚ) / (x * a : Nat) + 1 / 100000000000000) * ((((n + m) * a : Nat) : ℚ) * q) :=
        mul_le_mul_of_nonneg_left d2 (by linarith)
      refine le_trans ?_ k1
      have k2 : (w : ℚ) / (x * a : Nat) ≤
          ((w : ℚ) / (x * a : Nat) + 1 / 100000000000000) * (1 - 1 / 2251799813685248) := by linarith
      calc (w : ℚ) = (w : ℚ) / (x * a : Nat) * ((x * a : Nat) : ℚ) := ew
        _ ≤ ((w : ℚ) / (x * a : Nat) + 1 / 100000000000000) * (1 - 1 / 2251799813685248) * ((x * a : Nat) : ℚ) :=
          mul_le_mul_of_nonneg_right k2 hxa.le
        _ = _ := by ring
    · rw [← sub_le_iff_le_add, le_div_iff₀ d0]
      by_cases hneg : (w : ℚ) / (x * a : Nat) - 1 / 100000000000000 ≤ 0
      · have := mul_nonpos_of_nonpos_of_nonneg hneg d0.le
        linarith
      · have k1 := mul_le_mul_of_nonneg_left d1 (not_le.mp hneg).le
        refine le_trans k1 ?_
        have k2 : ((w : ℚ) / (x * a : Nat) - 1 / 100000000000000) * (1 + 1 / 2251799813685248) ≤
            (w : ℚ) / (x * a : Nat) := by linarith
        calc _ = ((w : ℚ) / (x * a : Nat) - 1 / 100000000000000) * (1 + 1 / 2251799813685248) * ((x * a : Nat) : ℚ) := by ring
          _ ≤ (w : ℚ) / (x * a : Nat) * ((x * a : Nat) : ℚ) := mul_le_mul_of_nonneg_right k2 hxa.le
          _ = _ := ew.symm
  have hx : ∀ q, partWeight g lab q ≤ (n + m) * a := fun q => hsum ▸ partWeight_le lab q
  obtain ⟨l1, l2⟩ := ratio n (le_refl _) q0 a1 a2 _ (hx 0)
  obtain ⟨r1, r2⟩ := ratio m (by omega) q1 b1 b2 _ (hx 1)
  have e : eps ≤ 1 / 100000000000000 := by unfold eps; norm_num
  refine ⟨z, z1, ?_, by linarith, by linarith⟩
  refine le_trans z2 ?_
  have : max 0 (max (rel ((n + m) * a) (partWeight g lab 0) q0 - 1) (rel ((n + m) * a) (partWeight g lab 1) q1 - 1)) ≤
      max 0 (max ((partWeight g lab 0 : ℚ) / (n * a : Nat) - 1) ((partWeight g lab 1 : ℚ) / (m * a : Nat) - 1)) +
        1 / 100000000000000 := by
    refine max_le ?_ (max_le ?_ ?_)
    · have := le_max_left 0 (max ((partWeight g lab 0 : ℚ) / (n * a : Nat) - 1) ((partWeight g lab 1 : ℚ) / (m * a : Nat) - 1))
      linarith
    · have := (le_max_left ((partWeight g lab 0 : ℚ) / (n * a : Nat) - 1) ((partWeight g lab 1 : ℚ) / (m * a : Nat) - 1)).trans
        (le_max_right 0 _)
      linarith
    · have := (le_max_right ((partWeight g lab 0 : ℚ) / (n * a : Nat) - 1) ((partWeight g lab 1 : ℚ) / (m * a : Nat) - 1)).trans
        (le_max_right 0 _)
      linarith
  linarith

/-- A bisection for `n + m` equal parts of weight `a` of a graph with that weight, as the library sees it. -/
structure ShareCase [Concrete.Log2Impl] (n m a : Nat) (g : Graph) (bt : Target Concrete.fp) : Prop where
  half : n = (n + m) / 2
  pos : 0 < n
  apos : 0 < a
  small : (n + m) * a < 4294967296
  tot : g.totVtx = (n + m) * a
  sum : g.sumVtx = (n + m) * a
  nv : g.nv = (n + m) * a
  unit : ∀ v, v < g.nv → g.vw v = 1
  target : ∃ b, IsHalvesTarget (List.replicate (n + m) a) (List.replicate (n + m) b) bt
  tw0 : nth bt.tw 0 = n * a
  mx0 : n * a ≤ nth bt.mx 0
  mx1 : m * a ≤ nth bt.mx 1

theorem ShareCase.add [Concrete.Log2Impl] {n m a : Nat} {g : Graph} {bt : Target Concrete.fp} (c : ShareCase n m a g bt)
    {lab : Nat → Nat} (h : ∀ v, v < g.nv → lab v < 2) : partWeight g lab 0 + partWeight g lab 1 = n * a + m * a := by
  rw [partWeight_two h, c.sum, Nat.add_mul]

/-- How the computed imbalance compares when the left side approaches its share from below, or leaves it. -/
theorem ShareCase.order [Concrete.Log2Impl] {n m a : Nat} {g : Graph} {bt : Target Concrete.fp} (c : ShareCase n m a g bt)
    {lab lab' : Nat → Nat} (h : ∀ v, v < g.nv → lab v < 2) (h' : ∀ v, v < g.nv → lab' v < 2)
    (hc : (partWeight g lab' 0 < partWeight g lab 0 ∧ partWeight g lab 0 ≤ n * a) ∨
      (partWeight g lab 0 = n * a ∧ partWeight g lab' 0 ≠ n * a)) :
    Concrete.fp.lt (maxImbalance g bt lab) (maxImbalance g bt lab') = true ∧
    Concrete.fp.le (maxImbalance g bt lab') (maxImbalance g bt lab) = false ∧
    Concrete.fp.lt (maxImbalance g bt lab') (maxImbalance g bt lab) = false := by
  have s1 := c.add h
  have s2 := c.add h'
  obtain ⟨b, ht⟩ := c.target
  obtain ⟨z, z1, z2, -, -⟩ := share_imbalance c.half c.pos c.apos c.small ht c.tot c.sum lab
  obtain ⟨y, y1, -, y3, y4⟩ := share_imbalance c.half c.pos c.apos c.small ht c.tot c.sum lab'
  have hsm := c.small
  rw [Nat.add_mul] at hsm
  have hp := Nat.mul_pos c.pos c.apos
  have hpm : 0 < m * a := Nat.mul_pos (by have := c.half; have := c.pos; omega) c.apos
  have hna : (0 : ℚ) < ((n * a : Nat) : ℚ) := by exact_mod_cast hp
  have hma : (0 : ℚ) < ((m * a : Nat) : ℚ) := by exact_mod_cast hpm
  have hna' : ((n * a : Nat) : ℚ) < 4294967296 := by exact_mod_cast (show n * a < 4294967296 by omega)
  have hma' : ((m * a : Nat) : ℚ) < 4294967296 := by exact_mod_cast (show m * a < 4294967296 by omega)
  -- a vertex more is a visible step
  have gap : ∀ {x y N : Nat}, (0 : ℚ) < N → (N : ℚ) < 4294967296 → x < y →
      (x : ℚ) / N + 1 / 4294967296 ≤ (y : ℚ) / N := by
    intro x y N h1 h2 hxy
    have : (x : ℚ) + 1 ≤ y := by exact_mod_cast hxy
    have h3 : (1 : ℚ) / 4294967296 ≤ 1 / N := div_le_div_of_nonneg_left (by norm_num) h1 h2.le
    have h4 : ((x : ℚ) + 1) / N ≤ y / N := div_le_div_of_nonneg_right this h1.le
    rw [add_div] at h4
    linarith
  have hfin : z < y := by
    rcases hc with ⟨c1, c2⟩ | ⟨c1, c2⟩
    · have l0 : (partWeight g lab 0 : ℚ) / (n * a : Nat) - 1 ≤ 0 := by
        rw [sub_nonpos, div_le_one hna]; exact_mod_cast c2
      have l1 : 0 ≤ (partWeight g lab 1 : ℚ) / (m * a : Nat) - 1 := by
        rw [sub_nonneg, one_le_div hma]; exact_mod_cast (show m * a ≤ partWeight g lab 1 by omega)
      have := gap hma hma' (show partWeight g lab 1 < partWeight g lab' 1 by omega)
      rw [max_eq_right (le_trans l0 l1), max_eq_right l1] at z2
      linarith
    · have c3 : partWeight g lab 1 = m * a := by omega
      have l0 : (partWeight g lab 0 : ℚ) / (n * a : Nat) - 1 = 0 := by rw [c1, div_self hna.ne', sub_self]
      have l1 : (partWeight g lab 1 : ℚ) / (m * a : Nat) - 1 = 0 := by rw [c3, div_self hma.ne', sub_self]
      rw [l0, l1, max_self, max_self] at z2
      rcases Nat.lt_or_gt_of_ne c2 with hlt | hgt
      · have := gap hma hma' (show m * a < partWeight g lab' 1 by omega)
        rw [div_self hma.ne'] at this
        linarith
      · have := gap hna hna' hgt
        rw [div_self hna.ne'] at this
        linarith
  have e1 : maxImbalance g bt lab = (F64.fin z : F64) := z1
  have e2 : maxImbalance g bt lab' = (F64.fin y : F64) := y1
  rw [e1, e2]
  refine ⟨decide_eq_true hfin, ?_, decide_eq_false (not_lt.mpr hfin.le)⟩
  rw [Bool.eq_false_iff]
  intro hc
  exact absurd (le_fin.mp hc) (not_le.mpr hfin)

/-- Filling the left side reaches its share and stops there. -/
theorem filled_share [Concrete.Log2Impl] {n m a : Nat} {g : Graph} {bt : Target Concrete.fp} (c : ShareCase n m a g bt)
    {order : List Nat} {lab out : Nat → Nat} (h : Filled g bt order lab out) (h2 : ∀ v, v < g.nv → lab v < 2)
    (hnd : order.Nodup) (ho : ∀ v ∈ order, v < g.nv ∧ lab v = 1) (hle : partWeight g lab 0 ≤ n * a)
    (hge : n * a ≤ partWeight g lab 0 + order.length) :
    (∀ v, v < g.nv → out v < 2) ∧ partWeight g out 0 = n * a := by
  have hM := c.mx0
  induction h with
  | done => exact ⟨h2, by simp at hge; omega⟩
  | @full v vs lab hf =>
    rw [c.unit v (ho v (by simp)).1] at hf
    exact ⟨h2, by omega⟩
  | @worse v vs lab hf hw =>
    obtain ⟨hv, hl⟩ := ho v (by simp)
    refine ⟨h2, ?_⟩
    by_contra hne
    have hp := partWeight_put hv hl (c.unit v hv)
    have o := (c.order (put_lt h2 v (q := 0) (by decide)) h2 (Or.inl ⟨by omega, by omega⟩)).2.2
    rw [show Concrete.fp.lt (maxImbalance g bt lab) (maxImbalance g bt (put lab v 0)) = false from o] at hw
    cases hw
  | @take v vs lab out hf hw hrest ih =>
    obtain ⟨hv, hl⟩ := ho v (by simp)
    have hp := partWeight_put hv hl (c.unit v hv)
    refine ih (put_lt h2 v (by decide)) hnd.of_cons (fun u hu' => ?_) ?_ ?_
    · obtain ⟨a1, a2⟩ := ho u (by simp [hu'])
      have : u ≠ v := fun e => (List.nodup_cons.mp hnd).1 (e ▸ hu')
      exact ⟨a1, by unfold put; rw [if_neg this]; exact a2⟩
    · by_contra hne
      have o := (c.order h2 (put_lt h2 v (q := 0) (by decide)) (Or.inr ⟨by omega, by omega⟩)).1
      rw [show Concrete.fp.lt (maxImbalance g bt lab) (maxImbalance g bt (put lab v 0)) = true from o] at hw
      cases hw
    · simp only [List.length_cons] at hge
      omega

theorem filledTo_share [Concrete.Log2Impl] {n m a : Nat} {g : Graph} {bt : Target Concrete.fp} (c : ShareCase n m a g bt)
    {order : List Nat} (hperm : order.Perm (List.range g.nv)) {out : Nat → Nat} (h : FilledTo g bt order out) :
    (∀ v, v < g.nv → out v < 2) ∧ partWeight g out 0 = n * a := by
  obtain ⟨lab0, lab, h0, hf, hx⟩ := h
  have hz : partWeight g lab0 0 = 0 := by rw [partWeight_all (q := 1) h0 (by decide)]
  have hl : order.length = n * a + m * a := by rw [hperm.length_eq, List.length_range, c.nv, Nat.add_mul]
  obtain ⟨k1, k2⟩ := filled_share c hf (fun v hv => by rw [h0 v hv]; decide)
    (hperm.nodup_iff.mpr List.nodup_range)
    (fun v hv => by
      have := List.mem_range.mp (hperm.mem_iff.mp hv)
      exact ⟨this, h0 v this⟩) (by omega) (by omega)
  rcases hx with ⟨-, hx⟩ | ⟨-, rfl⟩
  · obtain ⟨x1, x2⟩ := exchanged_unit c.unit k1 hx
    exact ⟨x1, by omega⟩
  · exact ⟨k1, k2⟩

theorem grownTo_share [Concrete.Log2Impl] {n m a : Nat} {g : Graph} {bt : Target Concrete.fp} (c : ShareCase n m a g bt)
    {seed : Nat} {out : Nat → Nat} (h : GrownTo g bt seed out) : partWeight g out 0 = n * a := by
  have := c.tw0
  have := c.mx0
  have := c.mx1
  have e := c.nv
  rw [Nat.add_mul] at e
  rw [← c.tw0]
  exact h.unit c.unit (by omega) (by omega) (by omega)

/-- If the limits are the shares, refinement does not leave them. -/
theorem improvesStar_share [Concrete.Log2Impl] {n m a : Nat} {g : Graph} {bt : Target Concrete.fp} (c : ShareCase n m a g bt)
    (h0 : nth bt.mx 0 = n * a) (h1 : nth bt.mx 1 = m * a) {x y : Nat → Nat} (hx : ∀ v, v < g.nv → x v < 2)
    (hw : partWeight g x 0 = n * a) (h : ImprovesStar g bt x y) :
    (∀ v, v < g.nv → y v < 2) ∧ partWeight g y 0 = n * a := by
  induction h with
  | refl => exact ⟨hx, hw⟩
  | @step y z _ hi hz ih =>
    obtain ⟨i1, i2⟩ := ih
    refine ⟨hz, ?_⟩
    by_contra hne
    have o := c.order i1 hz (Or.inr ⟨i2, hne⟩)
    have hs := c.add hz
    have hnb : ¬ Balanced g bt z := by
      intro hb
      have b0 := hb 0 (by decide)
      have b1 := hb 1 (by decide)
      omega
    rcases hi with ⟨-, hlt⟩ | ⟨-, hb | hle⟩
    · rw [show Concrete.fp.lt (maxImbalance g bt z) (maxImbalance g bt y) = false from o.2.2] at hlt
      cases hlt
    · exact hnb hb
    · rw [show Concrete.fp.le (maxImbalance g bt z) (maxImbalance g bt y) = false from o.2.1] at hle
      cases hle

end Poros
