import Verif.Props.P78_Quality
/-
How unbalanced a multilevel bisection can be when the limits do not add up to the weight of the graph, and the limits of
the halves of equal parts.
-/
namespace Poros
open Finset Res Concrete

variable {pq : PQImpl} {set : SetImpl} {rng : RngImpl}

/-- The weights of a grown bisection, whatever the limits. -/
theorem GrownTo.weights_any {fp : FP} {g : Graph} {t : Target fp} {seed : Nat} {out : Nat → Nat}
    (h : GrownTo g t seed out) {M : Nat} (hM : ∀ v, v < g.nv → g.vw v ≤ M) :
    (∀ v, v < g.nv → out v < 2) ∧ partWeight g out 0 ≤ nth t.mx 0 + M ∧
    (partWeight g out 1 = 0 ∨ partWeight g out 1 + nth t.tw 0 ≤ g.sumVtx ∨
      partWeight g out 1 + nth t.mx 0 < g.sumVtx + M) := by
  obtain ⟨-, lab, seen, h1, h2, h3⟩ := h
  obtain ⟨i1, i2, i3, i4⟩ := h1.spec
  have hs := partWeight_two i1
  have base : partWeight g lab 1 = 0 ∨ partWeight g lab 1 + nth t.tw 0 ≤ g.sumVtx ∨
      partWeight g lab 1 + nth t.mx 0 < g.sumVtx + M := by
    rcases h2 with h | h
    · right; left; omega
    · by_cases hr : ∃ v, v < g.nv ∧ lab v = 1
      · obtain ⟨v, hv, hl⟩ := hr
        have := i4 v (h v hv) hv hl
        have := hM v hv
        right; right; omega
      · left
        unfold partWeight
        refine sum_eq_zero fun v hv => if_neg fun hl => hr ⟨v, mem_range.mp hv, hl⟩
  rcases h3 with ⟨-, v, hv, hn, rfl⟩ | ⟨-, rfl⟩
  · have hl : lab v = 1 := i3 v hv hn
    have e0 := partWeight_relabel (q := 0) lab hv 0
    have e1 := partWeight_relabel (q := 0) lab hv 1
    rw [hl] at e0 e1
    rw [if_neg (by decide), if_pos rfl] at e0
    rw [if_pos rfl, if_neg (by decide)] at e1
    rw [put_eq_relabel]
    have := hM v hv
    refine ⟨fun u hu => ?_, by omega, by omega⟩
    unfold relabel
    split
    · decide
    · exact i1 u hu
  · exact ⟨i1, by omega, base⟩

/-- How unbalanced a multilevel bisection can be, whatever the limits: if `c` times its share of the weight bounds what
growing and the limits allow on each side, so it does the result. -/
theorem LooseBis.load [Concrete.Log2Impl] {s : Scheme} {t : Target Concrete.fp} {g : Graph} {lab : Nat → Nat}
    (h : LooseBis (dblEnv pq set rng) s t g lab) (hwf : g.WF) (hnl : g.NoLoop)
    {q0 q1 : ℚ} (hf : t.frac = [F64.fin q0, F64.fin q1])
    (h0 : 13 / 50 ≤ q0) (h1 : 13 / 50 ≤ q1) {W M L R : Nat} (hW : 0 < W) (hW' : W < 4294967295) (hs : g.sumVtx = W)
    (hM : ∀ v, v < g.nv → g.vw v ≤ M) (hL : nth t.mx 0 + max (3 * W / 40) M ≤ L) (hR1 : nth t.mx 1 ≤ R)
    (hR2 : W ≤ R + nth t.tw 0) (hR3 : W + max (3 * W / 40) M ≤ R + nth t.mx 0) {c : ℚ} (hc : 1 ≤ c)
    (hcL : (L : ℚ) ≤ c * (W * q0)) (hcR : (R : ℚ) ≤ c * (W * q1)) :
    (∀ v, v < g.nv → lab v < 2) ∧
    (partWeight g lab 0 : ℚ) ≤ (c + 2 * eps) * (W * q0) ∧ (partWeight g lab 1 : ℚ) ≤ (c + 2 * eps) * (W * q1) := by
  unfold LooseBis at h
  have hWq : (0 : ℚ) < W := by exact_mod_cast hW
  have p0 : 0 < (W : ℚ) * q0 := mul_pos hWq (by linarith)
  have p1 : 0 < (W : ℚ) * q1 := mul_pos hWq (by linarith)
  have bound : ∀ (g : Graph) (lab : Nat → Nat), g.totVtx = W → g.sumVtx = W → partWeight g lab 0 ≤ L →
      partWeight g lab 1 ≤ R → F64.le (maxImbalance g t lab) (.fin (c - 1 + eps)) = true := by
    intro g lab ht hs b0 b1
    obtain ⟨m, m1, m2, -, -⟩ := maxImbalance_err hf h0 h1 hW (by omega) ht hs lab
    rw [show maxImbalance g t lab = _ from m1]
    refine le_fin.mpr (le_trans m2 ?_)
    have b0' : ((partWeight g lab 0 : Nat) : ℚ) ≤ L := by exact_mod_cast b0
    have b1' : ((partWeight g lab 1 : Nat) : ℚ) ≤ R := by exact_mod_cast b1
    have r0 : rel W (partWeight g lab 0) q0 ≤ c := by
      unfold rel; rw [div_le_iff₀ p0]; linarith
    have r1 : rel W (partWeight g lab 1) q1 ≤ c := by
      unfold rel; rw [div_le_iff₀ p1]; linarith
    have : max 0 (max (rel W (partWeight g lab 0) q0 - 1) (rel W (partWeight g lab 1) q1 - 1)) ≤ c - 1 :=
      max_le (by linarith) (max_le (by linarith) (by linarith))
    linarith
  have key := Loose.keeps h (W := W) (M := M) hW'
    (B := fun x => F64.le x (.fin (c - 1 + eps)) = true)
    (fun x y hxy hy => le_trans_fin (Or.inr hxy) hy) (fun x y hxy hy => le_trans_fin (Or.inl hxy) hy)
    (fun g lab ht hs _ hb => bound g lab ht hs (le_trans (hb 0 (by decide)) (by omega)) (le_trans (hb 1 (by decide)) hR1))
    (fun g' seed lab hwf' hs' hw hgr => by
      obtain ⟨a1, a2, a3⟩ := hgr.weights_any hw
      rw [hs] at a2 a3
      refine bound g' lab (by rw [hwf'.totVtx_eq (by omega), hs']) hs' (by omega) ?_
      rw [hs'] at a3
      omega)
    hwf hnl hs (fun v hv => le_trans (hM v hv) (le_max_right _ _))
  obtain ⟨k1, k2⟩ := key
  refine ⟨k1, ?_⟩
  obtain ⟨m, m1, -, m3, m4⟩ := maxImbalance_err hf h0 h1 hW (by omega) (by rw [hwf.totVtx_eq (by omega), hs]) hs lab
  rw [show maxImbalance g t lab = _ from m1] at k2
  have := le_fin.mp k2
  constructor
  · rw [← div_le_iff₀ p0]; exact le_trans (b := m + eps + 1) (by unfold rel at m3; linarith) (by linarith)
  · rw [← div_le_iff₀ p1]; exact le_trans (b := m + eps + 1) (by unfold rel at m4; linarith) (by linarith)

/-- The target of the bisection for `n + m` equal parts, `n` of them on the left side. -/
theorem halves_equal [Concrete.Log2Impl] {n m a b : Nat} (hn : n = (n + m) / 2) (hn0 : 0 < n) (ha : 0 < a) (hab : a ≤ b)
    (hb : m * b < 4294967296) (hk : (n + m) * a < 4294967296) {bt : Target Concrete.fp}
    (h : IsHalvesTarget (List.replicate (n + m) a) (List.replicate (n + m) b) bt) :
    nth bt.tw 0 = n * a ∧ (n * a ≤ nth bt.mx 0 ∧ nth bt.mx 0 ≤ n * b) ∧ (m * a ≤ nth bt.mx 1 ∧ nth bt.mx 1 ≤ m * b) ∧
    ∃ q0 q1 : ℚ, bt.frac = [F64.fin q0, F64.fin q1] ∧
      (q0 ≤ (n : ℚ) / (n + m : Nat) + 1 / 1000000 ∧ (n : ℚ) / (n + m : Nat) ≤ q0 + 1 / 1000000) ∧
      (q1 ≤ (m : ℚ) / (n + m : Nat) + 1 / 1000000 ∧ (m : ℚ) / (n + m : Nat) ≤ q1 + 1 / 1000000) := by
  have hnm : n ≤ m := by omega
  have hnb : n * b ≤ m * b := Nat.mul_le_mul_right _ hnm
  have hsum : n * a + m * a = (n + m) * a := (Nat.add_mul _ _ _).symm
  have hkk : n + m < 4294967296 := lt_of_le_of_lt (Nat.le_mul_of_pos_right _ ha) hk
  have hlen : (List.replicate (n + m) a).length / 2 = n := by rw [List.length_replicate]; exact hn.symm
  have htake : ∀ x : Nat, (List.replicate (n + m) x).take n = List.replicate n x := fun x => by
    rw [List.take_replicate, min_eq_left (by omega)]
  have hdrop : ∀ x : Nat, (List.replicate (n + m) x).drop n = List.replicate m x := fun x => by
    rw [List.drop_replicate, Nat.add_sub_cancel_left]
  have hfit : WeightsFit 4294967295 (List.replicate (n + m) a) (List.replicate (n + m) b) := by
    refine ⟨fun i hi => ?_, ?_, ?_⟩
    · rw [List.length_replicate] at hi
      rw [nth_replicate hi, nth_replicate hi]; exact hab
    · rw [hlen, htake, List.sum_replicate, smul_eq_mul]; omega
    · rw [hlen, hdrop, List.sum_replicate, smul_eq_mul]; omega
  obtain ⟨b0, b1, -⟩ := h.bounds recursiveOK (by rw [List.length_replicate]; omega) (by rw [List.length_replicate]; exact hkk)
    (by simp) hfit (by decide)
  have hl := h.left
  have hr := h.right
  rw [hlen, htake, List.sum_replicate, smul_eq_mul] at hl
  rw [hlen, hdrop, List.sum_replicate, smul_eq_mul] at hr
  rw [hlen, htake, htake, List.sum_replicate, List.sum_replicate, smul_eq_mul, smul_eq_mul] at b0
  rw [hlen, hdrop, hdrop, List.sum_replicate, List.sum_replicate, smul_eq_mul, smul_eq_mul] at b1
  have hl : nth bt.tw 0 = n * a := by rw [hl]; exact Nat.mod_eq_of_lt (show n * a < 4294967296 by omega)
  have hr : nth bt.tw 1 = m * a := by rw [hr]; exact Nat.mod_eq_of_lt (show m * a < 4294967296 by omega)
  have hpos : 0 < n * a := Nat.mul_pos hn0 ha
  have etw : bt.tw = [n * a, m * a] := by
    obtain ⟨x, y, e⟩ := List.length_eq_two.mp h.two.tw
    rw [e] at hl hr ⊢
    rw [show x = n * a from hl, show y = m * a from hr]
  refine ⟨hl, b0, b1, ?_⟩
  obtain ⟨q0, f1, -, f3, f4⟩ := share_err (a := n * a) (s := n * a + m * a) (by omega) (by omega) (by omega)
  obtain ⟨q1, g1, -, g3, g4⟩ := share_err (a := m * a) (s := n * a + m * a) (by omega) (by omega) (by omega)
  have ex : ∀ x : Nat, ((x * a : Nat) : ℚ) / ((n * a + m * a : Nat) : ℚ) = (x : ℚ) / (n + m : Nat) := by
    intro x
    have ha' : (a : ℚ) ≠ 0 := by exact_mod_cast ha.ne'
    rw [hsum]
    push_cast
    rw [mul_div_mul_right _ _ ha']
  rw [ex] at f3 f4 g3 g4
  refine ⟨q0, q1, ?_, ⟨f3, f4⟩, ⟨g3, g4⟩⟩
  rw [h.frac, etw]
  unfold shares
  have : ([n * a, m * a].sum % 2 ^ 32) = n * a + m * a := Nat.mod_eq_of_lt (by simp; omega)
  rw [this]
  exact congrArg₂ (fun x y => [x, y]) f1 g1

end Poros
