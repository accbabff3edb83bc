import Verif.Proofs.QualityTight
/-
How far the weights of two, four or eight parts can be from equal.
-/
namespace Poros
open Finset Res Concrete

variable {pq : PQImpl} {set : SetImpl} {rng : RngImpl}

/-- The least weight, in shares, that a graph to be divided into `2 ^ d` of at most eight parts can have. -/
def evenLeast : Nat → ℚ
  | 0 => 1 / 5
  | 1 => 31 / 25
  | 2 => 331 / 100
  | _ => 8

/-- The largest weight, in shares, that a graph to be divided into `2 ^ d` of at most eight parts can have. -/
def evenMost : Nat → ℚ
  | 0 => 14 / 5
  | 1 => 13 / 4
  | 2 => 469 / 100
  | _ => 8

set_option maxHeartbeats 1000000 in
/-- One bisection on the way to two, four or eight equal parts of share `U`. -/
theorem LooseBis.even [Concrete.Log2Impl] {s : Scheme} {bt : Target Concrete.fp} {g : Graph} {lab : Nat → Nat}
    (h : LooseBis (dblEnv pq set rng) s bt g lab) (hwf : g.WF) (hnl : g.NoLoop) {d a b : Nat} (hd : d ≤ 2)
    (ha : 0 < a) (hab : a ≤ b) (hb : 2 ^ d * b < 4294967296) (hk : (2 ^ d + 2 ^ d) * a < 4294967296)
    (hbt : IsHalvesTarget (List.replicate (2 ^ d + 2 ^ d) a) (List.replicate (2 ^ d + 2 ^ d) b) bt) {X M : Nat}
    (hX' : X < 4294967295) (hs : g.sumVtx = X) (hM : ∀ v, v < g.nv → g.vw v ≤ M) {U : ℚ} (hU : 0 < U)
    (hM' : 2 * (M : ℚ) ≤ U) (haU : 1959 / 2000 * U ≤ a) (hbU : (b : ℚ) ≤ 2061 / 2000 * U)
    (hlo : evenLeast (d + 1) * U ≤ X) (hhi : (X : ℚ) ≤ evenMost (d + 1) * U) :
    (∀ v, v < g.nv → lab v < 2) ∧
    (evenLeast d * U ≤ partWeight g lab 0 ∧ (partWeight g lab 0 : ℚ) ≤ evenMost d * U) ∧
    (evenLeast d * U ≤ partWeight g lab 1 ∧ (partWeight g lab 1 : ℚ) ≤ evenMost d * U) := by
  have hX0 : 0 < X := by
    have : (0 : ℚ) < X := by
      refine lt_of_lt_of_le (mul_pos ?_ hU) hlo
      interval_cases d <;> norm_num [evenLeast]
    exact_mod_cast this
  have hXq : (0 : ℚ) < X := by exact_mod_cast hX0
  obtain ⟨mh, hmh, hmhq⟩ : ∃ mh : Nat, max (3 * X / 40) M ≤ mh ∧ (40 * (mh : ℚ) ≤ 3 * X ∨ 2 * (mh : ℚ) ≤ U) := by
    refine ⟨_, le_refl _, ?_⟩
    rcases le_total (3 * X / 40) M with h | h
    · rw [max_eq_right h]; right; exact hM'
    · rw [max_eq_left h]; left; exact_mod_cast (show 40 * (3 * X / 40) ≤ 3 * X by omega)
  obtain ⟨T, t1, t2, t3, -, t5⟩ := share_least (X := X) (A := 2 * (2 ^ d * b)) (B := 2 * ((X : ℚ) + mh - 2 ^ d * a))
    (C := X)
  have hp : 0 < 2 ^ d := by positivity
  have half : (1 / 2 : ℚ) = ((2 ^ d : Nat) : ℚ) / (2 ^ d + 2 ^ d : Nat) := by
    push_cast
    have : (2 : ℚ) ^ d ≠ 0 := by positivity
    field_simp
    norm_num
  obtain ⟨k1, k2, k3, k4⟩ := h.share hwf hnl (n := 2 ^ d) (m := 2 ^ d) (by omega) hp ha hab hb hk hbt hX0 hX' hs hM hmh (T := T) half half t1
    (by push_cast; linarith) (by push_cast; linarith) (by push_cast; linarith) (by push_cast; linarith)
  refine ⟨k2, ?_⟩
  have k1 : (partWeight g lab 0 : ℚ) + partWeight g lab 1 = X := by exact_mod_cast k1
  clear hbt h hM k2 hwf hnl hs hX0 hX' hmh hb hk hab ha half
  generalize (partWeight g lab 0 : ℚ) = w0 at *
  generalize (partWeight g lab 1 : ℚ) = w1 at *
  generalize (X : ℚ) = x at *
  generalize (mh : ℚ) = y at *
  generalize (a : ℚ) = a at *
  generalize (b : ℚ) = b at *
  interval_cases d <;> norm_num [evenLeast, evenMost] at t5 t2 t3 hlo hhi k3 k4 ⊢ <;>
    rcases t5 with rfl | rfl | rfl | rfl <;> rcases hmhq with m1 | m1 <;> refine ⟨⟨?_, ?_⟩, ?_, ?_⟩ <;> linarith

/-- A run for two, four or eight equal parts of share `U`. -/
theorem LooseRun.even [Concrete.Log2Impl] {s : Scheme} {a b M : Nat} {U : ℚ} (ha : 0 < a) (hab : a ≤ b) (hU : 0 < U)
    (hM' : 2 * (M : ℚ) ≤ U) (haU : 1959 / 2000 * U ≤ a) (hbU : (b : ℚ) ≤ 2061 / 2000 * U) :
    ∀ d, d ≤ 3 → 2 ^ d * a < 4294967296 → 2 ^ d * b < 8589934592 →
    ∀ {g : Graph} {r : rng.S} {lab : Nat → Nat} {r' : rng.S},
      LooseRun pq set rng s (List.replicate (2 ^ d) a) (List.replicate (2 ^ d) b) g r lab r' → g.WF → g.NoLoop →
      (∀ v, v < g.nv → g.vw v ≤ M) → g.sumVtx < 4294967295 → evenLeast d * U ≤ g.sumVtx →
      (g.sumVtx : ℚ) ≤ evenMost d * U →
      ∀ q, q < 2 ^ d → 1 / 5 * U ≤ partWeight g lab q ∧ (partWeight g lab q : ℚ) ≤ 14 / 5 * U := by
  intro d
  induction d with
  | zero =>
    intro _ _ _ g r lab r' h _ _ _ _ hlo hhi q hq
    have one := h.one (by simp)
    rw [show q = 0 by simpa using hq, partWeight_zero one]
    exact ⟨hlo, hhi⟩
  | succ d ih =>
    intro hd hka hkb g r lab r' h hwf hnl hM hW hlo hhi q hq
    have hp2 : 2 ^ (d + 1) = 2 ^ d + 2 ^ d := by ring
    have hp0 : 0 < 2 ^ d := by positivity
    rw [hp2] at h hka hkb hq
    have hka' : 2 ^ d * a < 4294967296 := lt_of_le_of_lt (Nat.mul_le_mul_right _ (by omega)) hka
    have hkb' : 2 ^ d * b < 4294967296 := by rw [Nat.add_mul] at hkb; omega
    cases h with
    | leaf h1 => simp at h1; omega
    | @node _ _ _ _ bt side sL sR labL labR _ r1 r2 _ _ _ hbt hR hp hL hRt runL runR labelsL labelsR =>
      obtain ⟨-, l0, l1⟩ := hR.even hwf hnl (d := d) (by omega) ha hab hkb' hka hbt hW rfl hM hU hM' haU hbU hlo hhi
      have hlt := runL.lt
      have e1 : (2 ^ d + 2 ^ d) / 2 = 2 ^ d := by omega
      have e2 : 2 ^ d + 2 ^ d - 2 ^ d = 2 ^ d := by omega
      simp only [List.length_replicate, List.take_replicate, List.drop_replicate, e1, e2,
        Nat.min_eq_left (show 2 ^ d ≤ 2 ^ d + 2 ^ d by omega)] at runL runR labelsR hlt
      rw [partWeight_sides hp hL hRt (m := 2 ^ d) hlt labelsL labelsR]
      have sub : ∀ {t : Graph} {p : Nat}, IsInduced g side p t → t.sumVtx < 4294967295 := fun h => by
        rw [h.sumVtx]; exact lt_of_le_of_lt (partWeight_le _ _) hW
      split
      · refine ih (by omega) hka' (by omega) runL hL.valid (hL.noLoop hnl) (hL.vw_le hM) (sub hL) ?_ ?_ q (by omega)
        · rw [hL.sumVtx]; exact l0.1
        · rw [hL.sumVtx]; exact l0.2
      · refine ih (by omega) hka' (by omega) runR hRt.valid (hRt.noLoop hnl) (hRt.vw_le hM) (sub hRt) ?_ ?_ _ (by omega)
        · rw [hRt.sumVtx]; exact l1.1
        · rw [hRt.sumVtx]; exact l1.2

end Poros
