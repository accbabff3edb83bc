import Verif.Proofs.QualityTight
/-
How far the weights of the parts can be from equal while a graph is divided into at most sixteen parts.
-/
namespace Poros
open Finset Res Concrete

variable {pq : PQImpl} {set : SetImpl} {rng : RngImpl}

/-- The least weight, in shares, that a graph to be divided into `n` of at most sixteen parts can have. -/
def leastShare : Nat → ℚ
  | 2 => 1 / 10
  | 3 => 27 / 20
  | 4 => 119 / 50
  | 5 => 19 / 5
  | 6 => 93 / 20
  | 7 => 137 / 25
  | 8 => 33 / 5
  | n => n

/-- The largest weight, in shares, that a graph to be divided into `n` of at most sixteen parts can have. -/
def mostShare : Nat → ℚ
  | 2 => 16
  | 3 => 27 / 5
  | 4 => 34 / 5
  | 5 => 6
  | 6 => 36 / 5
  | 7 => 167 / 20
  | 8 => 19 / 2
  | n => n

set_option maxHeartbeats 4000000 in
/-- One bisection on the way to at most sixteen equal parts of share `U`. -/
theorem LooseBis.sixteen [Concrete.Log2Impl] {s : Scheme} {bt : Target Concrete.fp} {g : Graph} {lab : Nat → Nat}
    (h : LooseBis (dblEnv pq set rng) s bt g lab) (hwf : g.WF) (hnl : g.NoLoop) {n m a b : Nat} (hn : n = (n + m) / 2)
    (hk3 : 3 ≤ n + m) (hk16 : n + m ≤ 16) (ha : 0 < a) (hab : a ≤ b) (hb : m * b < 4294967296) (hk : (n + m) * a < 4294967296)
    (hbt : IsHalvesTarget (List.replicate (n + m) a) (List.replicate (n + m) b) bt) {X M : Nat}
    (hX' : X < 4294967295) (hs : g.sumVtx = X) (hM : ∀ v, v < g.nv → g.vw v ≤ M) {U : ℚ} (hU : 0 < U)
    (hM' : 2 * (M : ℚ) ≤ U) (haU : 1959 / 2000 * U ≤ a) (hbU : (b : ℚ) ≤ 2061 / 2000 * U)
    (hlo : leastShare (n + m) * U ≤ X) (hhi : (X : ℚ) ≤ mostShare (n + m) * U) :
    (∀ v, v < g.nv → lab v < 2) ∧
    (2 ≤ n → leastShare n * U ≤ partWeight g lab 0 ∧ (partWeight g lab 0 : ℚ) ≤ mostShare n * U) ∧
    (2 ≤ m → leastShare m * U ≤ partWeight g lab 1 ∧ (partWeight g lab 1 : ℚ) ≤ mostShare m * U) := by
  have hX0 : 0 < X := by
    have : (0 : ℚ) < X := by
      refine lt_of_lt_of_le (mul_pos ?_ hU) hlo
      obtain ⟨N, hN⟩ : ∃ N, N = n + m := ⟨_, rfl⟩
      rw [← hN] at hk3 hk16 ⊢
      interval_cases N <;> norm_num [leastShare]
    exact_mod_cast this
  have hXq : (0 : ℚ) < X := by exact_mod_cast hX0
  obtain ⟨mh, hmh, hmhq⟩ : ∃ mh : Nat, max (3 * X / 40) M ≤ mh ∧ (40 * (mh : ℚ) ≤ 3 * X ∨ 2 * (mh : ℚ) ≤ U) := by
    refine ⟨_, le_refl _, ?_⟩
    rcases le_total (3 * X / 40) M with h | h
    · rw [max_eq_right h]; right; exact hM'
    · rw [max_eq_left h]; left; exact_mod_cast (show 40 * (3 * X / 40) ≤ 3 * X by omega)
  obtain ⟨T, t1, t2, t3, t4, t5⟩ := share_least (X := X) (A := (n + m : Nat) * b) (B := ((X : ℚ) + mh - m * a) * (n + m : Nat) / n)
    (C := ((X : ℚ) + mh - n * a) * (n + m : Nat) / m)
  have hn0 : 0 < n := by omega
  have hn8 : n ≤ 8 := by omega
  have hm8 : m = n ∨ m = n + 1 := by omega
  have key := h.share hwf hnl hn hn0 ha hab hb hk hbt hX0 hX' hs hM hmh (T := T) rfl rfl t1
  have c2 : (n : ℚ) * b ≤ (n : ℚ) / (n + m : Nat) * T := by
    clear key hbt h hn hlo hhi t5
    interval_cases n <;> rcases hm8 with rfl | rfl <;> norm_num at t2 ⊢ <;> linarith
  have c3 : (m : ℚ) * b ≤ (m : ℚ) / (n + m : Nat) * T := by
    clear key hbt h hn hlo hhi t5
    interval_cases n <;> rcases hm8 with rfl | rfl <;> norm_num at t2 ⊢ <;> linarith
  have c4 : (X : ℚ) + mh ≤ (n : ℚ) / (n + m : Nat) * T + m * a := by
    clear key hbt h hn hlo hhi t5
    interval_cases n <;> rcases hm8 with rfl | rfl <;> norm_num at t3 ⊢ <;> linarith
  have c5 : (X : ℚ) + mh ≤ (m : ℚ) / (n + m : Nat) * T + n * a := by
    clear key hbt h hn hlo hhi t5
    interval_cases n <;> rcases hm8 with rfl | rfl <;> norm_num at t4 ⊢ <;> linarith
  obtain ⟨k1, k2, k3, k4⟩ := key c2 c3 c4 c5
  refine ⟨k2, ?_⟩
  have k1 : (partWeight g lab 0 : ℚ) + partWeight g lab 1 = X := by exact_mod_cast k1
  clear c2 c3 c4 c5 t1 t2 t3 t4 hbt h hn hM k2 hwf hnl hs hX0 hX' hmh hb hk hab ha
  generalize (partWeight g lab 0 : ℚ) = w0 at *
  generalize (partWeight g lab 1 : ℚ) = w1 at *
  generalize (X : ℚ) = x at *
  generalize (mh : ℚ) = y at *
  generalize (a : ℚ) = a at *
  generalize (b : ℚ) = b at *
  interval_cases n <;> rcases hm8 with rfl | rfl <;> first
    | (exfalso; revert hk3; decide)
    | (exfalso; revert hk16; decide)
    | (norm_num [leastShare, mostShare] at t5 hlo hhi k3 k4 ⊢
       rcases t5 with rfl | rfl | rfl | rfl <;> rcases hmhq with m1 | m1 <;>
         (try constructor) <;> (try constructor) <;> linarith)

end Poros
